import Verif.Props.Similar

/-!
# C91, C92, C93: runs of the same sample described in another way, seen in a mirror, or with other lengths
-/

namespace Verif.Run

open Verif.Mesh Verif.Assembly Verif.Tetra Verif.SparseMat Verif.Llg Verif.WeakForm Verif.TimeLoop

section
variable {n : ℕ} {ET ET' : Type} {P : Problem} {cfg : Cfg n ET} {cfg' : Cfg n ET'} {nodes nodes' : Fin n → Node} {tets' : List Tet}
  {tris' : List (Tri × ℝ)}

/-- **C91** The description of the sample does not matter: with other numbers for the nodes, other orders of the elements and of
the vertices of each element, two runs make the same steps and write the same rows and the same configurations, up to the
numbering. Missing: triangles with a surface anisotropy must keep their sense of rotation (`C91_negation`), and recentering,
if any, must do the same to both descriptions: it does, up to ties in the search of nodes (`C91_recenter` in
`Props/RecenterRun.lean`). -/
theorem C91_run_partial (S : Similarity n) (hr : S.ratio = 1) (hs : Start P cfg nodes)
    (hs' : Start (P.described S tets' tris') cfg' nodes') (hset : SameSettings cfg cfg') (hl : Relisted S P tets' tris')
    (hn : Alike S nodes nodes') (hv : Valid cfg) (hU : RecenterKeepsUnit cfg) (hN : RecenterKeepsNext cfg) (hU' : RecenterKeepsUnit cfg')
    (hN' : RecenterKeepsNext cfg') {Ok : (Fin n → Node) → Prop} (hR : KeepsRecenter cfg cfg' (Alike S) Ok) (Q : ET → ET' → Prop)
    (hE : ∀ a b t, Alike S a b → Q (cfg.energy a t) (cfg'.energy b t)) (W : World n P)
    (W' : World n (P.described S tets' tris')) (hW : World.Described S tets' tris' W W') (V V' : ℕ → ℝ)
    (hV : P.dir = none ∨ ∀ k, V' k = V k) (t0 : ℝ) (inp inp' : ℕ → Input n) (h : ExactRun P cfg W V t0 nodes inp)
    (h' : ExactRun (P.described S tets' tris') cfg' W' V' t0 nodes' inp') (hsig : ∀ k, (inp k).sig = (inp' k).sig)
    (hfail : ∀ k, (inp k).sol = none ↔ (inp' k).sol = none)
    (hOk : ∀ k a, KeptNodes cfg t0 (inp k) (run cfg t0 nodes (W.pot nodes) inp k) a → Ok a) (k : ℕ) :
    let a := run cfg t0 nodes (W.pot nodes) inp k
    let b := run cfg' t0 nodes' (W'.pot nodes') inp' k
    b.ctl = a.ctl ∧ b.t = a.t ∧ b.nt = a.nt ∧
    (∀ i, (b.nodes (S.node i)).p = (a.nodes i).p ∧ (b.nodes (S.node i)).cur = (a.nodes i).cur ∧
      (b.nodes (S.node i)).next = (a.nodes i).next) ∧
    List.Forall₂ (CoupledRow (Alike S) Q) a.rows b.rows ∧ List.Forall₂ (CoupledSol (Renumbered S)) a.sols b.sols := by
  intro a b
  have H := described_run S hs hs' hset hl hn hv hU hN hU' hN' hR Q hE W W' hW V V' (hV.imp id fun h k => by rw [hr, one_mul, h]) t0 inp inp'
    h h' hsig hfail hOk k
  refine ⟨H.ctl, H.t, H.nt, fun i => ?_, H.rows, H.sols⟩
  obtain ⟨h1, h2, h3⟩ := H.nodes i
  have e : ∀ x : DataNode, S.data x = x := fun x => by simp [Similarity.data, hr]
  rw [e] at h2 h3
  refine ⟨?_, h2, h3⟩
  rw [hr] at h1
  exact h1.trans (by ext <;> simp only [V3.smul_x, V3.smul_y, V3.smul_z, one_mul] <;> rfl)

/-- **C92** The run of the image of a sample in a mirror is the image of its run: positions are reflected, magnetization and
fields turn as axial vectors do, potentials change sign, the steps are the same. Missing: materials with a cubic anisotropy
(C79), recentering, and triangles with a surface anisotropy must keep their sense about the outward normal (C91). -/
theorem C92_run_partial (R : Mirror) (S : Similarity n) (hr : S.ratio = -1) (hs : Start P cfg nodes)
    (hs' : Start (P.mirrored R S tets' tris') cfg' nodes') (hset : SameSettings cfg cfg')
    (hl : Relisted S (P.moved R.motion) tets' tris') (hn : TimeLoop.Mirrored R S nodes nodes')
    (hd : P.dir = none) (hcub : ∀ r, P.mag r = true → (P.prm r).K3 = 0) (hv : Valid cfg)
    (hU : RecenterKeepsUnit cfg) (hN : RecenterKeepsNext cfg) (hU' : RecenterKeepsUnit cfg')
    (hN' : RecenterKeepsNext cfg') {Ok : (Fin n → Node) → Prop} (hR : KeepsRecenter cfg cfg' (TimeLoop.Mirrored R S) Ok) (Q : ET → ET' → Prop)
    (hE : ∀ a b t, TimeLoop.Mirrored R S a b → Q (cfg.energy a t) (cfg'.energy b t))
    (W : World n P) (W' : World n (P.mirrored R S tets' tris')) (hW : World.Mirrored R S tets' tris' W W') (V V' : ℕ → ℝ)
    (t0 : ℝ) (inp inp' : ℕ → Input n)
    (h : ExactRun P cfg W V t0 nodes inp) (h' : ExactRun (P.mirrored R S tets' tris') cfg' W' V' t0 nodes' inp')
    (hsig : ∀ k, (inp k).sig = (inp' k).sig) (hfail : ∀ k, (inp k).sol = none ↔ (inp' k).sol = none)
    (hOk : ∀ k a, KeptNodes cfg t0 (inp k) (run cfg t0 nodes (W.pot nodes) inp k) a → Ok a) (k : ℕ) :
    let a := run cfg t0 nodes (W.pot nodes) inp k
    let b := run cfg' t0 nodes' (W'.pot nodes') inp' k
    b.ctl = a.ctl ∧ b.t = a.t ∧ b.nt = a.nt ∧
    (∀ i, (b.nodes (S.node i)).p = R.point (a.nodes i).p ∧ (b.nodes (S.node i)).cur.u = R.axial (a.nodes i).cur.u ∧
      (b.nodes (S.node i)).next.u = R.axial (a.nodes i).next.u ∧ (b.nodes (S.node i)).next.phi = -(a.nodes i).next.phi) ∧
    List.Forall₂ (CoupledRow (TimeLoop.Mirrored R S) Q) a.rows b.rows ∧
    List.Forall₂ (CoupledSol (MirroredU R S)) a.sols b.sols := by
  intro a b
  have H := mirrored_run R S hr hs hs' hset hl hn hd hcub hv hU hN hU' hN' hR Q hE W W' hW V V' t0 inp inp' h h' hsig hfail hOk k
  refine ⟨H.ctl, H.t, H.nt, fun i => ?_, H.rows, H.sols⟩
  obtain ⟨h1, h2, h3⟩ := H.nodes i
  rw [h2, h3]
  exact ⟨h1, rfl, rfl, rfl⟩

/-- **C93** All lengths multiplied by a number (a negative one includes the inversion through the origin), exchange constants by its square, surface anisotropies by its absolute value: the same
steps, the same magnetization at corresponding nodes, at the same times; the energies are related as those of similar states
(`C93_energy`). Missing: recentering must do the same to both (`C91_recenter`; not so for an inversion,
`C93_recenter_negation`), and the sense of triangles (C91). -/
theorem C93_run_partial (S : Similarity n) (hs : Start P cfg nodes)
    (hs' : Start (P.described S tets' tris') cfg' nodes') (hset : SameSettings cfg cfg') (hl : Relisted S P tets' tris')
    (hn : Alike S nodes nodes') (hv : Valid cfg) (hU : RecenterKeepsUnit cfg) (hN : RecenterKeepsNext cfg) (hU' : RecenterKeepsUnit cfg')
    (hN' : RecenterKeepsNext cfg') {Ok : (Fin n → Node) → Prop} (hR : KeepsRecenter cfg cfg' (Alike S) Ok) (Q : ET → ET' → Prop)
    (hE : ∀ a b t, Alike S a b → Q (cfg.energy a t) (cfg'.energy b t)) (W : World n P)
    (W' : World n (P.described S tets' tris')) (hW : World.Described S tets' tris' W W') (V V' : ℕ → ℝ)
    (hV : P.dir = none ∨ ∀ k, V' k = S.ratio * V k) (t0 : ℝ) (inp inp' : ℕ → Input n) (h : ExactRun P cfg W V t0 nodes inp)
    (h' : ExactRun (P.described S tets' tris') cfg' W' V' t0 nodes' inp') (hsig : ∀ k, (inp k).sig = (inp' k).sig)
    (hfail : ∀ k, (inp k).sol = none ↔ (inp' k).sol = none)
    (hOk : ∀ k a, KeptNodes cfg t0 (inp k) (run cfg t0 nodes (W.pot nodes) inp k) a → Ok a) (k : ℕ) :
    let a := run cfg t0 nodes (W.pot nodes) inp k
    let b := run cfg' t0 nodes' (W'.pot nodes') inp' k
    b.ctl = a.ctl ∧ b.t = a.t ∧ b.nt = a.nt ∧
    (∀ i, (b.nodes (S.node i)).p = S.ratio * (a.nodes i).p ∧ (b.nodes (S.node i)).cur.u = (a.nodes i).cur.u ∧
      (b.nodes (S.node i)).next.u = (a.nodes i).next.u ∧ (b.nodes (S.node i)).next.v = (a.nodes i).next.v ∧
      (b.nodes (S.node i)).next.phi = S.ratio * (a.nodes i).next.phi) ∧
    List.Forall₂ (CoupledRow (Alike S) Q) a.rows b.rows ∧ List.Forall₂ (CoupledSol (Renumbered S)) a.sols b.sols := by
  intro a b
  have H := described_run S hs hs' hset hl hn hv hU hN hU' hN' hR Q hE W W' hW V V' hV t0 inp inp' h h' hsig hfail hOk k
  refine ⟨H.ctl, H.t, H.nt, fun i => ?_, H.rows, H.sols⟩
  obtain ⟨h1, h2, h3⟩ := H.nodes i
  rw [h2, h3]
  exact ⟨h1, rfl, rfl, rfl, rfl⟩

/-! ## Examples -/

/-- the nodes in the new description, with any bases -/
noncomputable def describedNodes (S : Similarity n) (nd : Fin n → Node) : Fin n → Node := fun i =>
  let x := ext nd (S.num.symm i)
  ⟨S.ratio * x.p, 0, 0, S.data x.cur, S.data x.next⟩

theorem alike_describedNodes (S : Similarity n) (nd : Fin n → Node) : Alike S nd (describedNodes S nd) := by
  intro i
  have e : ext nd (S.num.symm (S.node i : Fin n)) = nd i := by
    have : S.num.symm (S.node i : Fin n) = (i : ℕ) := by simp [Similarity.node]
    rw [this]
    unfold ext
    rw [dif_pos i.2]
  unfold describedNodes
  dsimp only
  rw [e]
  exact ⟨rfl, rfl, rfl⟩

/-- the hypotheses of a start hold for the new description when the tetrahedrons keep a positive volume -/
theorem start_described (S : Similarity n) (hs : Start P cfg nodes) (hl : Relisted S P tets' tris') (hn : Alike S nodes nodes')
    (hpos : ∀ t ∈ P.tets, 0 < S.ratio ^ 3 * Similarity.sg (S.tet t)) (hm : ∀ i, cfg'.magNode (S.node i) = cfg.magNode i)
    (hg : cfg'.gamma0 = cfg.gamma0) : Start (P.described S tets' tris') cfg' nodes' where
  rule := hs.rule
  valid := by
    intro t' ht' k
    obtain ⟨t, ht, rfl⟩ := List.mem_map.mp (hl.tets.mem_iff.mp ht')
    exact (S.range _).mpr (hs.valid t ht _)
  oriented := by
    intro t' ht'
    obtain ⟨t, ht, rfl⟩ := List.mem_map.mp (hl.tets.mem_iff.mp ht')
    have e : MeshElem.nod4 (fun i => (ext nodes' i).p) (S.tetOf t) =
        Similarity.scaled S.ratio (S.tet t) (MeshElem.nod4 (fun i => (ext nodes i).p) t) := by
      funext k
      have hk := hs.valid t ht (S.tet t k)
      have hk' := (S.range _).mpr hk
      unfold MeshElem.nod4 ext Similarity.scaled Similarity.tetOf
      dsimp only
      rw [dif_pos hk, dif_pos hk']
      exact (hn ⟨_, hk⟩).1
    rw [e, Similarity.detJ_scaled]
    exact mul_pos (hpos t ht) (hs.oriented t ht)
  magNode := by
    intro i'
    obtain ⟨i, rfl⟩ := node_surj S i'
    rw [hm, hs.magNode]
    constructor
    · rintro ⟨t, ht, hm, k, hk⟩
      refine ⟨S.tetOf t, hl.tets.mem_iff.mpr (List.mem_map.mpr ⟨t, ht, rfl⟩), hm, (S.tet t).symm k, ?_⟩
      simp only [Similarity.tetOf, Equiv.apply_symm_apply, hk]
      rfl
    · rintro ⟨t', ht', hm, k, hk⟩
      obtain ⟨t, ht, rfl⟩ := List.mem_map.mp (hl.tets.mem_iff.mp ht')
      exact ⟨t, ht, hm, S.tet t k, S.num.injective hk⟩
  unit := by
    intro i' hi
    obtain ⟨i, rfl⟩ := node_surj S i'
    rw [(hn i).2.2]
    exact hs.unit i ((hm i).symm.trans hi)
  triValid := by
    intro f' hf' k
    obtain ⟨f, hf, rfl⟩ := List.mem_map.mp (hl.tris.mem_iff.mp hf')
    exact (S.range _).mpr (hs.triValid f hf _)
  triMag := by
    intro f' hf'
    obtain ⟨f, hf, rfl⟩ := List.mem_map.mp (hl.tris.mem_iff.mp hf')
    have h0 := hs.triMag f hf
    have key : ∀ k, (Mesh.magNode P.mag n tets').getD (S.num (f.1.ind k)) false = (Mesh.magNode P.mag n P.tets).getD (f.1.ind k) false := by
      intro k
      have hk := hs.triValid f hf k
      rw [Bool.eq_iff_iff, magNode_iff _ _ _ _ hk, magNode_iff _ _ _ _ ((S.range _).mpr hk)]
      constructor
      · rintro ⟨t', ht', hm, j, hj⟩
        obtain ⟨t, ht, rfl⟩ := List.mem_map.mp (hl.tets.mem_iff.mp ht')
        exact ⟨t, ht, hm, S.tet t j, S.num.injective hj⟩
      · rintro ⟨t, ht, hm, j, hj⟩
        refine ⟨S.tetOf t, hl.tets.mem_iff.mpr (List.mem_map.mpr ⟨t, ht, rfl⟩), hm, (S.tet t).symm j, ?_⟩
        simp only [Similarity.tetOf, Equiv.apply_symm_apply, hj]
    have hall : ∀ k, (Mesh.magNode P.mag n P.tets).getD (f.1.ind k) false = true := by
      intro k
      unfold Tri.isMagnetic at h0
      simp only [Bool.and_eq_true] at h0
      fin_cases k
      · exact h0.1.1
      · exact h0.1.2
      · exact h0.2
    unfold Tri.isMagnetic
    simp only [Bool.and_eq_true]
    exact ⟨⟨(key _).trans (hall _), (key _).trans (hall _)⟩, (key _).trans (hall _)⟩
  alpha := hs.alpha
  exchange := fun r hr => mul_nonneg (sq_nonneg _) (hs.exchange r hr)
  magnetic := hs.magnetic
  gamma0 := by rw [hg]; exact hs.gamma0
  mu0 := hs.mu0
  theta := hs.theta

end

/-- an exact run of one of the examples, from any nodes -/
theorem ex_exact_run (P : Problem) (nd : Fin 5 → Node) (hs : ∀ D, Start P (exCfg D) nd) (W : World 5 P)
    (hpot : ∀ a, W.pot a = fun _ => (0, 0)) (V r : ℝ) :
    ∃ X, ∀ D, ExactRun P (exCfg D) W (fun _ => V) 0 nd (exInp r X) := by
  set nd1 := computeAllNodes (n := 5) (fun _ => true) (fun _ => (0, 0)) nd with hnd1
  obtain ⟨⟨M, b, hsys⟩, hx⟩ := C72_solvable (hs 0) (ex_valid 0 le_rfl) (ex_keeps 0).1 (ex_keeps 0).2 0 (fun _ => (0, 0))
    (fun _ => ⟨false, 0, none, fun _ => (0, 0)⟩) 1 ⟨W.Hext 0 nd1, W.Hst 0 nd1, V⟩ r 10 (by norm_num)
  obtain ⟨X, hX, -⟩ := hx M b hsys
  rw [(exq_run1 nd 0 _).2.2.2.2.2] at hsys
  refine ⟨X, fun D => ⟨?_, fun k Y _ _ => by rw [hpot]; rfl⟩⟩
  intro k Y s hatt hd hY
  have hk : k = 1 ∧ Y = X := by
    unfold exInp at hY
    dsimp only at hY
    split_ifs at hY with hk
    exact ⟨hk, by injection hY with e; exact e.symm⟩
  obtain ⟨rfl, rfl⟩ := hk
  refine ⟨M, b, ?_, hX⟩
  have hs1 : s = run (exCfg D) 0 nd (fun _ => (0, 0)) (exInp r Y) 1 := by rw [← hpot nd]
  have e1 : attDt (exCfg D) 0 s = 10 := by rw [hs1]; exact exq_att nd D (exInp r Y)
  have e2 : s.nodes = nd1 := by rw [hs1]; exact (exq_run1 nd D (exInp r Y)).2.2.2.2.2
  have e3 : s.t = 0 := by rw [hs1]; exact (exq_run1 nd D (exInp r Y)).2.1
  rw [e1, e2, e3]
  exact hsys

/-- the attempt with the exact solution is kept if `DUMAX` is large enough -/
theorem exq_accepted (nd : Fin 5 → Node) (r : ℝ) (X : Fin 5 → ℝ × ℝ) (D : ℝ) (hD : 10 * vMax 1 (fun _ => true) X ≤ D) :
    TimeLoop.Accepted (run (exCfg D) 0 nd (fun _ => (0, 0)) (exInp r X) 1) (run (exCfg D) 0 nd (fun _ => (0, 0)) (exInp r X) 2) := by
  obtain ⟨h1, h2, h3, -⟩ := exq_run1 nd D (exInp r X)
  have hatt := exq_att nd D (exInp r X)
  have hlt : (run (exCfg D) 0 nd (fun _ => (0, 0)) (exInp r X) 1).t < tTarget (exCfg D) 0
      (run (exCfg D) 0 nd (fun _ => (0, 0)) (exInp r X) 1).stepNb := by
    rw [h2, h3]; norm_num [tTarget, exCfg]
  have e : run (exCfg D) 0 nd (fun _ => (0, 0)) (exInp r X) 2 =
      accepted (exCfg D) 0 (exInp r X 1) (run (exCfg D) 0 nd (fun _ => (0, 0)) (exInp r X) 1) X := by
    change TimeLoop.step (exCfg D) 0 (exInp r X 1) (run (exCfg D) 0 nd (fun _ => (0, 0)) (exInp r X) 1) = _
    unfold TimeLoop.step
    rw [h1]
    simp only
    rw [if_pos hlt, whileBody_accept (X := X) _ _ _ _ rfl (by rw [hatt]; norm_num [exCfg]) rfl
      (by rw [hatt]; exact not_lt.mpr hD)]
    rfl
  rw [e]
  rfl

/-- the example of C72 with exchange and a surface with anisotropy, listed with the outward normal -/
noncomputable def exPs (H : TriElem.Rule) : Problem :=
  { exP H with prm := fun r => { Energy.ex2Prm r with A := 1 }, sprm := fun _ => ⟨1, ⟨3 / 5, 0, 4 / 5⟩⟩, tris := [(⟨![0, 2, 1], 0⟩, 1)] }

theorem exs_start (H : TriElem.Rule) (D : ℝ) {nd : Fin 5 → Node} (hs : Start (exP H) (exCfg D) nd) : Start (exPs H) (exCfg D) nd :=
  { hs with
    triValid := by
      intro f hf k
      simp only [exPs, List.mem_singleton] at hf
      subst hf
      fin_cases k <;> decide
    triMag := by
      intro f hf
      simp only [exPs, List.mem_singleton] at hf
      subst hf
      change Tri.isMagnetic (magNode (fun _ => true) 5 MeshElem.exT2) ⟨![0, 2, 1], 0⟩ = true
      decide
    exchange := fun _ _ => by simp [exPs] }

/-- nodes 0 and 4 exchange their numbers, the lengths are multiplied by `c`; the vertices of tetrahedrons are permuted by `τ`,
those of triangles by `σ` -/
def exSim (c : ℝ) (hc : c ≠ 0) (τ : Equiv.Perm (Fin 4)) (σ : Equiv.Perm (Fin 3)) : Similarity 5 where
  ratio := c
  ne := hc
  num := Equiv.swap 0 4
  range := by
    intro i
    rw [Equiv.swap_apply_def]
    split_ifs <;> omega
  tet := fun _ => τ
  tri := fun _ => σ

noncomputable def exTets (S : Similarity 5) : List Tet := (MeshElem.exT2.map S.tetOf).reverse

noncomputable def exTris (S : Similarity 5) : List (Tri × ℝ) := [S.triOf (⟨![0, 2, 1], 0⟩, 1)]

theorem ex_relisted {H : TriElem.Rule} (hH : H = TriElem.rule1 ∨ H = TriElem.rule4) (S : Similarity 5) (h : ∀ f, S.sense f = 1) :
    Relisted S (exPs H) (exTets S) (exTris S) :=
  ⟨List.reverse_perm _, List.Perm.refl _, fun f _ => Or.inr (h f), hH⟩

noncomputable def exWs (H : TriElem.Rule) : World 5 (exPs H) := ⟨fun _ _ => Energy.ex2H, fun _ _ _ _ => 0, fun _ _ => (0, 0)⟩

noncomputable def exWs' (H : TriElem.Rule) (S : Similarity 5) : World 5 ((exPs H).described S (exTets S) (exTris S)) :=
  ⟨fun _ _ => Energy.ex2H, fun _ _ _ _ => 0, fun _ _ => (0, 0)⟩

theorem exs_described (H : TriElem.Rule) (S : Similarity 5) : World.Described S (exTets S) (exTris S) (exWs H) (exWs' H S) :=
  ⟨fun _ _ _ _ _ _ _ _ _ => rfl, fun _ _ _ _ _ _ _ _ _ => rfl, fun _ _ _ _ => by simp [exWs, exWs']⟩

/-- the hypotheses of C91 (with `c = 1`) and of C93 (with `c = 2`, or with `c = -2` and odd permutations) are met by runs that
keep a step, with exchange, surface anisotropy and a magnetization that is not uniform, with other random angles -/
theorem ex_similar_runs {H : TriElem.Rule} (hH : H = TriElem.rule1 ∨ H = TriElem.rule4) (c : ℝ) (hc : c ≠ 0) (τ : Equiv.Perm (Fin 4))
    (σ : Equiv.Perm (Fin 3)) (hτ : 0 < c ^ 3 * Similarity.sg τ) (hσ : ∀ f, (exSim c hc τ σ).sense f = 1) :
    let S := exSim c hc τ σ
    ∃ D inp inp', Start (exPs H) (exCfg D) exNd ∧
      Start ((exPs H).described S (exTets S) (exTris S)) (exCfg D) (describedNodes S exNd) ∧
      SameSettings (exCfg D) (exCfg D) ∧ Relisted S (exPs H) (exTets S) (exTris S) ∧ Alike S exNd (describedNodes S exNd) ∧
      Valid (exCfg D) ∧ NoRecenter (exCfg D) ∧ World.Described S (exTets S) (exTris S) (exWs H) (exWs' H S) ∧
      ExactRun (exPs H) (exCfg D) (exWs H) (fun _ => 0) 0 exNd inp ∧
      ExactRun ((exPs H).described S (exTets S) (exTris S)) (exCfg D) (exWs' H S) (fun _ => 0) 0 (describedNodes S exNd) inp' ∧
      (∀ k, (inp k).sig = (inp' k).sig) ∧ (∀ k, (inp k).sol = none ↔ (inp' k).sol = none) ∧ (inp 1).r ≠ (inp' 1).r ∧
      TimeLoop.Accepted (run (exCfg D) 0 exNd (fun _ => (0, 0)) inp 1) (run (exCfg D) 0 exNd (fun _ => (0, 0)) inp 2) ∧
      (exNd 0).next.u ≠ (exNd 1).next.u := by
  intro S
  have hal := alike_describedNodes S exNd
  have hl := ex_relisted hH S hσ
  have hs : ∀ D, Start (exPs H) (exCfg D) exNd := fun D => exs_start H D (ex_start H D)
  have hs' : ∀ D, Start ((exPs H).described S (exTets S) (exTris S)) (exCfg D) (describedNodes S exNd) := fun D =>
    start_described S (hs D) hl hal (fun _ _ => hτ) (fun _ => rfl) rfl
  obtain ⟨X, hX⟩ := ex_exact_run _ _ hs (exWs H) (fun _ => rfl) 0 0
  obtain ⟨X', hX'⟩ := ex_exact_run _ _ hs' (exWs' H S) (fun _ => rfl) 0 1
  refine ⟨10 * vMax 1 (fun _ => true) X, exInp 0 X, exInp 1 X', hs _, hs' _, ⟨rfl, rfl, rfl, rfl, rfl, rfl, rfl, rfl⟩, hl, hal,
    ex_valid _ (by unfold vMax; positivity), fun _ => rfl, exs_described H S, hX _, hX' _, fun _ => rfl, ?_, by simp [exInp],
    exq_accepted _ _ _ _ le_rfl, ?_⟩
  · intro k
    unfold exInp
    dsimp only
    split_ifs <;> simp
  · intro h
    have := congrArg V3.x h
    simp [exNd] at this

/-- with `c = 1` and `c = 2`, cyclic permutations -/
example (c : ℝ) (hc : 0 < c) : 0 < c ^ 3 * Similarity.sg (Equiv.swap (0 : Fin 4) 1 * Equiv.swap 1 2) ∧
    ∀ f, (exSim c hc.ne' (Equiv.swap 0 1 * Equiv.swap 1 2) (Equiv.swap 0 1 * Equiv.swap 1 2)).sense f = 1 := by
  constructor
  · rw [Similarity.sg, Equiv.Perm.sign_mul, Equiv.Perm.sign_swap (by decide), Equiv.Perm.sign_swap (by decide)]
    norm_num
    positivity
  · intro f
    rw [Similarity.sense]
    simp only [exSim]
    rw [Equiv.Perm.sign_mul, Equiv.Perm.sign_swap (by decide), Equiv.Perm.sign_swap (by decide), sign_pos hc]
    norm_num

/-- with an inversion, transpositions -/
example (c : ℝ) (hc : c < 0) : 0 < c ^ 3 * Similarity.sg (Equiv.swap (0 : Fin 4) 1) ∧
    ∀ f, (exSim c hc.ne (Equiv.swap 0 1) (Equiv.swap 1 2)).sense f = 1 := by
  constructor
  · rw [Similarity.sg, Equiv.Perm.sign_swap (by decide)]
    norm_num
    exact Odd.pow_neg (by decide) hc
  · intro f
    rw [Similarity.sense]
    simp only [exSim]
    rw [Equiv.Perm.sign_swap (by decide), sign_neg hc]
    norm_num

/-! ## C92: runs in a mirror -/

/-- the mirror `x = 1` -/
def exMirror : Mirror := ⟨⟨1, 0, 0⟩, by norm_num [V3.nsq], ⟨1, 0, 0⟩⟩

noncomputable def exWm (H : TriElem.Rule) (S : Similarity 5) : World 5 ((exPs H).mirrored exMirror S (exTets S) (exTris S)) :=
  ⟨fun _ _ t j => exMirror.axial (Energy.ex2H t j), fun _ _ _ _ => exMirror.axial 0, fun _ _ => (0, 0)⟩

/-- the hypotheses of C92 are met by a run that keeps a step and by the run of its image -/
example {H : TriElem.Rule} (hH : H = TriElem.rule1 ∨ H = TriElem.rule4) :
    let S := exSim (-1) (by norm_num) (Equiv.swap 0 1) (Equiv.swap 1 2)
    ∃ D nodes' inp inp', Start (exPs H) (exCfg D) exNd ∧
      Start ((exPs H).mirrored exMirror S (exTets S) (exTris S)) (exCfg D) nodes' ∧
      SameSettings (exCfg D) (exCfg D) ∧ Relisted S ((exPs H).moved exMirror.motion) (exTets S) (exTris S) ∧
      TimeLoop.Mirrored exMirror S exNd nodes' ∧
      (exPs H).dir = none ∧ (∀ r, (exPs H).mag r = true → ((exPs H).prm r).K3 = 0) ∧
      Valid (exCfg D) ∧ NoRecenter (exCfg D) ∧ World.Mirrored exMirror S (exTets S) (exTris S) (exWs H) (exWm H S) ∧
      ExactRun (exPs H) (exCfg D) (exWs H) (fun _ => 0) 0 exNd inp ∧
      ExactRun ((exPs H).mirrored exMirror S (exTets S) (exTris S)) (exCfg D) (exWm H S) (fun _ => 0) 0 nodes' inp' ∧
      (∀ k, (inp k).sig = (inp' k).sig) ∧ (∀ k, (inp k).sol = none ↔ (inp' k).sol = none) ∧
      TimeLoop.Accepted (run (exCfg D) 0 exNd (fun _ => (0, 0)) inp 1) (run (exCfg D) 0 exNd (fun _ => (0, 0)) inp 2) ∧
      (nodes' 1).next.u ≠ (exNd 1).next.u ∧ (nodes' 2).p ≠ (exNd 2).p := by
  intro S
  have hσ : ∀ f, S.sense f = 1 := by
    intro f
    rw [Similarity.sense]
    simp only [S, exSim]
    rw [Equiv.Perm.sign_swap (by decide), sign_neg (by norm_num)]
    norm_num
  have hτ : 0 < S.ratio ^ 3 * Similarity.sg (Equiv.swap (0 : Fin 4) 1) := by
    rw [Similarity.sg, Equiv.Perm.sign_swap (by decide)]
    norm_num [S, exSim]
  set nd := movedNodes exMirror.motion exNd with hnd
  have hal := alike_describedNodes S nd
  have hl : Relisted S ((exPs H).moved exMirror.motion) (exTets S) (exTris S) :=
    ⟨List.reverse_perm _, List.Perm.refl _, fun f _ => Or.inr (hσ f), hH⟩
  have hs : ∀ D, Start (exPs H) (exCfg D) exNd := fun D => exs_start H D (ex_start H D)
  have hs' : ∀ D, Start ((exPs H).mirrored exMirror S (exTets S) (exTris S)) (exCfg D) (describedNodes S nd) := fun D =>
    start_described (cfg := exCfg D) S (start_move (hs D) (moved_movedNodes _ exNd) (exCfg D).energy) hl hal (fun _ _ => hτ)
      (fun _ => rfl) rfl
  have hm : TimeLoop.Mirrored exMirror S exNd (describedNodes S nd) := by
    intro i
    obtain ⟨h1, h2, h3⟩ := hal i
    refine ⟨?_, ?_, ?_⟩
    · rw [h1, ← Mirror.motion_pt]
      rfl
    · rw [h2]
      simp [Mirror.data, Similarity.data, hnd, movedNodes, Motion.data, Mirror.motion_vec, S, exSim]
    · rw [h3]
      simp [Mirror.data, Similarity.data, hnd, movedNodes, Motion.data, Mirror.motion_vec, S, exSim]
  obtain ⟨X, hX⟩ := ex_exact_run _ _ hs (exWs H) (fun _ => rfl) 0 0
  obtain ⟨X', hX'⟩ := ex_exact_run _ _ hs' (exWm H S) (fun _ => rfl) 0 1
  refine ⟨10 * vMax 1 (fun _ => true) X, describedNodes S nd, exInp 0 X, exInp 1 X', hs _, hs' _,
    ⟨rfl, rfl, rfl, rfl, rfl, rfl, rfl, rfl⟩, hl, hm, rfl, fun _ _ => rfl, ex_valid _ (by unfold vMax; positivity), fun _ => rfl,
    ⟨fun _ _ _ _ _ _ _ _ _ => rfl, fun _ _ _ _ _ _ _ _ _ => rfl, fun _ _ _ _ => by simp [exWs, exWm]⟩, hX _, hX' _, fun _ => rfl, ?_,
    exq_accepted _ _ _ _ le_rfl, ?_, ?_⟩
  · intro k
    unfold exInp
    dsimp only
    split_ifs <;> simp
  · have e : S.node 1 = 1 := by
      apply Fin.ext
      simp [Similarity.node, S, exSim, Equiv.swap_apply_of_ne_of_ne]
    have h3 := (hm 1).2.2
    rw [e] at h3
    rw [h3]
    intro h
    have := congrArg V3.z h
    simp [Mirror.data, Mirror.axial, exMirror, exNd, V3.dot] at this
    norm_num at this
  · have e : S.node 2 = 2 := by
      apply Fin.ext
      simp [Similarity.node, S, exSim, Equiv.swap_apply_of_ne_of_ne]
    have h1 := (hm 2).1
    rw [e] at h1
    rw [h1]
    intro h
    have := congrArg V3.x h
    simp [Mirror.point, exMirror, exNd, V3.dot, MeshElem.exP2] at this

/-! ## C91: the sense of a triangle with surface anisotropy -/

/-- the two vertices of the surface triangle exchanged, everything else the same -/
def exFlip : Similarity 5 := ⟨1, one_ne_zero, 1, fun _ => Iff.rfl, fun _ => 1, fun _ => Equiv.swap 1 2⟩

theorem exFlip_sense (f : Tri × ℝ) : exFlip.sense f = -1 := by
  rw [Similarity.sense]
  simp only [exFlip]
  rw [Equiv.Perm.sign_swap (by decide), sign_pos one_pos]
  norm_num

theorem triInterpV_uniform (H : TriElem.Rule) (U : V3) (j : Fin H.n) : TriElem.interpV H (fun _ => U) j = U := by
  unfold TriElem.interpV TriElem.Rule.a
  ext <;> simp [Fin.sum_univ_three] <;> ring

theorem ex_surfaceWork {H : TriElem.Rule} (hH : H = TriElem.rule1 ∨ H = TriElem.rule4) (x : ℝ) (p : Fin 3 → V3) :
    surfaceWork H ⟨1, ⟨3 / 5, 0, 4 / 5⟩⟩ x p (fun _ => ⟨0, 0, 1⟩) (fun _ => ⟨1, 0, 0⟩) = 24 / 25 / x * TriElem.surf p := by
  have hok : H.Ok := by
    rcases hH with rfl | rfl
    · exact TriElem.rule1_ok
    · exact TriElem.rule4_ok
  unfold surfaceWork
  simp only [triInterpV_uniform]
  rw [← TriElem.sum_weight hok, Finset.mul_sum, Finset.mul_sum]
  refine Finset.sum_congr rfl fun j _ => ?_
  simp only [V3.dot]
  ring

/-- **C91, negation** A mesh file in which a surface triangle is listed the other way round (with an inward normal) is accepted and
describes the same sample, but the torque of the surface anisotropy changes sign (triangle.cpp:8 divides by the jump of
magnetization, whose sign depends on the sense; the anisotropy energy, triangle.cpp:38-43, does not): a velocity that
solves the equation of motion with one file does not solve it with the other. -/
theorem C91_negation {H : TriElem.Rule} (hH : H = TriElem.rule1 ∨ H = TriElem.rule4) (F : Fields (exPs H)) (dt : ℝ) (hdt : 0 < dt) :
    let P' := (exPs H).described exFlip MeshElem.exT2 [exFlip.triOf (⟨![0, 2, 1], 0⟩, 1)]
    let F' : Fields P' := ⟨F.Hext, F.Hst, F.V⟩
    Start (exPs H) (exCfg 0) exNc ∧ Start P' (exCfg 0) exNc ∧ MeshElem.exT2 = MeshElem.exT2.map exFlip.tetOf ∧
    (exFlip.triOf (⟨![0, 2, 1], 0⟩, 1)) = (⟨![0, 1, 2], 0⟩, -1) ∧
    (∃ v, Moves (exPs H) (exCfg 0) F exNc dt v) ∧
    ∀ v, Moves (exPs H) (exCfg 0) F exNc dt v → ¬ Moves P' (exCfg 0) F' exNc dt v := by
  intro P' F'
  have hs0 : Start (exP H) (exCfg 0) exNc := { exc_start H 0 with }
  have hs := exs_start H 0 hs0
  have hT : MeshElem.exT2 = MeshElem.exT2.map exFlip.tetOf := by
    simp [MeshElem.exT2, Similarity.tetOf, exFlip]
  have hf : (exFlip.triOf (⟨![0, 2, 1], 0⟩, 1)) = (⟨![0, 1, 2], 0⟩, -1) := by
    unfold Similarity.triOf
    rw [exFlip_sense]
    simp only [exFlip]
    have : (fun k => (1 : Equiv.Perm ℕ) ((![0, 2, 1] : Fin 3 → ℕ) ((Equiv.swap 1 2 : Equiv.Perm (Fin 3)) k))) = ![0, 1, 2] := by
      decide
    rw [this]
    norm_num
  refine ⟨hs, ?_, hT, hf, ?_, ?_⟩
  · exact { hs0 with
      triValid := by
        intro f hff k
        simp only [P', Problem.described, List.mem_singleton] at hff
        subst hff
        rw [hf]
        fin_cases k <;> decide
      triMag := by
        intro f hff
        simp only [P', Problem.described, List.mem_singleton] at hff
        subst hff
        rw [hf]
        change Tri.isMagnetic (magNode (fun _ => true) 5 MeshElem.exT2) ⟨![0, 1, 2], 0⟩ = true
        decide
      exchange := fun r _ => mul_nonneg (sq_nonneg _) (by simp [exPs]) }
  · have e : (run (exCfg 0) 0 exNc (fun _ => (0, 0)) (fun _ => ⟨false, 0, none, fun _ => (0, 0)⟩) 0).nodes = exNc := by
      funext i
      rfl
    obtain ⟨⟨A, b, hsys⟩, hx⟩ := C72_solvable hs (ex_valid 0 le_rfl) (ex_keeps 0).1 (ex_keeps 0).2 0 (fun _ => (0, 0))
      (fun _ => ⟨false, 0, none, fun _ => (0, 0)⟩) 0 F 0 dt hdt
    obtain ⟨X, hX, -⟩ := hx A b hsys
    have := (exact_velocity hs (ex_valid 0 le_rfl) (ex_keeps 0).1 (ex_keeps 0).2 0 (fun _ => (0, 0))
      (fun _ => ⟨false, 0, none, fun _ => (0, 0)⟩) 0 F 0 dt hdt X A b hsys hX).1
    rw [e] at this
    exact ⟨_, this⟩
  · intro v hv hv'
    have hw : ∀ i, (magNode (fun _ => true) 5 MeshElem.exT2).getD i false = true →
        V3.dot ⟨1, 0, 0⟩ (ext exNc i).cur.u = 0 := by
      intro i hi
      have := magNode_lt hi
      unfold ext
      rw [dif_pos this]
      simp [exNc, V3.dot]
    have h1 := hv.2 (fun _ => ⟨1, 0, 0⟩) hw
    have h2 := hv'.2 (fun _ => ⟨1, 0, 0⟩) hw
    have hprm : P'.prm = (exPs H).prm := by
      funext r
      simp [P', Problem.described, Similarity.prm, exFlip]
    have hsprm : P'.sprm = (exPs H).sprm := by
      funext r
      simp [P', Problem.described, Similarity.sprm, exFlip]
    rw [hprm, hsprm] at h2
    have h3 := h1.symm.trans h2
    change ((exPs H).tris.map _).sum = ([exFlip.triOf _].map _).sum at h3
    rw [hf] at h3
    simp only [exPs, List.map_cons, List.map_nil, List.sum_cons, List.sum_nil, add_zero] at h3
    have hu : ∀ a b c : ℕ, a < 5 → b < 5 → c < 5 →
        (fun i => (ext exNc ((![a, b, c] : Fin 3 → ℕ) i)).cur.u) = fun _ => (⟨0, 0, 1⟩ : V3) := by
      intro a b c ha hb hc
      funext i
      unfold ext
      fin_cases i
      · exact congrArg (fun x : Node => x.cur.u) (dif_pos ha)
      · exact congrArg (fun x : Node => x.cur.u) (dif_pos hb)
      · exact congrArg (fun x : Node => x.cur.u) (dif_pos hc)
    rw [hu 0 2 1 (by decide) (by decide) (by decide), hu 0 1 2 (by decide) (by decide) (by decide)] at h3
    have e1 := ex_surfaceWork hH 1 fun i => (ext exNc ((![0, 2, 1] : Fin 3 → ℕ) i)).p
    have e2 := ex_surfaceWork hH (-1) fun i => (ext exNc ((![0, 1, 2] : Fin 3 → ℕ) i)).p
    have s1 : TriElem.surf (fun i => (ext exNc ((![0, 2, 1] : Fin 3 → ℕ) i)).p) = 1 / 2 := by
      simp [TriElem.surf, TriElem.normalVect, ext, exNc, MeshElem.exP2, V3.cross, V3.norm, V3.nsq]
    have s2 : TriElem.surf (fun i => (ext exNc ((![0, 1, 2] : Fin 3 → ℕ) i)).p) = 1 / 2 := by
      simp [TriElem.surf, TriElem.normalVect, ext, exNc, MeshElem.exP2, V3.cross, V3.norm, V3.nsq]
    rw [s1] at e1
    rw [s2] at e2
    have := e1.symm.trans (h3.trans e2)
    norm_num at this

open Verif.MeshCheck in
/-- the jumps used in the negation are those the program computes for the two files -/
example (Ms : ℕ → ℝ) (sorted sorted' : List BasicTri) (h : IsSortOf sorted (allTri MeshElem.exT2 [⟨![0, 2, 1], 0⟩]))
    (h' : IsSortOf sorted' (allTri MeshElem.exT2 [⟨![0, 1, 2], 0⟩])) :
    dMs Ms sorted ⟨![0, 2, 1], 0⟩ = Ms 0 ∧ dMs Ms sorted' ⟨![0, 1, 2], 0⟩ = -Ms 0 := by
  have hpos : ∀ t ∈ MeshElem.exT2, 0 < Geom.mixedProd MeshElem.exP2 t := fun t ht => by
    rw [← Tetra.detJ_nod]
    exact MeshElem.ex2_pos t ht
  have e1 : dMs Ms sorted ⟨![0, 2, 1], 0⟩ = Ms 0 := by
    have f0 : ∀ k : Fin 4, face (⟨![0, 1, 2, 3], 0⟩ : Tet) k = verts ⟨![0, 2, 1], 0⟩ ↔ k = 3 := by decide
    have f1 : ∀ k : Fin 4, ¬ face (⟨![4, 1, 3, 2], 1⟩ : Tet) k = verts ⟨![0, 2, 1], 0⟩ := by decide
    rw [C26_jump MeshElem.exP2 Ms _ _ sorted h hpos]
    simp only [MeshElem.exT2, List.map_cons, List.map_nil, List.sum_cons, List.sum_nil, f0, f1, if_false, Finset.sum_const_zero,
      Finset.sum_ite_eq', Finset.mem_univ, if_true]
    simp [Geom.normalVect, MeshElem.exP2, V3.cross, V3.dot]
  refine ⟨e1, ?_⟩
  have e2 := exFlip.C91_jump MeshElem.exP2 MeshElem.exP2 (fun i => by ext <;> simp [exFlip]) Ms MeshElem.exT2 MeshElem.exT2
    [⟨![0, 2, 1], 0⟩] [⟨![0, 1, 2], 0⟩] (by simp [MeshElem.exT2, Similarity.tetOf, exFlip]) hpos hpos sorted sorted' h h'
    (⟨![0, 2, 1], 0⟩, 1)
  have hf : (exFlip.triOf (⟨![0, 2, 1], 0⟩, 1)).1 = ⟨![0, 1, 2], 0⟩ := by
    unfold Similarity.triOf
    simp only [exFlip]
    have : (fun k => (1 : Equiv.Perm ℕ) ((![0, 2, 1] : Fin 3 → ℕ) ((Equiv.swap 1 2 : Equiv.Perm (Fin 3)) k))) = ![0, 1, 2] := by
      decide
    rw [this]
  rw [hf, exFlip_sense, e1] at e2
  rw [e2]
  ring

/-- the hypotheses of C91_jump, C93_energy, C93_average and C93_potential are met by the two tetrahedrons of the example, renumbered, with
lengths doubled -/
example : let S := exSim 2 two_ne_zero (Equiv.swap 0 1 * Equiv.swap 1 2) (Equiv.swap 0 1 * Equiv.swap 1 2)
    ∃ p' : ℕ → V3, (∀ i, p' (S.num i) = S.ratio * MeshElem.exP2 i) ∧ (exTets S).Perm (MeshElem.exT2.map S.tetOf) ∧
      (∀ t ∈ MeshElem.exT2, 0 < detJ (MeshElem.nod4 MeshElem.exP2 t)) ∧ (∀ t ∈ exTets S, 0 < detJ (MeshElem.nod4 p' t)) ∧
      Potential.areaRatio (MeshElem.exP2 0) (MeshElem.exP2 2) (MeshElem.exP2 1) ≠ 0 ∧ p' 0 ≠ MeshElem.exP2 0 := by
  intro S
  have hp : ∀ i, (fun i => S.ratio * MeshElem.exP2 (S.num.symm i)) (S.num i) = S.ratio * MeshElem.exP2 i := fun i => by simp
  refine ⟨fun i => S.ratio * MeshElem.exP2 (S.num.symm i), hp, List.reverse_perm _, MeshElem.ex2_pos, ?_, ?_, ?_⟩
  · intro t' ht'
    obtain ⟨t, ht, rfl⟩ := List.mem_map.mp (List.mem_reverse.mp ht')
    rw [S.nod4_described hp, Similarity.detJ_scaled]
    refine mul_pos ?_ (MeshElem.ex2_pos t ht)
    simp only [S, exSim]
    rw [Similarity.sg, Equiv.Perm.sign_mul, Equiv.Perm.sign_swap (by decide), Equiv.Perm.sign_swap (by decide)]
    norm_num
  · simp [Potential.areaRatio, MeshElem.exP2, V3.cross, V3.norm, V3.nsq]
  · intro h
    have := congrArg V3.x h
    simp [S, exSim, MeshElem.exP2] at this

end Verif.Run
