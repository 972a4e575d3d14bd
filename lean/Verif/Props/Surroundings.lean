import Verif.Spec.Surroundings
import Verif.Proofs.SimilarRun
import Verif.Props.RegionsMesh

/-!
# Non-magnetic surroundings do not matter (C100)
-/

namespace Verif.Surroundings

open Verif.Mesh Verif.MeshElem Verif.Assembly Verif.Tetra Verif.SparseMat Verif.Llg Verif.WeakForm Verif.TimeLoop Verif.Run
open Verif.Regions

variable {n n' : ℕ} {ET ET' : Type} {P : Problem} {cfg : Cfg n ET} {cfg' : Cfg n' ET'} {nodes : Fin n → Node}
  {nodes' : Fin n' → Node} {prm' : ℕ → Prm} {mag' : ℕ → Bool} {sprm' : ℕ → SurfPrm} {tets' : List Tet} {tris' : List (Tri × ℝ)}

/-- the world `W'` has the same fields at the magnetic tetrahedrons and the same potential at the magnetic nodes as `W`, for
states that are the same there -/
structure SameWorld (hle : n ≤ n') (magN : Fin n → Bool) (W : World n P)
    (W' : World n' (regroup P prm' sprm' mag' tets' tris')) : Prop where
  Hext : ∀ a b t, SameState hle magN a b → ∀ e ∈ magTet P.mag P.tets, ∀ e' ∈ magTet mag' tets', e'.ind = e.ind →
    W'.Hext t b e' = W.Hext t a e
  Hst : ∀ a b t, SameState hle magN a b → ∀ e ∈ magTet P.mag P.tets, ∀ e' ∈ magTet mag' tets', e'.ind = e.ind →
    W'.Hst t b e' = W.Hst t a e
  pot : ∀ a b, SameState hle magN a b → ∀ i, magN i = true → W'.pot b (i.castLE hle) = W.pot a i

theorem mag_iff {mag mag' : ℕ → Bool} {prm prm' : ℕ → Prm} {tets tets' : List Tet}
    (h : List.Forall₂ (SameTet prm prm' mag mag') (magTet mag tets) (magTet mag' tets')) (i : ℕ) :
    (∃ t ∈ tets', mag' t.reg = true ∧ ∃ k, t.ind k = i) ↔ ∃ t ∈ tets, mag t.reg = true ∧ ∃ k, t.ind k = i := by
  constructor
  · rintro ⟨t', ht', hm, k, hk⟩
    obtain ⟨t, ht, hs⟩ := forall₂_right h t' (List.mem_filter.mpr ⟨ht', hm⟩)
    obtain ⟨h1, h2⟩ := List.mem_filter.mp ht
    exact ⟨t, h1, h2, k, by rw [← hs.nodes]; exact hk⟩
  · rintro ⟨t, ht, hm, k, hk⟩
    obtain ⟨t', ht', hs⟩ := forall₂_left h t (List.mem_filter.mpr ⟨ht, hm⟩)
    obtain ⟨h1, h2⟩ := List.mem_filter.mp ht'
    exact ⟨t', h1, h2, k, by rw [hs.nodes]; exact hk⟩

theorem magN_same (hle : n ≤ n') (hs : Start P cfg nodes) (hs' : Start (regroup P prm' sprm' mag' tets' tris') cfg' nodes')
    (hS : SameMagnet P.prm prm' P.mag mag' P.sprm sprm' P.tets tets' P.tris tris') (i : Fin n) :
    cfg'.magNode (i.castLE hle) = cfg.magNode i := by
  rw [Bool.eq_iff_iff, hs.magNode, hs'.magNode]
  exact mag_iff hS.volumes i

/-- magnetic nodes are nodes of the first mesh -/
theorem magN_back (hs : Start P cfg nodes) (hs' : Start (regroup P prm' sprm' mag' tets' tris') cfg' nodes')
    (hS : SameMagnet P.prm prm' P.mag mag' P.sprm sprm' P.tets tets' P.tris tris') (j : Fin n')
    (hj : cfg'.magNode j = true) : (j : ℕ) < n := by
  rw [hs'.magNode] at hj
  obtain ⟨t, ht, -, k, hk⟩ := (mag_iff hS.volumes j).mp hj
  rw [← hk]
  exact hs.valid t ht k

theorem getD_same (hs : Start P cfg nodes) (hs' : Start (regroup P prm' sprm' mag' tets' tris') cfg' nodes')
    (hS : SameMagnet P.prm prm' P.mag mag' P.sprm sprm' P.tets tets' P.tris tris') (hle : n ≤ n') (i : ℕ)
    (hi : (magNode P.mag n P.tets).getD i false = true) : (magNode mag' n' tets').getD i false = true := by
  have hlt := magNode_lt hi
  have h1 := (magNode_getD hs ⟨i, hlt⟩).mp hi
  rw [← magN_same hle hs hs' hS] at h1
  exact (magNode_getD hs' _).mpr h1

/-- the residual of an element does not see the bases -/
theorem residual_bases (G : Rule) (m : Prm) (s : Step) (x y : Nodal) (hp : y.p = x.p) (hu : y.u = x.u) (hv : y.v = x.v)
    (hphi : y.phi = x.phi) (hphiv : y.phiv = x.phiv) (Hext Hst : Fin G.n → V3) (dir : Option (Fin 3)) (V : ℝ)
    (v w : Fin 4 → V3) : WeakForm.residual G m s y Hext Hst dir V v w = WeakForm.residual G m s x Hext Hst dir V v w := by
  obtain ⟨p, u, vv, phi, phiv, ep, eq⟩ := x
  obtain ⟨p', u', vv', phi', phiv', ep', eq'⟩ := y
  dsimp only at hp hu hv hphi hphiv
  subst hp hu hv hphi hphiv
  rfl

/-- a sum over the triangles, to which inert triangles do not contribute -/
theorem tri_sum_mem {sprm sprm' : ℕ → SurfPrm} {tris tris' : List (Tri × ℝ)}
    (hS : ∃ kept extra, tris'.Perm (kept ++ extra) ∧ List.Forall₂ (SameTri sprm sprm') tris kept ∧ ∀ f ∈ extra, Inert sprm' f)
    (g g' : Tri × ℝ → ℝ) (hg : ∀ f ∈ tris, ∀ f', SameTri sprm sprm' f f' → g' f' = g f) (h0 : ∀ f, Inert sprm' f → g' f = 0) :
    (tris'.map g').sum = (tris.map g).sum := by
  obtain ⟨kept, extra, hp, hk, hx⟩ := hS
  rw [(hp.map g').sum_eq, List.map_append, List.sum_append, forall₂_map (fun f f' h => hg f h.2.1 f' h.1) (forall₂_mem hk),
    List.map_congr_left (g := fun _ => (0 : ℝ)) (fun f hf => h0 f (hx f hf))]
  simp

/-- the equation of motion of the sample is that of the sample in its surroundings -/
theorem moves_surrounded (hle : n ≤ n') (hs : Start P cfg nodes)
    (hs' : Start (regroup P prm' sprm' mag' tets' tris') cfg' nodes') (hset : SameSettings cfg cfg')
    (hS : SameMagnet P.prm prm' P.mag mag' P.sprm sprm' P.tets tets' P.tris tris') {a : Fin n → Node} {b : Fin n' → Node}
    (hab : SameState hle cfg.magNode a b) (F : Fields P) (F' : Fields (regroup P prm' sprm' mag' tets' tris'))
    (hV : F'.V = F.V)
    (hF : ∀ e ∈ magTet P.mag P.tets, ∀ e' ∈ magTet mag' tets', e'.ind = e.ind → F'.Hext e' = F.Hext e ∧ F'.Hst e' = F.Hst e)
    (dt : ℝ) (v : ℕ → V3) (h : Moves P cfg F a dt v) : Moves (regroup P prm' sprm' mag' tets' tris') cfg' F' b dt v := by
  have hext : ∀ i, (∃ h : i < n, cfg.magNode ⟨i, h⟩ = true) → (Run.ext b i).p = (Run.ext a i).p ∧ (Run.ext b i).cur = (Run.ext a i).cur := by
    rintro i ⟨hi, hm⟩
    unfold Run.ext
    rw [dif_pos hi, dif_pos (hi.trans_le hle)]
    obtain ⟨h1, h2, -⟩ := hab ⟨i, hi⟩ hm
    exact ⟨h1, h2⟩
  have hmt : ∀ t ∈ magTet P.mag P.tets, ∀ k, ∃ h : t.ind k < n, cfg.magNode ⟨t.ind k, h⟩ = true := by
    intro t ht k
    obtain ⟨h1, h2⟩ := List.mem_filter.mp ht
    exact ⟨hs.valid t h1 k, (hs.magNode _).mpr ⟨t, h1, h2, k, rfl⟩⟩
  have hmf : ∀ f ∈ P.tris, ∀ k, ∃ h : f.1.ind k < n, cfg.magNode ⟨f.1.ind k, h⟩ = true := by
    intro f hf k
    have h0 := hs.triMag f hf
    have hall : ∀ k, (Mesh.magNode P.mag n P.tets).getD (f.1.ind k) false = true := by
      intro k
      unfold Tri.isMagnetic at h0
      simp only [Bool.and_eq_true] at h0
      fin_cases k
      · exact h0.1.1
      · exact h0.1.2
      · exact h0.2
    exact ⟨hs.triValid f hf k, (magNode_getD hs ⟨_, hs.triValid f hf k⟩).mp (hall k)⟩
  have hstep : (regroup P prm' sprm' mag' tets' tris').step cfg' dt = P.step cfg dt := by
    unfold Problem.step
    rw [hset.gamma0, hset.DTMAX]
  refine ⟨fun j hj => ?_, ?_⟩
  · have hlt := magN_back hs hs' hS j hj
    have hj' : cfg.magNode ⟨j, hlt⟩ = true := by rw [← magN_same hle hs hs' hS]; exact hj
    have := (hab ⟨j, hlt⟩ hj').2.1
    have e : b j = b ((⟨j, hlt⟩ : Fin n).castLE hle) := rfl
    rw [e, this]
    exact h.1 ⟨j, hlt⟩ hj'
  · rw [hstep]
    intro w hw
    have h' := h.2 w (by
      intro i hi
      have := hw i (getD_same hs hs' hS hle i hi)
      rwa [(hext i ⟨magNode_lt hi, (magNode_getD hs ⟨i, magNode_lt hi⟩).mp hi⟩).2] at this)
    have hl := forall₂_map (f := fun t => WeakForm.residual P.G (P.prm t.reg) (P.step cfg dt) (nodalOf (Run.ext a) t) (F.Hext t)
        (F.Hst t) P.dir F.V (fun i => v (t.ind i)) (fun i => w (t.ind i)))
      (f' := fun t => WeakForm.residual P.G (prm' t.reg) (P.step cfg dt) (nodalOf (Run.ext b) t) (F'.Hext t)
        (F'.Hst t) P.dir F'.V (fun i => v (t.ind i)) (fun i => w (t.ind i))) ?_ (forall₂_mem hS.volumes)
    · refine (congrArg List.sum hl).trans (h'.trans (tri_sum_mem hS.surfaces _ (fun f => surfaceWork P.H (sprm' f.1.reg) f.2
        (fun i => (Run.ext b (f.1.ind i)).p) (fun i => (Run.ext b (f.1.ind i)).cur.u) (fun i => w (f.1.ind i))) ?_ ?_).symm)
      · intro f hf f' hff
        rw [hff.nodes, hff.jump, hff.material]
        simp only [(hext _ (hmf f hf _)).1, (hext _ (hmf f hf _)).2]
      · intro f hf
        unfold surfaceWork
        rw [hf.2]
        simp
    · rintro t t' ⟨ht, h1, h2⟩
      rw [(hF t h1 t' h2 ht.nodes).1, (hF t h1 t' h2 ht.nodes).2, ht.material, ht.nodes, hV]
      apply residual_bases
      all_goals
        funext k
        simp only [nodalOf, ht.nodes, (hext _ (hmt t h1 k)).1, (hext _ (hmt t h1 k)).2]

theorem same_setPot {hle : n ≤ n'} (hmag : ∀ i : Fin n, cfg'.magNode (i.castLE hle) = cfg.magNode i) {a : Fin n → Node}
    {b : Fin n' → Node} (h : SameState hle cfg.magNode a b) (pot : Fin n → ℝ × ℝ) (pot' : Fin n' → ℝ × ℝ)
    (hp : ∀ i, cfg.magNode i = true → pot' (i.castLE hle) = pot i) :
    SameState hle cfg.magNode (setPot cfg.magNode pot a) (setPot cfg'.magNode pot' b) := by
  intro i hi
  obtain ⟨h1, h2, h3⟩ := h i hi
  unfold setPot
  rw [hmag, hi, if_pos rfl, if_pos rfl]
  exact ⟨h1, h2, by dsimp only; rw [h3, hp i hi]⟩

theorem same_computeAll {hle : n ≤ n'} (hmag : ∀ i : Fin n, cfg'.magNode (i.castLE hle) = cfg.magNode i) {a : Fin n → Node}
    {b : Fin n' → Node} (h : SameState hle cfg.magNode a b) (pot : Fin n → ℝ × ℝ) (pot' : Fin n' → ℝ × ℝ)
    (hp : ∀ i, cfg.magNode i = true → pot' (i.castLE hle) = pot i) :
    SameState hle cfg.magNode (computeAllNodes cfg.magNode pot a) (computeAllNodes cfg'.magNode pot' b) := by
  intro i hi
  obtain ⟨h1, h2, h3⟩ := same_setPot hmag h pot pot' hp i hi
  exact ⟨h1, h3, h3⟩

theorem v2max_same {hle : n ≤ n'} (hmag : ∀ i : Fin n, cfg'.magNode (i.castLE hle) = cfg.magNode i)
    (hback : ∀ j : Fin n', cfg'.magNode j = true → (j : ℕ) < n) {X : Fin n → ℝ × ℝ} {X' : Fin n' → ℝ × ℝ}
    (h : ∀ i : Fin n, cfg.magNode i = true → (X' (i.castLE hle)).1 * (X' (i.castLE hle)).1 +
      (X' (i.castLE hle)).2 * (X' (i.castLE hle)).2 = (X i).1 * (X i).1 + (X i).2 * (X i).2) :
    v2max cfg'.magNode X' = v2max cfg.magNode X := by
  apply le_antisymm
  · rcases v2max_attained cfg'.magNode X' with e | ⟨j, hj, e⟩
    · rw [e]
      exact v2max_nonneg _ _
    · obtain ⟨i, rfl⟩ : ∃ i : Fin n, j = i.castLE hle := ⟨⟨j, hback j hj⟩, rfl⟩
      rw [hmag] at hj
      rw [e, h i hj]
      exact v2max_ge _ _ _ hj
  · rcases v2max_attained cfg.magNode X with e | ⟨i, hi, e⟩
    · rw [e]
      exact v2max_nonneg _ _
    · rw [e, ← h i hi]
      exact v2max_ge _ _ _ ((hmag i).trans hi)

/-- exact attempts from the same state give the same states and the same largest velocity -/
theorem solved_surrounded (hle : n ≤ n') (hs : Start P cfg nodes)
    (hs' : Start (regroup P prm' sprm' mag' tets' tris') cfg' nodes') (hset : SameSettings cfg cfg')
    (hS : SameMagnet P.prm prm' P.mag mag' P.sprm sprm' P.tets tets' P.tris tris') (hv : Valid cfg) (hv' : Valid cfg')
    (hR : NoRecenter cfg) (hR' : NoRecenter cfg') (t0 : ℝ) (pot : Fin n → ℝ × ℝ) (pot' : Fin n' → ℝ × ℝ) (inp : ℕ → Input n)
    (inp' : ℕ → Input n') (k : ℕ)
    (hab : SameState hle cfg.magNode (run cfg t0 nodes pot inp k).nodes (run cfg' t0 nodes' pot' inp' k).nodes)
    (F : Fields P) (F' : Fields (regroup P prm' sprm' mag' tets' tris')) (hV : F'.V = F.V)
    (hF : ∀ e ∈ magTet P.mag P.tets, ∀ e' ∈ magTet mag' tets', e'.ind = e.ind → F'.Hext e' = F.Hext e ∧ F'.Hst e' = F.Hst e)
    (dt : ℝ) (hpos : 0 < dt) (X : Fin n → ℝ × ℝ) (X' : Fin n' → ℝ × ℝ) (A A' : Sp ℝ) (b b' : List ℝ)
    (h1 : IsSystem P cfg F (baseProjection (inp k).r (run cfg t0 nodes pot inp k).nodes) dt A b) (e1 : A.mult (unknowns X) = b)
    (h2 : IsSystem (regroup P prm' sprm' mag' tets' tris') cfg' F'
      (baseProjection (inp' k).r (run cfg' t0 nodes' pot' inp' k).nodes) dt A' b')
    (e2 : A'.mult (unknowns X') = b') :
    SameState hle cfg.magNode (solvedNodes cfg (inp k) X dt (run cfg t0 nodes pot inp k))
      (solvedNodes cfg' (inp' k) X' dt (run cfg' t0 nodes' pot' inp' k)) ∧
    vMax cfg.gamma0 cfg'.magNode X' = vMax cfg.gamma0 cfg.magNode X := by
  obtain ⟨hU, hN⟩ := noRecenter_keeps hR
  obtain ⟨hU', hN'⟩ := noRecenter_keeps hR'
  have hmag := magN_same hle hs hs' hS
  obtain ⟨m1, -⟩ := exact_velocity hs hv hU hN t0 pot inp k F (inp k).r dt hpos X A b h1 e1
  obtain ⟨-, m2⟩ := exact_velocity hs' hv' hU' hN' t0 pot' inp' k F' (inp' k).r dt hpos X' A' b' h2 e2
  have hvel0 := m2 _ (moves_surrounded hle hs hs' hset hS hab F F' hV hF dt _ m1)
  have hvel : ∀ i : Fin n, cfg.magNode i = true →
      ofComp (Run.ext (baseProjection (inp k).r (run cfg t0 nodes pot inp k).nodes)) (unknowns X) i =
      ofComp (Run.ext (baseProjection (inp' k).r (run cfg' t0 nodes' pot' inp' k).nodes)) (unknowns X') (i.castLE hle) :=
    fun i hi => hvel0 (i.castLE hle) ((hmag i).trans hi)
  constructor
  · intro i hi
    obtain ⟨a1, a2, a3⟩ := hab i hi
    have hi' := (hmag i).trans hi
    obtain ⟨b1, b2⟩ := solved_eq t0 pot inp k i X dt hi (nodes := nodes)
    obtain ⟨c1, c2⟩ := solved_eq t0 pot' inp' k (i.castLE hle) X' dt hi' (nodes := nodes')
    have d1 : ∀ s : St n ET, (solvedNodes cfg (inp k) X dt s i).next =
        { (s.nodes i).next with
          u := (solvedNodes cfg (inp k) X dt s i).next.u
          v := (solvedNodes cfg (inp k) X dt s i).next.v } := by
      intro s
      simp only [solvedNodes, updateNodes, hi, if_true]
      rfl
    have d2 : ∀ s' : St n' ET', (solvedNodes cfg' (inp' k) X' dt s' (i.castLE hle)).next =
        { (s'.nodes (i.castLE hle)).next with
          u := (solvedNodes cfg' (inp' k) X' dt s' (i.castLE hle)).next.u
          v := (solvedNodes cfg' (inp' k) X' dt s' (i.castLE hle)).next.v } := by
      intro s'
      simp only [solvedNodes, updateNodes, hi', if_true]
      rfl
    refine ⟨?_, ?_, ?_⟩
    · simp only [solvedNodes, updateNodes, hi, hi', if_true]
      exact a1
    · simp only [solvedNodes, updateNodes, hi, hi', if_true]
      exact a2
    · rw [d1, d2, b1, b2, c1, c2, ← hvel i hi, a2, a3, hset.gamma0]
  · unfold vMax
    rw [v2max_same hmag (magN_back hs hs' hS) fun i hi => ?_]
    have hu := (allUnit_run hU t0 nodes pot inp hs.unit k i hi).1
    have hu' := (allUnit_run hU' t0 nodes' pot' inp' hs'.unit k (i.castLE hle) ((hmag i).trans hi)).1
    rw [isUnit3_iff] at hu hu'
    rw [← comp_nsq (inp k).r _ X i hu, ← comp_nsq (inp' k).r _ X' (i.castLE hle) hu', ← hvel i hi]

/-- **C100** The sample alone and the sample in non-magnetic surroundings make the same run: the same steps, the same rows, the
same saved magnetization, the same state of every magnetic node at all times. Missing: recentering; the surroundings must not
bring surface anisotropy to triangles that separate nothing (C98), nor displace the values of a field that depends on the
position (`C44_negation`: this is the hypothesis on `W'.Hext`). -/
theorem C100_run_partial (hle : n ≤ n') (hs : Start P cfg nodes)
    (hs' : Start (regroup P prm' sprm' mag' tets' tris') cfg' nodes') (hset : SameSettings cfg cfg')
    (hS : SameMagnet P.prm prm' P.mag mag' P.sprm sprm' P.tets tets' P.tris tris') (hn : SameState hle cfg.magNode nodes nodes')
    (hv : Valid cfg) (hR : NoRecenter cfg) (hR' : NoRecenter cfg') (Q : ET → ET' → Prop)
    (hE : ∀ a b t, SameState hle cfg.magNode a b → Q (cfg.energy a t) (cfg'.energy b t)) (W : World n P)
    (W' : World n' (regroup P prm' sprm' mag' tets' tris')) (hW : SameWorld hle cfg.magNode W W') (V : ℕ → ℝ) (t0 : ℝ)
    (inp : ℕ → Input n) (inp' : ℕ → Input n') (h : ExactRun P cfg W V t0 nodes inp)
    (h' : ExactRun (regroup P prm' sprm' mag' tets' tris') cfg' W' V t0 nodes' inp') (hsig : ∀ k, (inp k).sig = (inp' k).sig)
    (hfail : ∀ k, (inp k).sol = none ↔ (inp' k).sol = none) (k : ℕ) :
    let a := run cfg t0 nodes (W.pot nodes) inp k
    let b := run cfg' t0 nodes' (W'.pot nodes') inp' k
    b.ctl = a.ctl ∧ b.t = a.t ∧ b.nt = a.nt ∧
    (∀ i, cfg.magNode i = true → (b.nodes (i.castLE hle)).cur = (a.nodes i).cur ∧ (b.nodes (i.castLE hle)).next = (a.nodes i).next) ∧
    List.Forall₂ (CoupledRow (SameState hle cfg.magNode) Q) a.rows b.rows ∧
    List.Forall₂ (CoupledSol (SameU hle cfg.magNode)) a.sols b.sols := by
  have hmag := magN_same hle hs hs' hS
  have hv' : Valid cfg' := ⟨by rw [hset.DTMIN]; exact hv.dtmin, by rw [hset.DTMIN, hset.DTMAX]; exact hv.dtmax,
    by rw [hset.timeStep]; exact hv.tstep, by rw [hset.DUMAX]; exact hv.dumax,
    by rw [hset.DTMIN, hset.add]; exact hv.addErr⟩
  have H : Coupled (SameState hle cfg.magNode) (SameU hle cfg.magNode) Q (run cfg t0 nodes (W.pot nodes) inp k)
      (run cfg' t0 nodes' (W'.pot nodes') inp' k) := by
    induction k with
    | zero =>
      have hpot := hW.pot _ _ hn
      exact coupled_init hset t0 _ _ (same_computeAll hmag hn _ _ hpot) (hE _ _ _ (same_setPot hmag hn _ _ hpot))
    | succ k ih =>
      refine coupled_step hset (fun a b hab i hi => ?_) (fun a b r r' hab i hi => ?_) (hR.keepsRecenter hR' fun _ => True) t0
        (inp k) (inp' k) (hsig k) (hfail k) _ _ ih (fun _ _ => trivial) ?_
      · dsimp only
        rw [(hab i hi).2.2]
      · exact hab i hi
      · intro hat hat' hdm X X' hsol hsol'
        have hdt := hset.attDt ih t0
        obtain ⟨A, b, a1, a2⟩ := h.exact k X hat hdm hsol
        obtain ⟨A', b', a1', a2'⟩ := h'.exact k X' hat' (by rw [hdt, hset.DTMIN]; exact hdm) hsol'
        rw [hdt] at a1'
        obtain ⟨g1, g2⟩ := solved_surrounded hle hs hs' hset hS hv hv' hR hR' t0 _ _ inp inp' k ih.nodes _ _ rfl
          (fun e he e' he' hee => ⟨by dsimp only; rw [ih.t]; exact hW.Hext _ _ _ ih.nodes e he e' he' hee,
            by dsimp only; rw [ih.t]; exact hW.Hst _ _ _ ih.nodes e he e' he' hee⟩)
          _ (hv.dtmin.trans_le hdm) X X' A A' b b' a1 a2 a1' a2'
        have hpot : ∀ i, cfg.magNode i = true → (inp' k).pot (i.castLE hle) = (inp k).pot i := by
          rw [h.pot k X hat hsol, h'.pot k X' hat' hsol', hdt]
          exact hW.pot _ _ g1
        exact ⟨g1, g2, same_computeAll hmag g1 _ _ hpot, hE _ _ _ (same_setPot hmag g1 _ _ hpot)⟩
  intro a b
  exact ⟨H.ctl, H.t, H.nt, fun i hi => (H.nodes i hi).2, H.rows, H.sols⟩

/-! ## energies, potential, averages -/

section
variable {prm prm' : ℕ → Prm} {mag mag' : ℕ → Bool} {sprm sprm' : ℕ → SurfPrm} {tets tets' : List Tet}
  {tris tris' : List (Tri × ℝ)}

/-- two functions of the nodes agree on the magnetic elements -/
def Agree {α : Type} (mtets : List Tet) (mtris : List (Tri × ℝ)) (f g : ℕ → α) : Prop :=
  (∀ t ∈ mtets, ∀ k, g (t.ind k) = f (t.ind k)) ∧ ∀ t ∈ mtris, ∀ k, g (t.1.ind k) = f (t.1.ind k)

theorem agree4 {α : Type} {mtets : List Tet} {mtris : List (Tri × ℝ)} {f g : ℕ → α} (h : Agree mtets mtris f g) {t t' : Tet}
    (ht : t ∈ mtets) (e : t'.ind = t.ind) : nod4 g t' = nod4 f t := by
  funext k
  unfold nod4
  rw [e]
  exact h.1 t ht k

theorem agree3 {α : Type} {mtets : List Tet} {mtris : List (Tri × ℝ)} {f g : ℕ → α} (h : Agree mtets mtris f g) {t t' : Tri × ℝ}
    (ht : t ∈ mtris) (e : t'.1.ind = t.1.ind) : nod3 g t'.1 = nod3 f t.1 := by
  funext k
  unfold nod3
  rw [e]
  exact h.2 t ht k

/-- **C100** The energies of the sample in its surroundings are those of the sample. -/
theorem C100_energy (hS : SameMagnet prm prm' mag mag' sprm sprm' tets tets' tris tris') (G : Rule) (H : TriElem.Rule) (mu0 : ℝ)
    (p u p' u' : ℕ → V3) (phi phi' : ℕ → ℝ) (hp : Agree (magTet mag tets) tris p p') (hu : Agree (magTet mag tets) tris u u')
    (hphi : Agree (magTet mag tets) tris phi phi') (a a' : EnergyAll.Applied G.n)
    (ha : SameApplied (magTet mag tets) (magTet mag' tets') a a') :
    EnergyAll.terms G H mu0 p' prm' sprm' (magTet mag' tets') tris' u' phi' a' =
      EnergyAll.terms G H mu0 p prm sprm (magTet mag tets) tris u phi a := by
  have hmag := forall₂_mem (l := magTet mag tets) (l' := magTet mag' tets') hS.volumes
  unfold EnergyAll.terms
  rw [EnergyAll.tri_fold, EnergyAll.tri_fold]
  rw [foldl_same (f := EnergyAll.tetStep G mu0 p prm u phi a) ?_ hmag]
  · unfold Llg.surfAniso
    rw [tri_sum_mem hS.surfaces (fun f => if (sprm f.1.reg).Ks ≠ 0 then
        TriElem.anisotropyEnergy H (sprm f.1.reg).Ks (sprm f.1.reg).uk (nod3 p f.1) (nod3 u f.1) else 0) _ ?_ ?_,
      tri_sum_mem hS.surfaces (fun f => TriElem.demagEnergy H mu0 f.2 (nod3 p f.1) (nod3 u f.1) (fun i => phi (f.1.ind i))) _ ?_ ?_]
    · intro f hf f' h
      have e : (fun i => phi' (f'.1.ind i)) = fun i => phi (f.1.ind i) := agree3 hphi hf h.nodes
      rw [agree3 hp hf h.nodes, agree3 hu hf h.nodes, e, h.jump]
    · intro f h
      unfold TriElem.demagEnergy
      rw [h.1]
      ring
    · intro f hf f' h
      rw [agree3 hp hf h.nodes, agree3 hu hf h.nodes, h.material]
    · intro f h
      rw [if_neg (by simpa using h.2)]
  · rintro c t t' ⟨h, h1, h2⟩
    unfold EnergyAll.tetStep
    rw [agree4 hp h1 h.nodes, agree4 hu h1 h.nodes, agree4 hphi h1 h.nodes, h.material]
    congr 1
    cases a <;> cases a' <;> first | exact absurd ha id | skip
    · rfl
    · cases ha
      rfl
    · obtain ⟨rfl, hh⟩ := ha
      dsimp only
      rw [hh t h1 t' h2 h.nodes]

/-- **C100** The demagnetizing potential at a node of the sample is that of the sample alone, when the sum over the charges is
exact: the surroundings have no charges, and the surface of the sample has the same ones. -/
theorem C100_potential (hS : SameMagnet prm prm' mag mag' sprm sprm' tets tets' tris tris') (G : Rule) (H : TriElem.Rule)
    (p u p' u' : ℕ → V3) (hp : Agree (magTet mag tets) tris p p') (hu : Agree (magTet mag tets) tris u u')
    (hi : ∀ f ∈ tris, Function.Injective f.1.ind) (hi' : ∀ f ∈ tris', Function.Injective f.1.ind) (i : ℕ) (hpi : p' i = p i) :
    directPot G H p' (fun r => (prm' r).Ms) (magTet mag' tets') tris' u' i =
      directPot G H p (fun r => (prm r).Ms) (magTet mag tets) tris u i := by
  have hmag : List.Forall₂ _ (magTet mag tets) (magTet mag' tets') := forall₂_mem hS.volumes
  unfold directPot
  rw [Potential.corr_eq H p u tris hi, Potential.corr_eq H p' u' tris' hi',
    tri_sum_mem hS.surfaces (fun f => ∑ j, TriElem.charges H f.2 (nod3 p f.1) (nod3 u f.1) j
      / (p i - TriElem.ptGauss H (nod3 p f.1) j).norm) _ ?_ ?_,
    tri_sum_mem hS.surfaces (fun f => ∑ k, if f.1.ind k = i then TriElem.correction H f.2 (nod3 p f.1) (nod3 u f.1) k else 0)
      _ ?_ ?_,
    forall₂_map (f := fun t => ∑ j, Tetra.charges G (prm t.reg).Ms (nod4 p t) (nod4 u t) j
      / (p i - Tetra.ptGauss G (nod4 p t) j).norm) ?_ hmag]
  · rintro t t' ⟨h, h1, -⟩
    dsimp only
    rw [agree4 hp h1 h.nodes, agree4 hu h1 h.nodes, h.material, hpi]
  · intro f hf f' h
    rw [agree3 hp hf h.nodes, agree3 hu hf h.nodes, h.nodes, h.jump]
  · intro f h
    simp [h.1, correction_zero]
  · intro f hf f' h
    rw [agree3 hp hf h.nodes, agree3 hu hf h.nodes, h.jump, hpi]
  · intro f h
    simp [h.1, charges_zero]

/-- **C100** The average over the whole magnetic sample is that of the sample alone. -/
theorem C100_average (hT : List.Forall₂ (SameTet prm prm' mag mag') (magTet mag tets) (magTet mag' tets')) (G : Rule)
    (p p' : ℕ → V3) (hp : Agree (magTet mag tets) [] p p') (nreg nreg' : ℕ) (f f' : ℕ → ℝ)
    (hf : Agree (magTet mag tets) [] f f') : avg G p' mag' nreg' tets' f' none = avg G p mag nreg tets f none := by
  have hm := forall₂_mem hT
  unfold avg
  dsimp only
  rw [magVol_eq, magVol_eq, forall₂_map (f := tetVol G p) (f' := tetVol G p') ?_ hm,
    forall₂_map (f := fun t => ∑ j, Tetra.weight G (nod4 p t) j * Tetra.interpS G (nod4 f t) j) ?_ hm]
  · simp
  · rintro t t' ⟨h, h1, -⟩
    simp only [ne_eq, reduceCtorEq, not_false_eq_true, not_true_eq_false, and_false, if_false]
    rw [agree4 hp h1 h.nodes, agree4 hf h1 h.nodes]
  · rintro t t' ⟨h, h1, -⟩
    unfold tetVol
    rw [agree4 hp h1 h.nodes]

end

end Verif.Surroundings
