import Verif.Props.Invariance
import Verif.Props.TimeLoop
import Verif.Props.MeshRead
import Verif.Props.SortNodes
import Verif.Props.Tetra

/-!
# C72: from the mesh file to every time step of a run

The theorems about one time step (C39, C65) assume a mesh with positive volumes, unit magnetization and a basis at each
magnetic node, and a positive step. Here these are shown to hold at every attempt of a run of the time loop.
-/

namespace Verif.Run

open Verif.Mesh Verif.Assembly Verif.Tetra Verif.SparseMat Verif.Llg Verif.WeakForm Verif.TimeLoop

/-- the nodes as a function of the index; nothing is used of the value out of range -/
noncomputable def ext {n : ℕ} (nd : Fin n → Node) (i : ℕ) : Node :=
  if h : i < n then nd ⟨i, h⟩ else ⟨0, 0, 0, ⟨0, 0, 0, 0⟩, ⟨0, 0, 0, 0⟩⟩

/-- the vector of unknowns of the linear system: `Xw[2*i]`, `Xw[2*i+1]`, solver.cpp:80-81 -/
noncomputable def unknowns {n : ℕ} (X : Fin n → ℝ × ℝ) (c : ℕ) : ℝ :=
  if h : c / 2 < n then (if c % 2 = 0 then (X ⟨c / 2, h⟩).1 else (X ⟨c / 2, h⟩).2) else 0

/-- what does not change during a run: quadrature, materials, mesh, constants, recentering direction -/
structure Problem where
  G : Rule
  H : TriElem.Rule
  prm : ℕ → Prm
  sprm : ℕ → SurfPrm
  mag : ℕ → Bool
  tets : List Tet
  /-- magnetic triangles with the jump of magnetization -/
  tris : List (Tri × ℝ)
  mu0 : ℝ
  theta : ℝ
  dir : Option (Fin 3)

/-- the fields given from outside during one attempt -/
structure Fields (P : Problem) where
  Hext : Tet → Fin P.G.n → V3
  Hst : Tet → Fin P.G.n → V3
  V : ℝ

/-- the constants of an attempt with step `dt`; the prefactor is set by `timing::set_dt`, time_integration.h:37-42 -/
noncomputable def Problem.step {n : ℕ} {ET : Type} (P : Problem) (cfg : Cfg n ET) (dt : ℝ) : Step :=
  ⟨cfg.gamma0, P.mu0, P.theta, dt, Llg.prefactor cfg.DTMAX dt⟩

/-- what is assumed at the start of the run -/
structure Start {n : ℕ} {ET : Type} (P : Problem) (cfg : Cfg n ET) (nodes : Fin n → Node) : Prop where
  rule : Compiled P.G
  valid : IndicesValid n P.tets
  oriented : ∀ t ∈ P.tets, 0 < detJ (MeshElem.nod4 (fun i => (ext nodes i).p) t)
  magNode : ∀ i : Fin n, cfg.magNode i = true ↔ ∃ t ∈ P.tets, P.mag t.reg = true ∧ ∃ k, t.ind k = i
  unit : ∀ i, cfg.magNode i = true → IsUnit3 (nodes i).next.u
  triValid : ∀ f ∈ P.tris, ∀ k, f.1.ind k < n
  triMag : ∀ f ∈ P.tris, f.1.isMagnetic (Mesh.magNode P.mag n P.tets) = true
  alpha : ∀ r, P.mag r = true → 0 < (P.prm r).alpha
  exchange : ∀ r, P.mag r = true → 0 ≤ (P.prm r).A
  magnetic : ∀ r, P.mag r = true → 0 < (P.prm r).Ms
  gamma0 : 0 < cfg.gamma0
  mu0 : 0 < P.mu0
  theta : 0 ≤ P.theta

/-- `M x = b` is the linear system assembled (in some order of the elements, with some history of the matrix) for an attempt
with step `dt` from the nodes `nd`, after the choice of the bases -/
def IsSystem {n : ℕ} {ET : Type} (P : Problem) (cfg : Cfg n ET) (F : Fields P) (nd : Fin n → Node) (dt : ℝ) (M : Sp ℝ)
    (b : List ℝ) : Prop :=
  ∃ (order : List Tet) (orderT : List (Tri × ℝ)) (before : List (Op ℝ)), order.Perm (magTet P.mag P.tets) ∧ orderT.Perm P.tris ∧
    (∀ o ∈ before, o.InShape (llgShape P.mag n P.tets)) ∧
    (ofShape (llgShape P.mag n P.tets) : Sp ℝ).run (before ++ llgOps (magNode P.mag n P.tets) n
        (elems (tetElem P.G P.prm (P.step cfg dt) (ext nd) F.Hext F.Hst P.dir F.V) order)) = some M ∧
    llgRhs (magNode P.mag n P.tets) n (order.map (tetElem P.G P.prm (P.step cfg dt) (ext nd) F.Hext F.Hst P.dir F.V))
        (orderT.map (triElem P.H P.sprm (ext nd))) = some b

/-- the equation of motion in the tangent plane, from the state of the nodes `nd` with step `dt` -/
def Moves {n : ℕ} {ET : Type} (P : Problem) (cfg : Cfg n ET) (F : Fields P) (nd : Fin n → Node) (dt : ℝ) (v : ℕ → V3) : Prop :=
  (∀ i : Fin n, cfg.magNode i = true → (v i).dot (nd i).cur.u = 0) ∧
  Holds P.G P.H P.prm P.sprm (P.step cfg dt) (fun i => (magNode P.mag n P.tets).getD i false = true) (magTet P.mag P.tets)
    P.tris (ext nd) F.Hext F.Hst P.dir F.V v

section
variable {n : ℕ} {ET : Type} {P : Problem} {cfg : Cfg n ET} {nodes : Fin n → Node}

/-- positions never change -/
theorem run_pos (hN : RecenterKeepsNext cfg) (t0 : ℝ) (pot : Fin n → ℝ × ℝ) (inp : ℕ → Input n) (k : ℕ) (i : Fin n) :
    ((run cfg t0 nodes pot inp k).nodes i).p = (nodes i).p := by
  have hsolved : ∀ (s : St n ET) (inp : Input n) X dt, (solvedNodes cfg inp X dt s i).p = (s.nodes i).p := by
    intro s inp X dt
    unfold solvedNodes updateNodes
    split_ifs <;> rfl
  have hacc : ∀ (s : St n ET) (inp : Input n) X, ((accepted cfg t0 inp s X).nodes i).p = (s.nodes i).p := by
    intro s inp X
    unfold accepted
    dsimp only
    rw [(computeAll_next_u cfg.magNode inp.pot _ i).2.2.1, hsolved]
  induction k with
  | zero => exact (computeAll_next_u cfg.magNode pot nodes i).2.2.1
  | succ k ih =>
    rw [← ih]
    change ((step cfg t0 (inp k) (run cfg t0 nodes pot inp k)).nodes i).p = _
    generalize run cfg t0 nodes pot inp k = s
    cases step_kind cfg t0 (inp k) s with
    | halted _ e => rw [e]
    | output _ _ e => rw [e, forBody_nodes]
    | signal _ _ _ e => rw [e]; rfl
    | small _ _ _ _ e => rw [e]
    | fail _ _ _ _ _ e => rw [e]; rfl
    | reject _ _ _ _ X _ _ e => rw [e]; exact hsolved _ _ _ _
    | exitRec _ _ _ _ X _ _ _ e => rw [e]; exact hacc _ _ X
    | accept _ _ _ _ X _ _ nd hr e =>
      rw [e]
      exact ((hN _ _ hr i).1).trans (hacc _ _ X)

theorem magNode_getD (hs : Start P cfg nodes) (i : Fin n) :
    (magNode P.mag n P.tets).getD i false = true ↔ cfg.magNode i = true :=
  (magNode_iff P.mag n P.tets i i.2).trans (hs.magNode i).symm

theorem magNode_lt {mag : ℕ → Bool} {nod : ℕ} {tets : List Tet} {i : ℕ} (h : (magNode mag nod tets).getD i false = true) :
    i < nod := by
  by_contra hn
  have hl : (magNode mag nod tets).length = nod := magNode_length mag nod tets
  rw [List.getD_eq_getElem?_getD, List.getElem?_eq_none (by omega)] at h
  simp at h

theorem ext_fin (nd : Fin n → Node) (i : Fin n) : ext nd i = nd i := by
  simp [ext]

/-- the conditions of a time step hold at every attempt -/
theorem timeStep (hs : Start P cfg nodes) (hv : Valid cfg) (hU : RecenterKeepsUnit cfg) (hN : RecenterKeepsNext cfg) (t0 : ℝ)
    (pot : Fin n → ℝ × ℝ) (inp : ℕ → Input n) (k : ℕ) (r : ℝ) (dt : ℝ) (hdt : 0 < dt) :
    TimeStep P.G P.prm (P.step cfg dt) P.mag n P.tets (ext (baseProjection r (run cfg t0 nodes pot inp k).nodes)) where
  rule := hs.rule
  valid := hs.valid
  oriented t ht := by
    have e : MeshElem.nod4 (fun i => (ext (baseProjection r (run cfg t0 nodes pot inp k).nodes) i).p) t =
        MeshElem.nod4 (fun i => (ext nodes i).p) t := by
      funext j
      have hj := hs.valid t ht j
      unfold MeshElem.nod4 ext
      dsimp only
      rw [dif_pos hj, dif_pos hj]
      exact run_pos hN t0 pot inp k ⟨_, hj⟩
    rw [e]
    exact hs.oriented t ht
  basis t ht j := by
    have ht1 := (List.mem_filter.mp ht).1
    have hj := hs.valid t ht1 j
    refine ⟨2 / Real.pi * r, (run cfg t0 nodes pot inp k).nodes ⟨_, hj⟩, ?_, ?_⟩
    · unfold ext
      rw [dif_pos hj]
      rfl
    · exact (allUnit_run hU t0 nodes pot inp hs.unit k _
        ((hs.magNode ⟨_, hj⟩).mpr ⟨t, ht1, (List.mem_filter.mp ht).2, j, rfl⟩)).1
  alpha t ht := hs.alpha _ (List.mem_filter.mp ht).2
  exchange t ht := hs.exchange _ (List.mem_filter.mp ht).2
  magnetic t ht := hs.magnetic _ (List.mem_filter.mp ht).2
  gamma0 := hs.gamma0
  mu0 := hs.mu0
  theta := hs.theta
  dt := hdt
  pref := ⟨cfg.DTMAX, hv.dtmin.trans_le hv.dtmax, rfl⟩

/-- the weak form reads positions and current data only -/
theorem holds_same (F : Fields P) (dt : ℝ) (nd nd' : ℕ → Node) (hp : ∀ i, (nd' i).p = (nd i).p)
    (hc : ∀ i, (nd' i).cur = (nd i).cur) (v : ℕ → V3) (magN : ℕ → Prop)
    (h : Holds P.G P.H P.prm P.sprm (P.step cfg dt) magN (magTet P.mag P.tets) P.tris nd' F.Hext F.Hst P.dir F.V v) :
    Holds P.G P.H P.prm P.sprm (P.step cfg dt) magN (magTet P.mag P.tets) P.tris nd F.Hext F.Hst P.dir F.V v := by
  have hid : ∀ t : Tet, renT (Equiv.refl ℕ) t = t := fun t => rfl
  have hidf : ∀ t : Tri × ℝ, renF (Equiv.refl ℕ) t = t := fun t => rfl
  exact holds_pull P.H P.sprm (σ := Equiv.refl ℕ) (nodes := nd) (nodes' := nd')
    (tets := P.tets) (tets' := P.tets) (tris := P.tris) (tris' := P.tris)
    ⟨hp, hc, by rw [funext hid]; simp, by rw [funext hidf]; simp⟩ F.Hext F.Hst F.Hext F.Hst
    (fun _ _ => rfl) (fun _ _ => rfl) P.dir F.V magN magN (fun _ h => h) v h

/-- the weak form does not see the bases -/
theorem holds_basis (F : Fields P) (r dt : ℝ) (nd : Fin n → Node) (v : ℕ → V3) (magN : ℕ → Prop) :
    Holds P.G P.H P.prm P.sprm (P.step cfg dt) magN (magTet P.mag P.tets) P.tris (ext (baseProjection r nd)) F.Hext F.Hst
      P.dir F.V v ↔
    Holds P.G P.H P.prm P.sprm (P.step cfg dt) magN (magTet P.mag P.tets) P.tris (ext nd) F.Hext F.Hst P.dir F.V v := by
  have hp : ∀ i, (ext (baseProjection r nd) i).p = (ext nd i).p := by
    intro i; unfold ext; split_ifs <;> rfl
  have hc : ∀ i, (ext (baseProjection r nd) i).cur = (ext nd i).cur := by
    intro i; unfold ext; split_ifs <;> rfl
  exact ⟨holds_same F dt _ _ hp hc v magN, holds_same F dt _ _ (fun i => (hp i).symm) (fun i => (hc i).symm) v magN⟩

theorem unknowns_even (X : Fin n → ℝ × ℝ) (i : Fin n) : unknowns X (2 * i) = (X i).1 := by
  unfold unknowns
  simp

theorem unknowns_odd (X : Fin n → ℝ × ℝ) (i : Fin n) : unknowns X (2 * i + 1) = (X i).2 := by
  unfold unknowns
  have h : (2 * (i : ℕ) + 1) / 2 = i := by omega
  have h2 : (2 * (i : ℕ) + 1) % 2 = 1 := by omega
  simp [h, h2]

/-- **C72** Whatever was computed before in a run, whatever the time step and the bases chosen, the linear system of the next
attempt has exactly one solution. -/
theorem C72_solvable (hs : Start P cfg nodes) (hv : Valid cfg) (hU : RecenterKeepsUnit cfg) (hN : RecenterKeepsNext cfg)
    (t0 : ℝ) (pot : Fin n → ℝ × ℝ) (inp : ℕ → Input n) (k : ℕ) (F : Fields P) (r dt : ℝ) (hdt : 0 < dt) :
    let nd := baseProjection r (run cfg t0 nodes pot inp k).nodes
    (∃ M b, IsSystem P cfg F nd dt M b) ∧
    ∀ M b, IsSystem P cfg F nd dt M b →
      ∃ X : Fin n → ℝ × ℝ, M.mult (unknowns X) = b ∧ ∀ Y : Fin n → ℝ × ℝ, M.mult (unknowns Y) = b → Y = X := by
  intro nd
  have hT := timeStep hs hv hU hN t0 pot inp k r dt hdt
  constructor
  · obtain ⟨M, b, h1, h2, -⟩ := C65_weak_form hT P.H P.sprm P.tris hs.triValid hs.triMag F.Hext F.Hst P.dir F.V _ (List.Perm.refl _)
      _ (List.Perm.refl _) [] (by simp)
    exact ⟨M, b, _, _, [], List.Perm.refl _, List.Perm.refl _, by simp, h1, h2⟩
  · rintro M b ⟨order, orderT, before, ho, hoT, hb, h1, h2⟩
    obtain ⟨M', e1, hx⟩ := C39_unique_solution hT F.Hext F.Hst P.dir F.V order ho before hb
    rw [h1] at e1
    cases e1
    obtain ⟨b', e2, hlen, -⟩ := C22_rhs P.mag n P.tets hT.valid
      (tetElem P.G P.prm (P.step cfg dt) (ext nd) F.Hext F.Hst P.dir F.V) (fun _ => rfl) order ho P.tris
      (triElem P.H P.sprm (ext nd)) hs.triValid orderT hoT
    rw [h2] at e2
    cases e2
    obtain ⟨x, hx1, hx2⟩ := hx fun i => b[i]'(by omega)
    have eb : (List.ofFn fun i : Fin (2 * n) => b[i]'(by omega)) = b := by
      refine List.ext_getElem (by simp [hlen]) fun i _ _ => by simp
    rw [eb] at hx1 hx2
    have eX : ∀ y : Fin (2 * n) → ℝ, Llg.ext y =
        unknowns fun i : Fin n => (y ⟨2 * i, by omega⟩, y ⟨2 * i + 1, by omega⟩) := by
      intro y
      funext c
      unfold Llg.ext unknowns
      by_cases hc : c < 2 * n
      · rw [dif_pos hc, dif_pos (by omega)]
        have := Nat.div_add_mod c 2
        split_ifs with h0
        · exact congrArg y (Fin.ext (by simp only; omega))
        · exact congrArg y (Fin.ext (by simp only; omega))
      · rw [dif_neg hc, dif_neg (by omega)]
    have eY : ∀ Y : Fin n → ℝ × ℝ, unknowns Y = Llg.ext fun c : Fin (2 * n) => unknowns Y c := by
      intro Y
      funext c
      unfold Llg.ext
      split_ifs with hc
      · rfl
      · unfold unknowns
        rw [dif_neg (by omega)]
    refine ⟨_, (by rw [← eX x]; exact hx1), fun Y hY => ?_⟩
    rw [eY Y] at hY
    have := hx2 _ hY
    funext i
    refine Prod.ext ?_ ?_
    · dsimp only
      rw [← this]
      exact (unknowns_even Y i).symm
    · dsimp only
      rw [← this]
      exact (unknowns_odd Y i).symm

/-- the exact solution of the system of an attempt is the velocity of the equation of motion, which determines it -/
theorem exact_velocity (hs : Start P cfg nodes) (hv : Valid cfg) (hU : RecenterKeepsUnit cfg) (hN : RecenterKeepsNext cfg)
    (t0 : ℝ) (pot : Fin n → ℝ × ℝ) (inp : ℕ → Input n) (k : ℕ) (F : Fields P) (r dt : ℝ) (hpos : 0 < dt)
    (X : Fin n → ℝ × ℝ) (M : Sp ℝ) (b : List ℝ)
    (hsys : IsSystem P cfg F (baseProjection r (run cfg t0 nodes pot inp k).nodes) dt M b) (hM : M.mult (unknowns X) = b) :
    let nd := (run cfg t0 nodes pot inp k).nodes
    let v := ofComp (ext (baseProjection r nd)) (unknowns X)
    Moves P cfg F nd dt v ∧ ∀ w, Moves P cfg F nd dt w → ∀ i : Fin n, cfg.magNode i = true → w i = v i := by
  intro nd0 v0
  have hT := timeStep hs hv hU hN t0 pot inp k r dt hpos
  obtain ⟨order, orderT, before, ho, hoT, hb, h1, h2⟩ := hsys
  obtain ⟨M', b', e1, e2, hsol⟩ := C65_weak_form hT P.H P.sprm P.tris hs.triValid hs.triMag F.Hext F.Hst P.dir F.V order ho
    orderT hoT before hb
  rw [h1] at e1
  cases e1
  rw [h2] at e2
  cases e2
  have hholds := ((hsol _).mp hM).2
  set nd := ext (baseProjection r nd0) with hnd
  have hcur : ∀ i : Fin n, (nd i).cur = (nd0 i).cur := by
    intro i
    rw [hnd, ext_fin]
    rfl
  have htan : ∀ i : Fin n, cfg.magNode i = true → (ofComp nd (unknowns X) i).dot (nd0 i).cur.u = 0 := by
    intro i hi
    have := ofComp_tangent hT (unknowns X) i ((magNode_getD hs i).mpr hi)
    rw [hcur] at this
    exact this
  refine ⟨⟨htan, (holds_basis F _ _ _ _ _).mp hholds⟩, ?_⟩
  rintro w ⟨w1, w2⟩ i hi
  obtain ⟨t, ht1, ht2, j, hj⟩ := (hs.magNode i).mp hi
  have := holds_unique hT P.H P.sprm P.tris F.Hext F.Hst P.dir F.V _ w (ofComp nd (unknowns X)) (fun i hi => by
      have hin := magNode_lt hi
      have := w1 ⟨i, hin⟩ ((magNode_getD hs ⟨i, hin⟩).mp hi)
      rw [← hcur] at this
      exact this) (fun i hi => ofComp_tangent hT (unknowns X) i hi) ((holds_basis F _ _ _ _ _).mpr w2) hholds t
    (List.mem_filter.mpr ⟨ht1, ht2⟩) j
  rw [hj] at this
  exact this

/-- what a node becomes with the exact solution depends on the velocity only -/
theorem solved_eq (t0 : ℝ) (pot : Fin n → ℝ × ℝ) (inp : ℕ → Input n) (k : ℕ) (i : Fin n) (X : Fin n → ℝ × ℝ) (dt : ℝ)
    (hi : cfg.magNode i = true) :
    let s := run cfg t0 nodes pot inp k
    let v := ofComp (ext (baseProjection (inp k).r s.nodes)) (unknowns X) i
    (solvedNodes cfg (inp k) X dt s i).next.v = cfg.gamma0 * v ∧
    (solvedNodes cfg (inp k) X dt s i).next.u = ((s.nodes i).cur.u + (dt * cfg.gamma0) * v).normalize := by
  intro s v
  have e3 : ext (baseProjection (inp k).r s.nodes) i = baseProjection (inp k).r s.nodes i := ext_fin _ i
  simp only [solvedNodes, updateNodes, hi, if_true, Node.makeEvol, v]
  unfold ofComp
  rw [unknowns_even, unknowns_odd, e3]
  constructor
  · ext <;> simp only [V3.add_x, V3.add_y, V3.add_z, V3.smul_x, V3.smul_y, V3.smul_z] <;> ring
  · congr 1
    change (s.nodes i).cur.u + _ = _
    ext <;> simp only [V3.add_x, V3.add_y, V3.add_z, V3.smul_x, V3.smul_y, V3.smul_z] <;> ring

/-- **C72** In a run whose linear systems are solved exactly, every step that is kept moves the magnetization of each magnetic
node along the velocity given by the equation of motion (which determines it), and normalizes. -/
theorem C72_step (hs : Start P cfg nodes) (hv : Valid cfg) (hU : RecenterKeepsUnit cfg) (hN : RecenterKeepsNext cfg)
    (t0 : ℝ) (pot : Fin n → ℝ × ℝ) (inp : ℕ → Input n) (k : ℕ) (F : Fields P)
    (hacc : TimeLoop.Accepted (run cfg t0 nodes pot inp k) (run cfg t0 nodes pot inp (k + 1)))
    (hex : ∀ X, (inp k).sol = some X → ∃ M b, IsSystem P cfg F
      (baseProjection (inp k).r (run cfg t0 nodes pot inp k).nodes) (run cfg t0 nodes pot inp (k + 1)).dt M b ∧
      M.mult (unknowns X) = b) :
    let s := run cfg t0 nodes pot inp k
    let s' := run cfg t0 nodes pot inp (k + 1)
    ∃ v, Moves P cfg F s.nodes s'.dt v ∧
      (∀ w, Moves P cfg F s.nodes s'.dt w → ∀ i : Fin n, cfg.magNode i = true → w i = v i) ∧
      ∀ i : Fin n, cfg.magNode i = true →
        (s'.nodes i).next.u = ((s.nodes i).cur.u + (s'.dt * cfg.gamma0) * v i).normalize := by
  intro s s'
  obtain ⟨-, -, -, hdt, X, hX, -, hcase⟩ := accepted_kind hacc
  have hdt' : s'.dt = attDt cfg t0 s := by
    change (TimeLoop.step cfg t0 (inp k) s).dt = _
    rcases hcase with ⟨-, e⟩ | ⟨nd, -, e⟩ <;> rw [e] <;> rfl
  have hpos : 0 < s'.dt := by
    rw [hdt']
    exact hv.dtmin.trans_le hdt
  obtain ⟨M, b, hsys, hM⟩ := hex X hX
  obtain ⟨m1, m2⟩ := exact_velocity hs hv hU hN t0 pot inp k F (inp k).r s'.dt hpos X M b hsys hM
  refine ⟨_, m1, m2, ?_⟩
  intro i hi
  have e0 : (s'.nodes i).next.u = (solvedNodes cfg (inp k) X (attDt cfg t0 s) s i).next.u := by
    change ((TimeLoop.step cfg t0 (inp k) s).nodes i).next.u = _
    rcases hcase with ⟨-, e⟩ | ⟨nd', hr, e⟩
    · rw [e]
      exact (computeAll_next_u cfg.magNode (inp k).pot _ i).1
    · rw [e]
      exact ((hN _ _ hr i).2.1).trans (computeAll_next_u cfg.magNode (inp k).pot _ i).1
  rw [e0, hdt']
  exact (solved_eq t0 pot inp k i X _ hi).2

theorem forall2_right {α β : Type} {R : α → β → Prop} {l : List α} {m : List β} (h : List.Forall₂ R l m) {b : β} (hb : b ∈ m) :
    ∃ a ∈ l, R a b := by
  induction h with
  | nil => simp at hb
  | cons h1 _ ih =>
    rcases List.mem_cons.mp hb with rfl | hb
    · exact ⟨_, by simp, h1⟩
    · obtain ⟨a, ha, hr⟩ := ih hb
      exact ⟨a, by simp [ha], hr⟩

/-- **C72** The meshes made by the program are such starts: a well formed file that is read, then renumbered whatever the
result of the sort, has elements with valid indices and positive volumes. -/
theorem C72_start {eps scale : ℝ} {regT regS : List Text.Str} {f : MeshRead.File} (heps : 0 < eps)
    (hw : MeshRead.WellFormed f) (m : MeshRead.Read) (hm : MeshRead.readMesh eps scale regT regS f = .ok m)
    (tri : List Tri) (htri : ∀ t ∈ tri, ∀ k, t.ind k < m.node.length)
    (pos : Option V3 → ℝ) (perm : List ℕ)
    (hp : SortNodes.IsStdSort (SortNodes.lessAlong pos m.node) (List.range m.node.length) perm) :
    ∃ M, SortNodes.sortNodes perm ⟨m.node, m.tet, tri, []⟩ = some M ∧ M.node.length = f.nodes.length ∧
      ∀ (P : Problem) (nodes : Fin M.node.length → Node),
        P.tets = M.tet → (∀ i : Fin M.node.length, M.node[i] = some (nodes i).p) →
        IndicesValid M.node.length P.tets ∧ ∀ t ∈ P.tets, 0 < detJ (MeshElem.nod4 (fun i => (ext nodes i).p) t) := by
  obtain ⟨hlen, hat, htet, -⟩ := MeshRead.C70_read hw m hm
  have hidx : ∀ t ∈ m.tet, (∀ k, t.ind k < m.node.length) ∧
      0 < MeshRead.vol6 (m.pos (t.ind 0)) (m.pos (t.ind 1)) (m.pos (t.ind 2)) (m.pos (t.ind 3)) := by
    intro t ht
    obtain ⟨e, he, hR⟩ : ∃ e ∈ MeshRead.fileElems 4 4 regT f.vol, MeshRead.IsTet eps regT m.pos e t :=
      forall2_right htet ht
    refine ⟨fun k => ?_, heps.trans_le hR.vol⟩
    have htag : ∀ k, e.2 k - 1 < m.node.length := by
      intro k
      simp only [MeshRead.fileElems, List.mem_flatMap, List.mem_map] at he
      obtain ⟨en, hen, g, -, b, hb, tg, htg, rfl⟩ := he
      obtain ⟨x, hx, hx2⟩ := List.mem_map.mp
        (hw.refer en (by simp [hen]) b (List.mem_filter.mp hb).1 _ (MeshRead.mem_elemsOf htg k))
      have := (hat x.1 x.2 hx).2
      rw [hx2] at this
      exact (List.getElem?_eq_some_iff.mp this).1
    rcases hR.ind with h | h <;> rw [h]
    · exact htag k
    · fin_cases k
      · exact htag 0
      · exact htag 1
      · exact htag 3
      · exact htag 2
  obtain ⟨M, h1, h2, -, -, -, h3, -⟩ := SortNodes.C28_renumbering pos ⟨m.node, m.tet, tri, []⟩ perm hp
    ⟨fun t ht => (hidx t ht).1, htri⟩
  refine ⟨M, h1, h2.length_eq.trans hlen, ?_⟩
  intro P nodes hP hn
  have hall : ∀ t' ∈ M.tet, ∃ t ∈ m.tet, SortNodes.SameTet ⟨m.node, m.tet, tri, []⟩ M t t' :=
    fun t' ht' => forall2_right h3 ht'
  rw [hP]
  have hv : IndicesValid M.node.length M.tet := by
    intro t' ht' k
    obtain ⟨t, ht, -, hsame⟩ := hall t' ht'
    have := (hsame k).1
    dsimp only at this
    rw [List.getElem?_eq_getElem ((hidx t ht).1 k)] at this
    exact (List.getElem?_eq_some_iff.mp this).1
  refine ⟨hv, ?_⟩
  intro t' ht'
  obtain ⟨t, ht, -, hsame⟩ := hall t' ht'
  have e : MeshElem.nod4 (fun i => (ext nodes i).p) t' = fun k => m.pos (t.ind k) := by
    funext k
    have hk := hv t' ht' k
    have h5 := (hsame k).1
    dsimp only at h5
    have h6 := hn ⟨_, hk⟩
    unfold MeshElem.nod4 ext MeshRead.Read.pos
    dsimp only
    rw [dif_pos hk, ← h5, List.getElem?_eq_getElem hk]
    change _ = ((some M.node[(⟨t'.ind k, hk⟩ : Fin _)]).getD none).getD 0
    rw [h6]
    rfl
  rw [e, detJ_eq]
  exact (hidx t ht).2

end

/-! ## A run that meets the hypotheses -/

/-- two tetrahedrons of different materials, all magnetic -/
noncomputable def exP (H : TriElem.Rule) : Problem :=
  { G := rule5, H := H, prm := Energy.ex2Prm, sprm := fun _ => ⟨0, 0⟩, mag := fun _ => true, tets := MeshElem.exT2, tris := []
    mu0 := 1, theta := 1 / 2, dir := none }

/-- a field which is not the same in the two regions -/
noncomputable def exF (H : TriElem.Rule) : Fields (exP H) := { Hext := Energy.ex2H, Hst := fun _ _ => 0, V := 0 }

noncomputable def exCfg (D : ℝ) : Cfg 5 ℝ :=
  { tf := 20, DTMIN := 1, DTMAX := 100, DUMAX := D, timeStep := 10, savePeriod := 2, gamma0 := 1, add := (· + ·)
    magNode := fun _ => true, energy := fun _ t => t, recenter := some }

noncomputable def exNd : Fin 5 → Node := fun i =>
  ⟨MeshElem.exP2 i, 0, 0, ⟨0, 0, 0, 0⟩, ⟨if i = 0 ∨ i = 4 then ⟨1, 0, 0⟩ else ⟨0, 0, 1⟩, 0, 0, 0⟩⟩

theorem ex_start (H : TriElem.Rule) (D : ℝ) : Start (exP H) (exCfg D) exNd where
  rule := Or.inr rfl
  valid := Energy.ex2_timeStep.valid
  oriented := by
    intro t ht
    have e : MeshElem.nod4 (fun i => (ext exNd i).p) t = MeshElem.nod4 MeshElem.exP2 t := by
      funext k
      have := Energy.ex2_timeStep.valid t ht k
      unfold MeshElem.nod4 ext
      dsimp only
      rw [dif_pos this]
      rfl
    rw [e]
    exact MeshElem.ex2_pos t ht
  magNode := by
    intro i
    refine ⟨fun _ => ?_, fun _ => rfl⟩
    fin_cases i
    · exact ⟨⟨![0, 1, 2, 3], 0⟩, by simp [exP, MeshElem.exT2], rfl, 0, rfl⟩
    · exact ⟨⟨![0, 1, 2, 3], 0⟩, by simp [exP, MeshElem.exT2], rfl, 1, rfl⟩
    · exact ⟨⟨![0, 1, 2, 3], 0⟩, by simp [exP, MeshElem.exT2], rfl, 2, rfl⟩
    · exact ⟨⟨![0, 1, 2, 3], 0⟩, by simp [exP, MeshElem.exT2], rfl, 3, rfl⟩
    · exact ⟨⟨![4, 1, 3, 2], 1⟩, by simp [exP, MeshElem.exT2], rfl, 0, rfl⟩
  unit := by
    intro i _
    unfold exNd
    dsimp only
    split_ifs <;> simp [IsUnit3]
  triValid := by simp [exP]
  triMag := by simp [exP]
  alpha := fun _ _ => by simp [exP, Energy.ex2Prm]
  exchange := fun _ _ => by simp [exP, Energy.ex2Prm]
  magnetic := fun t _ => by
    simp only [exP, Energy.ex2Prm]
    split_ifs <;> norm_num
  gamma0 := by norm_num [exCfg]
  mu0 := by norm_num [exP]
  theta := by norm_num [exP]

theorem ex_valid (D : ℝ) (hD : 0 ≤ D) : Valid (exCfg D) :=
  ⟨by norm_num [exCfg], by norm_num [exCfg], by norm_num [exCfg], hD, fun t dt => by norm_num [exCfg]⟩

theorem ex_keeps (D : ℝ) : RecenterKeepsUnit (exCfg D) ∧ RecenterKeepsNext (exCfg D) :=
  ⟨fun _ _ h hu => by cases h; exact hu, fun _ _ h _ => by cases h; exact ⟨rfl, rfl, rfl⟩⟩

theorem ex_run1 (D : ℝ) (inp : ℕ → Input 5) :
    let s := run (exCfg D) 0 exNd (fun _ => (0, 0)) inp 1
    s.ctl = .running ∧ s.t = 0 ∧ s.stepNb = 1 ∧ s.nt = 0 ∧ s.stepper.softMax = 10 ∧
      s.nodes = computeAllNodes (fun _ => true) (fun _ => (0, 0)) exNd := by
  have hcnt : stepCount (exCfg D) 0 = 2 := by
    have : (((exCfg D).tf - 0) / (exCfg D).timeStep) = 2 := by norm_num [exCfg]
    unfold stepCount cRound
    rw [this, if_pos (by norm_num)]
    norm_num [Int.floor_eq_iff]
  have hctl : (init (exCfg D) 0 exNd fun _ => (0, 0)).ctl = .running := by
    change (if 0 ≤ stepCount (exCfg D) 0 then Ctl.running else Ctl.done 0) = _
    rw [hcnt]; rfl
  have e : run (exCfg D) 0 exNd (fun _ => (0, 0)) inp 1 =
      { saver (exCfg D) (init (exCfg D) 0 exNd fun _ => (0, 0)) with stepNb := 1 } := by
    change TimeLoop.step (exCfg D) 0 (inp 0) (init (exCfg D) 0 exNd fun _ => (0, 0)) = _
    have hnot : ¬ (init (exCfg D) 0 exNd fun _ => (0, 0)).t < tTarget (exCfg D) 0
        (init (exCfg D) 0 exNd fun _ => (0, 0)).stepNb := by
      simp [init, tTarget]
    have hc : ((0 + 1 : ℕ) : ℤ) ≤ stepCount (exCfg D) 0 := by rw [hcnt]; norm_num
    unfold TimeLoop.step
    rw [hctl]
    simp only
    rw [if_neg hnot]
    exact if_pos hc
  rw [e]
  refine ⟨hctl, rfl, rfl, rfl, ?_, rfl⟩
  change Real.sqrt ((1 : ℝ) * 100) = 10
  rw [show (1 : ℝ) * 100 = 10 ^ 2 by norm_num, Real.sqrt_sq (by norm_num)]

/-- the hypotheses of C72 are met by a run which keeps a step with the exact solution of the system -/
example (H : TriElem.Rule) : ∃ D X, let inp : ℕ → Input 5 := fun _ => ⟨false, 0, some X, fun _ => (0, 0)⟩
    Start (exP H) (exCfg D) exNd ∧ Valid (exCfg D) ∧ RecenterKeepsUnit (exCfg D) ∧ RecenterKeepsNext (exCfg D) ∧
    TimeLoop.Accepted (run (exCfg D) 0 exNd (fun _ => (0, 0)) inp 1) (run (exCfg D) 0 exNd (fun _ => (0, 0)) inp 2) ∧
    ∀ Y, (inp 1).sol = some Y → ∃ M b, IsSystem (exP H) (exCfg D) (exF H)
      (baseProjection (inp 1).r (run (exCfg D) 0 exNd (fun _ => (0, 0)) inp 1).nodes)
      (run (exCfg D) 0 exNd (fun _ => (0, 0)) inp 2).dt M b ∧ M.mult (unknowns Y) = b := by
  -- the exact solution
  obtain ⟨⟨M, b, hsys⟩, hx⟩ := C72_solvable (ex_start H 0) (ex_valid 0 le_rfl) (ex_keeps 0).1 (ex_keeps 0).2 0 (fun _ => (0, 0))
    (fun _ => ⟨false, 0, none, fun _ => (0, 0)⟩) 1 (exF H) 0 10 (by norm_num)
  obtain ⟨X, hX, -⟩ := hx M b hsys
  have hD : 0 ≤ 10 * vMax 1 (fun _ => true) X := by
    unfold vMax
    positivity
  refine ⟨10 * vMax 1 (fun _ => true) X, X, ?_⟩
  intro inp
  obtain ⟨h1, h2, h3, h4, h5, h6⟩ := ex_run1 (10 * vMax 1 (fun _ => true) X) inp
  set D := 10 * vMax 1 (fun _ => true) X with hDdef
  have hlt : (run (exCfg D) 0 exNd (fun _ => (0, 0)) inp 1).t < tTarget (exCfg D) 0
      (run (exCfg D) 0 exNd (fun _ => (0, 0)) inp 1).stepNb := by
    rw [h2, h3]; norm_num [tTarget, exCfg]
  have hatt : attDt (exCfg D) 0 (run (exCfg D) 0 exNd (fun _ => (0, 0)) inp 1) = 10 := by
    have hs : tTarget (exCfg D) 0 (run (exCfg D) 0 exNd (fun _ => (0, 0)) inp 1).stepNb
        - (run (exCfg D) 0 exNd (fun _ => (0, 0)) inp 1).t = 10 := by
      rw [h2, h3]; norm_num [tTarget, exCfg]
    unfold attDt
    rw [hs]
    unfold TimeStepper.step
    simp only
    rw [h5]
    norm_num
  have e2 : run (exCfg D) 0 exNd (fun _ => (0, 0)) inp 2 =
      accepted (exCfg D) 0 (inp 1) (run (exCfg D) 0 exNd (fun _ => (0, 0)) inp 1) X := by
    change TimeLoop.step (exCfg D) 0 (inp 1) (run (exCfg D) 0 exNd (fun _ => (0, 0)) inp 1) = _
    unfold TimeLoop.step
    rw [h1]
    simp only
    rw [if_pos hlt, whileBody_accept (X := X) _ _ _ _ rfl (by rw [hatt]; norm_num [exCfg]) rfl
      (by rw [hatt]; exact lt_irrefl _)]
    rfl
  refine ⟨ex_start H D, ex_valid D hD, (ex_keeps D).1, (ex_keeps D).2, ?_, ?_⟩
  · rw [e2]
    rfl
  · intro Y hY
    cases hY
    refine ⟨M, b, ?_, hX⟩
    have edt : (run (exCfg D) 0 exNd (fun _ => (0, 0)) inp 2).dt = 10 := by
      rw [e2]
      exact hatt
    rw [edt, h6]
    rw [(ex_run1 0 _).2.2.2.2.2] at hsys
    exact hsys

/-- C72_start: a file that is read, and a sorting of its nodes along x -/
example : MeshRead.WellFormed MeshRead.exFile ∧ ∃ m perm, MeshRead.readMesh 1 2 [MeshRead.defaultName, ['a']]
    [MeshRead.defaultName, ['s']] MeshRead.exFile = .ok m ∧ m.tet.length = 1 ∧
    SortNodes.IsStdSort (SortNodes.lessAlong (fun x => (x.getD 0).x) m.node) (List.range m.node.length) perm := by
  obtain ⟨h1, m, h2, h3⟩ := MeshRead.exFile_read
  classical
  let key : ℕ → ℝ := fun i => ((m.node.getD i none).getD 0).x
  refine ⟨h1, m, (List.range m.node.length).mergeSort fun a b => decide (key a ≤ key b), h2, h3, List.mergeSort_perm _ _, ?_⟩
  refine (List.pairwise_mergeSort (le := fun a b => decide (key a ≤ key b)) (fun a b c hab hbc => ?_) (fun a b => ?_) _).imp ?_
  · simp only [decide_eq_true_eq] at hab hbc ⊢
    exact hab.trans hbc
  · simp only [Bool.or_eq_true, decide_eq_true_eq]
    exact le_total _ _
  · intro a b hab
    simp only [decide_eq_true_eq] at hab
    rintro ⟨x, y, hx, hy, hlt⟩
    simp only [key, List.getD_eq_getElem?_getD, hx, hy, Option.getD_some] at hab
    exact absurd hlt (not_lt.mpr hab)

end Verif.Run
