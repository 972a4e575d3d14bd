import Verif.Props.Equilibrium
import Verif.Props.Motion

/-!
# C80, the step after a restart

A `.sol` file holds the magnetization and the magnetic potential, not their rates (`C80_restore`). Both rates enter the equation
of the next step (`explicitField`).
-/

namespace Verif.Run

open Verif.Mesh Verif.Assembly Verif.Tetra Verif.SparseMat Verif.Llg Verif.WeakForm Verif.TimeLoop

section
variable {n : ℕ} {ET : Type} {P : Problem} {cfg : Cfg n ET} {nodes nodes' : Fin n → Node}

/-- the state `b` after a restart from the state `a`: same magnetization and potential, rates zero -/
def Forgot (a b : Fin n → Node) : Prop :=
  ∀ i, (b i).p = (a i).p ∧ (b i).cur.u = (a i).cur.u ∧ (b i).cur.phi = (a i).cur.phi ∧ (b i).cur.v = 0 ∧ (b i).cur.phiv = 0

/-- the part of the field of a step that comes from the last velocity: extrapolation of the demagnetizing field and of the
anisotropy field, and correction of the spin accumulation field -/
noncomputable def lostField (G : Rule) (m : Prm) (s : Step) (nd : Nodal) (Hst : Fin G.n → V3) (j : Fin G.n) : V3 :=
  (s.theta * s.dt) * interpField nd.p nd.phiv
    + (hAniso m s (interpV G nd.u j) (interpV G nd.v j) - hAniso m s (interpV G nd.u j) 0)
    - (s.theta * s.dt * s.gamma0 * (Hst j).dot (interpV G nd.u j)) * interpV G nd.v j

theorem residual_forgot (G : Rule) (m : Prm) (s : Step) (na nb : Nodal) (hp : nb.p = na.p) (hu : nb.u = na.u)
    (hphi : nb.phi = na.phi) (hv : ∀ k, nb.v k = 0) (hphiv : ∀ k, nb.phiv k = 0) (Hext Hst : Fin G.n → V3) (V : ℝ)
    (v w : Fin 4 → V3) :
    WeakForm.residual G m s nb Hext Hst none V v w =
      WeakForm.residual G m s na Hext Hst none V v w + work G na.p (lostField G m s na Hst) w := by
  have hd : effDamping G m s nb Hext Hst = effDamping G m s na Hext Hst := by
    funext j
    unfold effDamping uHeff
    rw [hp, hu, hphi]
  have hw : work G na.p (explicitField G m s na Hext Hst) w =
      work G na.p (explicitField G m s nb Hext Hst) w + work G na.p (lostField G m s na Hst) w := by
    unfold work
    rw [← Finset.sum_add_distrib]
    refine Finset.sum_congr rfl fun j _ => ?_
    rw [← mul_add, ← add_dot]
    congr 2
    unfold explicitField lostField
    rw [hp, hu, hphi, Energy.interpField_zero na.p nb.phiv hphiv, Energy.interpV_zero nb.v hv j]
    ext <;> simp <;> ring
  unfold WeakForm.residual
  rw [hd, hp, hu, hw]
  unfold drift
  ring

/-- **C80** What a restart loses: the velocity of the interrupted run at its next step is the velocity of the restarted run, with
the same time step, if and only if the field of the lost rates has no effect in any tangent direction. -/
theorem C80_continuation (hs : Start P cfg nodes) (hd : P.dir = none) {a b : Fin n → Node} (hf : Forgot a b) (F : Fields P)
    (dt : ℝ) (v : ℕ → V3) (h : Moves P cfg F a dt v) :
    Moves P cfg F b dt v ↔
      ∀ w : ℕ → V3, (∀ i, (magNode P.mag n P.tets).getD i false = true → (w i).dot (ext a i).cur.u = 0) →
        ((magTet P.mag P.tets).map fun t => work P.G (nodalOf (ext a) t).p
          (lostField P.G (P.prm t.reg) (P.step cfg dt) (nodalOf (ext a) t) (F.Hst t)) fun k => w (t.ind k)).sum = 0 := by
  have key : ∀ i, i < n → (ext b i).p = (ext a i).p ∧ (ext b i).cur.u = (ext a i).cur.u ∧ (ext b i).cur.phi = (ext a i).cur.phi ∧
      (ext b i).cur.v = 0 ∧ (ext b i).cur.phiv = 0 := by
    intro i hi
    unfold ext
    rw [dif_pos hi, dif_pos hi]
    exact hf _
  have h2 := h.2
  rw [hd] at h2
  have hl : ∀ w : ℕ → V3, ((magTet P.mag P.tets).map fun t => WeakForm.residual P.G (P.prm t.reg) (P.step cfg dt)
        (nodalOf (ext b) t) (F.Hext t) (F.Hst t) none F.V (fun k => v (t.ind k)) (fun k => w (t.ind k))).sum =
      ((magTet P.mag P.tets).map fun t => WeakForm.residual P.G (P.prm t.reg) (P.step cfg dt) (nodalOf (ext a) t) (F.Hext t)
        (F.Hst t) none F.V (fun k => v (t.ind k)) (fun k => w (t.ind k))).sum
      + ((magTet P.mag P.tets).map fun t => work P.G (nodalOf (ext a) t).p
          (lostField P.G (P.prm t.reg) (P.step cfg dt) (nodalOf (ext a) t) (F.Hst t)) fun k => w (t.ind k)).sum := by
    intro w
    rw [← List.sum_map_add]
    refine congrArg List.sum (List.map_congr_left fun t ht => ?_)
    have hk := fun k => key _ (hs.valid t (List.mem_filter.mp ht).1 k)
    exact residual_forgot P.G (P.prm t.reg) (P.step cfg dt) (nodalOf (ext a) t) (nodalOf (ext b) t) (funext fun k => (hk k).1)
      (funext fun k => (hk k).2.1) (funext fun k => (hk k).2.2.1) (fun k => (hk k).2.2.2.1) (fun k => (hk k).2.2.2.2) _ _ _ _ _
  have hr : ∀ w : ℕ → V3, (P.tris.map fun f => surfaceWork P.H (P.sprm f.1.reg) f.2 (fun i => (ext b (f.1.ind i)).p)
        (fun i => (ext b (f.1.ind i)).cur.u) (fun i => w (f.1.ind i))).sum =
      (P.tris.map fun f => surfaceWork P.H (P.sprm f.1.reg) f.2 (fun i => (ext a (f.1.ind i)).p)
        (fun i => (ext a (f.1.ind i)).cur.u) (fun i => w (f.1.ind i))).sum := by
    intro w
    refine congrArg List.sum (List.map_congr_left fun f hf => ?_)
    simp only [fun k => (key _ (hs.triValid f hf k)).1, fun k => (key _ (hs.triValid f hf k)).2.1]
  have hw' : ∀ w : ℕ → V3, (∀ i, (magNode P.mag n P.tets).getD i false = true → (w i).dot (ext b i).cur.u = 0) ↔
      ∀ i, (magNode P.mag n P.tets).getD i false = true → (w i).dot (ext a i).cur.u = 0 := by
    intro w
    refine forall_congr' fun i => forall_congr' fun hi => ?_
    rw [(key i (magNode_lt hi)).2.1]
  constructor
  · rintro ⟨-, hb⟩ w hw
    rw [hd] at hb
    have e1 := hb w ((hw' w).mpr hw)
    have e2 := h2 w hw
    have e3 := hl w
    have e5 := e3.symm.trans (e1.trans ((hr w).trans e2.symm))
    linarith
  · intro hz
    refine ⟨fun i hi => by rw [(hf i).2.1]; exact h.1 i hi, fun w hw => ?_⟩
    rw [hd]
    have hwa := (hw' w).mp hw
    have e3 := hl w
    rw [hz w hwa, add_zero, h2 w hwa] at e3
    exact e3.trans (hr w).symm

/-- the equation of motion has at most one solution at the magnetic nodes -/
theorem moves_unique (hs : Start P cfg nodes) (hv : Valid cfg) (hU : RecenterKeepsUnit cfg) (hN : RecenterKeepsNext cfg)
    (t0 : ℝ) (pot : Fin n → ℝ × ℝ) (inp : ℕ → Input n) (k : ℕ) (F : Fields P) (dt : ℝ) (hpos : 0 < dt) (v v' : ℕ → V3)
    (h : Moves P cfg F (run cfg t0 nodes pot inp k).nodes dt v) (h' : Moves P cfg F (run cfg t0 nodes pot inp k).nodes dt v')
    (i : Fin n) (hi : cfg.magNode i = true) : v i = v' i := by
  obtain ⟨⟨M, b, hsys⟩, hx⟩ := C72_solvable hs hv hU hN t0 pot inp k F 0 dt hpos
  obtain ⟨X, hX, -⟩ := hx M b hsys
  have := (exact_velocity hs hv hU hN t0 pot inp k F 0 dt hpos X M b hsys hX).2
  rw [this v h i hi, this v' h' i hi]

/-- the velocity that balances a field `f` with damping `a` -/
noncomputable def balance (a : ℝ) (U f : V3) : V3 := (1 / (1 + a * a)) * (a * (f - (U.dot f) * U) - U.cross f)

theorem balance_tangent (a : ℝ) (U f : V3) (hU : U.dot U = 1) : (balance a U f).dot U = 0 := by
  unfold balance
  rw [smul_dot, sub_dot, smul_dot, sub_dot, smul_dot, hU, V3.dot_comm f U]
  have : (U.cross f).dot U = 0 := by simp only [V3.dot, V3.cross]; ring
  rw [this]
  ring

theorem balance_force (a : ℝ) (U f : V3) (hU : U.dot U = 1) (w : V3) (hw : w.dot U = 0) :
    a * (balance a U f).dot w + (U.cross (balance a U f)).dot w = f.dot w := by
  have hden : 1 + a * a ≠ 0 := by nlinarith [mul_self_nonneg a]
  have e1 : (balance a U f).dot w = 1 / (1 + a * a) * (a * f.dot w - (U.cross f).dot w) := by
    unfold balance
    rw [smul_dot, sub_dot, smul_dot, sub_dot, smul_dot, V3.dot_comm U w, hw]
    ring
  have e2 : (U.cross (balance a U f)).dot w = 1 / (1 + a * a) * (a * (U.cross f).dot w + f.dot w) := by
    have : (U.cross (balance a U f)).dot w =
        1 / (1 + a * a) * (a * (U.cross f).dot w + ((U.dot U) * f.dot w - (U.dot f) * w.dot U)) := by
      unfold balance
      simp only [V3.dot, V3.cross, V3.sub_x, V3.sub_y, V3.sub_z, V3.smul_x, V3.smul_y, V3.smul_z]
      ring
    rw [this, hU, hw]
    ring
  rw [e1, e2]
  field_simp
  ring

/-- in a uniform state the velocity is the one that balances the field -/
theorem uniform_velocity (hs : Start P cfg nodes) (nd : Fin n → Node) (hp : ∀ i, (nd i).p = (nodes i).p) (F : Fields P)
    (hst : F.Hst = fun _ _ => 0) (dt : ℝ) (m : Prm) (U W H0 Hd Hdv : V3)
    (hu : Uniform P.G P.prm P.sprm P.mag P.tets P.tris (ext nd) F.Hext m U W H0 Hd Hdv) (hU : U.dot U = 1) :
    Moves P cfg F nd dt
      (fun _ => balance (dampingOf m (P.step cfg dt) U H0 Hd) U (fieldOf m (P.step cfg dt) U W H0 Hd Hdv)) := by
  have hpos : (fun i => (ext nd i).p) = fun i => (ext nodes i).p := by
    funext i
    unfold Run.ext
    split_ifs with hi
    · exact hp _
    · rfl
  refine ⟨fun i hi => ?_, ?_⟩
  · have := uniform_mag hu (nod := n) i ((magNode_getD hs i).mpr hi)
    rw [ext_fin] at this
    rw [this]
    exact balance_tangent _ _ _ hU
  · rw [hst]
    exact uniform_holds hs.valid (fun t ht => by rw [hpos]; exact hs.oriented t ht) hs.gamma0.ne' P.H hu P.dir F.V _
      fun w hw => balance_force _ _ _ hU w hw

/-- two different tangent displacements of a unit vector end in different directions -/
theorem normalize_tangent_inj {U v v' : V3} (hU : U.dot U = 1) (hv : v.dot U = 0) (hv' : v'.dot U = 0) {c : ℝ} (hc : c ≠ 0)
    (h : (U + c * v).normalize = (U + c * v').normalize) : v = v' := by
  have := normalize_inj (by rw [V3.nsq_eq_dot]; exact hU) (by rw [smul_dot, hv, mul_zero]) (by rw [smul_dot, hv', mul_zero]) h
  have hx := congrArg V3.x this
  have hy := congrArg V3.y this
  have hz := congrArg V3.z this
  simp only [V3.smul_x, V3.smul_y, V3.smul_z] at hx hy hz
  exact V3.ext (mul_left_cancel₀ hc hx) (mul_left_cancel₀ hc hy) (mul_left_cancel₀ hc hz)

/-- **C80, negation** In a uniform state with last velocity `W`, a restart changes the next step as soon as the rate of the
demagnetizing and anisotropy field is not along the magnetization: with the same time step, the magnetizations after the step of
the interrupted run and of the restarted run differ at every magnetic node. -/
theorem C80_negation (hs : Start P cfg nodes) (hs' : Start P cfg nodes') (hv : Valid cfg) (hUn : RecenterKeepsUnit cfg)
    (hN : RecenterKeepsNext cfg) (hθ : P.theta ≠ 0) (t0 t1 : ℝ) (pot pot' : Fin n → ℝ × ℝ) (inp inp' : ℕ → Input n) (k : ℕ)
    (hf : Forgot (run cfg t0 nodes pot inp k).nodes (run cfg t1 nodes' pot' inp' 0).nodes)
    (F : Fields P) (hst : F.Hst = fun _ _ => 0) (dt : ℝ) (hdt : 0 < dt) (m : Prm) (U W H0 Hd Hdv : V3)
    (hu : Uniform P.G P.prm P.sprm P.mag P.tets P.tris (ext (run cfg t0 nodes pot inp k).nodes) F.Hext m U W H0 Hd Hdv)
    (hU : U.dot U = 1)
    (hlost : U.cross (Hdv + (2 * m.K / (P.mu0 * m.Ms) * m.uk.dot W) * m.uk) ≠ 0)
    (v v' : ℕ → V3) (h : Moves P cfg F (run cfg t0 nodes pot inp k).nodes dt v)
    (h' : Moves P cfg F (run cfg t1 nodes' pot' inp' 0).nodes dt v') (i : Fin n) (hi : cfg.magNode i = true) :
    (((run cfg t0 nodes pot inp k).nodes i).cur.u + (dt * cfg.gamma0) * v i).normalize ≠
      (((run cfg t1 nodes' pot' inp' 0).nodes i).cur.u + (dt * cfg.gamma0) * v' i).normalize := by
  set a := (run cfg t0 nodes pot inp k).nodes with ha
  set b := (run cfg t1 nodes' pot' inp' 0).nodes with hb
  have key : ∀ i, i < n → (ext b i).p = (ext a i).p ∧ (ext b i).cur.u = (ext a i).cur.u ∧ (ext b i).cur.phi = (ext a i).cur.phi ∧
      (ext b i).cur.v = 0 ∧ (ext b i).cur.phiv = 0 := by
    intro i hi
    unfold ext
    rw [dif_pos hi, dif_pos hi]
    exact hf _
  have hub : Uniform P.G P.prm P.sprm P.mag P.tets P.tris (ext b) F.Hext m U 0 H0 Hd 0 := by
    have hk := fun t (ht : t ∈ magTet P.mag P.tets) k => key _ (hs.valid t (List.mem_filter.mp ht).1 k)
    refine ⟨hu.mat, hu.cubic, fun t ht k => (hk t ht k).2.1.trans (hu.u t ht k), fun t ht k => (hk t ht k).2.2.2.1, hu.ext,
      fun t ht => ?_, fun t ht => Energy.interpField_zero _ _ fun k => (hk t ht k).2.2.2.2, hu.surface⟩
    rw [← hu.demag t ht]
    have e1 : (nodalOf (ext b) t).p = (nodalOf (ext a) t).p := funext fun k => (hk t ht k).1
    have e2 : (nodalOf (ext b) t).phi = (nodalOf (ext a) t).phi := funext fun k => (hk t ht k).2.2.1
    rw [e1, e2]
  have ea := moves_unique hs hv hUn hN t0 pot inp k F dt hdt _ _ h
    (uniform_velocity hs a (fun i => run_pos hN t0 pot inp k i) F hst dt m U W H0 Hd Hdv hu hU) i hi
  have eb := moves_unique hs' hv hUn hN t1 pot' inp' 0 F dt hdt _ _ h'
    (uniform_velocity hs' b (fun i => run_pos hN t1 pot' inp' 0 i) F hst dt m U 0 H0 Hd 0 hub hU) i hi
  have eu : (a i).cur.u = U := by
    have := uniform_mag hu (nod := n) i ((magNode_getD hs i).mpr hi)
    rwa [ext_fin] at this
  rw [(hf i).2.1, eu, ea, eb]
  intro hn
  have hv0 := normalize_tangent_inj hU (balance_tangent _ _ _ hU) (balance_tangent _ _ _ hU)
    (mul_ne_zero hdt.ne' hs.gamma0.ne') hn
  -- the two fields have the same tangent part
  set s := P.step cfg dt with hsd
  set c := Hdv + (2 * m.K / (P.mu0 * m.Ms) * m.uk.dot W) * m.uk with hc
  have hw : ∀ w : V3, w.dot U = 0 → c.dot w = 0 := by
    intro w hw
    have f1 := balance_force (dampingOf m s U H0 Hd) U (fieldOf m s U W H0 Hd Hdv) hU w hw
    have f2 := balance_force (dampingOf m s U H0 Hd) U (fieldOf m s U 0 H0 Hd 0) hU w hw
    rw [hv0, f2] at f1
    have e : (fieldOf m s U W H0 Hd Hdv).dot w = (fieldOf m s U 0 H0 Hd 0).dot w + (P.theta * dt) * c.dot w := by
      have hs1 : s.theta = P.theta := rfl
      have hs2 : s.dt = dt := rfl
      have hs3 : s.mu0 = P.mu0 := rfl
      rw [hc]
      unfold fieldOf
      rw [hs1, hs2, hs3]
      simp only [V3.dot, V3.add_x, V3.add_y, V3.add_z, V3.smul_x, V3.smul_y, V3.smul_z, V3.zero_x, V3.zero_y, V3.zero_z]
      ring
    rw [e] at f1
    have : P.theta * dt * c.dot w = 0 := by linarith
    exact (mul_eq_zero.mp this).resolve_left (mul_ne_zero hθ hdt.ne')
  apply hlost
  have hU' : U.x * U.x + U.y * U.y + U.z * U.z = 1 := hU
  have h1 := hw (c - (U.dot c) * U) (by
    rw [sub_dot, smul_dot, hU, V3.dot_comm c U]; ring)
  have h2 : (U.cross c).nsq = c.dot (c - (U.dot c) * U) := by
    simp only [V3.nsq, V3.dot, V3.cross, V3.sub_x, V3.sub_y, V3.sub_z, V3.smul_x, V3.smul_y, V3.smul_z]
    linear_combination (c.x * c.x + c.y * c.y + c.z * c.z) * hU'
  rw [h1] at h2
  exact nsq_eq_zero h2

end

/-! ## A run that meets the hypotheses -/

/-- the mesh of `eqP` magnetized along x, across the easy axis -/
noncomputable def rsNd : Fin 5 → Node := fun i => ⟨MeshElem.exP2 i, 0, 0, ⟨0, 0, 0, 0⟩, ⟨⟨1, 0, 0⟩, 0, 0, 0⟩⟩

/-- a field along y -/
noncomputable def rsF (H : TriElem.Rule) : Fields (LlgSolve.eqP H) :=
  { Hext := fun _ _ => ⟨0, 1, 0⟩, Hst := fun _ _ => 0, V := 0 }

theorem rs_start (H : TriElem.Rule) (D : ℝ) (nd : Fin 5 → Node) (hp : ∀ i : Fin 5, (nd i).p = MeshElem.exP2 i)
    (hu : ∀ i, IsUnit3 (nd i).next.u) : Start (LlgSolve.eqP H) (exCfg D) nd :=
  { ex_start H D with
    oriented := by
      intro t ht
      have e : (fun i => (ext nd i).p) = fun i => (ext exNd i).p := by
        funext i
        unfold Run.ext
        split_ifs
        · exact hp _
        · rfl
      rw [e]
      exact (ex_start H D).oriented t ht
    unit := fun i _ => hu i
    alpha := fun _ _ => by norm_num [LlgSolve.eqP, LlgSolve.eqPrm]
    exchange := fun _ _ => by norm_num [LlgSolve.eqP, LlgSolve.eqPrm]
    magnetic := fun _ _ => by norm_num [LlgSolve.eqP, LlgSolve.eqPrm] }

/-- the state after the attempt, when it is kept -/
theorem rs_run2 (nd : Fin 5 → Node) (D r : ℝ) (X : Fin 5 → ℝ × ℝ) (hD : 10 * vMax 1 (fun _ => true) X ≤ D) :
    run (exCfg D) 0 nd (fun _ => (0, 0)) (exInp r X) 2 =
      accepted (exCfg D) 0 (exInp r X 1) (run (exCfg D) 0 nd (fun _ => (0, 0)) (exInp r X) 1) X := by
  obtain ⟨h1, h2, h3, -⟩ := exq_run1 nd D (exInp r X)
  have hatt := exq_att nd D (exInp r X)
  have hlt : (run (exCfg D) 0 nd (fun _ => (0, 0)) (exInp r X) 1).t < tTarget (exCfg D) 0
      (run (exCfg D) 0 nd (fun _ => (0, 0)) (exInp r X) 1).stepNb := by
    rw [h2, h3]; norm_num [tTarget, exCfg]
  change TimeLoop.step (exCfg D) 0 (exInp r X 1) (run (exCfg D) 0 nd (fun _ => (0, 0)) (exInp r X) 1) = _
  unfold TimeLoop.step
  rw [h1]
  simp only
  rw [if_pos hlt, whileBody_accept (X := X) _ _ _ _ rfl (by rw [hatt]; norm_num [exCfg]) rfl
    (by rw [hatt]; exact not_lt.mpr hD)]
  rfl

/-- a uniform state of the mesh of the example -/
theorem rs_uniform (H : TriElem.Rule) (nd : Fin 5 → Node) (U W : V3) (h : ∀ i, (nd i).cur = ⟨U, W, 0, 0⟩) :
    Uniform (LlgSolve.eqP H).G (LlgSolve.eqP H).prm (LlgSolve.eqP H).sprm (LlgSolve.eqP H).mag (LlgSolve.eqP H).tets
      (LlgSolve.eqP H).tris (ext nd) (rsF H).Hext LlgSolve.eqPrm U W ⟨0, 1, 0⟩ 0 0 := by
  have hval : ∀ t ∈ magTet (LlgSolve.eqP H).mag (LlgSolve.eqP H).tets, ∀ k, t.ind k < 5 :=
    fun t ht => (ex_start H 1).valid t (List.mem_filter.mp ht).1
  have hn : ∀ i, (hi : i < 5) → (ext nd i).cur = ⟨U, W, 0, 0⟩ := by
    intro i hi
    unfold Run.ext
    rw [dif_pos hi]
    exact h _
  exact ⟨fun _ _ => rfl, rfl, fun t ht k => by rw [hn _ (hval t ht k)], fun t ht k => by rw [hn _ (hval t ht k)], fun _ _ _ => rfl,
    fun t ht => Energy.interpField_zero _ _ (fun k => congrArg DataNode.phi (hn _ (hval t ht k))),
    fun t ht => Energy.interpField_zero _ _ (fun k => congrArg DataNode.phiv (hn _ (hval t ht k))), fun _ _ => rfl⟩

/-- the hypotheses of `C80_negation` are met after one kept step, in which the magnetization turns towards the applied field, so
that its component along the easy axis changes -/
example (H : TriElem.Rule) : ∃ D inp nodes' U W v v', Start (LlgSolve.eqP H) (exCfg D) rsNd ∧
    Start (LlgSolve.eqP H) (exCfg D) nodes' ∧ Valid (exCfg D) ∧ (LlgSolve.eqP H).theta ≠ 0 ∧ (LlgSolve.eqP H).dir = none ∧
    TimeLoop.Accepted (run (exCfg D) 0 rsNd (fun _ => (0, 0)) inp 1) (run (exCfg D) 0 rsNd (fun _ => (0, 0)) inp 2) ∧
    Forgot (run (exCfg D) 0 rsNd (fun _ => (0, 0)) inp 2).nodes (run (exCfg D) 10 nodes' (fun _ => (0, 0)) inp 0).nodes ∧
    (rsF H).Hst = (fun _ _ => 0) ∧
    Uniform (LlgSolve.eqP H).G (LlgSolve.eqP H).prm (LlgSolve.eqP H).sprm (LlgSolve.eqP H).mag (LlgSolve.eqP H).tets
      (LlgSolve.eqP H).tris (ext (run (exCfg D) 0 rsNd (fun _ => (0, 0)) inp 2).nodes) (rsF H).Hext LlgSolve.eqPrm U W ⟨0, 1, 0⟩ 0 0 ∧
    U.dot U = 1 ∧
    U.cross (0 + (2 * LlgSolve.eqPrm.K / ((LlgSolve.eqP H).mu0 * LlgSolve.eqPrm.Ms) * LlgSolve.eqPrm.uk.dot W) *
      LlgSolve.eqPrm.uk) ≠ 0 ∧
    Moves (LlgSolve.eqP H) (exCfg D) (rsF H) (run (exCfg D) 0 rsNd (fun _ => (0, 0)) inp 2).nodes 10 v ∧
    Moves (LlgSolve.eqP H) (exCfg D) (rsF H) (run (exCfg D) 10 nodes' (fun _ => (0, 0)) inp 0).nodes 10 v' := by
  have hs : ∀ D, Start (LlgSolve.eqP H) (exCfg D) rsNd := fun D => rs_start H D rsNd (fun _ => rfl) fun i => by simp [rsNd, IsUnit3]
  obtain ⟨⟨M, b, hsys⟩, hx⟩ := C72_solvable (hs 0) (ex_valid 0 le_rfl) (ex_keeps 0).1 (ex_keeps 0).2 0 (fun _ => (0, 0))
    (fun _ => ⟨false, 0, none, fun _ => (0, 0)⟩) 1 (rsF H) 0 10 (by norm_num)
  obtain ⟨X, hX, -⟩ := hx M b hsys
  rw [(exq_run1 rsNd 0 _).2.2.2.2.2] at hsys
  set nd1 := computeAllNodes (n := 5) (fun _ => true) (fun _ => (0, 0)) rsNd with hnd1
  set D := 10 * vMax 1 (fun _ => true) X with hDdef
  have hD0 : 0 ≤ D := by rw [hDdef]; unfold vMax; positivity
  have hk := ex_keeps D
  have en := (exq_run1 rsNd D (exInp 0 X)).2.2.2.2.2
  rw [← hnd1] at en
  -- the velocity of the first step
  set W := balance (dampingOf LlgSolve.eqPrm ((LlgSolve.eqP H).step (exCfg D) 10) ⟨1, 0, 0⟩ ⟨0, 1, 0⟩ 0) ⟨1, 0, 0⟩
    (fieldOf LlgSolve.eqPrm ((LlgSolve.eqP H).step (exCfg D) 10) ⟨1, 0, 0⟩ 0 ⟨0, 1, 0⟩ 0 0) with hW
  have hm1 := uniform_velocity (hs D) nd1 (fun i => by rw [hnd1]; rfl) (rsF H) rfl 10 LlgSolve.eqPrm ⟨1, 0, 0⟩ 0 ⟨0, 1, 0⟩ 0 0
    (rs_uniform H nd1 ⟨1, 0, 0⟩ 0 fun i => by rw [hnd1]; rfl) (by norm_num [V3.dot])
  rw [← hW] at hm1
  have hvel := (exact_velocity (hs D) (ex_valid D hD0) hk.1 hk.2 0 (fun _ => (0, 0)) (exInp 0 X) 1 (rsF H) 0 10 (by norm_num) X M b
    (by rw [en]; exact hsys) hX).2 (fun _ => W) (by rw [en]; exact hm1)
  rw [en] at hvel
  set U := ((⟨1, 0, 0⟩ : V3) + (10 * (1 : ℝ)) * W).normalize with hU
  have hWt : W.dot ⟨1, 0, 0⟩ = 0 := balance_tangent _ _ _ (by norm_num [V3.dot])
  have hWx : W.x = 0 := by simpa [V3.dot] using hWt
  have hWz : W.z ≠ 0 := by
    rw [hW]
    unfold balance fieldOf
    set a := dampingOf LlgSolve.eqPrm ((LlgSolve.eqP H).step (exCfg D) 10) ⟨1, 0, 0⟩ ⟨0, 1, 0⟩ 0
    have : 1 + a * a ≠ 0 := by nlinarith [mul_self_nonneg a]
    simp [V3.dot, V3.cross, LlgSolve.eqPrm, this]
  have hnsq : 0 < ((⟨1, 0, 0⟩ : V3) + (10 * (1 : ℝ)) * W).nsq := by
    simp only [V3.nsq, V3.add_x, V3.add_y, V3.add_z, V3.smul_x, V3.smul_y, V3.smul_z, hWx]
    nlinarith [mul_self_nonneg W.y, mul_self_nonneg W.z]
  have hUU : U.dot U = 1 := by
    rw [← V3.nsq_eq_dot]
    exact V3.nsq_normalize hnsq
  have hUx : U.x ≠ 0 := by
    rw [hU, V3.normalize_of_pos hnsq]
    simp only [V3.smul_x, V3.add_x, hWx]
    have := Real.sqrt_pos.mpr hnsq
    positivity
  -- the state after it
  have hcur : ∀ i, ((run (exCfg D) 0 rsNd (fun _ => (0, 0)) (exInp 0 X) 2).nodes i).cur = ⟨U, W, 0, 0⟩ := by
    intro i
    have e1 := solved_eq (cfg := exCfg D) (nodes := rsNd) 0 (fun _ => (0, 0)) (exInp 0 X) 1 i X 10 rfl
    rw [rs_run2 rsNd D 0 X le_rfl]
    have c1 : ((accepted (exCfg D) 0 (exInp 0 X 1) (run (exCfg D) 0 rsNd (fun _ => (0, 0)) (exInp 0 X) 1) X).nodes i).cur =
        ⟨(solvedNodes (exCfg D) (exInp 0 X 1) X 10 (run (exCfg D) 0 rsNd (fun _ => (0, 0)) (exInp 0 X) 1) i).next.u,
          (solvedNodes (exCfg D) (exInp 0 X 1) X 10 (run (exCfg D) 0 rsNd (fun _ => (0, 0)) (exInp 0 X) 1) i).next.v, 0, 0⟩ := by
      rw [← exq_att rsNd D (exInp 0 X)]
      rfl
    have hr : (exInp 0 X 1).r = 0 := rfl
    have hg : (exCfg D).gamma0 = 1 := rfl
    have hv := hvel i rfl
    rw [c1, e1.1, e1.2, en, hr, ← hv, hg]
    congr 1
    ext <;> simp
  refine ⟨D, exInp 0 X, fun i => ⟨MeshElem.exP2 i, 0, 0, ⟨0, 0, 0, 0⟩, ⟨U, 0, 0, 0⟩⟩, U, W, fun _ => _, fun _ => _, hs D,
    rs_start H D _ (fun _ => rfl) (fun i => by rw [isUnit3_iff, V3.nsq_eq_dot]; exact hUU), ex_valid D hD0,
    by norm_num [LlgSolve.eqP, exP], rfl, by rw [rs_run2 rsNd D 0 X le_rfl]; rfl, ?_, rfl, rs_uniform H _ U W hcur, hUU, ?_,
    uniform_velocity (hs D) _ (fun i => run_pos hk.2 0 _ _ 2 i) (rsF H) rfl 10 LlgSolve.eqPrm U W ⟨0, 1, 0⟩ 0 0
      (rs_uniform H _ U W hcur) hUU,
    uniform_velocity (hs D) (run (exCfg D) 10 (fun i => ⟨MeshElem.exP2 i, 0, 0, ⟨0, 0, 0, 0⟩, ⟨U, 0, 0, 0⟩⟩) (fun _ => (0, 0))
      (exInp 0 X) 0).nodes (fun i => rfl) (rsF H) rfl 10 LlgSolve.eqPrm U 0 ⟨0, 1, 0⟩ 0 0 (rs_uniform H _ U 0 fun i => rfl) hUU⟩
  · intro i
    rw [hcur i, run_pos hk.2 0 _ _ 2 i]
    exact ⟨rfl, rfl, rfl, rfl, rfl⟩
  · intro h0
    have := congrArg V3.y h0
    simp [V3.cross, V3.dot, LlgSolve.eqPrm, LlgSolve.eqP, exP] at this
    rcases this with h | h
    · exact hUx h
    · exact hWz h

end Verif.Run
