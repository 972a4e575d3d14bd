import Verif.Proofs.MotionExists
import Verif.Props.Reproducible

/-!
# C81: as the time step goes to zero, a run converges to the equation of motion discretised in space
-/

namespace Verif.Converge

open Verif.Mesh Verif.Assembly Verif.Tetra Verif.SparseMat Verif.Llg Verif.WeakForm Verif.TimeLoop Verif.Run Verif.SemiDiscrete Set

/-- the fields as functions of the time and of the magnetization: applied field, field of the spin accumulation, potential of the
demagnetizing field, and potential for the velocity (in place of the magnetization) -/
structure Media (n : ℕ) (P : Problem) where
  Hext : ℝ → (Fin n → V3) → Tet → Fin P.G.n → V3
  Hst : ℝ → (Fin n → V3) → Tet → Fin P.G.n → V3
  phi : (Fin n → V3) → Fin n → ℝ
  phiv : (Fin n → V3) → (Fin n → V3) → Fin n → ℝ

/-- vectors from a table of coordinates -/
def tab {n : ℕ} (c : Fin n → Fin 3 → ℝ) (i : Fin n) : V3 := ⟨c i 0, c i 1, c i 2⟩

/-- these functions are continuously differentiable -/
structure Media.Smooth {n : ℕ} {P : Problem} (D : Media n P) : Prop where
  Hext : ∀ t j, SmoothV fun z : ℝ × (Fin n → Fin 3 → ℝ) => D.Hext z.1 (tab z.2) t j
  Hst : ∀ t j, SmoothV fun z : ℝ × (Fin n → Fin 3 → ℝ) => D.Hst z.1 (tab z.2) t j
  phi : ∀ i, ContDiff ℝ 1 fun c : Fin n → Fin 3 → ℝ => D.phi (tab c) i
  phiv : ∀ i, ContDiff ℝ 1 fun z : (Fin n → Fin 3 → ℝ) × (Fin n → Fin 3 → ℝ) => D.phiv (tab z.1) (tab z.2) i

/-- zero at the nodes which are not magnetic -/
def masked {n : ℕ} (mag : Fin n → Bool) (f : Fin n → V3) (i : Fin n) : V3 := if mag i then f i else 0

/-- the fields of a run -/
def Media.world {n : ℕ} {P : Problem} (D : Media n P) (mag : Fin n → Bool) : World n P where
  Hext t nd := D.Hext t (masked mag fun i => (nd i).cur.u)
  Hst t nd := D.Hst t (masked mag fun i => (nd i).cur.u)
  pot nd i := (D.phi (masked mag fun i => (nd i).next.u) i,
    D.phiv (masked mag fun i => (nd i).next.u) (masked mag fun i => (nd i).next.v) i)

/-- values at the nodes as a function of the index; nothing is used of the value out of range -/
def extV {n : ℕ} (f : Fin n → V3) (i : ℕ) : V3 := if h : i < n then f ⟨i, h⟩ else 0

def extS {n : ℕ} (f : Fin n → ℝ) (i : ℕ) : ℝ := if h : i < n then f ⟨i, h⟩ else 0

/-- `y` is a motion of the magnetization from `t0` to `T` according to the equation discretised in space -/
structure Motion {n : ℕ} {ET : Type} (P : Problem) (cfg : Cfg n ET) (nodes : Fin n → Node) (D : Media n P) (t0 T : ℝ)
    (y : ℝ → Fin n → V3) : Prop where
  outside : ∀ t i, cfg.magNode i = false → y t i = 0
  motion : ∀ t ∈ Icc t0 T, ∃ v : ℕ → V3,
    Velocity P.G P.H P.prm P.sprm P.mu0 (fun i => (magNode P.mag n P.tets).getD i false = true) (magTet P.mag P.tets) P.tris
      (fun i => (ext nodes i).p) (extV (y t)) (extS (D.phi (y t))) (D.Hext t (y t)) (D.Hst t (y t)) v ∧
    ∀ i : Fin n, cfg.magNode i = true →
      HasDerivWithinAt (fun s => (y s i).x) (cfg.gamma0 * (v i).x) (Icc t0 T) t ∧
      HasDerivWithinAt (fun s => (y s i).y) (cfg.gamma0 * (v i).y) (Icc t0 T) t ∧
      HasDerivWithinAt (fun s => (y s i).z) (cfg.gamma0 * (v i).z) (Icc t0 T) t

section
variable {n : ℕ} {ET : Type} {P : Problem} {cfg : Cfg n ET} {nodes : Fin n → Node}

/-- the equation of the sample -/
noncomputable def setting (P : Problem) (cfg : Cfg n ET) (nodes : Fin n → Node) (D : Media n P) : Setting n where
  G := P.G
  H := P.H
  prm := P.prm
  sprm := P.sprm
  mu0 := P.mu0
  theta := P.theta
  gamma0 := cfg.gamma0
  tets := magTet P.mag P.tets
  tris := P.tris
  p := fun i => (ext nodes i).p
  magN := fun i => (magNode P.mag n P.tets).getD i false = true
  Hext := fun z => D.Hext z.1 (tab z.2)
  Hst := fun z => D.Hst z.1 (tab z.2)
  phi := fun c => extS (D.phi (tab c))
  phiv := fun z => extS (D.phiv (tab z.1) (tab z.2))

theorem smooth_extS {Z : Type*} [NormedAddCommGroup Z] [NormedSpace ℝ Z] {f : Z → Fin n → ℝ} (hf : ∀ i, ContDiff ℝ 1 fun z => f z i) (i : ℕ) :
    ContDiff ℝ 1 fun z => extS (f z) i := by
  unfold extS
  split_ifs with h
  · exact hf _
  · exact contDiff_const

theorem good_tetMag (hs : Start P cfg nodes) (t : Tet) (ht : t ∈ magTet P.mag P.tets) (k : Fin 4) :
    (magNode P.mag n P.tets).getD (t.ind k) false = true :=
  (magNode_iff P.mag n P.tets _ (hs.valid t (List.mem_filter.mp ht).1 k)).mpr
    ⟨t, (List.mem_filter.mp ht).1, (List.mem_filter.mp ht).2, k, rfl⟩

theorem good (hs : Start P cfg nodes) {D : Media n P} (hD : D.Smooth) : (setting P cfg nodes D).Good where
  compiled := hs.rule
  vol t ht := hs.oriented t (List.mem_filter.mp ht).1
  alpha t ht := hs.alpha _ (List.mem_filter.mp ht).2
  exch t ht := by
    have h1 := hs.exchange _ (List.mem_filter.mp ht).2
    have h2 := hs.magnetic _ (List.mem_filter.mp ht).2
    have h3 := hs.mu0
    change 0 ≤ 2 * (P.prm t.reg).A / (P.mu0 * (P.prm t.reg).Ms)
    positivity
  theta := hs.theta
  gamma0 := hs.gamma0
  tetMag := good_tetMag hs
  magTet i hi := by
    have hin := magNode_lt hi
    obtain ⟨t, h1, h2, k, h3⟩ := (magNode_iff P.mag n P.tets i hin).mp hi
    exact ⟨hin, t, List.mem_filter.mpr ⟨h1, h2⟩, k, h3⟩
  Hext := hD.Hext
  Hst := hD.Hst
  phi i := smooth_extS hD.phi i
  phiv i := smooth_extS hD.phiv i

/-- coordinates of the magnetization of the magnetic nodes -/
def state (mag : Fin n → Bool) (f : Fin n → V3) : X n := fun i => co (masked mag f i)

theorem tab_state (mag : Fin n → Bool) (f : Fin n → V3) : tab (state mag f) = masked mag f := by
  funext i
  simp [tab, state, co]

theorem vecs_state (mag : Fin n → Bool) (f : Fin n → V3) (i : Fin n) : vecs (state mag f) i = masked mag f i := by
  simp [vecs, state, co]

theorem vecs_state' (mag : Fin n → Bool) (f : Fin n → V3) : vecs (state mag f) = extV (masked mag f) := by
  funext i
  unfold vecs extV
  split_ifs with h
  · simp [state, co]
  · rfl

/-- nodes of the magnetic triangles are magnetic -/
theorem tri_mag (hs : Start P cfg nodes) (f : Tri × ℝ) (hf : f ∈ P.tris) (k : Fin 3) :
    (magNode P.mag n P.tets).getD (f.1.ind k) false = true := by
  have := hs.triMag f hf
  unfold Tri.isMagnetic at this
  simp only [Bool.and_eq_true] at this
  fin_cases k
  · exact this.1.1
  · exact this.1.2
  · exact this.2

theorem prefactor_bounds {D dt : ℝ} (hD : 0 < D) (hdt : 0 < dt) (h : dt ≤ D * (1 + 1 / 2 ^ 23)) :
    0 ≤ Llg.prefactor D dt ∧ Llg.prefactor D dt ≤ 2 := by
  unfold Llg.prefactor
  dsimp only
  set x := dt / (100 * D) with hx
  have hx0 : 0 < x := by positivity
  have hx1 : x ≤ 1 := by
    rw [hx, div_le_one (by positivity)]
    nlinarith
  have h1 : |Real.log x| = Real.log x⁻¹ := by rw [abs_of_nonpos (Real.log_nonpos hx0.le hx1), Real.log_inv]
  have h2 := Real.log_le_sub_one_of_pos (inv_pos.mpr hx0)
  have h3 : 0 ≤ x * |Real.log x| := by positivity
  have h4 : x * |Real.log x| ≤ x * (x⁻¹ - 1) := by rw [h1]; exact mul_le_mul_of_nonneg_left h2 hx0.le
  have h5 : x * (x⁻¹ - 1) = 1 - x := by field_simp
  constructor <;> linarith

/-- one attempt in terms of the coordinates -/
theorem stepEq (hs : Start P cfg nodes) (hd : P.dir = none) {D : Media n P} {nd : Fin n → Node} (hp : ∀ i, (nd i).p = (nodes i).p)
    (hphi : ∀ i, cfg.magNode i = true → (nd i).cur.phi = D.phi (masked cfg.magNode fun i => (nd i).cur.u) i)
    (hphiv : ∀ i, cfg.magNode i = true → (nd i).cur.phiv =
      D.phiv (masked cfg.magNode fun i => (nd i).cur.u) (masked cfg.magNode fun i => (nd i).cur.v) i)
    {t V dt : ℝ} {v : ℕ → V3}
    (h : Moves P cfg ⟨(D.world cfg.magNode).Hext t nd, (D.world cfg.magNode).Hst t nd, V⟩ nd dt v) :
    (setting P cfg nodes D).StepEq (t, state cfg.magNode fun i => (nd i).cur.u) (state cfg.magNode fun i => (nd i).cur.v) dt
      (Llg.prefactor cfg.DTMAX dt * (P.theta * cfg.gamma0)) v := by
  have hmag : ∀ i, (magNode P.mag n P.tets).getD i false = true → ∃ h : i < n, cfg.magNode ⟨i, h⟩ = true :=
    fun i hi => ⟨magNode_lt hi, (magNode_getD hs ⟨i, magNode_lt hi⟩).mp hi⟩
  have hu : ∀ i, (magNode P.mag n P.tets).getD i false = true →
      (ext nd i).cur.u = vecs (state cfg.magNode fun i => (nd i).cur.u) i := by
    intro i hi
    obtain ⟨h1, h2⟩ := hmag i hi
    have := vecs_state cfg.magNode (fun i => (nd i).cur.u) ⟨i, h1⟩
    rw [this]
    simp [Run.ext, h1, masked, h2]
  have hvv : ∀ i, (magNode P.mag n P.tets).getD i false = true →
      (ext nd i).cur.v = vecs (state cfg.magNode fun i => (nd i).cur.v) i := by
    intro i hi
    obtain ⟨h1, h2⟩ := hmag i hi
    have := vecs_state cfg.magNode (fun i => (nd i).cur.v) ⟨i, h1⟩
    rw [this]
    simp [Run.ext, h1, masked, h2]
  have hpp : ∀ i, (ext nd i).p = (ext nodes i).p := by
    intro i
    unfold Run.ext
    split_ifs with h1
    · exact hp _
    · rfl
  have hmt := good_tetMag hs
  obtain ⟨h1, h2⟩ := h
  rw [hd] at h2
  refine ⟨fun i hi => ?_, fun w hw => ?_⟩
  · obtain ⟨h3, h4⟩ := hmag i hi
    have := h1 ⟨i, h3⟩ h4
    change (v i).dot (vecs (state cfg.magNode fun i => (nd i).cur.u) i) = 0
    rw [← hu i hi]
    simpa [Run.ext, h3] using this
  · have := scheme_eq h2 (s := P.step cfg dt) hs.gamma0.ne' (p := fun i => (ext nodes i).p)
      (u := vecs (state cfg.magNode fun i => (nd i).cur.u)) (vel := vecs (state cfg.magNode fun i => (nd i).cur.v))
      (phi := extS (D.phi (tab (state cfg.magNode fun i => (nd i).cur.u))))
      (phiv := extS (D.phiv (tab (state cfg.magNode fun i => (nd i).cur.u)) (tab (state cfg.magNode fun i => (nd i).cur.v))))
      (fun t ht k => ?_) (fun f hf k => ?_) w (fun i hi => ?_)
    · simp only [Media.world] at this
      rw [← tab_state] at this
      exact this
    · have hm := hmt t ht k
      obtain ⟨h3, h4⟩ := hmag _ hm
      refine ⟨hpp _, hu _ hm, hvv _ hm, ?_, ?_⟩
      · simp only [tab_state, extS, Run.ext, h3, dif_pos]
        exact hphi ⟨_, h3⟩ h4
      · simp only [tab_state, extS, Run.ext, h3, dif_pos]
        exact hphiv ⟨_, h3⟩ h4
    · exact ⟨hpp _, hu _ (tri_mag hs f hf k)⟩
    · rw [hu i hi]
      exact hw i hi

/-- a motion keeps the length of the magnetization -/
theorem motion_unit (hs : Start P cfg nodes) {D : Media n P} {t0 T : ℝ} {y : ℝ → Fin n → V3} (hy : Motion P cfg nodes D t0 T y)
    (h0 : ∀ i, cfg.magNode i = true → (y t0 i).dot (y t0 i) = 1) (t : ℝ) (ht : t ∈ Icc t0 T) (i : Fin n) (hi : cfg.magNode i = true) :
    (y t i).dot (y t i) = 1 := by
  have hder : ∀ s ∈ Icc t0 T, HasDerivWithinAt (fun s => (y s i).dot (y s i)) 0 (Icc t0 T) s := by
    intro s hs'
    obtain ⟨v, hv, hd⟩ := hy.motion s hs'
    obtain ⟨dx, dy, dz⟩ := hd i hi
    have h1 := ((dx.mul dx).add (dy.mul dy)).add (dz.mul dz)
    have h2 := hv.1 i ((magNode_getD hs i).mpr hi)
    have e : extV (y s) i = y s i := by simp [extV]
    rw [e] at h2
    simp only [V3.dot] at h2
    refine h1.congr_deriv ?_
    linear_combination 2 * cfg.gamma0 * h2
  have := (convex_Icc t0 T).norm_image_sub_le_of_norm_hasDerivWithin_le (C := 0) hder (by simp)
    (left_mem_Icc.mpr (ht.1.trans ht.2)) ht
  rw [zero_mul] at this
  have h3 := norm_le_zero_iff.mp this
  rw [h0 i hi] at h3
  linarith

theorem masked_motion {D : Media n P} {t0 T : ℝ} {y : ℝ → Fin n → V3} (hy : Motion P cfg nodes D t0 T y) (t : ℝ) :
    masked cfg.magNode (y t) = y t := by
  funext i
  unfold masked
  split_ifs with h
  · rfl
  · rw [hy.outside t i (by simpa using h)]

theorem motion_admissible (hs : Start P cfg nodes) {D : Media n P} {y : ℝ → Fin n → V3} {t : ℝ}
    (h : ∀ i, cfg.magNode i = true → (y t i).dot (y t i) = 1) :
    (setting P cfg nodes D).Admissible (state cfg.magNode (y t)) := by
  intro i hi
  have e : vecs (state cfg.magNode (y t)) i = masked cfg.magNode (y t) ⟨i, hi⟩ := vecs_state cfg.magNode (y t) ⟨i, hi⟩
  rw [e]
  have hm : (setting P cfg nodes D).magN i ↔ cfg.magNode ⟨i, hi⟩ = true := magNode_getD hs ⟨i, hi⟩
  refine ⟨fun h1 => ?_, fun h1 => ?_⟩
  · have h2 := hm.mp h1
    simp only [masked, h2, if_true]
    exact h _ h2
  · have h2 : cfg.magNode ⟨i, hi⟩ = false := by
      by_contra hc
      exact h1 (hm.mpr (by simpa using hc))
    simp [masked, h2]

/-- a motion is a solution of a differential equation for the coordinates -/
theorem motion_rhs (hs : Start P cfg nodes) {D : Media n P} (hD : D.Smooth) {t0 T : ℝ} {y : ℝ → Fin n → V3}
    (hy : Motion P cfg nodes D t0 T y)
    (h0 : ∀ i, cfg.magNode i = true → (y t0 i).dot (y t0 i) = 1) (t : ℝ) (ht : t ∈ Icc t0 T) :
    HasDerivWithinAt (fun s => state cfg.magNode (y s)) ((setting P cfg nodes D).rhs (t, state cfg.magNode (y t))) (Icc t0 T) t := by
  classical
  obtain ⟨v, hv, hd⟩ := hy.motion t ht
  have hS := good hs hD
  set S := setting P cfg nodes D with hSd
  have hvec : vecs (state cfg.magNode (y t)) = extV (y t) := by rw [vecs_state', masked_motion hy]
  have hvel : ∀ i : Fin n, cfg.magNode i = true → v i = S.vel (t, state cfg.magNode (y t)) i := by
    intro i hi
    have hm : (magNode P.mag n P.tets).getD i false = true := (magNode_getD hs i).mpr hi
    have e : extV (y t) i = y t i := by simp [extV]
    have := velocity_unique hv i hm (by rw [e]; exact motion_unit hs hy h0 t ht i hi) (Setting.dmp_pos hS i hm)
    rw [this]
    unfold Setting.vel Setting.work
    dsimp only
    rw [hvec, hSd]
    simp only [setting, tab_state, masked_motion hy]
    rfl
  refine hasDerivWithinAt_pi.mpr fun i => hasDerivWithinAt_pi.mpr fun k => ?_
  have hr : S.rhs (t, state cfg.magNode (y t)) i = co (if S.magN i then S.gamma0 * S.vel (t, state cfg.magNode (y t)) i else 0) := rfl
  rw [hr]
  by_cases hi : cfg.magNode i = true
  · have hm : S.magN i := (magNode_getD hs i).mpr hi
    rw [if_pos hm, ← hvel i hi]
    obtain ⟨dx, dy, dz⟩ := hd i hi
    simp only [state, masked, hi, if_true]
    fin_cases k
    · exact dx
    · exact dy
    · exact dz
  · have hm : ¬ S.magN i := fun h => hi ((magNode_getD hs i).mp h)
    rw [if_neg hm]
    have hi' : cfg.magNode i = false := by simpa using hi
    simp only [state, masked, hi', Bool.false_eq_true, if_false, co_zero]
    exact hasDerivWithinAt_const _ _ _

/-- what holds after each transition of the run -/
structure Near (P : Problem) (cfg : Cfg n ET) (D : Media n P) (t0 T B : ℝ) (E : ℝ → ℝ) (y : ℝ → Fin n → V3) (s : St n ET) : Prop where
  phi : ∀ i, cfg.magNode i = true → (s.nodes i).cur.phi = D.phi (masked cfg.magNode fun i => (s.nodes i).cur.u) i
  phiv : ∀ i, cfg.magNode i = true → (s.nodes i).cur.phiv =
      D.phiv (masked cfg.magNode fun i => (s.nodes i).cur.u) (masked cfg.magNode fun i => (s.nodes i).cur.v) i
  ge : t0 ≤ s.t
  vel : s.t ≤ T → ‖state cfg.magNode fun i => (s.nodes i).cur.v‖ ≤ B
  err : s.t ≤ T → ‖(state cfg.magNode fun i => (s.nodes i).cur.u) - state cfg.magNode (y s.t)‖ ≤ E s.t
  next : (∀ i, (s.nodes i).next.u = (s.nodes i).cur.u) ∨ s.t < tTarget cfg t0 s.stepNb
  rows : ∀ r ∈ s.rows, r.t ≤ T → ‖(state cfg.magNode fun i => (r.nodes i).next.u) - state cfg.magNode (y r.t)‖ ≤ E r.t

/-- transitions which leave the current state of the nodes -/
theorem Near.keep {D : Media n P} {t0 T B : ℝ} {E : ℝ → ℝ} {y : ℝ → Fin n → V3} {s s' : St n ET} (h : Near P cfg D t0 T B E y s)
    (hc : ∀ i, (s'.nodes i).cur = (s.nodes i).cur) (ht : s'.t = s.t)
    (hn : (∀ i, (s'.nodes i).next.u = (s'.nodes i).cur.u) ∨ s'.t < tTarget cfg t0 s'.stepNb)
    (hr : ∀ r ∈ s'.rows, r.t ≤ T → ‖(state cfg.magNode fun i => (r.nodes i).next.u) - state cfg.magNode (y r.t)‖ ≤ E r.t) :
    Near P cfg D t0 T B E y s' := by
  have e1 : (fun i => (s'.nodes i).cur.u) = fun i => (s.nodes i).cur.u := funext fun i => by rw [hc i]
  have e2 : (fun i => (s'.nodes i).cur.v) = fun i => (s.nodes i).cur.v := funext fun i => by rw [hc i]
  refine ⟨fun i hi => ?_, fun i hi => ?_, ?_, ?_, ?_, hn, hr⟩
  · rw [e1, hc i]; exact h.phi i hi
  · rw [e1, e2, hc i]; exact h.phiv i hi
  · rw [ht]; exact h.ge
  · rw [ht, e2]; exact h.vel
  · rw [ht, e1]; exact h.err

theorem masked_solved (cfg : Cfg n ET) (f g : Fin n → V3) (h : ∀ i, cfg.magNode i = true → f i = g i) :
    masked cfg.magNode f = masked cfg.magNode g := by
  funext i
  unfold masked
  split_ifs with hi
  · exact h i hi
  · rfl

/-- the induction over the run -/
theorem near_run (hs : Start P cfg nodes) (hd : P.dir = none) {D : Media n P} (hv : Valid cfg) (hR : NoRecenter cfg)
    (hadd : ∀ t dt, cfg.add t dt = t + dt) {t0 T : ℝ} {V : ℕ → ℝ} {inp : ℕ → Input n}
    (hex : ExactRun P cfg (D.world cfg.magNode) V t0 nodes inp) (hv0 : ∀ i, cfg.magNode i = true → (nodes i).next.v = 0)
    {y : ℝ → Fin n → V3} (hy : Motion P cfg nodes D t0 T y)
    (hy0 : ∀ i, cfg.magNode i = true → y t0 i = (nodes i).next.u) {Vb C₁ L δ M : ℝ} (hVb : 0 < Vb) (hL : 0 < L) (hC : 0 ≤ C₁) (hM : 0 ≤ M)
    (hD : D.Smooth)
    (hloc : ∀ z : ℝ × X n, z.1 ∈ Icc t0 T → (setting P cfg nodes D).Admissible z.2 → ∀ W : X n, ‖W‖ ≤ cfg.gamma0 * Vb →
      ∀ dt q v, 0 < dt → dt ≤ δ → 0 ≤ q → q ≤ 2 * (P.theta * cfg.gamma0) → (setting P cfg nodes D).StepEq z W dt q v →
        ‖(setting P cfg nodes D).nextV v‖ ≤ cfg.gamma0 * Vb ∧
        ‖(setting P cfg nodes D).next z.2 dt v - z.2 - dt • (setting P cfg nodes D).rhs z‖ ≤ C₁ * dt ^ 2)
    (hlip : ∀ t ∈ Icc t0 T, ∀ u ∈ Metric.closedBall (0 : X n) 1, ∀ t' ∈ Icc t0 T, ∀ u' ∈ Metric.closedBall (0 : X n) 1,
      ‖(setting P cfg nodes D).rhs (t', u') - (setting P cfg nodes D).rhs (t, u)‖ ≤ L * ‖((t', u') : ℝ × X n) - (t, u)‖)
    (hbd : ∀ t ∈ Icc t0 T, ∀ u ∈ Metric.closedBall (0 : X n) 1, ‖(setting P cfg nodes D).rhs (t, u)‖ ≤ M)
    (hdmax : cfg.DTMAX * (1 + 1 / 2 ^ 23) ≤ δ) (k : ℕ) :
    Near P cfg D t0 T (cfg.gamma0 * Vb)
      (fun t => (C₁ + L * (1 + M)) * (2 * cfg.DTMAX) / L * (Real.exp (L * (t - t0)) - 1)) y
      (run cfg t0 nodes ((D.world cfg.magNode).pot nodes) inp k) := by
  classical
  have hU : RecenterKeepsUnit cfg := fun nd nd' h => by rw [hR] at h; cases h; exact id
  have hN : RecenterKeepsNext cfg := fun nd nd' h => by rw [hR] at h; cases h; exact fun i => ⟨rfl, rfl, rfl⟩
  have hDp : 0 < cfg.DTMAX := hv.dtmin.trans_le hv.dtmax
  have hu0 : ∀ i, cfg.magNode i = true → (y t0 i).dot (y t0 i) = 1 := by
    intro i hi
    rw [hy0 i hi]
    have := hs.unit i hi
    unfold IsUnit3 at this
    simp only [V3.dot]
    linarith
  have hcomp : ∀ (pot : Fin n → ℝ × ℝ) (nd : Fin n → Node) (i : Fin n), (computeAllNodes cfg.magNode pot nd i).cur =
      if cfg.magNode i = true then { (nd i).next with phi := (pot i).1, phiv := (pot i).2 } else (nd i).next := by
    intro pot nd i
    unfold computeAllNodes setPot Node.evolution
    split_ifs <;> rfl
  have hcu : ∀ (pot : Fin n → ℝ × ℝ) (nd : Fin n → Node) (i : Fin n), (computeAllNodes cfg.magNode pot nd i).cur.u = (nd i).next.u := by
    intro pot nd i
    rw [hcomp]
    split_ifs <;> rfl
  have hcv : ∀ (pot : Fin n → ℝ × ℝ) (nd : Fin n → Node) (i : Fin n), (computeAllNodes cfg.magNode pot nd i).cur.v = (nd i).next.v := by
    intro pot nd i
    rw [hcomp]
    split_ifs <;> rfl
  have hcp : ∀ (nd : Fin n → Node) (i : Fin n), cfg.magNode i = true →
      (computeAllNodes cfg.magNode ((D.world cfg.magNode).pot nd) nd i).cur.phi = D.phi (masked cfg.magNode fun i => (nd i).next.u) i ∧
      (computeAllNodes cfg.magNode ((D.world cfg.magNode).pot nd) nd i).cur.phiv =
        D.phiv (masked cfg.magNode fun i => (nd i).next.u) (masked cfg.magNode fun i => (nd i).next.v) i := by
    intro nd i hi
    rw [hcomp, if_pos hi]
    exact ⟨rfl, rfl⟩
  induction k with
  | zero =>
    refine ⟨fun i hi => ?_, fun i hi => ?_, le_rfl, fun _ => ?_, fun _ => ?_, Or.inl fun i => ?_, fun r hr => ?_⟩
    · change (computeAllNodes _ _ _ _).cur.phi = D.phi (masked _ fun i => (computeAllNodes _ _ _ _).cur.u) i
      simp only [hcu]
      exact (hcp nodes i hi).1
    · change (computeAllNodes _ _ _ _).cur.phiv =
        D.phiv (masked _ fun i => (computeAllNodes _ _ _ _).cur.u) (masked _ fun i => (computeAllNodes _ _ _ _).cur.v) i
      simp only [hcu, hcv]
      exact (hcp nodes i hi).2
    · change ‖state cfg.magNode fun i => (computeAllNodes _ _ _ _).cur.v‖ ≤ _
      simp only [hcv]
      have e : (state cfg.magNode fun i => (nodes i).next.v) = 0 := by
        funext i
        unfold state masked
        split_ifs with hi
        · dsimp only
          rw [hv0 i hi, co_zero]; rfl
        · rw [co_zero]; rfl
      rw [e, norm_zero]
      exact mul_nonneg hs.gamma0.le hVb.le
    · change ‖(state cfg.magNode fun i => (computeAllNodes _ _ _ _).cur.u) - state cfg.magNode (y t0)‖ ≤
        _ * (Real.exp (L * (t0 - t0)) - 1)
      simp only [hcu]
      have e : (state cfg.magNode fun i => (nodes i).next.u) = state cfg.magNode (y t0) := by
        unfold state
        rw [masked_solved cfg _ (y t0) fun i hi => (hy0 i hi).symm]
      rw [e]
      simp
    · exact (congrArg DataNode.u (computeAll_next_u cfg.magNode _ nodes i).2.2.2.1).symm
    · exact absurd hr (List.not_mem_nil)
  | succ k ih =>
    have hC02 := C02_dt_limits cfg hv t0 nodes ((D.world cfg.magNode).pot nodes) inp k
    have hunit := allUnit_run hU t0 nodes ((D.world cfg.magNode).pot nodes) inp hs.unit k
    have hpos := run_pos (nodes := nodes) hN t0 ((D.world cfg.magNode).pot nodes) inp k
    have hvel := fun (F : Fields P) X M b hdt hsys hM => exact_velocity hs hv hU hN t0 ((D.world cfg.magNode).pot nodes) inp k F (inp k).r
      (attDt cfg t0 (run cfg t0 nodes ((D.world cfg.magNode).pot nodes) inp k)) hdt X M b hsys hM
    have hsol := fun X dt i hi => solved_eq (cfg := cfg) (nodes := nodes) t0 ((D.world cfg.magNode).pot nodes) inp k i X dt hi
    have hx := hex.exact k
    have hp := hex.pot k
    change Near _ _ _ _ _ _ _ _ (TimeLoop.step cfg t0 (inp k) (run cfg t0 nodes ((D.world cfg.magNode).pot nodes) inp k))
    rw [show run cfg t0 nodes ((D.world cfg.magNode).pot nodes) inp (k + 1) =
      TimeLoop.step cfg t0 (inp k) (run cfg t0 nodes ((D.world cfg.magNode).pot nodes) inp k) from rfl] at hC02
    generalize run cfg t0 nodes ((D.world cfg.magNode).pot nodes) inp k = s at *
    cases step_kind cfg t0 (inp k) s with
    | halted _ e => rw [e]; exact ih
    | output _ ht e =>
      have hnx := ih.next.resolve_right ht
      have e1 : (TimeLoop.step cfg t0 (inp k) s).nodes = s.nodes ∧ (TimeLoop.step cfg t0 (inp k) s).t = s.t ∧
          (TimeLoop.step cfg t0 (inp k) s).rows = s.rows ++ [{ nt := s.rows.length, t := s.t, dt := s.dt, E := s.E, nodes := s.nodes }] := by
        rw [e]
        unfold forBody saver
        dsimp only
        split_ifs <;> exact ⟨rfl, rfl, rfl⟩
      refine ih.keep (fun i => by rw [e1.1]) e1.2.1 (Or.inl fun i => by rw [e1.1]; exact hnx i) fun r hr hrT => ?_
      rw [e1.2.2, List.mem_append, List.mem_singleton] at hr
      rcases hr with hr | rfl
      · exact ih.rows r hr hrT
      · dsimp only at hrT ⊢
        simp only [hnx]
        exact ih.err hrT
    | signal _ ht _ e => rw [e]; exact ih.keep (fun _ => rfl) rfl (Or.inr ht) ih.rows
    | small _ ht _ _ e => rw [e]; exact ih.keep (fun _ => rfl) rfl (Or.inr ht) ih.rows
    | fail _ ht _ _ _ e => rw [e]; exact ih.keep (fun _ => rfl) rfl (Or.inr ht) ih.rows
    | reject _ ht _ _ X _ _ e =>
      rw [e]
      refine ih.keep (fun i => ?_) rfl (Or.inr ht) ih.rows
      dsimp only
      unfold solvedNodes updateNodes
      split_ifs <;> rfl
    | exitRec _ _ _ _ X _ _ hrec e => rw [hR] at hrec; cases hrec
    | accept hc ht hi hdn X hX hr nd hrec e =>
      rw [hR] at hrec
      cases hrec
      obtain ⟨d1, d2, d3, d4, d5, -⟩ := hC02 (by rw [e]; rfl)
      have edt : (TimeLoop.step cfg t0 (inp k) s).dt = attDt cfg t0 s := by rw [e]; rfl
      rw [edt] at d1 d2 d4
      have et : (TimeLoop.step cfg t0 (inp k) s).t = s.t + attDt cfg t0 s := by
        rcases d4 with h | h
        · rw [h, hadd]
        · exact h.2
      have hdt : 0 < attDt cfg t0 s := hv.dtmin.trans_le d1
      obtain ⟨Mx, b, hsys, hMx⟩ := hx X ⟨hc, ht, hi⟩ (not_lt.mp hdn) hX
      have hmv := (hvel _ X Mx b hdt hsys hMx).1
      have hst := stepEq hs hd (D := D) hpos ih.phi ih.phiv hmv
      have hpot := hp X ⟨hc, ht, hi⟩ hX
      have enod : (TimeLoop.step cfg t0 (inp k) s).nodes = computeAllNodes cfg.magNode
          ((D.world cfg.magNode).pot (solvedNodes cfg (inp k) X (attDt cfg t0 s) s)) (solvedNodes cfg (inp k) X (attDt cfg t0 s) s) := by
        rw [e, ← hpot]
        rfl
      set v := ofComp (Run.ext (baseProjection (inp k).r s.nodes)) (unknowns X) with hvd
      set S := setting P cfg nodes D with hSd
      have hmagN : ∀ i : Fin n, S.magN i ↔ cfg.magNode i = true := fun i => magNode_getD hs i
      have eu : (state cfg.magNode fun i => ((TimeLoop.step cfg t0 (inp k) s).nodes i).cur.u) =
          S.next (state cfg.magNode fun i => (s.nodes i).cur.u) (attDt cfg t0 s) v := by
        funext i
        change co (masked _ _ i) = co (if S.magN i then _ else _)
        rw [vecs_state]
        unfold masked
        by_cases hm : cfg.magNode i = true
        · rw [if_pos hm, if_pos ((hmagN i).mpr hm), if_pos hm, enod]
          dsimp only
          rw [hcu]
          exact congrArg co (hsol X _ i hm).2
        · rw [if_neg hm, if_neg fun h => hm ((hmagN i).mp h)]
      have ev : (state cfg.magNode fun i => ((TimeLoop.step cfg t0 (inp k) s).nodes i).cur.v) = S.nextV v := by
        funext i
        change co (masked _ _ i) = co (if S.magN i then _ else _)
        unfold masked
        by_cases hm : cfg.magNode i = true
        · rw [if_pos hm, if_pos ((hmagN i).mpr hm), enod]
          dsimp only
          rw [hcv]
          exact congrArg co (hsol X (attDt cfg t0 s) i hm).1
        · rw [if_neg hm, if_neg fun h => hm ((hmagN i).mp h)]
      have hpf := prefactor_bounds hDp hdt d2
      have hθγ : 0 ≤ P.theta * cfg.gamma0 := mul_nonneg hs.theta hs.gamma0.le
      have hadm : S.Admissible (state cfg.magNode fun i => (s.nodes i).cur.u) := by
        refine motion_admissible hs (y := fun _ i => (s.nodes i).cur.u) (t := 0) fun i hi' => ?_
        have := (hunit i hi').1
        unfold IsUnit3 at this
        simp only [V3.dot]
        linarith
      have hlt : (TimeLoop.step cfg t0 (inp k) s).t ≤ T → s.t ≤ T := fun h => by rw [et] at h; linarith
      have hbound := fun h : (TimeLoop.step cfg t0 (inp k) s).t ≤ T => hloc (s.t, state cfg.magNode fun i => (s.nodes i).cur.u)
        ⟨ih.ge, hlt h⟩ hadm _ (ih.vel (hlt h)) (attDt cfg t0 s) _ v hdt (d2.trans hdmax) (mul_nonneg hpf.1 hθγ)
        (mul_le_mul_of_nonneg_right hpf.2 hθγ) hst
      refine ⟨fun i hm => ?_, fun i hm => ?_, ?_, fun h => ?_, fun h => ?_, Or.inl fun i => ?_, ?_⟩
      · rw [enod]
        simp only [hcu]
        exact (hcp _ i hm).1
      · rw [enod]
        simp only [hcu, hcv]
        exact (hcp _ i hm).2
      · rw [et]; linarith [ih.ge]
      · rw [ev]
        exact (hbound h).1
      · rw [eu]
        have hT := h
        rw [et] at hT
        have h1 := OneStep.error_recurrence hL.le hlip hbd (y := fun t => state cfg.magNode (y t)) (fun t ht => motion_rhs hs hD hy hu0 t ht)
          (fun t ht => mem_closedBall_zero_iff.mpr (Setting.norm_le_one (S := S)
            (motion_admissible hs fun i hi' => motion_unit hs hy hu0 t ht i hi'))) (t := s.t) (dt := attDt cfg t0 s)
          ⟨ih.ge, hlt h⟩ ⟨by linarith [ih.ge], hT⟩ hdt.le (mem_closedBall_zero_iff.mpr (Setting.norm_le_one hadm)) (hbound h).2
        have h2 := OneStep.error_step (dmax := 2 * cfg.DTMAX) hL (by positivity) hdt.le (by nlinarith) (ih.err (hlt h)) h1
        rw [et]
        have e3 : s.t + attDt cfg t0 s - t0 = s.t - t0 + attDt cfg t0 s := by ring
        rw [e3]
        exact h2
      · rw [enod]
        exact (congrArg DataNode.u (computeAll_next_u cfg.magNode _ _ i).2.2.2.1).symm
      · have : (TimeLoop.step cfg t0 (inp k) s).rows = s.rows := by rw [e]; rfl
        rw [this]
        exact ih.rows

theorem norm_le_state {mag : Fin n → Bool} {f g : Fin n → V3} {K : ℝ} (h : ‖state mag f - state mag g‖ ≤ K) (i : Fin n)
    (hi : mag i = true) : (f i - g i).norm ≤ 2 * K := by
  have h1 : ‖(state mag f - state mag g) i‖ ≤ K := (norm_le_pi_norm _ i).trans h
  have e : (state mag f - state mag g) i = co (f i - g i) := by
    change co (masked mag f i) - co (masked mag g i) = _
    simp only [masked, hi, if_true]
    rw [Setting.co_sub]
  rw [e] at h1
  have hK : 0 ≤ K := (norm_nonneg _).trans h1
  obtain ⟨hx, hy, hz⟩ := abs_le_norm_co (f i - g i)
  unfold V3.norm
  rw [Real.sqrt_le_left (by linarith)]
  have sq : ∀ a : ℝ, |a| ≤ ‖co (f i - g i)‖ → a * a ≤ K * K := fun a ha => by
    rw [← abs_mul_abs_self]
    exact mul_self_le_mul_self (abs_nonneg _) (ha.trans h1)
  have h2 := sq _ hx
  have h3 := sq _ hy
  have h4 := sq _ hz
  unfold V3.nsq
  nlinarith

theorem norm_le_co {a : V3} {K : ℝ} (h : ‖co a‖ ≤ K) : Real.sqrt a.nsq ≤ 2 * K := by
  have hK : 0 ≤ K := (norm_nonneg _).trans h
  obtain ⟨hx, hy, hz⟩ := abs_le_norm_co a
  rw [Real.sqrt_le_left (by linarith)]
  have sq : ∀ x : ℝ, |x| ≤ ‖co a‖ → x * x ≤ K * K := fun x hx => by
    rw [← abs_mul_abs_self]
    exact mul_self_le_mul_self (abs_nonneg _) (hx.trans h)
  have h2 := sq _ hx
  have h3 := sq _ hy
  have h4 := sq _ hz
  unfold V3.nsq
  nlinarith

/-- the velocity of every attempt is bounded -/
theorem attempt_bound (hs : Start P cfg nodes) (hd : P.dir = none) {D : Media n P} (hv : Valid cfg) (hR : NoRecenter cfg)
    {t0 T : ℝ} {V : ℕ → ℝ} {inp : ℕ → Input n} (hex : ExactRun P cfg (D.world cfg.magNode) V t0 nodes inp) {y : ℝ → Fin n → V3}
    {E : ℝ → ℝ} {Vb C₁ δ : ℝ}
    (hloc : ∀ z : ℝ × X n, z.1 ∈ Icc t0 T → (setting P cfg nodes D).Admissible z.2 → ∀ W : X n, ‖W‖ ≤ cfg.gamma0 * Vb →
      ∀ dt q v, 0 < dt → dt ≤ δ → 0 ≤ q → q ≤ 2 * (P.theta * cfg.gamma0) → (setting P cfg nodes D).StepEq z W dt q v →
        ‖(setting P cfg nodes D).nextV v‖ ≤ cfg.gamma0 * Vb ∧
        ‖(setting P cfg nodes D).next z.2 dt v - z.2 - dt • (setting P cfg nodes D).rhs z‖ ≤ C₁ * dt ^ 2)
    (hdmax : cfg.DTMAX * (1 + 1 / 2 ^ 23) ≤ δ) (k : ℕ)
    (hn : Near P cfg D t0 T (cfg.gamma0 * Vb) E y (run cfg t0 nodes ((D.world cfg.magNode).pot nodes) inp k)) (X : Fin n → ℝ × ℝ)
    (hat : Attempt cfg t0 (inp k) (run cfg t0 nodes ((D.world cfg.magNode).pot nodes) inp k))
    (hmin : cfg.DTMIN ≤ attDt cfg t0 (run cfg t0 nodes ((D.world cfg.magNode).pot nodes) inp k)) (hX : (inp k).sol = some X)
    (hT : (run cfg t0 nodes ((D.world cfg.magNode).pot nodes) inp k).t ≤ T) (i : Fin n) (hi : cfg.magNode i = true) :
    cfg.gamma0 * Real.sqrt ((X i).1 ^ 2 + (X i).2 ^ 2) ≤ 2 * (cfg.gamma0 * Vb) := by
  classical
  have hU : RecenterKeepsUnit cfg := fun nd nd' h => by rw [hR] at h; cases h; exact id
  have hN : RecenterKeepsNext cfg := fun nd nd' h => by rw [hR] at h; cases h; exact fun i => ⟨rfl, rfl, rfl⟩
  have hDp : 0 < cfg.DTMAX := hv.dtmin.trans_le hv.dtmax
  have hunit := allUnit_run hU t0 nodes ((D.world cfg.magNode).pot nodes) inp hs.unit k
  have hpos := run_pos (nodes := nodes) hN t0 ((D.world cfg.magNode).pot nodes) inp k
  have hinv := inv_run cfg hv t0 nodes ((D.world cfg.magNode).pot nodes) inp k
  have hvel := fun (F : Fields P) X M b hdt hsys hM => exact_velocity hs hv hU hN t0 ((D.world cfg.magNode).pot nodes) inp k F (inp k).r
      (attDt cfg t0 (run cfg t0 nodes ((D.world cfg.magNode).pot nodes) inp k)) hdt X M b hsys hM
  obtain ⟨Mx, b, hsys, hMx⟩ := hex.exact k X hat hmin hX
  generalize run cfg t0 nodes ((D.world cfg.magNode).pot nodes) inp k = s at *
  have hdt : 0 < attDt cfg t0 s := hv.dtmin.trans_le hmin
  have hst := stepEq hs hd (D := D) hpos hn.phi hn.phiv (hvel _ X Mx b hdt hsys hMx).1
  have d2 : attDt cfg t0 s ≤ cfg.DTMAX * (1 + 1 / 2 ^ 23) := (attDt_le_soft cfg t0 s).trans hinv.soft
  have hpf := prefactor_bounds hDp hdt d2
  have hθγ : 0 ≤ P.theta * cfg.gamma0 := mul_nonneg hs.theta hs.gamma0.le
  have hadm : (setting P cfg nodes D).Admissible (state cfg.magNode fun i => (s.nodes i).cur.u) := by
    refine motion_admissible hs (y := fun _ i => (s.nodes i).cur.u) (t := 0) fun i hi' => ?_
    have := (hunit i hi').1
    unfold IsUnit3 at this
    simp only [V3.dot]
    linarith
  have hb := (hloc (s.t, state cfg.magNode fun i => (s.nodes i).cur.u) ⟨hn.ge, hT⟩ hadm _ (hn.vel hT) (attDt cfg t0 s) _ _ hdt
    (d2.trans hdmax) (mul_nonneg hpf.1 hθγ) (mul_le_mul_of_nonneg_right hpf.2 hθγ) hst).1
  have h1 := (norm_le_pi_norm _ i).trans hb
  have h2 : (setting P cfg nodes D).nextV (ofComp (Run.ext (baseProjection (inp k).r s.nodes)) (unknowns X)) i =
      co (cfg.gamma0 * ofComp (Run.ext (baseProjection (inp k).r s.nodes)) (unknowns X) i) := by
    change co (if (setting P cfg nodes D).magN i then _ else _) = _
    rw [if_pos (show (setting P cfg nodes D).magN i from (magNode_getD hs i).mpr hi)]
    rfl
  rw [h2] at h1
  have h3 := norm_le_co h1
  have hu := (hunit i hi).1
  rw [isUnit3_iff] at hu
  obtain ⟨c1, c2, -, c4, -⟩ := Node.setBasis_spec (2 / Real.pi * (inp k).r) (s.nodes i) hu
  have h4 : (ofComp (Run.ext (baseProjection (inp k).r s.nodes)) (unknowns X) i).nsq = (X i).1 ^ 2 + (X i).2 ^ 2 := by
    unfold ofComp
    rw [unknowns_even, unknowns_odd, ext_fin]
    exact Node.nsq_tangent c1 c2 c4 _ _
  rw [V3.nsq_smul, h4, Real.sqrt_mul (sq_nonneg _), Real.sqrt_sq hs.gamma0.le] at h3
  exact h3

/-- the theorems below, with the constants in common -/
theorem core (hs : Start P cfg nodes) (hd : P.dir = none) {D : Media n P} (hD : D.Smooth) (t0 T : ℝ) :
    ∃ C δ Vm, 0 < C ∧ 0 < δ ∧ 0 < Vm ∧ ∀ (cfg' : Cfg n ET) (nodes' : Fin n → Node) (inp : ℕ → Input n) (V : ℕ → ℝ) (y : ℝ → Fin n → V3),
      cfg'.gamma0 = cfg.gamma0 → cfg'.magNode = cfg.magNode → (∀ i, (nodes' i).p = (nodes i).p) →
      (∀ i, cfg.magNode i = true → IsUnit3 (nodes' i).next.u ∧ (nodes' i).next.v = 0) →
      Valid cfg' → NoRecenter cfg' → (∀ t dt, cfg'.add t dt = t + dt) → cfg'.DTMAX ≤ δ →
      ExactRun P cfg' (D.world cfg'.magNode) V t0 nodes' inp →
      Motion P cfg nodes D t0 T y → (∀ i, cfg.magNode i = true → y t0 i = (nodes' i).next.u) →
      ∀ k, let s := run cfg' t0 nodes' ((D.world cfg'.magNode).pot nodes') inp k
        (s.t ≤ T → ∀ i, cfg.magNode i = true → ((s.nodes i).cur.u - y s.t i).norm ≤ C * cfg'.DTMAX) ∧
        (∀ r ∈ s.rows, r.t ≤ T → ∀ i, cfg.magNode i = true → ((r.nodes i).next.u - y r.t i).norm ≤ C * cfg'.DTMAX) ∧
        ∀ X, Attempt cfg' t0 (inp k) s → cfg'.DTMIN ≤ attDt cfg' t0 s → (inp k).sol = some X → s.t ≤ T →
          ∀ i, cfg.magNode i = true → cfg.gamma0 * Real.sqrt ((X i).1 ^ 2 + (X i).2 ^ 2) ≤ Vm := by
  have hS := good hs hD
  obtain ⟨Vb, C₁, δ, hVb, hC₁, hδ, hloc⟩ := Setting.local_step hS t0 T (2 * (P.theta * cfg.gamma0))
  have hK : IsCompact (Icc t0 T ×ˢ Metric.closedBall (0 : X n) 1) := isCompact_Icc.prod (isCompact_closedBall _ _)
  obtain ⟨L, hL, hlip⟩ := OneStep.lipschitz_of_contDiff (Setting.smooth_rhs hS) hK ((convex_Icc t0 T).prod (convex_closedBall _ _))
  obtain ⟨M, hM⟩ := hK.exists_bound_of_continuousOn (Setting.smooth_rhs hS).continuous.continuousOn
  set A := (C₁ + L * (1 + max M 0)) * 2 / L with hA
  have hA0 : 0 < A := by positivity
  refine ⟨2 * (A * Real.exp (L * (T - t0))), δ / 2, 2 * (cfg.gamma0 * Vb), by positivity, by positivity,
    mul_pos two_pos (mul_pos hs.gamma0 hVb), ?_⟩
  intro cfg' nodes' inp V y hg hm hp hu hv hR hadd hdt hex hy hy0 k s
  have hs' : Start P cfg' nodes' :=
    { hs with
      oriented := fun t ht => by
        have e : MeshElem.nod4 (fun i => (Run.ext nodes' i).p) t = MeshElem.nod4 (fun i => (Run.ext nodes i).p) t := by
          funext j
          have hj := hs.valid t ht j
          unfold MeshElem.nod4 Run.ext
          dsimp only
          rw [dif_pos hj, dif_pos hj]
          exact hp _
        rw [e]
        exact hs.oriented t ht
      magNode := fun i => by rw [hm]; exact hs.magNode i
      unit := fun i hi => by rw [hm] at hi; exact (hu i hi).1
      gamma0 := by rw [hg]; exact hs.gamma0 }
  have hpe : (fun i => (Run.ext nodes' i).p) = fun i => (Run.ext nodes i).p := by
    funext i
    unfold Run.ext
    split_ifs
    · exact hp _
    · rfl
  have hset : setting P cfg' nodes' D = setting P cfg nodes D := by
    unfold setting
    rw [hg, hpe]
  have hy' : Motion P cfg' nodes' D t0 T y := by
    refine ⟨fun t i hi => hy.outside t i (by rw [← hm]; exact hi), fun t ht => ?_⟩
    rw [hpe, hg, hm]
    exact hy.motion t ht
  have hDp : 0 < cfg'.DTMAX := hv.dtmin.trans_le hv.dtmax
  have near := near_run hs' hd hv hR hadd hex (fun i hi => by rw [hm] at hi; exact (hu i hi).2) hy'
    (fun i hi => by rw [hm] at hi; exact hy0 i hi) (δ := δ) hVb hL hC₁.le (le_max_right M 0) hD (by rw [hset, hg]; exact hloc)
    (by rw [hset]; exact fun t ht u hu t' ht' u' hu' => hlip (t, u) ⟨ht, hu⟩ (t', u') ⟨ht', hu'⟩)
    (by rw [hset]; exact fun t ht u hu => (hM (t, u) ⟨ht, hu⟩).trans (le_max_left _ _)) (by nlinarith) k
  have hE : ∀ t, t ≤ T → 2 * ((C₁ + L * (1 + max M 0)) * (2 * cfg'.DTMAX) / L * (Real.exp (L * (t - t0)) - 1)) ≤
      2 * (A * Real.exp (L * (T - t0))) * cfg'.DTMAX := by
    intro t ht
    have e1 : (C₁ + L * (1 + max M 0)) * (2 * cfg'.DTMAX) / L = A * cfg'.DTMAX := by rw [hA]; ring
    have e2 : Real.exp (L * (t - t0)) ≤ Real.exp (L * (T - t0)) := Real.exp_le_exp.mpr (mul_le_mul_of_nonneg_left (by linarith) hL.le)
    rw [e1]
    nlinarith [mul_pos hA0 hDp]
  refine ⟨fun ht i hi => ?_, fun r hr ht i hi => ?_, fun X hat hmin hX hT i hi => ?_⟩
  · exact (norm_le_state (near.err ht) i (by rw [hm]; exact hi)).trans (hE _ ht)
  · exact (norm_le_state (near.rows r hr ht) i (by rw [hm]; exact hi)).trans (hE _ ht)
  · have := attempt_bound hs' hd hv hR hex (δ := δ) (by rw [hset, hg]; exact hloc) (by nlinarith) k near X hat hmin hX hT i
      (by rw [hm]; exact hi)
    rwa [hg] at this

/-- **C81** For a given sample, with fields that depend in a continuously differentiable way on the time and on the magnetization,
and a given time interval, there are a constant `C` and a bound for `max(dt)` such that every run, from any initial magnetization
and with any time step settings, stays within `C max(dt)` of the motion given by the equation discretised in space, at every
accepted step and in every row of the output. -/
theorem C81_convergence (hs : Start P cfg nodes) (hd : P.dir = none) {D : Media n P} (hD : D.Smooth) (t0 T : ℝ) :
    ∃ C δ, 0 < C ∧ 0 < δ ∧ ∀ (cfg' : Cfg n ET) (nodes' : Fin n → Node) (inp : ℕ → Input n) (V : ℕ → ℝ) (y : ℝ → Fin n → V3),
      cfg'.gamma0 = cfg.gamma0 → cfg'.magNode = cfg.magNode → (∀ i, (nodes' i).p = (nodes i).p) →
      (∀ i, cfg.magNode i = true → IsUnit3 (nodes' i).next.u ∧ (nodes' i).next.v = 0) →
      Valid cfg' → NoRecenter cfg' → (∀ t dt, cfg'.add t dt = t + dt) → cfg'.DTMAX ≤ δ →
      ExactRun P cfg' (D.world cfg'.magNode) V t0 nodes' inp →
      Motion P cfg nodes D t0 T y → (∀ i, cfg.magNode i = true → y t0 i = (nodes' i).next.u) →
      ∀ k, let s := run cfg' t0 nodes' ((D.world cfg'.magNode).pot nodes') inp k
        (s.t ≤ T → ∀ i, cfg.magNode i = true → ((s.nodes i).cur.u - y s.t i).norm ≤ C * cfg'.DTMAX) ∧
        ∀ r ∈ s.rows, r.t ≤ T → ∀ i, cfg.magNode i = true → ((r.nodes i).next.u - y r.t i).norm ≤ C * cfg'.DTMAX := by
  obtain ⟨C, δ, _, hC, hδ, -, h⟩ := core hs hd hD t0 T
  refine ⟨C, δ, hC, hδ, fun cfg' nodes' inp V y h1 h2 h3 h4 h5 h6 h7 h8 h9 h10 h11 k => ?_⟩
  obtain ⟨a, b, -⟩ := h cfg' nodes' inp V y h1 h2 h3 h4 h5 h6 h7 h8 h9 h10 h11 k
  exact ⟨a, b⟩

/-- what is given to a transition that makes no attempt does not matter -/
theorem run_congr (t0 : ℝ) (pot : Fin n → ℝ × ℝ) {inp inp' : ℕ → Input n} (hsig : ∀ k, (inp' k).sig = (inp k).sig)
    (h : ∀ k, let s := run cfg t0 nodes pot inp k
      Attempt cfg t0 (inp k) s → cfg.DTMIN ≤ attDt cfg t0 s → inp' k = inp k) (k : ℕ) :
    run cfg t0 nodes pot inp' k = run cfg t0 nodes pot inp k := by
  induction k with
  | zero => rfl
  | succ k ih =>
    change TimeLoop.step cfg t0 (inp' k) (run cfg t0 nodes pot inp' k) = TimeLoop.step cfg t0 (inp k) (run cfg t0 nodes pot inp k)
    rw [ih]
    have hk := h k
    generalize run cfg t0 nodes pot inp k = s at *
    by_cases hc : s.ctl = .running
    · by_cases ht : s.t < tTarget cfg t0 s.stepNb
      · cases hg : (inp k).sig with
        | true =>
          unfold TimeLoop.step
          rw [hc]
          simp only
          rw [if_pos ht, if_pos ht, whileBody_sig _ _ _ _ hg, whileBody_sig _ _ _ _ ((hsig k).trans hg)]
        | false =>
          by_cases hm : attDt cfg t0 s < cfg.DTMIN
          · unfold TimeLoop.step
            rw [hc]
            simp only
            rw [if_pos ht, if_pos ht, whileBody_small _ _ _ _ hg hm, whileBody_small _ _ _ _ ((hsig k).trans hg) hm]
          · rw [hk ⟨hc, ht, hg⟩ (not_lt.mp hm)]
      · unfold TimeLoop.step
        rw [hc]
        simp only
        rw [if_neg ht, if_neg ht]
    · rw [halted_stays _ hc, halted_stays _ hc]

/-- **C81** If moreover `min(dt)` is small compared with `max(du)` and `max(dt)`, and the interval contains the requested output times,
the run ends normally with the whole table, and every row is within `C max(dt)` of the motion. -/
theorem C81_completes (hs : Start P cfg nodes) (hd : P.dir = none) {D : Media n P} (hD : D.Smooth) (t0 T : ℝ) :
    ∃ C δ Vm, 0 < C ∧ 0 < δ ∧ 0 < Vm ∧
    ∀ (cfg' : Cfg n ET) (nodes' : Fin n → Node) (inp : ℕ → Input n) (V : ℕ → ℝ) (y : ℝ → Fin n → V3),
      cfg'.gamma0 = cfg.gamma0 → cfg'.magNode = cfg.magNode → (∀ i, (nodes' i).p = (nodes i).p) →
      (∀ i, cfg.magNode i = true → IsUnit3 (nodes' i).next.u ∧ (nodes' i).next.v = 0) →
      Valid cfg' → NoRecenter cfg' → (∀ t dt, cfg'.add t dt = t + dt) → cfg'.DTMAX ≤ δ →
      ExactRun P cfg' (D.world cfg'.magNode) V t0 nodes' inp →
      Motion P cfg nodes D t0 T y → (∀ i, cfg.magNode i = true → y t0 i = (nodes' i).next.u) →
      9 * cfg'.DTMIN ≤ cfg'.DTMAX → cfg'.DTMIN ≤ cfg'.timeStep → 3 * cfg'.DTMIN * Vm ≤ 0.95 * cfg'.DUMAX →
      t0 + cRound ((cfg'.tf - t0) / cfg'.timeStep) * cfg'.timeStep ≤ T → (∀ k, (inp k).sig = false ∧ (inp k).sol ≠ none) →
      ∃ M, ∀ k, M ≤ k → let s := run cfg' t0 nodes' ((D.world cfg'.magNode).pot nodes') inp k
        s.ctl = .done 0 ∧ s.rows.map (·.t) = gridTimes t0 cfg'.timeStep (cRound ((cfg'.tf - t0) / cfg'.timeStep) + 1).toNat ∧
        ∀ r ∈ s.rows, ∀ i, cfg.magNode i = true → ((r.nodes i).next.u - y r.t i).norm ≤ C * cfg'.DTMAX := by
  classical
  obtain ⟨C, δ, Vm, hC, hδ, hVm, h⟩ := core hs hd hD t0 T
  refine ⟨C, δ, Vm, hC, hδ, hVm, fun cfg' nodes' inp V y h1 h2 h3 h4 hv hR h7 h8 h9 h10 h11 h12 h13 h14 h15 h16 => ?_⟩
  have hnear := h cfg' nodes' inp V y h1 h2 h3 h4 hv hR h7 h8 h9 h10 h11
  set pot := (D.world cfg'.magNode).pot nodes' with hpot
  have hlate : ∀ m : ℕ, (m : ℤ) ≤ stepCount cfg' t0 → t0 + m * cfg'.timeStep ≤ T := by
    intro m hm
    have e : ((m : ℤ) : ℝ) ≤ (stepCount cfg' t0 : ℝ) := Int.cast_le.mpr hm
    push_cast at e
    have := mul_le_mul_of_nonneg_right e hv.tstep.le
    have h15' : t0 + (stepCount cfg' t0 : ℝ) * cfg'.timeStep ≤ T := h15
    linarith
  let at' : ℕ → Prop := fun k => Attempt cfg' t0 (inp k) (run cfg' t0 nodes' pot inp k) ∧
    cfg'.DTMIN ≤ attDt cfg' t0 (run cfg' t0 nodes' pot inp k)
  let inp' : ℕ → Input n := fun k => if at' k then inp k else { inp k with sol := some fun _ => (0, 0) }
  have hrun : ∀ k, run cfg' t0 nodes' pot inp' k = run cfg' t0 nodes' pot inp k := run_congr t0 pot
    (fun k => by
      change (if at' k then inp k else _).sig = _
      split_ifs <;> rfl)
    (fun k => by
      intro s ha hm
      exact if_pos ⟨ha, hm⟩)
  have hsol : ∀ k, (inp' k).sol ≠ none := by
    intro k
    change (if at' k then inp k else _).sol ≠ none
    split_ifs
    · exact (h16 k).2
    · exact Option.some_ne_none _
  obtain ⟨M, hM⟩ := C03_completes cfg' hv (by rw [h1]; exact hs.gamma0.le) h12 h13 (fun nd => by rw [hR]; exact Option.some_ne_none _) t0
    nodes' pot inp' (fun k => by
      change (if at' k then inp k else _).sig = _
      split_ifs <;> exact (h16 k).1) (fun k => by
      rintro (⟨-, hn, -⟩ | ⟨X, hX, i, hi, hbig⟩)
      · exact hsol k hn
      · rw [h1] at hbig
        have hi' : cfg.magNode i = true := by rw [← h2]; exact hi
        have hsq : cfg.gamma0 * Real.sqrt ((X i).1 ^ 2 + (X i).2 ^ 2) ≤ Vm := by
          by_cases ha : at' k
          · have hX' : (inp k).sol = some X := by
              rw [← hX]
              change _ = (if at' k then inp k else _).sol
              rw [if_pos ha]
            refine (hnear k).2.2 X ha.1 ha.2 hX' ?_ i hi'
            have hinv := inv_run cfg' hv t0 nodes' pot inp k
            exact ha.1.2.1.le.trans (hlate _ (hinv.nbLe ha.1.1))
          · have hX' : (fun _ => (0, 0)) = X := by
              have : (inp' k).sol = some fun _ => (0, 0) := by
                change (if at' k then inp k else _).sol = _
                rw [if_neg ha]
              rw [this] at hX
              exact Option.some.inj hX
            rw [← hX']
            simpa using hVm.le
        have := mul_le_mul_of_nonneg_left hsq (by linarith [hv.dtmin] : 0 ≤ 3 * cfg'.DTMIN)
        linarith)
  refine ⟨M, fun k hk => ?_⟩
  intro s
  obtain ⟨hd0, hrows⟩ := hM k hk
  rw [hrun k] at hd0 hrows
  refine ⟨hd0, hrows, fun r hr i hi => (hnear k).2.1 r hr ?_ i hi⟩
  have hinv := inv_run cfg' hv t0 nodes' pot inp k
  obtain ⟨j, hj, rfl⟩ := List.getElem_of_mem hr
  rw [(hinv.rowT j hj).1]
  refine hlate j ?_
  have := hinv.rowsLe
  have hj' : (j : ℤ) < ((run cfg' t0 nodes' pot inp k).rows.length : ℤ) := by exact_mod_cast hj
  have hj0 : (0 : ℤ) ≤ j := by positivity
  rcases le_or_gt (stepCount cfg' t0 + 1) 0 with hneg | hpos
  · rw [max_eq_left hneg] at this
    omega
  · rw [max_eq_right hpos.le] at this
    omega

/-- **C81** The equation discretised in space has exactly one motion from each initial magnetization, on any interval of time, and it
keeps the length of the magnetization. -/
theorem C81_motion (hs : Start P cfg nodes) {D : Media n P} (hD : D.Smooth) {t0 T : ℝ} (hT : t0 ≤ T) (u : Fin n → V3)
    (hu : ∀ i, cfg.magNode i = true → IsUnit3 (u i)) :
    ∃ y, Motion P cfg nodes D t0 T y ∧ (∀ i, cfg.magNode i = true → y t0 i = u i) ∧
      (∀ t ∈ Icc t0 T, ∀ i, cfg.magNode i = true → IsUnit3 (y t i)) ∧
      ∀ y', Motion P cfg nodes D t0 T y' → (∀ i, cfg.magNode i = true → y' t0 i = u i) → ∀ t ∈ Icc t0 T, y' t = y t := by
  classical
  have hS := good hs hD
  set S := setting P cfg nodes D with hSd
  have hu' : ∀ i, cfg.magNode i = true → (u i).dot (u i) = 1 := fun i hi => (isUnit3_iff _).mp (hu i hi)
  obtain ⟨x, hx0, hx⟩ := GlobalOde.exists_solution (Setting.smooth_rhs hS) (A := S.Admissible) (fun c => Setting.norm_le_one)
    (Setting.keeps_admissible hS) hT (state cfg.magNode u) (motion_admissible hs (y := fun _ => u) (t := t0) hu')
  have hadm := Setting.keeps_admissible hS t0 T x hx (by
    rw [hx0]; exact motion_admissible hs (y := fun _ => u) (t := t0) hu')
  have hst : ∀ t ∈ Icc t0 T, state cfg.magNode (tab (x t)) = x t := by
    intro t ht
    funext i
    have h1 := (hadm t ht i i.2).2
    have h2 : vecs (x t) i = tab (x t) i := by simp [vecs, tab]
    by_cases hi : cfg.magNode i = true
    · simp only [state, masked, hi, if_true]
      funext k
      fin_cases k <;> rfl
    · have h3 := h1 fun h => hi ((magNode_getD hs i).mp h)
      rw [h2] at h3
      have hi' : cfg.magNode i = false := by simpa using hi
      simp only [state, masked, hi', Bool.false_eq_true, if_false]
      have h4 : co (tab (x t) i) = x t i := by
        funext k
        fin_cases k <;> rfl
      rw [← h4, h3]
  set y : ℝ → Fin n → V3 := fun t => masked cfg.magNode (tab (x t)) with hy
  have hmask : ∀ f : Fin n → V3, masked cfg.magNode (masked cfg.magNode f) = masked cfg.magNode f := by
    intro f
    funext i
    unfold masked
    split_ifs <;> rfl
  have hsty : ∀ t ∈ Icc t0 T, state cfg.magNode (y t) = x t := by
    intro t ht
    rw [← hst t ht, hy]
    unfold state
    rw [hmask]
  have hy0 : ∀ i, cfg.magNode i = true → y t0 i = u i := by
    intro i hi
    rw [hy]
    simp only [masked, hi, if_true]
    rw [hx0, tab_state]
    simp only [masked, hi, if_true]
  have hmot : Motion P cfg nodes D t0 T y := by
    refine ⟨fun t i hi => ?_, fun t ht => ⟨S.vel (t, x t), ?_, fun i hi => ?_⟩⟩
    · rw [hy]
      simp only [masked, hi, Bool.false_eq_true, if_false]
    · have h1 := Setting.velocity_exists hS (tri_mag hs) (z := (t, x t)) (hadm t ht)
      have e1 : tab (x t) = y t := by
        rw [← hsty t ht, tab_state, hy]
        exact hmask _
      have e2 : vecs (x t) = extV (y t) := by
        rw [← hsty t ht, vecs_state', hy]
        exact congrArg extV (hmask _)
      dsimp only at h1
      rw [e2, hSd] at h1
      simp only [setting] at h1
      rw [e1] at h1
      exact h1
    · have h1 := hx t ht
      have hm : S.magN i := (magNode_getD hs i).mpr hi
      have h2 := fun k => hasDerivWithinAt_pi.mp (hasDerivWithinAt_pi.mp h1 i) k
      have hr : S.rhs (t, x t) i = co (S.gamma0 * S.vel (t, x t) i) := by
        change co (if S.magN i then S.gamma0 * S.vel (t, x t) i else 0) = _
        rw [if_pos hm]
      rw [hr] at h2
      rw [hy]
      simp only [masked, hi, if_true]
      exact ⟨h2 0, h2 1, h2 2⟩
  have hyu : ∀ t ∈ Icc t0 T, ∀ i, cfg.magNode i = true → (y t i).dot (y t i) = 1 :=
    motion_unit hs hmot fun i hi => by rw [hy0 i hi]; exact hu' i hi
  refine ⟨y, hmot, hy0, fun t ht i hi => (isUnit3_iff _).mpr (hyu t ht i hi), fun y' hy' hy0' t ht => ?_⟩
  have hK : IsCompact (Icc t0 T ×ˢ Metric.closedBall (0 : X n) 1) := isCompact_Icc.prod (isCompact_closedBall _ _)
  obtain ⟨L, hL, hlip⟩ := OneStep.lipschitz_of_contDiff (Setting.smooth_rhs hS) hK ((convex_Icc t0 T).prod (convex_closedBall _ _))
  have hu0 : ∀ i, cfg.magNode i = true → (y' t0 i).dot (y' t0 i) = 1 := fun i hi => by rw [hy0' i hi]; exact hu' i hi
  have h1 := GlobalOde.unique_solution (K := Metric.closedBall (0 : X n) 1) hL.le (F := S.rhs) (fun t ht u hu u' hu' => by
      have := hlip (t, u') ⟨ht, hu'⟩ (t, u) ⟨ht, hu⟩
      refine this.trans (le_of_eq ?_)
      have e : (t, u) - (t, u') = ((0 : ℝ), u - u') := by rw [Prod.mk_sub_mk, sub_self]
      rw [e, Prod.norm_mk, norm_zero, max_eq_right (norm_nonneg _)])
    (motion_rhs hs hD hy' hu0) (fun t ht => mem_closedBall_zero_iff.mpr (Setting.norm_le_one (S := S)
      (motion_admissible hs fun i hi => motion_unit hs hy' hu0 t ht i hi)))
    hx (fun t ht => mem_closedBall_zero_iff.mpr (Setting.norm_le_one (hadm t ht))) (by
      rw [hx0]
      unfold state
      rw [masked_solved cfg _ u hy0'])
    t ht
  have h2 : tab (state cfg.magNode (y' t)) = tab (x t) := congrArg tab h1
  rw [tab_state, masked_motion hy'] at h2
  rw [hy]
  dsimp only
  rw [← h2, masked_motion hy']

/-- a run with all linear systems solved exactly, and no signal -/
theorem exists_exactRun (hs : Start P cfg nodes) (hv : Valid cfg) (hU : RecenterKeepsUnit cfg) (hN : RecenterKeepsNext cfg)
    (W : World n P) (V : ℕ → ℝ) (t0 : ℝ) (r : ℕ → ℝ) :
    ∃ inp : ℕ → Input n, ExactRun P cfg W V t0 nodes inp ∧ ∀ k, (inp k).sig = false ∧ (inp k).r = r k ∧ (inp k).sol ≠ none := by
  classical
  let ok : ℕ → St n ET → Input n → Prop := fun k s i => i.sig = false ∧ i.r = r k ∧ ∃ X, i.sol = some X ∧
    (cfg.DTMIN ≤ attDt cfg t0 s →
      ∃ M b, IsSystem P cfg ⟨W.Hext s.t s.nodes, W.Hst s.t s.nodes, V k⟩ (baseProjection i.r s.nodes) (attDt cfg t0 s) M b ∧
        M.mult (unknowns X) = b) ∧ i.pot = W.pot (solvedNodes cfg i X (attDt cfg t0 s) s)
  let pick : ℕ → St n ET → Input n := fun k s => if h : ∃ i, ok k s i then h.choose else ⟨false, 0, none, fun _ => (0, 0)⟩
  let st : ℕ → St n ET := fun k => k.rec (init cfg t0 nodes (W.pot nodes)) fun k s => TimeLoop.step cfg t0 (pick k s) s
  let inp : ℕ → Input n := fun k => pick k (st k)
  have hrun : ∀ k, run cfg t0 nodes (W.pot nodes) inp k = st k := by
    intro k
    induction k with
    | zero => rfl
    | succ k ih =>
      change TimeLoop.step cfg t0 (inp k) (run cfg t0 nodes (W.pot nodes) inp k) = TimeLoop.step cfg t0 (pick k (st k)) (st k)
      rw [ih]
  have hok : ∀ k, ok k (st k) (inp k) := by
    intro k
    have hex : ∃ i, ok k (st k) i := by
      by_cases hdt : cfg.DTMIN ≤ attDt cfg t0 (st k)
      · obtain ⟨⟨M, b, hM⟩, hx⟩ := C72_solvable hs hv hU hN t0 (W.pot nodes) inp k
          ⟨W.Hext (st k).t (st k).nodes, W.Hst (st k).t (st k).nodes, V k⟩ (r k) (attDt cfg t0 (st k)) (hv.dtmin.trans_le hdt)
        obtain ⟨X, hX, -⟩ := hx M b hM
        rw [hrun k] at hM
        exact ⟨⟨false, r k, some X, W.pot (updateNodes cfg X (attDt cfg t0 (st k)) (baseProjection (r k) (st k).nodes))⟩,
          rfl, rfl, X, rfl, fun _ => ⟨M, b, hM, hX⟩, rfl⟩
      · exact ⟨⟨false, r k, some fun _ => (0, 0), W.pot (updateNodes cfg (fun _ => (0, 0)) (attDt cfg t0 (st k))
          (baseProjection (r k) (st k).nodes))⟩, rfl, rfl, _, rfl, fun h => absurd h hdt, rfl⟩
    change ok k (st k) (if h : ∃ i, ok k (st k) i then h.choose else _)
    rw [dif_pos hex]
    exact hex.choose_spec
  refine ⟨inp, ⟨fun k X => ?_, fun k X => ?_⟩, fun k => ?_⟩
  · intro s _ hdt hX
    obtain ⟨-, -, Y, hY, h1, -⟩ := hok k
    rw [hX] at hY
    cases hY
    have e : s = st k := hrun k
    rw [e] at hdt ⊢
    exact h1 hdt
  · intro s _ hX
    obtain ⟨-, -, Y, hY, -, h1⟩ := hok k
    rw [hX] at hY
    cases hY
    have e : s = st k := hrun k
    rw [e]
    exact h1
  · obtain ⟨h1, h2, Y, hY, -, -⟩ := hok k
    exact ⟨h1, h2, by rw [hY]; exact Option.some_ne_none _⟩

end

/-! ## Cases that meet the hypotheses -/

/-- an applied field that depends on time, in the sample of `Run.exP` -/
noncomputable def exMedia (H : TriElem.Rule) : Media 5 (exP H) where
  Hext t _ T j := t * Energy.ex2H T j
  Hst _ _ _ _ := 0
  phi u i := (u i).x
  phiv _ v i := (v i).x

theorem exMedia_smooth (H : TriElem.Rule) : (exMedia H).Smooth where
  Hext _ _ := ⟨contDiff_fst.mul contDiff_const, contDiff_fst.mul contDiff_const, contDiff_fst.mul contDiff_const⟩
  Hst _ _ := ⟨contDiff_const, contDiff_const, contDiff_const⟩
  phi i := (contDiff_pi.mp (contDiff_pi.mp contDiff_id i) 0)
  phiv i := (contDiff_pi.mp (contDiff_pi.mp contDiff_snd i) 0)

/-- settings with a given largest time step -/
noncomputable def exCfgDt (d : ℝ) : Cfg 5 ℝ := { exCfg 1 with DTMIN := d / 10, DTMAX := d }

/-- settings with a given largest time step and a given largest change of the magnetization -/
noncomputable def exCfgDu (d D : ℝ) : Cfg 5 ℝ := { exCfgDt d with DUMAX := D }

/-- For every largest step `d` the hypotheses on the run hold for some run and some motion, from a magnetization which is not
uniform. -/
example (H : TriElem.Rule) (d : ℝ) (hd : 0 < d) : Start (exP H) (exCfg 1) exNd ∧ (exP H).dir = none ∧ (exMedia H).Smooth ∧
    (exCfgDt d).gamma0 = (exCfg 1).gamma0 ∧ (exCfgDt d).magNode = (exCfg 1).magNode ∧
    (∀ i, (exCfg 1).magNode i = true → IsUnit3 (exNd i).next.u ∧ (exNd i).next.v = 0) ∧
    Valid (exCfgDt d) ∧ NoRecenter (exCfgDt d) ∧ (∀ t dt, (exCfgDt d).add t dt = t + dt) ∧
    ∃ inp y, ExactRun (exP H) (exCfgDt d) ((exMedia H).world (exCfgDt d).magNode) (fun _ => 0) 0 exNd inp ∧
      (∀ k, (inp k).sig = false ∧ (inp k).sol ≠ none) ∧
      Motion (exP H) (exCfg 1) exNd (exMedia H) 0 20 y ∧ ∀ i, (exCfg 1).magNode i = true → y 0 i = (exNd i).next.u := by
  have hs := ex_start H 1
  have hs' : Start (exP H) (exCfgDt d) exNd := { hs with }
  have hv : Valid (exCfgDt d) := ⟨by change 0 < d / 10; positivity, by change d / 10 ≤ d; linarith, by norm_num [exCfgDt, Run.exCfg],
    by norm_num [exCfgDt, Run.exCfg], fun t dt => by
      have : (0 : ℝ) ≤ d / 10 / 2 := by positivity
      simpa [exCfgDt, Run.exCfg] using this⟩
  obtain ⟨inp, h1, h2⟩ := exists_exactRun hs' hv (ex_keeps 1).1 (ex_keeps 1).2 ((exMedia H).world (exCfgDt d).magNode) (fun _ => 0) 0
    (fun _ => 0)
  obtain ⟨y, h3, h4, -⟩ := C81_motion hs (exMedia_smooth H) (show (0 : ℝ) ≤ 20 by norm_num) (fun i => (exNd i).next.u) hs.unit
  exact ⟨hs, rfl, exMedia_smooth H, rfl, rfl, fun i hi => ⟨hs.unit i hi, rfl⟩, hv, fun _ => rfl, fun _ _ => rfl, inp, y, h1,
    fun k => ⟨(h2 k).1, (h2 k).2.2⟩, h3, h4⟩

/-- the hypotheses of `C81_completes`: for every bound `V` on the velocity and every small enough largest step there is such a run -/
example (H : TriElem.Rule) (V d : ℝ) (hd : 0 < d) (hd1 : d ≤ 1) (hV : 0 < V) :
    Start (exP H) (exCfg 1) exNd ∧ Valid (exCfgDu d V) ∧ NoRecenter (exCfgDu d V) ∧ 9 * (exCfgDu d V).DTMIN ≤ (exCfgDu d V).DTMAX ∧
    (exCfgDu d V).DTMIN ≤ (exCfgDu d V).timeStep ∧ 3 * (exCfgDu d V).DTMIN * V ≤ 0.95 * (exCfgDu d V).DUMAX ∧
    (0 : ℝ) + cRound (((exCfgDu d V).tf - 0) / (exCfgDu d V).timeStep) * (exCfgDu d V).timeStep ≤ 20 ∧
    ∃ inp, ExactRun (exP H) (exCfgDu d V) ((exMedia H).world (exCfgDu d V).magNode) (fun _ => 0) 0 exNd inp ∧
      ∀ k, (inp k).sig = false ∧ (inp k).sol ≠ none := by
  have hs := ex_start H 1
  have hs' : Start (exP H) (exCfgDu d V) exNd := { hs with }
  have hv : Valid (exCfgDu d V) := ⟨by change 0 < d / 10; positivity, by change d / 10 ≤ d; linarith,
    by norm_num [exCfgDu, exCfgDt, Run.exCfg], hV.le, fun t dt => by
      have : (0 : ℝ) ≤ d / 10 / 2 := by positivity
      simpa [exCfgDu, exCfgDt, Run.exCfg] using this⟩
  obtain ⟨inp, h1, h2⟩ := exists_exactRun hs' hv (ex_keeps 1).1 (ex_keeps 1).2 ((exMedia H).world (exCfgDu d V).magNode) (fun _ => 0) 0
    (fun _ => 0)
  have hr : cRound (((exCfgDu d V).tf - 0) / (exCfgDu d V).timeStep) = 2 := by
    have : (((exCfgDu d V).tf - 0) / (exCfgDu d V).timeStep) = 2 := by norm_num [exCfgDu, exCfgDt, Run.exCfg]
    unfold cRound
    rw [this, if_pos (by norm_num)]
    norm_num [Int.floor_eq_iff]
  refine ⟨hs, hv, fun _ => rfl, ?_, ?_, ?_, ?_, inp, h1, fun k => ⟨(h2 k).1, (h2 k).2.2⟩⟩
  · change 9 * (d / 10) ≤ d
    linarith
  · change d / 10 ≤ 10
    linarith
  · change 3 * (d / 10) * V ≤ 0.95 * V
    nlinarith
  · rw [hr]
    norm_num [exCfgDu, exCfgDt, Run.exCfg]

end Verif.Converge
