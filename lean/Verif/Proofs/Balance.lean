import Verif.Spec.Balance
import Verif.Props.Relax

/-!
# The energy in one step, to second order in the step
-/

namespace Verif.SemiDiscrete.Setting

open Verif.Mesh Verif.Tetra Verif.WeakForm Verif.Llg Verif.Energy Set

variable {n : ℕ} {S : Setting n}

/-- `∫ alpha v·w` -/
noncomputable def dmpForm (S : Setting n) (v w : ℕ → V3) : ℝ :=
  (S.tets.map fun t => damping S.G (fun k => S.p (t.ind k)) (fun _ => (S.prm t.reg).alpha) (fun k => v (t.ind k)) (fun k => w (t.ind k))).sum

theorem dmpForm_eq (v w : ℕ → V3) : S.dmpForm v w = (S.tets.map fun t =>
    ∑ i, contrib S.G (fun k => S.p (t.ind k)) (fun _ => (S.prm t.reg).alpha) i * (v (t.ind i)).dot (w (t.ind i))).sum := by
  unfold dmpForm
  simp only [damping_eq]

theorem dmpForm_nonneg (hS : S.Good) (v : ℕ → V3) : 0 ≤ S.dmpForm v v := by
  rw [dmpForm_eq]
  refine List.sum_nonneg fun x hx => ?_
  obtain ⟨t, ht, rfl⟩ := List.mem_map.mp hx
  refine Finset.sum_nonneg fun k _ => mul_nonneg (contrib_pos hS.compiled _ (hS.vol t ht) _ _ (hS.alpha t ht) (fun _ => ?_) k).le ?_
  · have h := hS.alpha t ht
    exact ⟨div_le_self h.le (by norm_num), by linarith⟩
  · rw [← V3.nsq_eq_dot]
    exact nsq_nonneg _

/-- the difference of two squares -/
theorem dmpForm_sub (a b : X n) : S.dmpForm (vecs a) (vecs a) - S.dmpForm (vecs b) (vecs b) = S.dmpForm (vecs (a - b)) (vecs (a + b)) := by
  rw [dmpForm_eq, dmpForm_eq, dmpForm_eq, ← Energy.list_sum_sub]
  refine congrArg List.sum (List.map_congr_left fun t _ => ?_)
  rw [← Finset.sum_sub_distrib]
  refine Finset.sum_congr rfl fun i _ => ?_
  have e1 := congrFun (Relax.vecs_lin 1 (-1) a b) (t.ind i)
  have e2 := congrFun (Relax.vecs_lin 1 1 a b) (t.ind i)
  rw [one_smul, neg_one_smul, ← sub_eq_add_neg] at e1
  rw [one_smul, one_smul] at e2
  rw [e1, e2]
  simp only [V3.dot, V3.add_x, V3.add_y, V3.add_z, V3.smul_x, V3.smul_y, V3.smul_z]
  ring

theorem dmpForm_bound (S : Setting n) : ∃ B, 0 < B ∧ ∀ v w : X n, |S.dmpForm (vecs v) (vecs w)| ≤ B * ‖v‖ * ‖w‖ := by
  have hsv : ∀ {Z : Type} [NormedAddCommGroup Z] [NormedSpace ℝ Z] {c : Z → X n} (_ : ContDiff ℝ 1 c) (k : ℕ), SmoothV fun a => vecs (c a) k :=
    fun hc k => smooth_vecs hc k
  have hvs : ∀ (a : ℝ) (w : X n) k, vecs (a • w) k = a * vecs w k := fun a w k => vecs_smul a w k
  obtain ⟨B, hB, h⟩ := hom_bound2 (Z := ℝ) (E := X n) (F := X n) (f := fun a => (S.tets.map fun t =>
        ∑ i, contrib S.G (fun k => S.p (t.ind k)) (fun _ => (S.prm t.reg).alpha) i * (vecs a.1.2 (t.ind i)).dot (vecs a.2 (t.ind i))).sum)
    (smooth_list S.tets _ fun t _ => ContDiff.sum fun i _ => contDiff_const.mul
        ((hsv (contDiff_snd.comp contDiff_fst) _).dot (hsv contDiff_snd _))).continuous
    (isCompact_singleton (x := (0 : ℝ)))
    (fun z a v w => by
      simp only [hvs]
      rw [← List.sum_map_mul_left]
      refine congrArg List.sum (List.map_congr_left fun t _ => ?_)
      rw [Finset.mul_sum]
      refine Finset.sum_congr rfl fun i _ => ?_
      rw [smul_dot]; ring)
    (fun z a w => by
      simp only [hvs]
      rw [← List.sum_map_mul_left]
      refine congrArg List.sum (List.map_congr_left fun t _ => ?_)
      rw [Finset.mul_sum]
      refine Finset.sum_congr rfl fun i _ => ?_
      rw [dot_smul]; ring)
  refine ⟨B, hB, fun v w => ?_⟩
  rw [dmpForm_eq]
  exact h 0 rfl v w

/-- work in the motion given by the equation discretised in space -/
theorem work_rhs (hS : S.Good) (htri : ∀ f ∈ S.tris, ∀ k, S.magN (f.1.ind k)) {z : ℝ × X n} (hz : S.Admissible z.2) :
    S.work z (vecs (S.rhs z)) = S.dmpForm (vecs (S.rhs z)) (vecs (S.rhs z)) / S.gamma0 := by
  classical
  have hg := hS.gamma0
  have hv := velocity_exists hS htri hz
  have e1 : ∀ i, S.magN i → vecs (S.rhs z) i = S.gamma0 * S.vel z i := by
    intro i hm
    have hn := (hS.magTet _ hm).1
    unfold vecs
    rw [dif_pos hn]
    have : S.rhs z ⟨i, hn⟩ = co (S.gamma0 * S.vel z i) := by
      change co (if S.magN i then _ else _) = _
      rw [if_pos hm]
    rw [this]
    rfl
  have h1 := hv.2 (vecs (S.rhs z)) fun i hi => by rw [e1 i hi, smul_dot, hv.1 i hi, mul_zero]
  change S.work z _ = _
  have e2 : S.work z (vecs (S.rhs z)) = totalWork S.G S.H S.prm S.sprm S.mu0 S.tets S.tris S.p (vecs z.2) (S.phi z.2) (S.Hext z) (S.Hst z)
      (vecs (S.rhs z)) := rfl
  rw [e2, ← h1, eq_div_iff hg.ne', dmpForm_eq, mul_comm, ← List.sum_map_mul_left]
  refine congrArg List.sum (List.map_congr_left fun t ht => ?_)
  rw [damping_eq, gyration_eq, mul_add, Finset.mul_sum, Finset.mul_sum, ← Finset.sum_add_distrib]
  refine Finset.sum_congr rfl fun i _ => ?_
  rw [e1 _ (hS.tetMag t ht i)]
  simp only [V3.dot, V3.cross, V3.smul_x, V3.smul_y, V3.smul_z]
  ring

/-- energy in a step: what is lost is the power of the damping, up to the square of the step -/
theorem balance_step (hS : S.Good) (htri : ∀ f ∈ S.tris, ∀ k, S.magN (f.1.ind k)) (t0 T Q Vb C₁ δ : ℝ) (hVb : 0 < Vb) (hC₁ : 0 < C₁) (hδ : 0 < δ)
    (hloc : ∀ z : ℝ × X n, z.1 ∈ Icc t0 T → S.Admissible z.2 → ∀ W : X n, ‖W‖ ≤ S.gamma0 * Vb →
      ∀ dt q v, 0 < dt → dt ≤ δ → 0 ≤ q → q ≤ Q → S.StepEq z W dt q v →
        ‖S.nextV v‖ ≤ S.gamma0 * Vb ∧ ‖S.next z.2 dt v - z.2 - dt • S.rhs z‖ ≤ C₁ * dt ^ 2)
    (R : ℝ → X n → ℝ) (Qd : X n → ℝ) (B : ℝ) (hR : ∀ t c h, R t (c + h) = R t c - S.work (t, c) (vecs h) + Qd h)
    (hB0 : 0 ≤ B) (hB : ∀ h, |Qd h| ≤ B * ‖h‖ ^ 2) :
    ∃ C, 0 < C ∧ ∀ z : ℝ × X n, z.1 ∈ Icc t0 T → S.Admissible z.2 → ∀ W : X n, ‖W‖ ≤ S.gamma0 * Vb →
      ∀ dt q v, 0 < dt → dt ≤ δ → 0 ≤ q → q ≤ Q → S.StepEq z W dt q v →
        |R z.1 (S.next z.2 dt v) - R z.1 z.2 + dt * (S.dmpForm (vecs (S.nextV v)) (vecs (S.nextV v)) / S.gamma0)| ≤ C * dt ^ 2 := by
  classical
  have hg := hS.gamma0
  have hK : IsCompact (Icc t0 T ×ˢ Metric.closedBall (0 : X n) 1) := isCompact_Icc.prod (isCompact_closedBall _ _)
  have hvs : ∀ (a : ℝ) (w : X n), vecs (a • w) = fun k => a * vecs w k := fun a w => funext fun k => vecs_smul a w k
  obtain ⟨B1, hB1, hwork⟩ := hom_bound (f := fun a : (ℝ × X n) × X n => S.work a.1 (vecs a.2))
    (smooth_work hS contDiff_fst (fun k => smooth_vecs contDiff_snd k)).continuous hK (fun z a w => by simp only [hvs, work_smul])
  obtain ⟨B2, hB2, hdmp⟩ := dmpForm_bound S
  set N := S.gamma0 * Vb with hN
  have hN0 : 0 < N := mul_pos hg hVb
  set C₂ := C₁ + 3 / 2 * N ^ 2 with hC₂
  have hC₂0 : 0 < C₂ := by positivity
  refine ⟨B * (2 * N) ^ 2 + B1 * C₁ + B2 * C₂ * (2 * N + C₂ * δ) / S.gamma0, by positivity, ?_⟩
  intro z hz hadm W hW dt q v hdt hdtδ hq hqQ hst
  obtain ⟨h1, h2⟩ := hloc z hz hadm W hW dt q v hdt hdtδ hq hqQ hst
  obtain ⟨h3, h4⟩ := next_dist hS hadm hdt hst.1
  set c' := S.next z.2 dt v with hc'
  set nv := S.nextV v with hnv
  set r := S.rhs z with hr
  have hn0 : 0 ≤ ‖nv‖ := norm_nonneg _
  -- the velocity is close to the one of the equation
  have h5 : ‖nv - r‖ ≤ C₂ * dt := by
    have e : dt • (nv - r) = (c' - z.2 - dt • r) - (c' - z.2 - dt • nv) := by rw [smul_sub]; abel
    have h6 : dt * ‖nv - r‖ ≤ C₁ * dt ^ 2 + 3 / 2 * (dt * ‖nv‖) ^ 2 := by
      calc dt * ‖nv - r‖ = ‖dt • (nv - r)‖ := by rw [norm_smul, Real.norm_of_nonneg hdt.le]
        _ ≤ ‖c' - z.2 - dt • r‖ + ‖c' - z.2 - dt • nv‖ := by rw [e]; exact norm_sub_le _ _
        _ ≤ _ := add_le_add h2 h4
    have h7 : (dt * ‖nv‖) ^ 2 ≤ (dt * N) ^ 2 := pow_le_pow_left₀ (by positivity) (mul_le_mul_of_nonneg_left h1 hdt.le) 2
    refine le_of_mul_le_mul_left ?_ hdt
    rw [hC₂]
    nlinarith
  have hrn : ‖nv + r‖ ≤ 2 * N + C₂ * δ := by
    have e : nv + r = nv + nv - (nv - r) := by abel
    rw [e]
    have h6 := norm_sub_le (nv + nv) (nv - r)
    have h7 := norm_add_le nv nv
    have h8 : C₂ * dt ≤ C₂ * δ := mul_le_mul_of_nonneg_left hdtδ hC₂0.le
    linarith
  -- the square of the damping
  have h6 : |S.dmpForm (vecs nv) (vecs nv) - S.dmpForm (vecs r) (vecs r)| ≤ B2 * C₂ * (2 * N + C₂ * δ) * dt := by
    rw [dmpForm_sub]
    refine (hdmp _ _).trans ?_
    calc B2 * ‖nv - r‖ * ‖nv + r‖ ≤ B2 * (C₂ * dt) * (2 * N + C₂ * δ) :=
          mul_le_mul (mul_le_mul_of_nonneg_left h5 hB2.le) hrn (norm_nonneg _) (by positivity)
      _ = _ := by ring
  -- Taylor
  have hT := hR z.1 z.2 (c' - z.2)
  rw [add_sub_cancel] at hT
  have hw : S.work z (vecs (c' - z.2)) = S.work z (vecs (c' - z.2 - dt • r)) + dt * S.work z (vecs r) := by
    have e : c' - z.2 = (1 : ℝ) • (c' - z.2 - dt • r) + dt • r := by rw [one_smul]; abel
    conv_lhs => rw [e, Relax.vecs_lin, work_lin]
    rw [one_mul]
  rw [show ((z.1, z.2) : ℝ × X n) = z from rfl, hw, work_rhs hS htri hadm, ← hr] at hT
  have h7 := hwork z ⟨hz, mem_closedBall_zero_iff.mpr (norm_le_one hadm)⟩ (c' - z.2 - dt • r)
  dsimp only at h7
  have h8 : |Qd (c' - z.2)| ≤ B * (2 * N) ^ 2 * dt ^ 2 := by
    refine (hB _).trans ?_
    have : ‖c' - z.2‖ ≤ 2 * N * dt := h3.trans (by nlinarith)
    have := pow_le_pow_left₀ (norm_nonneg _) this 2
    nlinarith
  have h9 : |S.work z (vecs (c' - z.2 - dt • r))| ≤ B1 * C₁ * dt ^ 2 := h7.trans (by
    have := mul_le_mul_of_nonneg_left h2 hB1.le
    linarith)
  have h10 : |dt * ((S.dmpForm (vecs nv) (vecs nv) - S.dmpForm (vecs r) (vecs r)) / S.gamma0)| ≤
      B2 * C₂ * (2 * N + C₂ * δ) / S.gamma0 * dt ^ 2 := by
    rw [abs_mul, abs_div, abs_of_pos hdt, abs_of_pos hg]
    calc dt * (|S.dmpForm (vecs nv) (vecs nv) - S.dmpForm (vecs r) (vecs r)| / S.gamma0)
        ≤ dt * (B2 * C₂ * (2 * N + C₂ * δ) * dt / S.gamma0) :=
          mul_le_mul_of_nonneg_left (div_le_div_of_nonneg_right h6 hg.le) hdt.le
      _ = _ := by ring
  have e : R z.1 c' - R z.1 z.2 + dt * (S.dmpForm (vecs nv) (vecs nv) / S.gamma0) =
      Qd (c' - z.2) - S.work z (vecs (c' - z.2 - dt • r))
        + dt * ((S.dmpForm (vecs nv) (vecs nv) - S.dmpForm (vecs r) (vecs r)) / S.gamma0) := by
    rw [hT]
    ring
  rw [e]
  have h11 := abs_add_le (Qd (c' - z.2) - S.work z (vecs (c' - z.2 - dt • r)))
    (dt * ((S.dmpForm (vecs nv) (vecs nv) - S.dmpForm (vecs r) (vecs r)) / S.gamma0))
  have h12 := abs_sub (Qd (c' - z.2)) (S.work z (vecs (c' - z.2 - dt • r)))
  linarith

end Verif.SemiDiscrete.Setting

namespace Verif.Balance

open Verif.Mesh Verif.Assembly Verif.Tetra Verif.SparseMat Verif.Llg Verif.WeakForm Verif.TimeLoop Verif.Run Verif.Converge Verif.SemiDiscrete Verif.Relax Set

section
variable {n : ℕ} {ET : Type} {P : Problem} {cfg : Cfg n ET} {nodes : Fin n → Node} {D : Media n P} {H : ℝ → Tet → Fin P.G.n → V3} {Ms : ℝ}

theorem Driven.smoothMedia {p : ℕ → V3} (h : Driven P p D H Ms) : D.Smooth := by
  have h0 := (h.instant 0).smooth
  refine ⟨fun t j => ?_, h0.Hst, h0.phi, h0.phiv⟩
  simp only [h.applied]
  obtain ⟨a, b, c⟩ := h.smooth t j
  exact ⟨a.comp contDiff_fst, b.comp contDiff_fst, c.comp contDiff_fst⟩

/-- work in the field of an instant -/
theorem Driven.work_eq (h : Driven P (fun i => (ext nodes i).p) D H Ms) (t : ℝ) (c : X n) (w : ℕ → V3) :
    (setting P cfg nodes { D with Hext := fun _ _ => H t }).work (0, c) w = (setting P cfg nodes D).work (t, c) w := by
  have e1 : D.Hext t (tab c) = H t := h.applied _ _
  have e2 : D.Hst 0 (tab c) = D.Hst t (tab c) := by
    have a := (h.instant t).spin 0 (tab c)
    have b := (h.instant t).spin t (tab c)
    exact a.trans b.symm
  unfold Setting.work setting
  dsimp only
  rw [e1, e2]

theorem Driven.taylor (h : Driven P (fun i => (ext nodes i).p) D H Ms) (hM : P.mu0 * Ms ≠ 0) (t : ℝ) (c v : X n) :
    redEnergy P (fun i => (ext nodes i).p) D (H t) Ms (c + v) = redEnergy P (fun i => (ext nodes i).p) D (H t) Ms c
      - (setting P cfg nodes D).work (t, c) (vecs v) + quad P (fun i => (ext nodes i).p) D v := by
  have := red_taylor (cfg := cfg) (h.instant t) hM c v 1
  rw [h.work_eq, one_smul, one_mul, one_pow, one_mul] at this
  exact this

/-- a change of the applied field changes the energy by its work -/
theorem energy_field {p : ℕ → V3} (H H' : Tet → Fin P.G.n → V3) (mag : Fin n → Bool) (u : Fin n → V3) :
    energyOf P p D H' mag u - energyOf P p D H mag u = fieldWork P p (fun t a => H' t a - H t a) (extV (masked mag u)) := by
  unfold energyOf totalEnergy fieldWork
  rw [← Energy.list_sum_sub, ← neg_mul, ← List.sum_map_mul_left]
  refine congrArg List.sum (List.map_congr_left fun t _ => ?_)
  have e : ∀ F : Fin P.G.n → V3, zeemanEnergySpace P.G P.mu0 (P.prm t.reg).Ms 1 (fun k => p (t.ind k)) (fun k => extV (masked mag u) (t.ind k)) F =
      -(P.mu0 * (P.prm t.reg).Ms) * WeakForm.work P.G (fun k => p (t.ind k)) F (fun k => extV (masked mag u) (t.ind k)) := by
    intro F
    unfold zeemanEnergySpace WeakForm.work
    simp only [V3.dot_comm (F _)]
    rw [mul_one, neg_mul]
  have e2 : WeakForm.work P.G (fun k => p (t.ind k)) (fun a => H' t a - H t a) (fun k => extV (masked mag u) (t.ind k)) =
      WeakForm.work P.G (fun k => p (t.ind k)) (H' t) (fun k => extV (masked mag u) (t.ind k))
      - WeakForm.work P.G (fun k => p (t.ind k)) (H t) (fun k => extV (masked mag u) (t.ind k)) := by
    unfold WeakForm.work
    rw [← Finset.sum_sub_distrib]
    exact Finset.sum_congr rfl fun j _ => by rw [sub_dot3]; ring
  rw [e, e, e2]
  ring

theorem power_eq (h : Steady P (fun i => (ext nodes i).p) D (H 0) Ms) (v : ℕ → V3) : power P (fun i => (ext nodes i).p) cfg.gamma0 v =
    P.mu0 * Ms * ((setting P cfg nodes D).dmpForm v v / cfg.gamma0) := by
  unfold power Setting.dmpForm
  change _ = P.mu0 * Ms * (((magTet P.mag P.tets).map fun t => damping P.G (fun k => (ext nodes (t.ind k)).p) (fun _ => (P.prm t.reg).alpha)
    (fun k => v (t.ind k)) (fun k => v (t.ind k))).sum / cfg.gamma0)
  rw [List.map_congr_left (g := fun t => Ms * damping P.G (fun k => (ext nodes (t.ind k)).p) (fun _ => (P.prm t.reg).alpha)
    (fun k => v (t.ind k)) (fun k => v (t.ind k))) fun t ht => by rw [h.sameMs t ht], List.sum_map_mul_left]
  ring

/-- what holds after each transition of the run -/
structure Flow (P : Problem) (cfg : Cfg n ET) (D : Media n P) (t0 T B : ℝ) (s : St n ET) : Prop where
  phi : ∀ i, cfg.magNode i = true → (s.nodes i).cur.phi = D.phi (masked cfg.magNode fun i => (s.nodes i).cur.u) i
  phiv : ∀ i, cfg.magNode i = true → (s.nodes i).cur.phiv =
      D.phiv (masked cfg.magNode fun i => (s.nodes i).cur.u) (masked cfg.magNode fun i => (s.nodes i).cur.v) i
  ge : t0 ≤ s.t
  vel : s.t ≤ T → ‖curV cfg s.nodes‖ ≤ B
  next : (∀ i, (s.nodes i).next.u = (s.nodes i).cur.u) ∨ s.t < tTarget cfg t0 s.stepNb

/-- transitions which leave the current state of the nodes -/
theorem Flow.keep {t0 T B : ℝ} {s s' : St n ET} (h : Flow P cfg D t0 T B s)
    (hc : ∀ i, (s'.nodes i).cur = (s.nodes i).cur) (ht : s'.t = s.t)
    (hn : (∀ i, (s'.nodes i).next.u = (s'.nodes i).cur.u) ∨ s'.t < tTarget cfg t0 s'.stepNb) :
    Flow P cfg D t0 T B s' ∧ curU cfg s'.nodes = curU cfg s.nodes := by
  have e1 : (fun i => (s'.nodes i).cur.u) = fun i => (s.nodes i).cur.u := funext fun i => by rw [hc i]
  have e2 : (fun i => (s'.nodes i).cur.v) = fun i => (s.nodes i).cur.v := funext fun i => by rw [hc i]
  have e3 : curU cfg s'.nodes = curU cfg s.nodes := by unfold curU; rw [e1]
  have e4 : curV cfg s'.nodes = curV cfg s.nodes := by unfold curV; rw [e2]
  refine ⟨⟨fun i hi => ?_, fun i hi => ?_, ?_, ?_, hn⟩, e3⟩
  · rw [e1, hc i]; exact h.phi i hi
  · rw [e1, e2, hc i]; exact h.phiv i hi
  · rw [ht]; exact h.ge
  · rw [ht, e4]; exact h.vel

/-- what a transition does -/
structure Bal (cfg : Cfg n ET) (S : Setting n) (R : ℝ → X n → ℝ) (T C : ℝ) (s s' : St n ET) : Prop where
  mono : s.t ≤ s'.t
  step : s'.t - s.t ≤ 2 * cfg.DTMAX
  same : s'.t = s.t → curU cfg s'.nodes = curU cfg s.nodes
  bal : s'.t ≤ T → |R s.t (curU cfg s'.nodes) - R s.t (curU cfg s.nodes)
    + (s'.t - s.t) * (S.dmpForm (vecs (curV cfg s'.nodes)) (vecs (curV cfg s'.nodes)) / S.gamma0)| ≤ C * (s'.t - s.t) ^ 2
  rows : s'.rows = s.rows ∨ ∃ r : Row n ET, s'.rows = s.rows ++ [r] ∧ r.t = s.t ∧ ∀ i, (r.nodes i).next.u = (s.nodes i).cur.u

/-- the statement of `Setting.local_step` and of `Setting.balance_step` -/
def Balances (S : Setting n) (R : ℝ → X n → ℝ) (t0 T Q δ B C : ℝ) : Prop :=
  ∀ z : ℝ × X n, z.1 ∈ Icc t0 T → S.Admissible z.2 → ∀ W : X n, ‖W‖ ≤ B → ∀ dt q v, 0 < dt → dt ≤ δ → 0 ≤ q → q ≤ Q → S.StepEq z W dt q v →
    ‖S.nextV v‖ ≤ B ∧
    |R z.1 (S.next z.2 dt v) - R z.1 z.2 + dt * (S.dmpForm (vecs (S.nextV v)) (vecs (S.nextV v)) / S.gamma0)| ≤ C * dt ^ 2

theorem init_flow (hs : Start P cfg nodes) {t0 T B : ℝ} (hB : 0 ≤ B) {inp : ℕ → Input n} (hv0 : ∀ i, cfg.magNode i = true → (nodes i).next.v = 0) :
    Flow P cfg D t0 T B (run cfg t0 nodes ((D.world cfg.magNode).pot nodes) inp 0) := by
  have h := init_down (P := P) (cfg := cfg) (nodes := nodes) (D := D) (S := setting P cfg nodes D) (E := fun _ => 0) (t0 := t0) (inp := inp) hv0
    (motion_admissible hs (y := fun _ i => (nodes i).next.u) (t := 0) fun i hi => by
      have := hs.unit i hi
      unfold IsUnit3 at this
      simp only [V3.dot]
      linarith)
  refine ⟨h.phi, h.phiv, le_rfl, fun _ => ?_, h.next⟩
  change ‖state cfg.magNode fun i => (computeAllNodes _ _ _ _).cur.v‖ ≤ _
  simp only [comp_v]
  have e : (state cfg.magNode fun i => (nodes i).next.v) = 0 := by
    funext i
    unfold state masked
    split_ifs with hi
    · dsimp only
      rw [hv0 i hi, co_zero]; rfl
    · rw [co_zero]; rfl
  rw [e, norm_zero]
  exact hB

/-- one transition -/
theorem step_flow (hs : Start P cfg nodes) (hd : P.dir = none) (hv : Valid cfg) (hR : NoRecenter cfg)
    (hadd : ∀ t dt, cfg.add t dt = t + dt) {t0 T : ℝ} {V : ℕ → ℝ} {inp : ℕ → Input n}
    (hex : ExactRun P cfg (D.world cfg.magNode) V t0 nodes inp) {R : ℝ → X n → ℝ} {δ B C : ℝ}
    (hbal : Balances (setting P cfg nodes D) R t0 T (2 * (P.theta * cfg.gamma0)) δ B C)
    (hdmax : cfg.DTMAX * (1 + 1 / 2 ^ 23) ≤ δ) (k : ℕ)
    (ih : Flow P cfg D t0 T B (run cfg t0 nodes ((D.world cfg.magNode).pot nodes) inp k)) :
    Flow P cfg D t0 T B (run cfg t0 nodes ((D.world cfg.magNode).pot nodes) inp (k + 1)) ∧
    Bal cfg (setting P cfg nodes D) R T C (run cfg t0 nodes ((D.world cfg.magNode).pot nodes) inp k)
      (run cfg t0 nodes ((D.world cfg.magNode).pot nodes) inp (k + 1)) := by
  classical
  have hU : RecenterKeepsUnit cfg := fun nd nd' h => by rw [hR] at h; cases h; exact id
  have hN : RecenterKeepsNext cfg := fun nd nd' h => by rw [hR] at h; cases h; exact fun i => ⟨rfl, rfl, rfl⟩
  have hDp : 0 < cfg.DTMAX := hv.dtmin.trans_le hv.dtmax
  have hC02 := C02_dt_limits cfg hv t0 nodes ((D.world cfg.magNode).pot nodes) inp k
  have hunit := allUnit_run hU t0 nodes ((D.world cfg.magNode).pot nodes) inp hs.unit k
  have hpos := run_pos (nodes := nodes) hN t0 ((D.world cfg.magNode).pot nodes) inp k
  have hvel := fun (F : Fields P) X M b hdt hsys hM => exact_velocity hs hv hU hN t0 ((D.world cfg.magNode).pot nodes) inp k F (inp k).r
    (attDt cfg t0 (run cfg t0 nodes ((D.world cfg.magNode).pot nodes) inp k)) hdt X M b hsys hM
  have hsol := fun X dt i hi => solved_eq (cfg := cfg) (nodes := nodes) t0 ((D.world cfg.magNode).pot nodes) inp k i X dt hi
  have hx := hex.exact k
  have hp := hex.pot k
  rw [show run cfg t0 nodes ((D.world cfg.magNode).pot nodes) inp (k + 1) =
    TimeLoop.step cfg t0 (inp k) (run cfg t0 nodes ((D.world cfg.magNode).pot nodes) inp k) from rfl] at hC02 ⊢
  generalize run cfg t0 nodes ((D.world cfg.magNode).pot nodes) inp k = s at *
  have same : ∀ s' : St n ET, Flow P cfg D t0 T B s' ∧ curU cfg s'.nodes = curU cfg s.nodes → s'.t = s.t →
      (s'.rows = s.rows ∨ ∃ r : Row n ET, s'.rows = s.rows ++ [r] ∧ r.t = s.t ∧ ∀ i, (r.nodes i).next.u = (s.nodes i).cur.u) →
      Flow P cfg D t0 T B s' ∧ Bal cfg (setting P cfg nodes D) R T C s s' := by
    intro s' h ht hr
    refine ⟨h.1, ht.ge, by rw [ht]; linarith, fun _ => h.2, fun _ => ?_, hr⟩
    rw [ht, h.2]
    simp
  cases step_kind cfg t0 (inp k) s with
  | halted _ e => rw [e]; exact same s ⟨ih, rfl⟩ rfl (Or.inl rfl)
  | output _ ht e =>
    have hnx := ih.next.resolve_right ht
    have e1 : (TimeLoop.step cfg t0 (inp k) s).nodes = s.nodes ∧ (TimeLoop.step cfg t0 (inp k) s).t = s.t ∧
        (TimeLoop.step cfg t0 (inp k) s).rows = s.rows ++ [{ nt := s.rows.length, t := s.t, dt := s.dt, E := s.E, nodes := s.nodes }] := by
      rw [e]
      unfold forBody saver
      dsimp only
      split_ifs <;> exact ⟨rfl, rfl, rfl⟩
    exact same _ (ih.keep (fun i => by rw [e1.1]) e1.2.1 (Or.inl fun i => by rw [e1.1]; exact hnx i)) e1.2.1
      (Or.inr ⟨_, e1.2.2, rfl, hnx⟩)
  | signal _ ht _ e => rw [e]; exact same _ (ih.keep (fun _ => rfl) rfl (Or.inr ht)) rfl (Or.inl rfl)
  | small _ ht _ _ e => rw [e]; exact same _ (ih.keep (fun _ => rfl) rfl (Or.inr ht)) rfl (Or.inl rfl)
  | fail _ ht _ _ _ e => rw [e]; exact same _ (ih.keep (fun _ => rfl) rfl (Or.inr ht)) rfl (Or.inl rfl)
  | reject _ ht _ _ X _ _ e =>
    rw [e]
    refine same _ (ih.keep (fun i => ?_) rfl (Or.inr ht)) rfl (Or.inl rfl)
    dsimp only
    unfold solvedNodes updateNodes
    split_ifs <;> rfl
  | exitRec _ _ _ _ X _ _ hrec e => rw [hR] at hrec; cases hrec
  | accept hc ht hi hdn X hX hr nd hrec e =>
    rw [hR] at hrec
    cases hrec
    obtain ⟨d1, d2, d3, d4, d5, -⟩ := hC02 (by rw [e]; rfl)
    have edt : (TimeLoop.step cfg t0 (inp k) s).dt = attDt cfg t0 s := by rw [e]; rfl
    rw [edt] at d1 d2 d4
    have et : (TimeLoop.step cfg t0 (inp k) s).t = s.t + attDt cfg t0 s := by
      rcases d4 with h | h
      · rw [h, hadd]
      · exact h.2
    have hdt : 0 < attDt cfg t0 s := hv.dtmin.trans_le d1
    obtain ⟨Mx, b, hsys, hMx⟩ := hx X ⟨hc, ht, hi⟩ (not_lt.mp hdn) hX
    have hmv := (hvel _ X Mx b hdt hsys hMx).1
    have hst := stepEq hs hd (D := D) hpos ih.phi ih.phiv hmv
    have hpot := hp X ⟨hc, ht, hi⟩ hX
    have enod : (TimeLoop.step cfg t0 (inp k) s).nodes = computeAllNodes cfg.magNode
        ((D.world cfg.magNode).pot (solvedNodes cfg (inp k) X (attDt cfg t0 s) s)) (solvedNodes cfg (inp k) X (attDt cfg t0 s) s) := by
      rw [e, ← hpot]
      rfl
    set v := ofComp (Run.ext (baseProjection (inp k).r s.nodes)) (unknowns X) with hvd
    set S := setting P cfg nodes D with hSd
    have hmagN : ∀ i : Fin n, S.magN i ↔ cfg.magNode i = true := fun i => magNode_getD hs i
    have eu : curU cfg (TimeLoop.step cfg t0 (inp k) s).nodes = S.next (curU cfg s.nodes) (attDt cfg t0 s) v := by
      funext i
      change co (masked _ _ i) = co (if S.magN i then _ else _)
      rw [vecs_state]
      unfold masked
      by_cases hm : cfg.magNode i = true
      · rw [if_pos hm, if_pos ((hmagN i).mpr hm), if_pos hm, enod]
        dsimp only
        rw [comp_u]
        exact congrArg co (hsol X _ i hm).2
      · rw [if_neg hm, if_neg fun h => hm ((hmagN i).mp h)]
    have ev : curV cfg (TimeLoop.step cfg t0 (inp k) s).nodes = S.nextV v := by
      funext i
      change co (masked _ _ i) = co (if S.magN i then _ else _)
      unfold masked
      by_cases hm : cfg.magNode i = true
      · rw [if_pos hm, if_pos ((hmagN i).mpr hm), enod]
        dsimp only
        rw [comp_v]
        exact congrArg co (hsol X (attDt cfg t0 s) i hm).1
      · rw [if_neg hm, if_neg fun h => hm ((hmagN i).mp h)]
    have hpf := prefactor_bounds hDp hdt d2
    have hθγ : 0 ≤ P.theta * cfg.gamma0 := mul_nonneg hs.theta hs.gamma0.le
    have hadm : S.Admissible (curU cfg s.nodes) := by
      refine motion_admissible hs (y := fun _ i => (s.nodes i).cur.u) (t := 0) fun i hi' => ?_
      have := (hunit i hi').1
      unfold IsUnit3 at this
      simp only [V3.dot]
      linarith
    have key : s.t ≤ T → _ := fun hT => hbal (s.t, curU cfg s.nodes) ⟨ih.ge, hT⟩ hadm _ (ih.vel hT) (attDt cfg t0 s) _ v hdt
      (d2.trans hdmax) (mul_nonneg hpf.1 hθγ) (mul_le_mul_of_nonneg_right hpf.2 hθγ) hst
    dsimp only at key
    rw [← eu, ← ev] at key
    have hrw : (TimeLoop.step cfg t0 (inp k) s).rows = s.rows := by rw [e]; rfl
    have e3 : (TimeLoop.step cfg t0 (inp k) s).t - s.t = attDt cfg t0 s := by rw [et]; ring
    refine ⟨⟨fun i hm => ?_, fun i hm => ?_, ?_, fun hT => ?_, Or.inl fun i => ?_⟩, ?_, ?_, fun h => ?_, fun hT => ?_, Or.inl hrw⟩
    · rw [enod]
      simp only [comp_u]
      exact (comp_pot D _ i hm).1
    · rw [enod]
      simp only [comp_u, comp_v]
      exact (comp_pot D _ i hm).2
    · rw [et]
      exact ih.ge.trans (by linarith)
    · exact (key (by rw [et] at hT; linarith)).1
    · rw [enod]
      exact (congrArg DataNode.u (computeAll_next_u cfg.magNode _ _ i).2.2.2.1).symm
    · rw [et]; linarith
    · rw [e3]; nlinarith
    · rw [h, sub_self] at e3
      exact absurd e3.symm hdt.ne'
    · rw [e3]
      exact (key (by rw [et] at hT; linarith)).2

/-- the balance from one state of a run to another, with the constants in common -/
theorem core (hs : Start P cfg nodes) (hd : P.dir = none) (h : Driven P (fun i => (ext nodes i).p) D H Ms) (t0 T : ℝ) :
    ∃ C δ, 0 < C ∧ 0 < δ ∧ ∀ (cfg' : Cfg n ET) (nodes' : Fin n → Node) (inp : ℕ → Input n) (V : ℕ → ℝ),
      cfg'.gamma0 = cfg.gamma0 → cfg'.magNode = cfg.magNode → (∀ i, (nodes' i).p = (nodes i).p) →
      (∀ i, cfg.magNode i = true → IsUnit3 (nodes' i).next.u ∧ (nodes' i).next.v = 0) →
      Valid cfg' → NoRecenter cfg' → (∀ t dt, cfg'.add t dt = t + dt) → cfg'.DTMAX ≤ δ →
      ExactRun P cfg' (D.world cfg'.magNode) V t0 nodes' inp →
      let s := run cfg' t0 nodes' ((D.world cfg'.magNode).pot nodes') inp
      let W := fun k => energyOf P (fun i => (ext nodes i).p) D (H (s k).t) cfg.magNode fun i => ((s k).nodes i).cur.u
      ∀ k, (s k).t ≤ (s (k + 1)).t ∧ (s (k + 1)).t - (s k).t ≤ 2 * cfg'.DTMAX ∧
        0 ≤ power P (fun i => (ext nodes i).p) cfg'.gamma0 (extV (masked cfg'.magNode fun a => ((s (k + 1)).nodes a).cur.v)) ∧
        ((s (k + 1)).t ≤ T → |W (k + 1) - W k
          + ((s (k + 1)).t - (s k).t) * power P (fun i => (ext nodes i).p) cfg'.gamma0 (extV (masked cfg'.magNode fun a => ((s (k + 1)).nodes a).cur.v))
          - fieldWork P (fun i => (ext nodes i).p) (fun t a => H (s (k + 1)).t t a - H (s k).t t a)
            (extV (masked cfg'.magNode fun a => ((s (k + 1)).nodes a).cur.u))| ≤ C * ((s (k + 1)).t - (s k).t) ^ 2) ∧
        ((s (k + 1)).rows = (s k).rows ∨
          ∃ r : Row n ET, (s (k + 1)).rows = (s k).rows ++ [r] ∧ r.t = (s k).t ∧ ∀ i, (r.nodes i).next.u = ((s k).nodes i).cur.u) := by
  have hM : 0 < P.mu0 * Ms := mul_pos hs.mu0 (h.instant 0).pos
  have hS := good hs h.smoothMedia
  obtain ⟨Vb, C₁, δ, hVb, hC₁, hδ, hloc⟩ := Setting.local_step hS t0 T (2 * (P.theta * cfg.gamma0))
  obtain ⟨B, hB0, hB⟩ := quad_bound (h.instant 0)
  obtain ⟨C, hC, hbal⟩ := Setting.balance_step hS (tri_mag hs) t0 T (2 * (P.theta * cfg.gamma0)) Vb C₁ δ hVb hC₁ hδ hloc
    (fun t => redEnergy P (fun i => (ext nodes i).p) D (H t) Ms) (quad P (fun i => (ext nodes i).p) D) B
    (fun t c v => h.taylor hM.ne' t c v) hB0 hB
  refine ⟨P.mu0 * Ms * C, δ / 2, by positivity, by positivity, ?_⟩
  intro cfg' nodes' inp V hg hm hp hu hv hR hadd hdt hex
  have hs' : Start P cfg' nodes' :=
    { hs with
      oriented := fun t ht => by
        have e : MeshElem.nod4 (fun i => (Run.ext nodes' i).p) t = MeshElem.nod4 (fun i => (Run.ext nodes i).p) t := by
          funext j
          have hj := hs.valid t ht j
          unfold MeshElem.nod4 Run.ext
          dsimp only
          rw [dif_pos hj, dif_pos hj]
          exact hp _
        rw [e]
        exact hs.oriented t ht
      magNode := fun i => by rw [hm]; exact hs.magNode i
      unit := fun i hi => by rw [hm] at hi; exact (hu i hi).1
      gamma0 := by rw [hg]; exact hs.gamma0 }
  have hpe : (fun i => (Run.ext nodes' i).p) = fun i => (Run.ext nodes i).p := by
    funext i
    unfold Run.ext
    split_ifs
    · exact hp _
    · rfl
  have hset : setting P cfg' nodes' D = setting P cfg nodes D := by
    unfold setting
    rw [hg, hpe]
  have hDp : 0 < cfg'.DTMAX := hv.dtmin.trans_le hv.dtmax
  set R := fun t => redEnergy P (fun i => (ext nodes i).p) D (H t) Ms with hRd
  have hbal' : Balances (setting P cfg' nodes' D) R t0 T (2 * (P.theta * cfg'.gamma0)) δ (cfg.gamma0 * Vb) C := by
    rw [hset, hg]
    exact fun z hz ha W hW dt q v h1 h2 h3 h4 h5 => ⟨(hloc z hz ha W hW dt q v h1 h2 h3 h4 h5).1, hbal z hz ha W hW dt q v h1 h2 h3 h4 h5⟩
  have hstep := fun k => step_flow hs' hd hv hR hadd hex hbal' (by nlinarith) k
  have hflow : ∀ k, Flow P cfg' D t0 T (cfg.gamma0 * Vb) (run cfg' t0 nodes' ((D.world cfg'.magNode).pot nodes') inp k) := by
    intro k
    induction k with
    | zero => exact init_flow hs' (mul_nonneg hs.gamma0.le hVb.le) fun i hi => by rw [hm] at hi; exact (hu i hi).2
    | succ k ih => exact (hstep k ih).1
  intro s W k
  have hb := (hstep k (hflow k)).2
  change Bal cfg' _ R T C (s k) (s (k + 1)) at hb
  have ecu : ∀ nd : Fin n → Node, curU cfg' nd = state cfg.magNode fun i => (nd i).cur.u := fun nd => by unfold curU; rw [hm]
  have epw : power P (fun i => (ext nodes i).p) cfg'.gamma0 (extV (masked cfg'.magNode fun a => ((s (k + 1)).nodes a).cur.v)) =
      P.mu0 * Ms * ((setting P cfg nodes D).dmpForm (vecs (curV cfg' (s (k + 1)).nodes)) (vecs (curV cfg' (s (k + 1)).nodes)) / cfg.gamma0) := by
    rw [hg]
    have := power_eq (cfg := cfg) (H := H) (D := { D with Hext := fun _ _ => H 0 }) (h.instant 0) (vecs (curV cfg' (s (k + 1)).nodes))
    rw [vecs_state'] at this ⊢
    exact this
  refine ⟨hb.mono, hb.step, ?_, fun hT' => ?_, hb.rows⟩
  · rw [epw]
    exact mul_nonneg hM.le (div_nonneg (Setting.dmpForm_nonneg hS _) hs.gamma0.le)
  · have h1 := hb.bal hT'
    rw [hset] at h1
    change |R (s k).t _ - R (s k).t _ + _ * (_ / cfg.gamma0)| ≤ _ at h1
    have h2 := energy_field (P := P) (D := D) (p := fun i => (ext nodes i).p) (H (s k).t) (H (s (k + 1)).t) cfg.magNode
      fun i => ((s (k + 1)).nodes i).cur.u
    have hW : ∀ t u, energyOf P (fun i => (ext nodes i).p) D (H t) cfg.magNode u = P.mu0 * Ms * R t (state cfg.magNode u) :=
      fun t u => energyOf_eq hM.ne' _ _
    rw [epw, hm, ← h2]
    have e : W (k + 1) - W k + ((s (k + 1)).t - (s k).t) * (P.mu0 * Ms * ((setting P cfg nodes D).dmpForm (vecs (curV cfg' (s (k + 1)).nodes))
          (vecs (curV cfg' (s (k + 1)).nodes)) / cfg.gamma0))
        - (energyOf P (fun i => (ext nodes i).p) D (H (s (k + 1)).t) cfg.magNode (fun i => ((s (k + 1)).nodes i).cur.u)
          - energyOf P (fun i => (ext nodes i).p) D (H (s k).t) cfg.magNode (fun i => ((s (k + 1)).nodes i).cur.u)) =
        P.mu0 * Ms * (R (s k).t (curU cfg' (s (k + 1)).nodes) - R (s k).t (curU cfg' (s k).nodes) + ((s (k + 1)).t - (s k).t) *
          ((setting P cfg nodes D).dmpForm (vecs (curV cfg' (s (k + 1)).nodes)) (vecs (curV cfg' (s (k + 1)).nodes)) / cfg.gamma0)) := by
      simp only [W, hW, ecu]
      ring
    rw [e, abs_mul, abs_of_pos hM, mul_assoc (P.mu0 * Ms) C]
    exact mul_le_mul_of_nonneg_left h1 hM.le

end

end Verif.Balance
