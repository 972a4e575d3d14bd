import Verif.Proofs.TimeLoop
import Verif.Spec.TimeLoop

/-! Invariants of the time loop machine. -/

namespace Verif.TimeLoop

variable {n : ℕ} {ET : Type}

/-- upper bound on all time steps -/
noncomputable def dtBound (cfg : Cfg n ET) : ℝ := cfg.DTMAX * (1 + fltEpsilon)

theorem dtBound_pos {cfg : Cfg n ET} (hv : Valid cfg) : 0 < dtBound cfg := by
  have := hv.dtmin; have := hv.dtmax; have := TimeStepper.fltEpsilon_pos
  unfold dtBound; apply mul_pos <;> linarith

structure Inv (cfg : Cfg n ET) (t0 : ℝ) (s : St n ET) : Prop where
  hmin : s.stepper.hardMin = cfg.DTMIN
  hmax : s.stepper.hardMax = dtBound cfg
  soft : s.stepper.softMax ≤ dtBound cfg
  flagSoft : s.ctl = .running → s.flag ≠ 0 → s.stepper.softMax ≤ 0.95 ^ s.flag * dtBound cfg
  nb : s.stepNb = s.rows.length
  nbLe : s.ctl = .running → (s.stepNb : ℤ) ≤ stepCount cfg t0
  rowsLe : (s.rows.length : ℤ) ≤ max 0 (stepCount cfg t0 + 1)
  done : s.ctl = .done 0 → (s.rows.length : ℤ) = max 0 (stepCount cfg t0 + 1)
  tle : s.ctl = .running → s.t ≤ tTarget cfg t0 s.stepNb
  rowT : ∀ i (h : i < s.rows.length), (s.rows[i]).t = t0 + i * cfg.timeStep ∧ (s.rows[i]).nt = i
  flagT : s.ctl = .running → s.flag ≠ 0 → s.t < tTarget cfg t0 s.stepNb
  strideLo : s.ctl = .running → cfg.DTMIN ≤ cfg.timeStep → s.t < tTarget cfg t0 s.stepNb →
    cfg.DTMIN ≤ tTarget cfg t0 s.stepNb - s.t
  done01 : ∀ k, s.ctl = .done k → k = 0 ∨ k = 1

theorem softLimitDu_hardMin (s : TimeStepper) (a b : ℝ) : (softLimitDu s a b).hardMin = s.hardMin := by
  unfold softLimitDu; split_ifs <;> rfl
theorem softLimitDu_hardMax (s : TimeStepper) (a b : ℝ) : (softLimitDu s a b).hardMax = s.hardMax := by
  unfold softLimitDu; split_ifs <;> rfl
theorem softLimitDu_le (s : TimeStepper) (a b : ℝ) : (softLimitDu s a b).softMax ≤ s.softMax := by
  unfold softLimitDu; split_ifs
  · exact le_refl _
  · exact s.setSoft_le_self _

theorem v2max_nonneg (mag : Fin n → Bool) (X : Fin n → ℝ × ℝ) : 0 ≤ v2max mag X := by
  unfold v2max
  have : ∀ (l : List (Fin n)) (m : ℝ), 0 ≤ m → 0 ≤ l.foldl
    (fun m i => if mag i then
        (let v2 := (X i).1 * (X i).1 + (X i).2 * (X i).2
         if m < v2 then v2 else m) else m) m := by
    intro l
    induction l with
    | nil => intro m h; simpa
    | cons a l ih =>
      intro m h
      rw [List.foldl_cons]
      apply ih
      simp only
      split_ifs
      · nlinarith [mul_self_nonneg (X a).1, mul_self_nonneg (X a).2]
      · exact h
      · exact h
  exact this _ _ le_rfl

theorem v2max_ge (mag : Fin n → Bool) (X : Fin n → ℝ × ℝ) (i : Fin n) (hi : mag i = true) :
    (X i).1 * (X i).1 + (X i).2 * (X i).2 ≤ v2max mag X := by
  unfold v2max
  have mono : ∀ (l : List (Fin n)) (m : ℝ), m ≤ l.foldl
    (fun m i => if mag i then
        (let v2 := (X i).1 * (X i).1 + (X i).2 * (X i).2
         if m < v2 then v2 else m) else m) m := by
    intro l
    induction l with
    | nil => intro m; simp
    | cons a l ih =>
      intro m
      rw [List.foldl_cons]
      refine le_trans ?_ (ih _)
      simp only
      split_ifs with h1 h2
      · exact h2.le
      · exact le_rfl
      · exact le_rfl
  have : ∀ (l : List (Fin n)) (m : ℝ), i ∈ l → (X i).1 * (X i).1 + (X i).2 * (X i).2 ≤ l.foldl
    (fun m i => if mag i then
        (let v2 := (X i).1 * (X i).1 + (X i).2 * (X i).2
         if m < v2 then v2 else m) else m) m := by
    intro l
    induction l with
    | nil => intro m h; simp at h
    | cons a l ih =>
      intro m h
      rw [List.foldl_cons]
      rcases List.mem_cons.mp h with rfl | h
      · refine le_trans ?_ (mono _ _)
        simp only [hi, if_true]
        split_ifs with h2
        · exact le_rfl
        · exact not_lt.mp h2
      · exact ih _ h
  exact this _ _ (List.mem_finRange i)

theorem vMax_nonneg (g : ℝ) (hg : 0 ≤ g) (mag : Fin n → Bool) (X : Fin n → ℝ × ℝ) :
    0 ≤ vMax g mag X := mul_nonneg hg (Real.sqrt_nonneg _)

/-- the soft limit after a `max(du)` rejection -/
theorem softLimitDu_reject {s : TimeStepper} {D v dt : ℝ} (hD : 0 ≤ D) (hdt : 0 < dt)
    (h : D < dt * v) : (softLimitDu s D v).softMax ≤ 0.95 * dt := by
  have hv : 0 < v := by
    by_contra hc; push Not at hc
    have : dt * v ≤ 0 := mul_nonpos_of_nonneg_of_nonpos hdt.le hc
    linarith
  unfold softLimitDu
  rw [if_neg hv.ne']
  refine (TimeStepper.setSoft_le _ _).trans ?_
  have : D / v < dt := by rw [div_lt_iff₀ hv]; exact h
  linarith

theorem inv_init (cfg : Cfg n ET) (hv : Valid cfg) (t0 : ℝ) (nodes : Fin n → Node)
    (pot : Fin n → ℝ × ℝ) : Inv cfg t0 (init cfg t0 nodes pot) := by
  have h1 := hv.dtmin; have h2 := hv.dtmax
  have he := TimeStepper.fltEpsilon_pos
  refine ⟨rfl, rfl, ?_, ?_, rfl, ?_, ?_, ?_, ?_, ?_, ?_, ?_, ?_⟩
  · simp only [init, TimeStepper.mk', dtBound]
    rw [Real.sqrt_le_left (by nlinarith)]
    have h3 : cfg.DTMIN * cfg.DTMAX ≤ cfg.DTMAX ^ 2 := by nlinarith
    have h4 : cfg.DTMAX ≤ cfg.DTMAX * (1 + fltEpsilon) := by nlinarith
    exact h3.trans (pow_le_pow_left₀ (by linarith) h4 2)
  · intro _ h; simp [init] at h
  · intro h; simp only [init] at h ⊢
    by_contra hc
    simp at hc
    rw [if_neg (by omega)] at h; cases h
  · simp [init]
  · intro h; simp only [init] at h ⊢
    split_ifs at h with hc
    simp; omega
  · intro _; simp [init, tTarget]
  · intro i h; simp [init] at h
  · intro _ h; simp [init] at h
  · intro _ _ h; simp [init, tTarget] at h
  · intro k h; simp only [init] at h
    split_ifs at h
    cases h; exact Or.inl rfl

theorem tTarget_succ (cfg : Cfg n ET) (t0 : ℝ) (k : ℕ) :
    tTarget cfg t0 (k + 1) = tTarget cfg t0 k + cfg.timeStep := by
  unfold tTarget; push_cast; ring

theorem rows_append (cfg : Cfg n ET) (t0 : ℝ) (s : St n ET) (hi : Inv cfg t0 s)
    (hteq : s.t = tTarget cfg t0 s.stepNb) :
    ∀ i (h : i < (saver cfg s).rows.length),
      ((saver cfg s).rows[i]).t = t0 + i * cfg.timeStep ∧ ((saver cfg s).rows[i]).nt = i := by
  intro i hil
  simp only [saver] at hil ⊢
  by_cases hlt : i < s.rows.length
  · rw [List.getElem_append_left hlt]; exact hi.rowT i hlt
  · have : i = s.rows.length := by simp at hil; omega
    subst this
    rw [List.getElem_append_right (le_refl _)]
    simp only [Nat.sub_self, List.getElem_cons_zero, and_true]
    rw [hteq, hi.nb]; rfl

theorem inv_output (cfg : Cfg n ET) (hv : Valid cfg) (t0 : ℝ) (s : St n ET) (hi : Inv cfg t0 s)
    (h : s.ctl = .running) (ht : ¬ s.t < tTarget cfg t0 s.stepNb) : Inv cfg t0 (forBody cfg t0 s) := by
  have hteq : s.t = tTarget cfg t0 s.stepNb := le_antisymm (hi.tle h) (not_lt.mp ht)
  have hflag : s.flag = 0 := by
    by_contra hc
    exact ht (hi.flagT h hc)
  have hle := hi.nbLe h
  have hnb := hi.nb
  have hrow := rows_append cfg t0 s hi hteq
  have hlen : (saver cfg s).rows.length = s.rows.length + 1 := by simp [saver]
  have hts := hv.tstep
  have hsucc := tTarget_succ cfg t0 s.stepNb
  by_cases hc : ((s.stepNb + 1 : ℕ) : ℤ) ≤ stepCount cfg t0
  · have e : forBody cfg t0 s = { saver cfg s with stepNb := s.stepNb + 1 } := by
      exact if_pos hc
    rw [e]
    refine ⟨hi.hmin, hi.hmax, hi.soft, hi.flagSoft, ?_, fun _ => hc, ?_, ?_, ?_, hrow, ?_, ?_, ?_⟩
    · simp only [hlen, hnb]
    · simp only [hlen]; push_cast at hc ⊢; omega
    · intro hd; change s.ctl = _ at hd; rw [h] at hd; cases hd
    · intro _; change s.t ≤ tTarget cfg t0 (s.stepNb + 1); rw [hsucc, hteq]; linarith
    · intro _ hf; exact absurd hflag hf
    · intro _ h2 _; change _ ≤ tTarget cfg t0 (s.stepNb + 1) - s.t; rw [hsucc, hteq]; linarith
    · intro k hk; change s.ctl = _ at hk; rw [h] at hk; cases hk
  · have e : forBody cfg t0 s = { saver cfg s with stepNb := s.stepNb + 1, ctl := .done 0 } := by
      exact if_neg hc
    rw [e]
    refine ⟨hi.hmin, hi.hmax, hi.soft, (fun hd => by cases hd), ?_, ?_, ?_, ?_, ?_, hrow, ?_, ?_, ?_⟩
    · simp only [hlen, hnb]
    · intro hd; cases hd
    · simp only [hlen]; push_cast at hc ⊢; omega
    · intro _; simp only [hlen]; push_cast at hc ⊢; omega
    · intro hd; cases hd
    · intro hd; cases hd
    · intro hd; cases hd
    · intro k hk; cases hk; exact Or.inl rfl

/-! ### attempts -/

theorem attDt_le (cfg : Cfg n ET) (t0 : ℝ) (s : St n ET) :
    attDt cfg t0 s ≤ tTarget cfg t0 s.stepNb - s.t := TimeStepper.step_le_stride _ _

theorem attDt_le_soft (cfg : Cfg n ET) (t0 : ℝ) (s : St n ET) :
    attDt cfg t0 s ≤ s.stepper.softMax := TimeStepper.step_le_soft _ _

theorem attStepper_soft_le (cfg : Cfg n ET) (t0 : ℝ) (s : St n ET) (hi : Inv cfg t0 s) :
    (attStepper cfg t0 s).softMax ≤ dtBound cfg :=
  TimeStepper.next_le _ _ _ hi.soft hi.hmax.le

/-- bound on the soft limit after a failed or rejected attempt -/
theorem flagSoft_step {cfg : Cfg n ET} (_hv : Valid cfg) {t0 : ℝ} {s : St n ET} (hi : Inv cfg t0 s)
    (hrun : s.ctl = .running) {x : ℝ} (hx : x ≤ 0.95 * attDt cfg t0 s) : x ≤ 0.95 ^ (s.flag + 1) * dtBound cfg := by
  have h1 := attDt_le_soft cfg t0 s
  have h2 : s.stepper.softMax ≤ 0.95 ^ s.flag * dtBound cfg := by
    by_cases hf : s.flag = 0
    · rw [hf]; simpa using hi.soft
    · exact hi.flagSoft hrun hf
  rw [pow_succ]
  nlinarith

theorem accepted_t (cfg : Cfg n ET) (hv : Valid cfg) (t0 : ℝ) (inp : Input n) (s : St n ET)
    (hi : Inv cfg t0 s) (X : Fin n → ℝ × ℝ) :
    (accepted cfg t0 inp s X).t ≤ tTarget cfg t0 s.stepNb ∧
    ((accepted cfg t0 inp s X).t < tTarget cfg t0 s.stepNb →
      3 / 2 * cfg.DTMIN ≤ tTarget cfg t0 s.stepNb - (accepted cfg t0 inp s X).t) ∧
    s.t + attDt cfg t0 s - cfg.DTMIN / 2 ≤ (accepted cfg t0 inp s X).t ∧
    ((accepted cfg t0 inp s X).t = cfg.add s.t (attDt cfg t0 s) ∨
      (accepted cfg t0 inp s X).t = tTarget cfg t0 s.stepNb) ∧
    ((accepted cfg t0 inp s X).t = tTarget cfg t0 s.stepNb →
      (accepted cfg t0 inp s X).t = s.t + attDt cfg t0 s) := by
  have h1 := attDt_le cfg t0 s
  have hmin := hv.dtmin
  have he := abs_le.mp (hv.addErr s.t (attDt cfg t0 s))
  unfold accepted
  simp only
  split_ifs with hc
  · exact ⟨le_rfl, fun hh => absurd hh (lt_irrefl _), by linarith, Or.inr rfl, fun _ => by linarith⟩
  · have := TimeStepper.step_gap s.stepper _ hc
    rw [hi.hmin] at this
    change attDt cfg t0 s ≤ _ at this
    exact ⟨by linarith, fun _ => by linarith, by linarith, Or.inl rfl, fun e => by linarith⟩

theorem inv_accepted (cfg : Cfg n ET) (hv : Valid cfg) (t0 : ℝ) (inp : Input n) (s : St n ET)
    (hi : Inv cfg t0 s) (X : Fin n → ℝ × ℝ) (_h : s.ctl = .running) :
    Inv cfg t0 (accepted cfg t0 inp s X) := by
  obtain ⟨h1, h2, -⟩ := accepted_t cfg hv t0 inp s hi X
  refine ⟨?_, ?_, ?_, ?_, hi.nb, hi.nbLe, hi.rowsLe, hi.done, fun _ => h1, hi.rowT, ?_, ?_, hi.done01⟩
  · exact (softLimitDu_hardMin _ _ _).trans hi.hmin
  · exact (softLimitDu_hardMax _ _ _).trans hi.hmax
  · exact (softLimitDu_le _ _ _).trans (attStepper_soft_le cfg t0 s hi)
  · intro _ hf; exact absurd rfl hf
  · intro _ hf; exact absurd rfl hf
  · intro _ _ hlt
    have := h2 hlt
    have := hv.dtmin
    change _ ≤ tTarget cfg t0 s.stepNb - _
    linarith

theorem inv_step (cfg : Cfg n ET) (hv : Valid cfg) (t0 : ℝ) (inp : Input n) (s : St n ET)
    (hi : Inv cfg t0 s) : Inv cfg t0 (step cfg t0 inp s) := by
  cases step_kind cfg t0 inp s with
  | halted h e => rw [e]; exact hi
  | output h ht e => rw [e]; exact inv_output cfg hv t0 s hi h ht
  | signal h ht hs e =>
    rw [e]
    exact ⟨hi.hmin, hi.hmax, hi.soft, fun hc => (by cases hc), hi.nb, fun hc => (by cases hc), hi.rowsLe,
      fun hc => (by cases hc), fun hc => (by cases hc), hi.rowT, fun hc => (by cases hc), fun hc => (by cases hc),
      fun k hc => (by cases hc)⟩
  | small h ht hs hd e =>
    rw [e]
    refine ⟨hi.hmin, hi.hmax, attStepper_soft_le cfg t0 s hi, fun hc => (by cases hc), hi.nb, fun hc => (by cases hc), hi.rowsLe,
      fun hc => (by cases hc), fun hc => (by cases hc), hi.rowT, fun hc => (by cases hc), fun hc => (by cases hc),
      fun k hc => (by cases hc; exact Or.inr rfl)⟩
  | fail h ht hs hd hsol e =>
    rw [e]
    refine ⟨hi.hmin, hi.hmax, ?_, ?_, hi.nb, hi.nbLe, hi.rowsLe, hi.done, hi.tle, hi.rowT, fun _ _ => ht,
      hi.strideLo, hi.done01⟩
    · exact (TimeStepper.setSoft_le_self _ _).trans (attStepper_soft_le cfg t0 s hi)
    · intro _ _
      refine flagSoft_step hv hi h ((TimeStepper.setSoft_le _ _).trans ?_)
      have := hv.dtmin
      push Not at hd
      linarith
  | reject h ht hs hd X hsol hr e =>
    rw [e]
    refine ⟨(softLimitDu_hardMin _ _ _).trans hi.hmin, (softLimitDu_hardMax _ _ _).trans hi.hmax,
      (softLimitDu_le _ _ _).trans (attStepper_soft_le cfg t0 s hi), ?_, hi.nb, hi.nbLe, hi.rowsLe,
      hi.done, hi.tle, hi.rowT, fun _ _ => ht, hi.strideLo, hi.done01⟩
    intro _ _
    have := hv.dtmin
    push Not at hd
    exact flagSoft_step hv hi h (softLimitDu_reject hv.dumax (by linarith) hr)
  | exitRec h ht hs hd X hsol hr hrec e =>
    rw [e]
    have := inv_accepted cfg hv t0 inp s hi X h
    exact ⟨this.hmin, this.hmax, this.soft, fun hc => (by cases hc), this.nb, fun hc => (by cases hc), this.rowsLe,
      fun hc => (by cases hc), fun hc => (by cases hc), this.rowT, fun hc => (by cases hc), fun hc => (by cases hc),
      fun k hc => (by cases hc)⟩
  | accept h ht hs hd X hsol hr nodes hrec e =>
    rw [e]
    have := inv_accepted cfg hv t0 inp s hi X h
    exact ⟨this.hmin, this.hmax, this.soft, this.flagSoft, this.nb, this.nbLe, this.rowsLe, this.done,
      this.tle, this.rowT, this.flagT, this.strideLo, this.done01⟩

theorem inv_run (cfg : Cfg n ET) (hv : Valid cfg) (t0 : ℝ) (nodes : Fin n → Node)
    (pot : Fin n → ℝ × ℝ) (inp : ℕ → Input n) (k : ℕ) : Inv cfg t0 (run cfg t0 nodes pot inp k) := by
  induction k with
  | zero => exact inv_init cfg hv t0 nodes pot
  | succ k ih => exact inv_step cfg hv t0 (inp k) _ ih

end Verif.TimeLoop
