import Verif.Model.StepperFl
import Verif.Proofs.TimeLoopExample
import Verif.Props.TimeLoop

/-! # C105: settings of the time integration that cannot be followed -/

namespace Verif.TimeLoop

variable {n : ℕ} {ET : Type}

/-- the program has ended, with this status, after this number of rows, and stays so -/
def EndsWith (σ : ℕ → St n ET) (k : ℕ) (c : Ctl) (rows : ℕ) : Prop := ∀ j, k ≤ j → (σ j).ctl = c ∧ (σ j).rows.length = rows

/-- no signal arrives -/
def NoSignal (inp : ℕ → Input n) : Prop := ∀ k, (inp k).sig = false

theorem halted_from {cfg : Cfg n ET} {t0 : ℝ} {nodes : Fin n → Node} {pot : Fin n → ℝ × ℝ} {inp : ℕ → Input n} {k : ℕ}
    (h : (run cfg t0 nodes pot inp k).ctl ≠ .running) : ∀ j, k ≤ j → run cfg t0 nodes pot inp j = run cfg t0 nodes pot inp k := by
  intro j hj
  induction j, hj using Nat.le_induction with
  | base => rfl
  | succ j _ ih =>
    show step cfg t0 (inp j) (run cfg t0 nodes pot inp j) = _
    rw [ih, halted_stays _ h]

/-- the first transition writes row 0 -/
theorem first_row {cfg : Cfg n ET} {t0 : ℝ} (h : 1 ≤ stepCount cfg t0) (nodes : Fin n → Node) (pot : Fin n → ℝ × ℝ) (inp : ℕ → Input n) :
    run cfg t0 nodes pot inp 1 = { saver cfg (init cfg t0 nodes pot) with stepNb := 1 } := by
  change step cfg t0 (inp 0) (init cfg t0 nodes pot) = _
  have hnot : ¬ (init cfg t0 nodes pot).t < tTarget cfg t0 (init cfg t0 nodes pot).stepNb := by simp [init, tTarget]
  have hc : ((0 + 1 : ℕ) : ℤ) ≤ stepCount cfg t0 := by simpa using h
  have hi : (init cfg t0 nodes pot).ctl = .running := by
    change (if 0 ≤ stepCount cfg t0 then Ctl.running else Ctl.done 0) = _
    rw [if_pos (by omega)]
  unfold step
  rw [hi]
  simp only
  rw [if_neg hnot]
  exact if_pos hc

theorem first_facts {cfg : Cfg n ET} {t0 : ℝ} (h : 1 ≤ stepCount cfg t0) (nodes : Fin n → Node) (pot : Fin n → ℝ × ℝ) (inp : ℕ → Input n) :
    let s := run cfg t0 nodes pot inp 1
    s.ctl = .running ∧ s.t = t0 ∧ s.stepNb = 1 ∧ s.rows.length = 1 ∧ s.stepper.softMax = Real.sqrt (cfg.DTMIN * cfg.DTMAX) ∧
      s.stepper.hardMin = cfg.DTMIN ∧ s.stepper.hardMax = cfg.DTMAX * (1 + fltEpsilon) := by
  intro s
  have e : s = { saver cfg (init cfg t0 nodes pot) with stepNb := 1 } := first_row h nodes pot inp
  rw [e]
  refine ⟨?_, rfl, rfl, rfl, rfl, rfl, rfl⟩
  change (if 0 ≤ stepCount cfg t0 then Ctl.running else Ctl.done 0) = _
  rw [if_pos (by omega)]

/-- a first attempt that is too small ends the run -/
theorem small_first {cfg : Cfg n ET} {t0 : ℝ} (hp : 0 < cfg.timeStep) (h : 1 ≤ stepCount cfg t0) (nodes : Fin n → Node)
    (pot : Fin n → ℝ × ℝ) (inp : ℕ → Input n) (hs : attDt cfg t0 (run cfg t0 nodes pot inp 1) < cfg.DTMIN) :
    ((inp 1).sig = false → EndsWith (run cfg t0 nodes pot inp) 2 (.done 1) 1) ∧
    ((inp 1).sig = true → EndsWith (run cfg t0 nodes pot inp) 2 .signalled 1) := by
  obtain ⟨h1, h2, h3, h4, -⟩ := first_facts h nodes pot inp
  have e0 : run cfg t0 nodes pot inp 2 = step cfg t0 (inp 1) (run cfg t0 nodes pot inp 1) := rfl
  have hlt : (run cfg t0 nodes pot inp 1).t < tTarget cfg t0 (run cfg t0 nodes pot inp 1).stepNb := by
    rw [h2, h3]
    unfold tTarget
    push_cast
    linarith
  constructor
  · intro hsig j hj
    cases step_kind cfg t0 (inp 1) (run cfg t0 nodes pot inp 1) with
    | small _ _ _ _ e =>
      rw [← e0] at e
      rw [halted_from (by rw [e]; simp) j hj, e]
      exact ⟨rfl, h4⟩
    | halted hc => exact absurd h1 hc
    | output _ ht => exact absurd hlt ht
    | signal _ _ hi => rw [hsig] at hi; cases hi
    | fail _ _ _ hd => exact absurd hs hd
    | reject _ _ _ hd => exact absurd hs hd
    | exitRec _ _ _ hd => exact absurd hs hd
    | accept _ _ _ hd => exact absurd hs hd
  · intro hsig j hj
    cases step_kind cfg t0 (inp 1) (run cfg t0 nodes pot inp 1) with
    | signal _ _ _ e =>
      rw [← e0] at e
      rw [halted_from (by rw [e]; simp [onSignal]) j hj, e]
      exact ⟨rfl, h4⟩
    | halted hc => exact absurd h1 hc
    | output _ ht => exact absurd hlt ht
    | small _ _ hi => rw [hsig] at hi; cases hi
    | fail _ _ hi => rw [hsig] at hi; cases hi
    | reject _ _ hi => rw [hsig] at hi; cases hi
    | exitRec _ _ hi => rw [hsig] at hi; cases hi
    | accept _ _ hi => rw [hsig] at hi; cases hi

/-- an attempt is not longer than the distance to the output nor than the soft limit -/
theorem step_le (s : TimeStepper) (hm : 0 ≤ s.hardMin) (stride : ℝ) : s.step stride ≤ stride ∧ s.step stride ≤ s.softMax := by
  unfold TimeStepper.step
  simp only
  split_ifs with h
  · exact ⟨by linarith, by linarith [h.1, min_le_right stride s.softMax]⟩
  · exact ⟨min_le_left _ _, min_le_right _ _⟩

theorem small_period {cfg : Cfg n ET} {t0 : ℝ} (h : 1 ≤ stepCount cfg t0) (hm : 0 ≤ cfg.DTMIN)
    (hbad : cfg.timeStep < cfg.DTMIN ∨ Real.sqrt (cfg.DTMIN * cfg.DTMAX) < cfg.DTMIN) (nodes : Fin n → Node)
    (pot : Fin n → ℝ × ℝ) (inp : ℕ → Input n) : attDt cfg t0 (run cfg t0 nodes pot inp 1) < cfg.DTMIN := by
  obtain ⟨h1, h2, h3, h4, h5, h6, -⟩ := first_facts h nodes pot inp
  obtain ⟨a, b⟩ := step_le (run cfg t0 nodes pot inp 1).stepper (by rw [h6]; exact hm)
    (tTarget cfg t0 (run cfg t0 nodes pot inp 1).stepNb - (run cfg t0 nodes pot inp 1).t)
  unfold attDt
  rcases hbad with hb | hb
  · refine lt_of_le_of_lt a ?_
    rw [h2, h3]
    unfold tTarget
    push_cast
    linarith
  · refine lt_of_le_of_lt b ?_
    rw [h5]
    exact hb

/-- **C105** An output period below `min(dt)` is reported: the run ends with status 1 after the first row. -/
theorem C105_period (cfg : Cfg n ET) (t0 : ℝ) (hp : 0 < cfg.timeStep) (hb : cfg.timeStep < cfg.DTMIN) (h : 1 ≤ stepCount cfg t0)
    (nodes : Fin n → Node) (pot : Fin n → ℝ × ℝ) (inp : ℕ → Input n) (hs : NoSignal inp) :
    EndsWith (run cfg t0 nodes pot inp) 2 (.done 1) 1 :=
  (small_first hp h nodes pot inp (small_period h (by linarith) (Or.inl hb) nodes pot inp)).1 (hs 1)

theorem sqrt_lt_min {a b : ℝ} (ha : 0 < a) (hb : 0 ≤ b) (h : b < a) : Real.sqrt (a * b) < a := by
  rw [Real.sqrt_lt' ha]
  nlinarith

/-- **C105** A `max(dt)` below `min(dt)` is reported: the run ends with status 1 after the first row. -/
theorem C105_order (cfg : Cfg n ET) (t0 : ℝ) (hp : 0 < cfg.timeStep) (hm : 0 < cfg.DTMIN) (h0 : 0 ≤ cfg.DTMAX) (hb : cfg.DTMAX < cfg.DTMIN)
    (h : 1 ≤ stepCount cfg t0) (nodes : Fin n → Node) (pot : Fin n → ℝ × ℝ) (inp : ℕ → Input n) (hs : NoSignal inp) :
    EndsWith (run cfg t0 nodes pot inp) 2 (.done 1) 1 :=
  (small_first hp h nodes pot inp (small_period h hm.le (Or.inr (sqrt_lt_min hm h0 hb)) nodes pot inp)).1 (hs 1)

/-- **C105** With a negative `max(du)` nothing is ever kept. (When also all velocities are zero the code divides by zero: its limit is then `-∞`, and the run ends
with status 1 at the next attempt, where the model keeps trying.) -/
theorem C105_du {cfg : Cfg n ET} {t0 : ℝ} (hp : 0 < cfg.timeStep) (hm : 0 < cfg.DTMIN) (hg : 0 ≤ cfg.gamma0) (hb : cfg.DUMAX < 0)
    (h : 1 ≤ stepCount cfg t0) (nodes : Fin n → Node) (pot : Fin n → ℝ × ℝ) (inp : ℕ → Input n) (k : ℕ) :
    let s := run cfg t0 nodes pot inp (k + 1)
    s.rows.length = 1 ∧ s.nt = 0 ∧ ((s.ctl = .running ∧ s.t = t0 ∧ s.stepNb = 1) ∨ s.ctl = .done 1 ∨ s.ctl = .signalled) := by
  induction k with
  | zero =>
    obtain ⟨h1, h2, h3, h4, -⟩ := first_facts h nodes pot inp
    refine ⟨h4, ?_, Or.inl ⟨h1, h2, h3⟩⟩
    show (run cfg t0 nodes pot inp 1).nt = 0
    rw [first_row h]
    rfl
  | succ k ih =>
    simp only at ih ⊢
    have e0 : run cfg t0 nodes pot inp (k + 1 + 1) = step cfg t0 (inp (k + 1)) (run cfg t0 nodes pot inp (k + 1)) := rfl
    obtain ⟨ih1, ih2, ih3⟩ := ih
    have kept : ∀ X : Fin n → ℝ × ℝ, ¬ attDt cfg t0 (run cfg t0 nodes pot inp (k + 1)) < cfg.DTMIN →
        ¬ ¬ cfg.DUMAX < attDt cfg t0 (run cfg t0 nodes pot inp (k + 1)) * vMax cfg.gamma0 cfg.magNode X := by
      intro X hd hr
      apply hr
      refine hb.trans_le (mul_nonneg ?_ (vMax_nonneg _ hg _ _))
      linarith [not_lt.mp hd]
    cases step_kind cfg t0 (inp (k + 1)) (run cfg t0 nodes pot inp (k + 1)) with
    | halted _ e => rw [e0, e]; exact ⟨ih1, ih2, ih3⟩
    | output hc ht =>
      exfalso
      rcases ih3 with ⟨-, h2, h3⟩ | h' | h'
      · apply ht
        rw [h2, h3]
        unfold tTarget
        push_cast
        linarith
      · rw [h'] at hc; cases hc
      · rw [h'] at hc; cases hc
    | signal _ _ _ e => rw [e0, e]; exact ⟨ih1, ih2, Or.inr (Or.inr rfl)⟩
    | small _ _ _ _ e => rw [e0, e]; exact ⟨ih1, ih2, Or.inr (Or.inl rfl)⟩
    | fail hc _ _ _ _ e =>
      rw [e0, e]
      refine ⟨ih1, ih2, ?_⟩
      rcases ih3 with ⟨h1, h2, h3⟩ | h' | h'
      · exact Or.inl ⟨h1, h2, h3⟩
      · rw [h'] at hc; cases hc
      · rw [h'] at hc; cases hc
    | reject hc _ _ _ _ _ _ e =>
      rw [e0, e]
      refine ⟨ih1, ih2, ?_⟩
      rcases ih3 with ⟨h1, h2, h3⟩ | h' | h'
      · exact Or.inl ⟨h1, h2, h3⟩
      · rw [h'] at hc; cases hc
      · rw [h'] at hc; cases hc
    | exitRec _ _ _ hd X _ hr => exact absurd hr (kept X hd)
    | accept _ _ _ hd X _ hr => exact absurd hr (kept X hd)

/-- **C105** A run with at least one period that ends with status 0 had settings that can be followed: `min(dt)` is at most the output period and at
most `max(dt)`, and `max(du)` is not negative. (Positive `min(dt)` and period, `max(dt)` not negative: see the negations.) -/
theorem C105_success_partial (cfg : Cfg n ET) (t0 : ℝ) (hp : 0 < cfg.timeStep) (hm : 0 < cfg.DTMIN) (h0 : 0 ≤ cfg.DTMAX) (hg : 0 ≤ cfg.gamma0)
    (h : 1 ≤ stepCount cfg t0) (nodes : Fin n → Node) (pot : Fin n → ℝ × ℝ) (inp : ℕ → Input n) (k : ℕ)
    (hk : (run cfg t0 nodes pot inp k).ctl = .done 0) :
    cfg.DTMIN ≤ cfg.timeStep ∧ cfg.DTMIN ≤ cfg.DTMAX ∧ 0 ≤ cfg.DUMAX := by
  have h2k : 2 ≤ k := by
    by_contra hlt
    have : k = 0 ∨ k = 1 := by omega
    rcases this with rfl | rfl
    · have : (run cfg t0 nodes pot inp 0).ctl = .running := by
        change (if 0 ≤ stepCount cfg t0 then Ctl.running else Ctl.done 0) = _
        rw [if_pos (by omega)]
      rw [this] at hk; cases hk
    · rw [(first_facts h nodes pot inp).1] at hk; cases hk
  have notSmall : ¬ attDt cfg t0 (run cfg t0 nodes pot inp 1) < cfg.DTMIN := by
    intro hs
    obtain ⟨a, b⟩ := small_first hp h nodes pot inp hs
    cases hsig : (inp 1).sig with
    | false => rw [(a hsig k h2k).1] at hk; cases hk
    | true => rw [(b hsig k h2k).1] at hk; cases hk
  refine ⟨?_, ?_, ?_⟩
  · by_contra hb
    exact notSmall (small_period h hm.le (Or.inl (not_le.mp hb)) nodes pot inp)
  · by_contra hb
    exact notSmall (small_period h hm.le (Or.inr (sqrt_lt_min hm h0 (not_le.mp hb))) nodes pot inp)
  · by_contra hb
    obtain ⟨m, rfl⟩ : ∃ m, k = m + 1 := ⟨k - 1, by omega⟩
    rcases (C105_du hp hm hg (not_le.mp hb) h nodes pot inp m).2.2 with ⟨h1, -⟩ | h1 | h1 <;> rw [h1] at hk <;> cases hk

/-- the hypotheses are met: such a run, with two periods -/
example : 0 < exCfg.timeStep ∧ 0 < exCfg.DTMIN ∧ 0 ≤ exCfg.DTMAX ∧ 0 ≤ exCfg.gamma0 ∧ 1 ≤ stepCount exCfg 0 ∧
    ∃ k, (exRun (fun _ => exIn (some (0, 0))) k).ctl = .done 0 := by
  refine ⟨by norm_num [exCfg], by norm_num [exCfg], by norm_num [exCfg], by norm_num [exCfg], by rw [ex_stepCount]; norm_num, ?_⟩
  obtain ⟨k, hk⟩ := C03_completes exCfg exValid (by norm_num [exCfg]) (by norm_num [exCfg]) (by norm_num [exCfg])
    (fun nd => by simp [exCfg]) 0 (fun _ => exNode) exPot (fun _ => exIn (some (0, 0))) (fun _ => rfl)
    (fun k => no_abort_zero exCfg exValid _ rfl _ _)
  exact ⟨k, (hk k le_rfl).1⟩

/-- an output period of 10 with `min(dt)` 11; and `min(dt)` 9 with `max(dt)` 8 -/
example : EndsWith (run { exCfg with DTMIN := 11 } 0 (fun _ => exNode) exPot fun _ => exIn (some (0, 0))) 2 (.done 1) 1 ∧
    EndsWith (run { exCfg with DTMIN := 9, DTMAX := 8 } 0 (fun _ => exNode) exPot fun _ => exIn (some (0, 0))) 2 (.done 1) 1 := by
  have e1 : stepCount { exCfg with DTMIN := 11 } 0 = 2 := ex_stepCount
  have e2 : stepCount { exCfg with DTMIN := 9, DTMAX := 8 } 0 = 2 := ex_stepCount
  exact ⟨C105_period _ 0 (by norm_num [exCfg]) (by norm_num [exCfg]) (by rw [e1]; norm_num) _ _ _ fun _ => rfl,
    C105_order _ 0 (by norm_num [exCfg]) (by norm_num) (by norm_num) (by norm_num) (by rw [e2]; norm_num) _ _ _ fun _ => rfl⟩

/-- **C105** Negation, `min(dt)` equal to zero: every attempt has length zero, and whatever the solver does the run neither advances nor ends. -/
theorem C105_negation_zero (cfg : Cfg n ET) (t0 : ℝ) (hp : 0 < cfg.timeStep) (hm : cfg.DTMIN = 0) (h0 : 0 ≤ cfg.DTMAX) (hd : 0 ≤ cfg.DUMAX)
    (hg : 0 ≤ cfg.gamma0) (hadd : ∀ t, cfg.add t 0 = t) (hR : NoRecenter cfg) (h : 1 ≤ stepCount cfg t0) (nodes : Fin n → Node)
    (pot : Fin n → ℝ × ℝ) (inp : ℕ → Input n) (hs : NoSignal inp) (k : ℕ) :
    let s := run cfg t0 nodes pot inp (k + 1)
    s.ctl = .running ∧ s.t = t0 ∧ s.rows.length = 1 := by
  have key : ∀ k, let s := run cfg t0 nodes pot inp (k + 1)
      s.ctl = .running ∧ s.t = t0 ∧ s.rows.length = 1 ∧ s.stepNb = 1 ∧ s.stepper.softMax = 0 ∧ s.stepper.hardMin = 0 ∧ 0 ≤ s.stepper.hardMax := by
    intro k
    induction k with
    | zero =>
      obtain ⟨h1, h2, h3, h4, h5, h6, h7⟩ := first_facts h nodes pot inp
      refine ⟨h1, h2, h4, h3, ?_, ?_, ?_⟩
      · show (run cfg t0 nodes pot inp 1).stepper.softMax = 0
        rw [h5, hm, zero_mul, Real.sqrt_zero]
      · show (run cfg t0 nodes pot inp 1).stepper.hardMin = 0
        rw [h6, hm]
      · show 0 ≤ (run cfg t0 nodes pot inp 1).stepper.hardMax
        rw [h7]
        have : (0 : ℝ) < 1 + fltEpsilon := by unfold fltEpsilon; positivity
        positivity
    | succ k ih =>
      simp only at ih ⊢
      obtain ⟨i1, i2, i3, i4, i5, i6, i7⟩ := ih
      have e0 : run cfg t0 nodes pot inp (k + 1 + 1) = step cfg t0 (inp (k + 1)) (run cfg t0 nodes pot inp (k + 1)) := rfl
      set s := run cfg t0 nodes pot inp (k + 1) with hs'
      have hst : tTarget cfg t0 s.stepNb - s.t = cfg.timeStep := by
        rw [i2, i4]
        unfold tTarget
        push_cast
        ring
      have hatt : attDt cfg t0 s = 0 := by
        unfold attDt TimeStepper.step
        simp only
        rw [hst, i5, i6, min_eq_right hp.le, if_neg (by intro hh; linarith [hh.1])]
      have hsoft : (attStepper cfg t0 s).softMax = 0 := by
        unfold attStepper TimeStepper.next
        show max s.stepper.softMax (min (s.stepper.step (tTarget cfg t0 s.stepNb - s.t) * 1.1) s.stepper.hardMax) = 0
        have : s.stepper.step (tTarget cfg t0 s.stepNb - s.t) = 0 := hatt
        rw [this, i5, zero_mul, min_eq_left i7, max_self]
      have hhm : (attStepper cfg t0 s).hardMin = 0 := i6
      have hhx : 0 ≤ (attStepper cfg t0 s).hardMax := i7
      have hlim : ∀ m, 0 ≤ m → ((attStepper cfg t0 s).setSoftLimit m).softMax = 0 := by
        intro m hm0
        show min (attStepper cfg t0 s).softMax m = 0
        rw [hsoft, min_eq_left hm0]
      have hdu : ∀ X, (softLimitDu (attStepper cfg t0 s) cfg.DUMAX (vMax cfg.gamma0 cfg.magNode X)).softMax = 0 ∧
          (softLimitDu (attStepper cfg t0 s) cfg.DUMAX (vMax cfg.gamma0 cfg.magNode X)).hardMin = 0 ∧
          0 ≤ (softLimitDu (attStepper cfg t0 s) cfg.DUMAX (vMax cfg.gamma0 cfg.magNode X)).hardMax := by
        intro X
        unfold softLimitDu
        split_ifs with hv
        · exact ⟨hsoft, hhm, hhx⟩
        · refine ⟨hlim _ ?_, hhm, hhx⟩
          have := vMax_nonneg cfg.gamma0 hg cfg.magNode X
          positivity
      have hlt : s.t < tTarget cfg t0 s.stepNb := by linarith
      cases step_kind cfg t0 (inp (k + 1)) s with
      | halted hc => exact absurd i1 hc
      | output _ ht => exact absurd hlt ht
      | signal _ _ hi => rw [hs] at hi; cases hi
      | small _ _ _ hd' => rw [hatt, hm] at hd'; exact absurd hd' (lt_irrefl _)
      | fail _ _ _ _ _ e =>
        rw [e0, e]
        exact ⟨i1, i2, i3, i4, hlim _ (by rw [hatt]; norm_num), hhm, hhx⟩
      | reject _ _ _ _ X _ hr =>
        rw [hatt, zero_mul] at hr
        exact absurd hr (not_lt.mpr hd)
      | exitRec _ _ _ _ _ _ _ hrec => rw [hR] at hrec; cases hrec
      | accept _ _ _ _ X _ _ nd _ e =>
        rw [e0, e]
        refine ⟨i1, ?_, i3, i4, hdu X⟩
        show (if attDt cfg t0 s = tTarget cfg t0 s.stepNb - s.t then tTarget cfg t0 s.stepNb else cfg.add s.t (attDt cfg t0 s)) = t0
        rw [hst, hatt, if_neg (by linarith), hadd, i2]
  obtain ⟨a, b, c, -⟩ := key k
  exact ⟨a, b, c⟩

/-- the hypotheses are met -/
example : ∃ cfg : Cfg 1 ℝ, 0 < cfg.timeStep ∧ cfg.DTMIN = 0 ∧ 0 ≤ cfg.DTMAX ∧ 0 ≤ cfg.DUMAX ∧ 0 ≤ cfg.gamma0 ∧ (∀ t, cfg.add t 0 = t) ∧
    NoRecenter cfg ∧ 1 ≤ stepCount cfg 0 := by
  refine ⟨{ exCfg with DTMIN := 0 }, by norm_num [exCfg], rfl, by norm_num [exCfg], by norm_num [exCfg], by norm_num [exCfg],
    fun t => by simp [exCfg], fun _ => rfl, ?_⟩
  have : stepCount { exCfg with DTMIN := 0 } 0 = 2 := ex_stepCount
  rw [this]
  norm_num

/-- **C105** Negation, negative output period: no time step is ever made, every row of the table shows the initial time, and the run does not end with
an error status. -/
theorem C105_negation_period (cfg : Cfg n ET) (t0 : ℝ) (hp : cfg.timeStep < 0) (nodes : Fin n → Node) (pot : Fin n → ℝ × ℝ)
    (inp : ℕ → Input n) (k : ℕ) :
    let s := run cfg t0 nodes pot inp k
    s.nt = 0 ∧ (∀ r ∈ s.rows, r.t = t0) ∧ (s.ctl = .running ∨ s.ctl = .done 0) := by
  have key : ∀ k, let s := run cfg t0 nodes pot inp k
      s.t = t0 ∧ s.nt = 0 ∧ (∀ r ∈ s.rows, r.t = t0) ∧ (s.ctl = .running ∨ s.ctl = .done 0) := by
    intro k
    induction k with
    | zero =>
      refine ⟨rfl, rfl, fun r hr => ?_, ?_⟩
      · exact absurd hr (List.not_mem_nil)
      · show (if 0 ≤ stepCount cfg t0 then Ctl.running else Ctl.done 0) = _ ∨ (if 0 ≤ stepCount cfg t0 then Ctl.running else Ctl.done 0) = _
        split_ifs
        · exact Or.inl rfl
        · exact Or.inr rfl
    | succ k ih =>
      simp only at ih ⊢
      obtain ⟨i1, i2, i3, i4⟩ := ih
      have e0 : run cfg t0 nodes pot inp (k + 1) = step cfg t0 (inp k) (run cfg t0 nodes pot inp k) := rfl
      have hn : ¬ (run cfg t0 nodes pot inp k).t < tTarget cfg t0 (run cfg t0 nodes pot inp k).stepNb := by
        rw [i1]
        unfold tTarget
        have : (0 : ℝ) ≤ ((run cfg t0 nodes pot inp k).stepNb : ℝ) := Nat.cast_nonneg _
        nlinarith
      cases step_kind cfg t0 (inp k) (run cfg t0 nodes pot inp k) with
      | halted _ e => rw [e0, e]; exact ⟨i1, i2, i3, i4⟩
      | signal _ ht _ _ => exact absurd ht hn
      | small _ ht _ _ _ => exact absurd ht hn
      | fail _ ht _ _ _ _ => exact absurd ht hn
      | reject _ ht _ _ _ _ _ _ => exact absurd ht hn
      | exitRec _ ht _ _ _ _ _ _ _ => exact absurd ht hn
      | accept _ ht _ _ _ _ _ _ _ _ => exact absurd ht hn
      | output hc _ e =>
        rw [e0, e]
        refine ⟨by rw [forBody_t]; exact i1, by rw [forBody_nt]; exact i2, ?_, ?_⟩
        · rw [forBody_rows]
          intro r hr
          have hr' : r ∈ (run cfg t0 nodes pot inp k).rows ++ [_] := hr
          rcases List.mem_append.mp hr' with h1 | h1
          · exact i3 r h1
          · rw [List.mem_singleton.mp h1]
            exact i1
        · rcases forBody_or cfg t0 (run cfg t0 nodes pot inp k) with e2 | e2 <;> rw [e2]
          · exact Or.inl hc
          · exact Or.inr rfl
  obtain ⟨-, b, c, d⟩ := key k
  exact ⟨b, c, d⟩

/-- the hypothesis is met, by a run with three equal rows: period -10, final time -20 -/
example : ∃ cfg : Cfg 1 ℝ, cfg.timeStep < 0 ∧ stepCount cfg 0 = 2 ∧
    ((run cfg 0 (fun _ => exNode) exPot fun _ => exIn none) 3).rows.length = 3 := by
  let cfg : Cfg 1 ℝ := { exCfg with timeStep := -10, tf := -20 }
  have e : stepCount cfg 0 = 2 := by
    have : (cfg.tf - 0) / cfg.timeStep = 2 := by norm_num [cfg]
    unfold stepCount cRound
    rw [this, if_pos (by norm_num)]
    norm_num [Int.floor_eq_iff]
  refine ⟨cfg, by norm_num [cfg], e, ?_⟩
  have h0 : ∀ k : ℕ, k ≤ 2 → let s := run cfg 0 (fun _ => exNode) exPot (fun _ => exIn none) k
      s.ctl = .running ∧ s.t = 0 ∧ s.stepNb = k ∧ s.rows.length = k := by
    intro k hk
    induction k with
    | zero =>
      refine ⟨?_, rfl, rfl, rfl⟩
      change (if 0 ≤ stepCount cfg 0 then Ctl.running else Ctl.done 0) = _
      rw [e]; rfl
    | succ k ih =>
      obtain ⟨a, b, c, d⟩ := ih (by omega)
      have hn : ¬ (run cfg 0 (fun _ => exNode) exPot (fun _ => exIn none) k).t < tTarget cfg 0 (run cfg 0 (fun _ => exNode) exPot (fun _ => exIn none) k).stepNb := by
        rw [b, c]
        have : (0 : ℝ) ≤ (k : ℝ) := Nat.cast_nonneg _
        simp only [tTarget, cfg]
        nlinarith
      have e0 : run cfg 0 (fun _ => exNode) exPot (fun _ => exIn none) (k + 1) = forBody cfg 0 (run cfg 0 (fun _ => exNode) exPot (fun _ => exIn none) k) := by
        change step cfg 0 _ _ = _
        unfold step
        rw [a]
        simp only
        rw [if_neg hn]
      have e1 : forBody cfg 0 (run cfg 0 (fun _ => exNode) exPot (fun _ => exIn none) k) =
          { saver cfg (run cfg 0 (fun _ => exNode) exPot (fun _ => exIn none) k) with stepNb := (run cfg 0 (fun _ => exNode) exPot (fun _ => exIn none) k).stepNb + 1 } :=
        if_pos (by rw [e]; show (((run cfg 0 (fun _ => exNode) exPot (fun _ => exIn none) k).stepNb + 1 : ℕ) : ℤ) ≤ 2; rw [c]; omega)
      simp only
      rw [e0, e1]
      refine ⟨a, b, by simp only [c], ?_⟩
      simp [saver, d]
  obtain ⟨a, b, c, d⟩ := h0 2 le_rfl
  have e0 : run cfg 0 (fun _ => exNode) exPot (fun _ => exIn none) 3 = forBody cfg 0 (run cfg 0 (fun _ => exNode) exPot (fun _ => exIn none) 2) := by
    change step cfg 0 _ _ = _
    unfold step
    rw [a]
    simp only
    rw [if_neg]
    rw [b, c]
    norm_num [tTarget, cfg]
  rw [e0, forBody_rows]
  simp [saver, d]

end Verif.TimeLoop

namespace Verif

/-- **C105** Negation, `min(dt)` and `max(dt)` of opposite signs: the soft limit of the step is NaN from the start and for ever, `std::min` then returns
the whole distance to the next output, and after any number of failed solves the attempt is not shorter: the run is never aborted. -/
theorem StepperF.C105_negation_sign (a b x : ℝ) (h : a * b < 0) (i : ℕ) :
    ((StepperF.start (.fin a) (.fin b)).retry (.fin x) i).softMax = .nan ∧
    ((StepperF.start (.fin a) (.fin b)).retry (.fin x) i).step (.fin x) = .fin x := by
  have hs : ∀ s : StepperF, s.softMax = .nan → s.step (.fin x) = .fin x := by
    intro s e
    unfold StepperF.step
    have : (Fl.fin x).stdMin s.softMax = .fin x := by
      rw [e]
      unfold Fl.stdMin
      rw [if_neg (by simp [Fl.gt])]
    dsimp only
    rw [this, if_neg]
    rintro ⟨-, h2⟩
    simp [Fl.gt, Fl.le] at h2
  have h1 : ((StepperF.start (.fin a) (.fin b)).retry (.fin x) i).softMax = .nan := by
    induction i with
    | zero =>
      show ((Fl.fin a) * (Fl.fin b)).sqrt = .nan
      show (Fl.fin (a * b)).sqrt = .nan
      simp [Fl.sqrt, h]
    | succ i ih =>
      show Fl.stdMin (Fl.stdMax ((StepperF.start (.fin a) (.fin b)).retry (.fin x) i).softMax _) _ = .nan
      rw [ih]
      have e1 : ∀ y, Fl.stdMax .nan y = .nan := by
        intro y
        unfold Fl.stdMax
        rw [if_neg]
        cases y <;> simp [Fl.gt]
      have e2 : ∀ y, Fl.stdMin .nan y = .nan := by
        intro y
        unfold Fl.stdMin
        rw [if_neg (by simp [Fl.gt])]
      rw [e1, e2]
  exact ⟨h1, hs _ h1⟩

/-- the hypothesis is met: `min(dt)` 1, `max(dt)` -1 -/
example : ((StepperF.start (.fin 1) (.fin (-1))).retry (.fin 10) 1000).step (.fin 10) = .fin 10 :=
  (StepperF.C105_negation_sign 1 (-1) 10 (by norm_num) 1000).2

/-- **C105** … and the coefficient of the equation of motion is NaN, so that the solves do fail: for a negative `max(dt)`, and for a step of length zero. -/
theorem C105_prefactor (T dt : ℝ) (h : (T < 0 ∧ 0 < dt) ∨ (0 < T ∧ dt = 0)) : prefactorF (.fin T) (.fin dt) = .nan := by
  have hT : (100 : ℝ) * T ≠ 0 := by rcases h with h | h <;> nlinarith [h.1]
  have e : (Fl.fin dt) / (Fl.fin 100 * Fl.fin T) = .fin (dt / (100 * T)) := by
    show Fl.div (.fin dt) (.fin (100 * T)) = _
    simp [Fl.div, hT]
  unfold prefactorF
  simp only [e]
  rcases h with ⟨h1, h2⟩ | ⟨h1, rfl⟩
  · have : dt / (100 * T) < 0 := div_neg_of_pos_of_neg h2 (by linarith)
    simp only [Fl.log, if_pos this]
    show Fl.add (.fin 1) (Fl.mul (.fin _) .nan) = .nan
    rfl
  · rw [zero_div]
    have e2 : Fl.log (.fin 0) = .inf true := by simp [Fl.log]
    rw [e2]
    show Fl.add (.fin 1) (Fl.mul (.fin 0) (.inf false)) = .nan
    simp [Fl.mul, Fl.add]

/-- for other settings the coefficient is a number -/
example : prefactorF (.fin 1) (.fin 100) = .fin 1 := by
  unfold prefactorF
  have e : (Fl.fin 100) / (Fl.fin 100 * Fl.fin 1) = .fin 1 := by
    show Fl.div (.fin 100) (.fin (100 * 1)) = _
    simp [Fl.div]
  have e2 : Fl.log (.fin 1) = .fin 0 := by
    have : ¬ (1 : ℝ) < 0 := by norm_num
    simp [Fl.log, this]
  simp only [e, e2]
  show Fl.fin (1 + 1 * |0|) = _
  simp

/-- for real settings the stepper is the one of `Model/TimeStepper` -/
theorem StepperF.step_real (s : TimeStepper) (x : ℝ) :
    (StepperF.mk (.fin s.hardMin) (.fin s.hardMax) (.fin s.softMax)).step (.fin x) = .fin (s.step x) ∧
    (StepperF.mk (.fin s.hardMin) (.fin s.hardMax) (.fin s.softMax)).next (.fin x) =
      ⟨.fin (s.next x).hardMin, .fin (s.next x).hardMax, .fin (s.next x).softMax⟩ := by
  have hmin : ∀ a b : ℝ, Fl.stdMin (.fin a) (.fin b) = .fin (min a b) := by
    intro a b
    unfold Fl.stdMin
    by_cases h : b < a
    · rw [if_pos (by simpa [Fl.gt, Fl.le] using h), min_eq_right h.le]
    · rw [if_neg (by simpa [Fl.gt, Fl.le] using h), min_eq_left (not_lt.mp h)]
  have hmax : ∀ a b : ℝ, Fl.stdMax (.fin a) (.fin b) = .fin (max a b) := by
    intro a b
    unfold Fl.stdMax
    by_cases h : a < b
    · rw [if_pos (by simpa [Fl.gt, Fl.le] using h), max_eq_right h.le]
    · rw [if_neg (by simpa [Fl.gt, Fl.le] using h), max_eq_left (not_lt.mp h)]
  have h1 : (StepperF.mk (.fin s.hardMin) (.fin s.hardMax) (.fin s.softMax)).step (.fin x) = .fin (s.step x) := by
    unfold StepperF.step TimeStepper.step
    dsimp only
    rw [hmin]
    have e : (Fl.fin x) - .fin 2 * .fin s.hardMin = .fin (x - 2 * s.hardMin) := by
      show Fl.fin (x + -(2 * s.hardMin)) = _
      rw [sub_eq_add_neg]
    rw [e]
    by_cases h : x - 2 * s.hardMin < min x s.softMax ∧ min x s.softMax < x
    · rw [if_pos h, if_pos (by simpa [Fl.gt, Fl.le] using h)]
    · rw [if_neg h, if_neg (by simpa [Fl.gt, Fl.le] using h)]
  refine ⟨h1, ?_⟩
  unfold StepperF.next
  rw [h1]
  have e : (Fl.fin (s.step x)) * .fin 1.1 = .fin (s.step x * 1.1) := rfl
  simp only [e, hmin, hmax]
  rfl

end Verif
