import Verif.Proofs.TimeLoopNodes

/-! Lemmas for the abort criterion and for the state saved on a signal. -/

namespace Verif.TimeLoop

variable {n : ℕ} {ET : Type}

/-- `AbortReason` in terms of the model's `vMax` -/
def AbortReason' (cfg : Cfg n ET) (inp : Input n) (s s' : St n ET) : Prop :=
  (Retried s s' ∧ inp.sol = none ∧ s'.dt < 6 * cfg.DTMIN) ∨
  (∃ X, inp.sol = some X ∧ 0 < vMax cfg.gamma0 cfg.magNode X ∧
    0.95 * cfg.DUMAX < 3 * cfg.DTMIN * vMax cfg.gamma0 cfg.magNode X)

theorem softLimitDu_ge {s : TimeStepper} {D v B : ℝ} (hv : 0 ≤ v) (h : B ≤ s.softMax)
    (h' : ¬ (0 < v ∧ 0.95 * D < B * v)) : B ≤ (softLimitDu s D v).softMax := by
  unfold softLimitDu
  split_ifs with hc
  · exact h
  · have hpos : 0 < v := lt_of_le_of_ne hv (Ne.symm hc)
    refine le_min h ?_
    have h1 : B * v ≤ 0.95 * D := by
      by_contra hh; push Not at hh; exact h' ⟨hpos, hh⟩
    have h2 : B ≤ 0.95 * D / v := (le_div_iff₀ hpos).mpr h1
    calc B ≤ 0.95 * D / v := h2
      _ = D / v * 0.95 := by ring

theorem soft_step {cfg : Cfg n ET} (hg : 0 ≤ cfg.gamma0) {t0 : ℝ} {inp : Input n}
    {s : St n ET} (h : s.ctl ≠ .running ∨ 3 * cfg.DTMIN ≤ s.stepper.softMax)
    (hn : ¬ AbortReason' cfg inp s (step cfg t0 inp s)) :
    (step cfg t0 inp s).ctl ≠ .running ∨ 3 * cfg.DTMIN ≤ (step cfg t0 inp s).stepper.softMax := by
  by_cases hr : s.ctl = .running
  · have h3 : 3 * cfg.DTMIN ≤ s.stepper.softMax := by
      rcases h with h | h
      · exact absurd hr h
      · exact h
    have h4 : 3 * cfg.DTMIN ≤ (attStepper cfg t0 s).softMax := h3.trans (TimeStepper.next_ge _ _)
    cases step_kind cfg t0 inp s with
    | halted h' e => exact absurd hr h'
    | output _ _ e => right; rw [e, forBody_stepper]; exact h3
    | signal _ _ _ e => left; rw [e]; simp [onSignal]
    | small _ _ _ _ e => left; rw [e]; simp
    | fail _ _ _ _ hs e =>
      right
      have h6 : 6 * cfg.DTMIN ≤ attDt cfg t0 s := by
        by_contra hc
        push Not at hc
        apply hn
        left
        rw [e]
        exact ⟨rfl, hs, hc⟩
      rw [e]
      exact le_min h4 (by linarith)
    | reject _ _ _ _ X hs _ e =>
      right
      rw [e]
      refine softLimitDu_ge (vMax_nonneg _ hg _ _) h4 ?_
      rintro ⟨h5, h6⟩
      exact hn (Or.inr ⟨X, hs, h5, h6⟩)
    | exitRec _ _ _ _ X hs _ _ e => left; rw [e]; simp
    | accept _ _ _ _ X hs _ nd _ e =>
      right
      rw [e]
      refine softLimitDu_ge (vMax_nonneg _ hg _ _) h4 ?_
      rintro ⟨h5, h6⟩
      exact hn (Or.inr ⟨X, hs, h5, h6⟩)
  · left; rw [halted_stays _ hr]; exact hr

theorem soft_run {cfg : Cfg n ET} (hv : Valid cfg) (hg : 0 ≤ cfg.gamma0) (h9 : 9 * cfg.DTMIN ≤ cfg.DTMAX)
    (t0 : ℝ) (nodes : Fin n → Node) (pot : Fin n → ℝ × ℝ) (inp : ℕ → Input n) (k : ℕ)
    (hn : ∀ j < k, ¬ AbortReason' cfg (inp j) (run cfg t0 nodes pot inp j) (run cfg t0 nodes pot inp (j + 1))) :
    (run cfg t0 nodes pot inp k).ctl ≠ .running ∨
      3 * cfg.DTMIN ≤ (run cfg t0 nodes pot inp k).stepper.softMax := by
  induction k with
  | zero =>
    right
    change 3 * cfg.DTMIN ≤ Real.sqrt (cfg.DTMIN * cfg.DTMAX)
    apply Real.le_sqrt_of_sq_le
    have := hv.dtmin
    nlinarith
  | succ k ih =>
    exact soft_step hg (ih fun j hj => hn j (by omega)) (hn k (by omega))

/-- no abort without a reason -/
theorem abort_reason {cfg : Cfg n ET} (hv : Valid cfg) (hg : 0 ≤ cfg.gamma0) (h9 : 9 * cfg.DTMIN ≤ cfg.DTMAX)
    (hts : cfg.DTMIN ≤ cfg.timeStep)
    (t0 : ℝ) (nodes : Fin n → Node) (pot : Fin n → ℝ × ℝ) (inp : ℕ → Input n) (k : ℕ)
    (h : (run cfg t0 nodes pot inp k).ctl = .done 1) :
    ∃ j < k, AbortReason' cfg (inp j) (run cfg t0 nodes pot inp j) (run cfg t0 nodes pot inp (j + 1)) := by
  induction k with
  | zero =>
    exfalso
    change (if 0 ≤ stepCount cfg t0 then Ctl.running else Ctl.done 0) = .done 1 at h
    split_ifs at h; simp at h
  | succ k ih =>
    by_contra hcon
    push Not at hcon
    have hn : ∀ j < k, ¬ AbortReason' cfg (inp j) (run cfg t0 nodes pot inp j) (run cfg t0 nodes pot inp (j + 1)) :=
      fun j hj => hcon j (by omega)
    have hi := inv_run cfg hv t0 nodes pot inp k
    have hsoft := soft_run hv hg h9 t0 nodes pot inp k hn
    have hk : (run cfg t0 nodes pot inp k).ctl ≠ .done 1 := by
      intro hd
      obtain ⟨j, hj, hj'⟩ := ih hd
      exact hn j hj hj'
    change (step cfg t0 (inp k) (run cfg t0 nodes pot inp k)).ctl = .done 1 at h
    cases step_kind cfg t0 (inp k) (run cfg t0 nodes pot inp k) with
    | halted h' e => rw [e] at h; exact hk h
    | output h' _ e =>
      rw [e] at h
      rcases forBody_or cfg t0 (run cfg t0 nodes pot inp k) with e' | e' <;> rw [e'] at h
      · exact hk h
      · simp at h
    | signal h' _ _ e => rw [e] at h; simp [onSignal] at h
    | small h' ht _ hd e =>
      have h3 : 3 * cfg.DTMIN ≤ (run cfg t0 nodes pot inp k).stepper.softMax := by
        rcases hsoft with hs | hs
        · exact absurd h' hs
        · exact hs
      have hst := hi.strideLo h' hts ht
      have := TimeStepper.step_lower (run cfg t0 nodes pot inp k).stepper
        (tTarget cfg t0 (run cfg t0 nodes pot inp k).stepNb - (run cfg t0 nodes pot inp k).t)
        (by rw [hi.hmin]; exact hst) (by rw [hi.hmin]; exact hv.dtmin.le) (by rw [hi.hmin]; exact h3)
      rw [hi.hmin] at this
      change cfg.DTMIN ≤ attDt cfg t0 _ at this
      linarith
    | fail h' _ _ _ _ e => rw [e] at h; exact hk h
    | reject h' _ _ _ X _ _ e => rw [e] at h; exact hk h
    | exitRec h' _ _ _ X _ _ _ e => rw [e] at h; simp at h
    | accept h' _ _ _ X _ _ nd _ e => rw [e] at h; exact hk h

/-! ### state saved on a signal -/

theorem clean_run {cfg : Cfg n ET} (hr : NoRecenter cfg) (t0 : ℝ) (nodes : Fin n → Node)
    (pot : Fin n → ℝ × ℝ) (inp : ℕ → Input n) (k : ℕ)
    (h : ∀ j < k, DuRejected (inp j) (run cfg t0 nodes pot inp j) (run cfg t0 nodes pot inp (j + 1)) →
      ∃ j', j < j' ∧ j' < k ∧
        Accepted (run cfg t0 nodes pot inp j') (run cfg t0 nodes pot inp (j' + 1))) (i : Fin n) :
    ((run cfg t0 nodes pot inp k).nodes i).next.u = ((run cfg t0 nodes pot inp k).nodes i).cur.u := by
  induction k with
  | zero =>
    obtain ⟨-, -, -, h4, -⟩ := computeAll_next_u cfg.magNode pot nodes i
    change (computeAllNodes _ _ _ i).next.u = (computeAllNodes _ _ _ i).cur.u
    rw [h4]
  | succ k ih =>
    set s := run cfg t0 nodes pot inp k with hs
    have hstep : run cfg t0 nodes pot inp (k + 1) = step cfg t0 (inp k) s := rfl
    by_cases hacc : Accepted s (step cfg t0 (inp k) s)
    · obtain ⟨-, -, -, -, X, -, -, hX⟩ := accepted_kind hacc
      obtain ⟨-, -, -, h4, -⟩ := computeAll_next_u cfg.magNode (inp k).pot
        (solvedNodes cfg (inp k) X (attDt cfg t0 s) s) i
      have key : ((accepted cfg t0 (inp k) s X).nodes i).next.u =
          ((accepted cfg t0 (inp k) s X).nodes i).cur.u := by
        change (computeAllNodes _ _ _ i).next.u = (computeAllNodes _ _ _ i).cur.u
        rw [h4]
      rcases hX with ⟨-, e⟩ | ⟨nd, hnd, e⟩
      · rw [hstep, e]; exact key
      · rw [hr] at hnd
        cases hnd
        rw [hstep, e]; exact key
    · have ih' := ih (fun j hj hdu => by
        obtain ⟨j', h1, h2, h3⟩ := h j (by omega) hdu
        refine ⟨j', h1, ?_, h3⟩
        rcases Nat.lt_succ_iff_lt_or_eq.mp h2 with h2 | h2
        · exact h2
        · subst h2; exact absurd h3 hacc)
      rw [hstep]
      cases hk : step_kind cfg t0 (inp k) s with
      | halted _ e => rw [e]; exact ih'
      | output _ _ e => rw [e, forBody_nodes]; exact ih'
      | signal _ _ _ e => rw [e]; exact ih'
      | small _ _ _ _ e => rw [e]; exact ih'
      | fail _ _ _ _ _ e => rw [e]; exact ih'
      | reject _ _ _ _ X hX _ e =>
        exfalso
        obtain ⟨j', h1, h2, -⟩ := h k (by omega) ⟨by rw [hstep, ← hs, e]; rfl, by rw [hX]; simp⟩
        omega
      | exitRec _ _ _ _ X _ _ _ e => exfalso; apply hacc; rw [e]; rfl
      | accept _ _ _ _ X _ _ nd hrr e => exfalso; apply hacc; rw [e]; rfl

/-! ### the maximal velocity is attained -/

theorem v2max_attained (mag : Fin n → Bool) (X : Fin n → ℝ × ℝ) :
    v2max mag X = 0 ∨ ∃ i, mag i = true ∧ v2max mag X = (X i).1 * (X i).1 + (X i).2 * (X i).2 := by
  unfold v2max
  have : ∀ (l : List (Fin n)) (m : ℝ),
      (m = 0 ∨ ∃ i, mag i = true ∧ m = (X i).1 * (X i).1 + (X i).2 * (X i).2) →
      (l.foldl (fun m i => if mag i then
        (let v2 := (X i).1 * (X i).1 + (X i).2 * (X i).2
         if m < v2 then v2 else m) else m) m = 0 ∨ ∃ i, mag i = true ∧ l.foldl
        (fun m i => if mag i then
        (let v2 := (X i).1 * (X i).1 + (X i).2 * (X i).2
         if m < v2 then v2 else m) else m) m = (X i).1 * (X i).1 + (X i).2 * (X i).2) := by
    intro l
    induction l with
    | nil => intro m h; simpa using h
    | cons a l ih =>
      intro m h
      rw [List.foldl_cons]
      apply ih
      simp only
      split_ifs with h1 h2
      · exact Or.inr ⟨a, h1, rfl⟩
      · exact h
      · exact h
  exact this _ _ (Or.inl rfl)

theorem abortReason_of {cfg : Cfg n ET} {inp : Input n} {s s' : St n ET}
    (h : AbortReason' cfg inp s s') : AbortReason cfg inp s s' := by
  rcases h with h | ⟨X, h1, h2, h3⟩
  · exact Or.inl h
  · right
    rcases v2max_attained cfg.magNode X with h0 | ⟨i, hi, he⟩
    · unfold vMax at h2; rw [h0] at h2; simp at h2
    · refine ⟨X, h1, i, hi, ?_⟩
      unfold vMax at h3
      rw [he] at h3
      convert h3 using 4
      ring

end Verif.TimeLoop
