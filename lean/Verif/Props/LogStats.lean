import Mathlib.Tactic.FieldSimp
import Mathlib.Tactic.Linarith
import Mathlib.Algebra.BigOperators.Ring.List
import Verif.Model.LogStats
import Verif.Proofs.Fl

/-!
# C53: statistics on a logarithmic scale
-/

namespace Verif.LogStats

/-- mean of the logarithms -/
noncomputable def logMean (l : List ℝ) : ℝ := (l.map Real.log).sum / l.length

/-- sum of the squared deviations of the logarithms from their mean -/
noncomputable def logDev (l : List ℝ) : ℝ := (l.map fun x => (Real.log x - logMean l) ^ 2).sum

theorem sum_sq_dev (l : List ℝ) (c : ℝ) :
    (l.map fun x => (Real.log x - c) ^ 2).sum =
      (l.map fun x => Real.log x ^ 2).sum - 2 * c * (l.map Real.log).sum + l.length * c ^ 2 := by
  induction l with
  | nil => simp
  | cons a l ih =>
    simp only [List.map_cons, List.sum_cons, ih, List.length_cons, Nat.cast_add, Nat.cast_one]
    ring

/-- what is held after some positive samples -/
theorem state (l : List ℝ) (hl : ∀ x ∈ l, 0 < x) :
    (Stats.addAll (l.map .fin)).n = l.length ∧ (Stats.addAll (l.map .fin)).m = .fin (logMean l) ∧
      (Stats.addAll (l.map .fin)).s = .fin (logDev l) := by
  induction l using List.reverseRecOn with
  | nil =>
    refine ⟨rfl, ?_, ?_⟩
    · show Fl.fin 0 = _
      simp [logMean]
    · show Fl.fin 0 = _
      simp [logDev]
  | append_singleton l a ih =>
    obtain ⟨h1, h2, h3⟩ := ih fun x hx => hl x (List.mem_append_left _ hx)
    have ha : 0 < a := hl a (by simp)
    have e : Stats.addAll ((l ++ [a]).map .fin) = (Stats.addAll (l.map .fin)).add (.fin a) := by
      unfold Stats.addAll
      rw [List.map_append, List.foldl_append]
      rfl
    have hlog : log (.fin a) = .fin (Real.log a) := by
      show (if a < 0 then Fl.nan else if a = 0 then Fl.inf true else Fl.fin (Real.log a)) = _
      rw [if_neg (by linarith), if_neg ha.ne']
    have hn : ((l.length : ℝ) + 1) ≠ 0 := by positivity
    have hn' : (((l.length + 1 : ℕ) : ℝ)) ≠ 0 := by push_cast; exact hn
    have hm : logMean (l ++ [a]) = logMean l + (Real.log a - logMean l) / ((l.length + 1 : ℕ) : ℝ) := by
      unfold logMean
      rw [List.map_append, List.sum_append, List.length_append]
      simp only [List.map_cons, List.map_nil, List.sum_cons, List.sum_nil, List.length_cons, List.length_nil, zero_add,
        add_zero]
      push_cast
      rcases Nat.eq_zero_or_pos l.length with h0 | h0
      · have : l = [] := List.length_eq_zero_iff.mp h0
        subst this
        simp
      · have : (l.length : ℝ) ≠ 0 := by positivity
        field_simp
        ring
    have hs : logDev (l ++ [a]) = logDev l + (Real.log a - logMean l) * (Real.log a - logMean (l ++ [a])) := by
      have hsum : (l.map Real.log).sum = l.length * logMean l := by
        unfold logMean
        rcases Nat.eq_zero_or_pos l.length with h0 | h0
        · have : l = [] := List.length_eq_zero_iff.mp h0
          subst this
          simp
        · have : (l.length : ℝ) ≠ 0 := by positivity
          field_simp
      unfold logDev
      rw [List.map_append, List.sum_append, sum_sq_dev l, sum_sq_dev l, hsum]
      simp only [List.map_cons, List.map_nil, List.sum_cons, List.sum_nil, add_zero]
      rw [hm]
      push_cast
      field_simp
      ring
    rw [e]
    unfold Stats.add
    dsimp only
    rw [h1, h2, h3, hlog, Fl.fin_sub, Fl.fin_div hn', Fl.fin_add, ← hm, Fl.fin_sub, Fl.fin_mul, Fl.fin_add, ← hs]
    refine ⟨by simp, rfl, rfl⟩

theorem log_prod (l : List ℝ) (hl : ∀ x ∈ l, 0 < x) : 0 < l.prod ∧ Real.log l.prod = (l.map Real.log).sum := by
  induction l with
  | nil => simp
  | cons a l ih =>
    obtain ⟨h1, h2⟩ := ih fun x hx => hl x (List.mem_cons_of_mem _ hx)
    have ha := hl a List.mem_cons_self
    refine ⟨by rw [List.prod_cons]; positivity, ?_⟩
    rw [List.prod_cons, Real.log_mul ha.ne' h1.ne', h2, List.map_cons, List.sum_cons]

/-- **C53** After any non-empty sequence of positive samples the reported count is their number, the reported mean their
geometric mean and the reported standard deviation that of their logarithms (root of the mean squared deviation from
the mean). -/
theorem C53_statistics (l : List ℝ) (hl : ∀ x ∈ l, 0 < x) (hne : l ≠ []) :
    (Stats.addAll (l.map .fin)).count = l.length ∧
    (Stats.addAll (l.map .fin)).mean = .fin (l.prod ^ (1 / (l.length : ℝ))) ∧
    (Stats.addAll (l.map .fin)).stddev =
      .fin (Real.sqrt ((l.map fun x => (Real.log x - (l.map Real.log).sum / l.length) ^ 2).sum / l.length)) := by
  obtain ⟨h1, h2, h3⟩ := state l hl
  obtain ⟨hp, hlog⟩ := log_prod l hl
  have hpos : 0 < (l.length : ℝ) := by
    have := List.length_pos_iff.mpr hne
    exact_mod_cast this
  refine ⟨h1, ?_, ?_⟩
  · unfold Stats.mean
    rw [h2]
    show Fl.fin _ = _
    rw [Real.rpow_def_of_pos hp, hlog]
    unfold logMean
    congr 2
    ring
  · unfold Stats.stddev
    rw [h3, h1, Fl.fin_div hpos.ne', Fl.sqrt_fin]
    · rfl
    · refine div_nonneg ?_ hpos.le
      unfold logDev
      apply List.sum_nonneg
      intro y hy
      obtain ⟨x, _, rfl⟩ := List.mem_map.mp hy
      positivity

/-- the standard deviation vanishes exactly when all samples are equal: it is a measure of the width -/
theorem C53_zero_width (l : List ℝ) (hl : ∀ x ∈ l, 0 < x) (hne : l ≠ []) :
    (Stats.addAll (l.map .fin)).stddev = .fin 0 ↔ ∀ x ∈ l, ∀ y ∈ l, x = y := by
  have hpos : 0 < (l.length : ℝ) := by
    have := List.length_pos_iff.mpr hne
    exact_mod_cast this
  rw [(C53_statistics l hl hne).2.2]
  have hnn : ∀ y ∈ (l.map fun x => (Real.log x - (l.map Real.log).sum / l.length) ^ 2), 0 ≤ y := by
    intro y hy
    obtain ⟨x, _, rfl⟩ := List.mem_map.mp hy
    positivity
  constructor
  · intro h x hx y hy
    injection h with h
    rw [Real.sqrt_eq_zero (div_nonneg (List.sum_nonneg hnn) hpos.le), div_eq_zero_iff] at h
    have h := h.resolve_right hpos.ne'
    have key : ∀ (l' : List ℝ), (∀ y ∈ l', 0 ≤ y) → l'.sum = 0 → ∀ y ∈ l', y = 0 := by
      intro l'
      induction l' with
      | nil => intro _ _ y hy; cases hy
      | cons a l' ih =>
        intro h0 hs y hy
        have ha := h0 a List.mem_cons_self
        have hr := List.sum_nonneg fun y hy => h0 y (List.mem_cons_of_mem a hy)
        rw [List.sum_cons] at hs
        rcases List.mem_cons.mp hy with rfl | hy
        · linarith
        · exact ih (fun y hy => h0 y (List.mem_cons_of_mem a hy)) (by linarith) y hy
    have hv : ∀ x ∈ l, Real.log x = (l.map Real.log).sum / l.length := by
      intro x hx
      have := key _ hnn h _ (List.mem_map.mpr ⟨x, hx, rfl⟩)
      have := pow_eq_zero_iff (by norm_num) |>.mp this
      linarith
    exact Real.log_injOn_pos (hl x hx) (hl y hy) ((hv x hx).trans (hv y hy).symm)
  · intro h
    obtain ⟨a, l', rfl⟩ := List.exists_cons_of_ne_nil hne
    have hall : ∀ x ∈ a :: l', x = a := fun x hx => h x hx a List.mem_cons_self
    have hrep : a :: l' = List.replicate (a :: l').length a := List.eq_replicate_of_mem hall
    have hsum : ((a :: l').map Real.log).sum / ((a :: l').length : ℝ) = Real.log a := by
      have : ((a :: l').map Real.log).sum = (a :: l').length * Real.log a := by
        rw [hrep, List.map_replicate, List.sum_replicate, nsmul_eq_mul, List.length_replicate]
      rw [this]
      field_simp
    have hz : ((a :: l').map fun x => (Real.log x - ((a :: l').map Real.log).sum / (a :: l').length) ^ 2).sum = 0 := by
      apply List.sum_eq_zero
      intro y hy
      obtain ⟨x, hx, rfl⟩ := List.mem_map.mp hy
      rw [hsum, hall x hx, sub_self]
      norm_num
    rw [hz, zero_div, Real.sqrt_zero]

/-- A sample equal to zero (the step of a magnetization that does not move) spoils the statistics for ever: all later means
and deviations are not numbers, whereas the geometric mean of such samples is 0. -/
theorem C53_negation_zero (l : List Fl) (x : ℝ) (hx : 0 < x) (l' : List ℝ) (hl : ∀ x ∈ l', 0 < x) :
    (Stats.addAll (l'.map .fin ++ .fin 0 :: .fin x :: l)).mean = .nan ∧
    (Stats.addAll (l'.map .fin ++ .fin 0 :: .fin x :: l)).stddev = .nan := by
  have key : ∀ (l : List Fl) (st : Stats), st.m = .nan → st.s = .nan → (l.foldl Stats.add st).m = .nan ∧
      (l.foldl Stats.add st).s = .nan := by
    intro l
    induction l with
    | nil => intro st h1 h2; exact ⟨h1, h2⟩
    | cons y l ih =>
      intro st h1 h2
      rw [List.foldl_cons]
      apply ih
      · show st.m + _ = _
        rw [h1, Fl.nan_add]
      · show st.s + _ = _
        rw [h2, Fl.nan_add]
  obtain ⟨-, h2, h3⟩ := state l' hl
  have e : Stats.addAll (l'.map .fin ++ .fin 0 :: .fin x :: l) =
      l.foldl Stats.add (((Stats.addAll (l'.map .fin)).add (.fin 0)).add (.fin x)) := by
    unfold Stats.addAll
    rw [List.foldl_append]
    rfl
  have hlog0 : log (.fin 0) = .inf true := by
    show (if (0 : ℝ) < 0 then Fl.nan else if (0 : ℝ) = 0 then Fl.inf true else _) = _
    rw [if_neg (lt_irrefl _), if_pos rfl]
  have hlog : log (.fin x) = .fin (Real.log x) := by
    show (if x < 0 then Fl.nan else if x = 0 then Fl.inf true else Fl.fin (Real.log x)) = _
    rw [if_neg (by linarith), if_neg hx.ne']
  have m1 : ((Stats.addAll (l'.map .fin)).add (.fin 0)).m = .inf true := by
    show (Stats.addAll (l'.map .fin)).m + (log (.fin 0) - (Stats.addAll (l'.map .fin)).m) / .fin _ = _
    rw [h2, hlog0]
    show Fl.fin (logMean l') + (Fl.inf (true != decide (_ < 0))) = _
    have : ¬ (((Stats.addAll (l'.map .fin)).n + 1 : ℕ) : ℝ) < 0 := by
      push Not
      positivity
    rw [decide_eq_false this]
    rfl
  have s1 : ((Stats.addAll (l'.map .fin)).add (.fin 0)).s = .nan := by
    show (Stats.addAll (l'.map .fin)).s + (_ * (log (.fin 0) - ((Stats.addAll (l'.map .fin)).add (.fin 0)).m)) = _
    rw [m1, hlog0]
    have : (Fl.inf true - Fl.inf true : Fl) = .nan := rfl
    rw [this, Fl.mul_nan, Fl.add_nan]
  have m2 : (((Stats.addAll (l'.map .fin)).add (.fin 0)).add (.fin x)).m = .nan := by
    show ((Stats.addAll (l'.map .fin)).add (.fin 0)).m + (log (.fin x) - ((Stats.addAll (l'.map .fin)).add (.fin 0)).m) / .fin _ = _
    rw [m1, hlog]
    show Fl.inf true + (Fl.inf (false != decide (_ < 0))) = _
    have : ¬ ((((Stats.addAll (l'.map .fin)).add (.fin 0)).n + 1 : ℕ) : ℝ) < 0 := by
      push Not
      positivity
    rw [decide_eq_false this]
    rfl
  obtain ⟨k1, k2⟩ := key l _ m2 (by
    show ((Stats.addAll (l'.map .fin)).add (.fin 0)).s + _ = _
    rw [s1, Fl.nan_add])
  rw [e]
  refine ⟨?_, ?_⟩
  · unfold Stats.mean
    rw [k1]; rfl
  · unfold Stats.stddev
    rw [k2, Fl.nan_div]; rfl

/-- samples meeting the hypotheses -/
example : (∀ x ∈ [1, 100, (1 / 1000 : ℝ)], 0 < x) ∧ [1, 100, (1 / 1000 : ℝ)] ≠ [] := by
  refine ⟨?_, by simp⟩
  intro x hx
  simp at hx
  rcases hx with rfl | rfl | rfl <;> norm_num

end Verif.LogStats
