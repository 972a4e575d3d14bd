import Mathlib.Tactic.Ring
import Verif.Proofs.Fl
import Verif.Spec.Krylov

namespace Verif.Krylov

open Verif

variable {n : ℕ}

/-! ## sums -/

theorem foldl_isFin {β : Type} (f : β → Fl) (l : List β) (a : Fl) :
    (l.foldl (fun acc e => acc + f e) a).IsFin ↔ a.IsFin ∧ ∀ e ∈ l, (f e).IsFin := by
  induction l generalizing a with
  | nil => simp
  | cons e l ih => simp [ih, Fl.isFin_add, and_assoc]

theorem foldl_fin {β : Type} (f : β → Fl) (g : β → ℝ) (l : List β) (h : ∀ e ∈ l, f e = .fin (g e)) (c : ℝ) :
    l.foldl (fun acc e => acc + f e) (.fin c) = .fin (c + (l.map g).sum) := by
  induction l generalizing c with
  | nil => simp
  | cons e l ih =>
    rw [List.foldl_cons, h e (by simp), Fl.fin_add, ih (fun e' he => h e' (by simp [he]))]
    simp [add_assoc]

theorem foldl_nan {β : Type} (f : β → Fl) (l : List β) (a : Fl)
    (h : a = .nan ∨ ∃ e ∈ l, f e = .nan) :
    l.foldl (fun acc e => acc + f e) a = .nan := by
  induction l generalizing a with
  | nil => simpa using h
  | cons e l ih =>
    rw [List.foldl_cons]
    apply ih
    rcases h with h | ⟨e', he', h⟩
    · left; rw [h, Fl.nan_add]
    · rcases List.mem_cons.mp he' with rfl | he'
      · left; rw [h, Fl.add_nan]
      · right; exact ⟨e', he', h⟩

theorem foldl_nonNeg {β : Type} (f : β → Fl) (l : List β) (a : Fl) (ha : a.NonNeg)
    (h : ∀ e ∈ l, (f e).NonNeg) : (l.foldl (fun acc e => acc + f e) a).NonNeg := by
  induction l generalizing a with
  | nil => simpa using ha
  | cons e l ih =>
    rw [List.foldl_cons]
    exact ih _ (Fl.nonNeg_add ha (h e (by simp))) (fun e' he => h e' (by simp [he]))

theorem finRange_sum (f : Fin n → ℝ) : ((List.finRange n).map f).sum = ∑ i, f i := by
  rw [← List.sum_ofFn, List.ofFn_eq_map]

theorem dot_lift (x y : Fin n → ℝ) : dot (lift x) (lift y) = .fin (∑ i, x i * y i) := by
  unfold dot
  rw [Fl.zero_eq, foldl_fin _ (fun i => x i * y i) _ (fun e _ => by simp [lift]), zero_add, finRange_sum]

theorem norm_lift (x : Fin n → ℝ) : norm (lift x) = .fin (Real.sqrt (∑ i, x i ^ 2)) := by
  unfold norm
  rw [dot_lift]
  have h : 0 ≤ ∑ i, x i * x i := Finset.sum_nonneg fun i _ => mul_self_nonneg _
  show (Fl.fin |_|).sqrt = _
  rw [abs_of_nonneg h, Fl.sqrt_fin h]
  simp [sq]

theorem norm_isFin {X : Vec n} (h : (norm X).IsFin) : ∀ i, (X i).IsFin := by
  unfold norm at h
  rw [Fl.isFin_sqrt_abs] at h
  unfold dot at h
  rw [foldl_isFin] at h
  intro i
  exact (Fl.isFin_mul.mp (h.2 i (List.mem_finRange i))).1

theorem norm_of_nan {X : Vec n} {i : Fin n} (h : X i = .nan) : norm X = .nan := by
  have : dot X X = .nan := by
    unfold dot
    exact foldl_nan _ _ _ (Or.inr ⟨i, List.mem_finRange i, by rw [h, Fl.nan_mul]⟩)
  unfold norm
  rw [this]; rfl

theorem norm_nan {X : Vec n} (h : norm X = .nan) : ∃ i, X i = .nan := by
  by_contra hc
  push Not at hc
  have hd : (dot X X).NonNeg := by
    unfold dot
    exact foldl_nonNeg _ _ _ (show (0:ℝ) ≤ 0 from le_rfl) (fun e _ => Fl.nonNeg_sq (hc e))
  unfold norm at h
  revert h hd
  cases dot X X with
  | nan => intro h; exact fun hd => hd.elim
  | inf s => intro h; simp [Fl.abs, Fl.sqrt] at h
  | fin x => intro h; simp [Fl.abs, Fl.sqrt, not_lt.mpr (abs_nonneg x)] at h

theorem norm_not_neg_inf {X : Vec n} : norm X ≠ .inf true := by
  unfold norm
  cases dot X X with
  | nan => simp [Fl.abs, Fl.sqrt]
  | inf s => simp [Fl.abs, Fl.sqrt]
  | fin x => simp [Fl.abs, Fl.sqrt, not_lt.mpr (abs_nonneg x)]

theorem norm_abs (X : Vec n) : (norm X).abs = norm X := by
  unfold norm
  cases dot X X with
  | nan => rfl
  | inf s => simp [Fl.abs, Fl.sqrt]
  | fin x =>
    simp only [Fl.abs]
    rw [Fl.sqrt_fin (abs_nonneg x)]
    simp [abs_of_nonneg (Real.sqrt_nonneg _)]

/-! ## vectors -/

theorem exists_lift {X : Vec n} (h : ∀ i, (X i).IsFin) : ∃ x, X = lift x := by
  choose x hx using fun i => Fl.isFin_iff.mp (h i)
  exact ⟨x, funext hx⟩

theorem applyMask_of_mem {ld : List (Fin n)} {X : Vec n} {i : Fin n} (h : i ∈ ld) :
    applyMask ld X i = 0 := by simp [applyMask, h]

theorem applyMask_of_not_mem {ld : List (Fin n)} {X : Vec n} {i : Fin n} (h : i ∉ ld) :
    applyMask ld X i = X i := by simp [applyMask, h]

theorem applyMask_nil (X : Vec n) : applyMask [] X = X := by
  funext i; simp [applyMask]

/-- real vector with the entries of `ld` set to zero -/
def maskR (ld : List (Fin n)) (y : Fin n → ℝ) : Fin n → ℝ := fun i => if i ∈ ld then 0 else y i

theorem applyMask_lift (ld : List (Fin n)) (y : Fin n → ℝ) :
    applyMask ld (lift y) = lift (maskR ld y) := by
  funext i
  unfold applyMask lift maskR
  split <;> rfl

theorem freeNorm_eq (ld : List (Fin n)) (y : Fin n → ℝ) :
    freeNorm ld y = Real.sqrt (∑ i, maskR ld y i ^ 2) := by
  unfold freeNorm maskR
  congr 1
  refine Finset.sum_congr rfl fun i _ => ?_
  split <;> simp

/-! ## matrix -/

theorem list_sum_eq (l : List (Fin n × Fl)) (M x : Fin n → ℝ) (hn : (l.map Prod.fst).Nodup)
    (ha : ∀ j, j ∉ l.map Prod.fst → M j = 0) :
    (l.map fun e => M e.1 * x e.1).sum = ∑ j, M j * x j := by
  have h1 : (l.map fun e => M e.1 * x e.1) = (l.map Prod.fst).map (fun j => M j * x j) := by
    rw [List.map_map]; rfl
  rw [h1]
  have h2 : ((l.map Prod.fst).map (fun j => M j * x j)).sum = ∑ j ∈ (l.map Prod.fst).toFinset, M j * x j := by
    rw [List.sum_toFinset _ hn]
  rw [h2]
  apply Finset.sum_subset (Finset.subset_univ _)
  intro j _ hj
  rw [ha j (by simpa using hj), zero_mul]

theorem mult_lift {A : Mat n} {M : Matrix (Fin n) (Fin n) ℝ} (h : Represents A M) (x : Fin n → ℝ) :
    mult A (lift x) = lift (M.mulVec x) := by
  funext i
  unfold mult
  rw [Fl.zero_eq, foldl_fin _ (fun e => M i e.1 * x e.1) _
    (fun e he => by rw [h.stored i e.1 e.2 he]; simp [lift])]
  rw [zero_add, list_sum_eq _ (M i) x (h.nodup i) (h.absent i)]
  rfl

theorem mult_isFin {A : Mat n} {X : Vec n} {i j : Fin n} (h : (mult A X i).IsFin)
    (hj : j ∈ (A i).map Prod.fst) : (X j).IsFin := by
  unfold mult at h
  rw [foldl_isFin] at h
  obtain ⟨e, he, rfl⟩ := List.mem_map.mp hj
  exact (Fl.isFin_mul.mp (h.2 e he)).2

/-- a direction whose masked product is finite is finite -/
theorem direction {A : Mat n} {M : Matrix (Fin n) (Fin n) ℝ} (hA : Represents A M) (hd : DiagStored A)
    {ld : List (Fin n)} {ph : Vec n} (hm : ∀ i ∈ ld, (ph i).IsFin)
    (hw : ∀ i, (applyMask ld (mult A ph) i).IsFin) :
    ∃ φ, ph = lift φ ∧ applyMask ld (mult A ph) = lift (maskR ld (M.mulVec φ)) := by
  have hf : ∀ i, (ph i).IsFin := by
    intro i
    by_cases h : i ∈ ld
    · exact hm i h
    · have := hw i
      rw [applyMask_of_not_mem h] at this
      exact mult_isFin this (hd i)
  obtain ⟨φ, rfl⟩ := exists_lift hf
  exact ⟨φ, rfl, by rw [mult_lift hA, applyMask_lift]⟩

/-! ## iteration monitor -/

/-- what `finished` does -/
structure FinishedSpec (it : Iter) (nr : Fl) (c : Bool × Iter) : Prop where
  rhsn : c.2.rhsn = it.rhsn
  maxiter : c.2.maxiter = it.maxiter
  nit : c.2.nit = it.nit
  resmax : c.2.resmax = it.resmax
  res : c.2.res = nr.abs
  cases : (nr.abs = .nan ∧ c.1 = false ∧ c.2.status = .CANNOT_CONVERGE) ∨
    (nr.abs.le (it.rhsn * it.resmax) ∧ c.1 = true ∧ c.2.status = .CONVERGED) ∨
    (nr.abs ≠ .nan ∧ ¬ nr.abs.le (it.rhsn * it.resmax) ∧ c.1 = false ∧ c.2.status = it.status)

theorem converged_spec (it : Iter) (nr : Fl) : FinishedSpec it nr (it.converged nr) := by
  unfold Iter.converged Iter.converged0
  split
  · rename_i h
    exact ⟨rfl, rfl, rfl, rfl, rfl, Or.inl ⟨Fl.isNan_iff.mp h, rfl, rfl⟩⟩
  · rename_i h
    split
    · rename_i h2
      exact ⟨rfl, rfl, rfl, rfl, rfl, Or.inr (Or.inl ⟨h2, rfl, rfl⟩)⟩
    · rename_i h2
      exact ⟨rfl, rfl, rfl, rfl, rfl, Or.inr (Or.inr ⟨fun e => h (Fl.isNan_iff.mpr e), h2, rfl, rfl⟩)⟩

theorem finished_spec (it : Iter) (nr : Fl) : FinishedSpec it nr (it.finished nr) := by
  unfold Iter.finished
  split
  · have h1 := converged_spec it nr
    have h2 := converged_spec { (it.converged nr).2 with written := true } nr
    refine ⟨h2.rhsn.trans h1.rhsn, h2.maxiter.trans h1.maxiter, h2.nit.trans h1.nit,
      h2.resmax.trans h1.resmax, h2.res, ?_⟩
    have e1 : ({ (it.converged nr).2 with written := true } : Iter).rhsn = it.rhsn := h1.rhsn
    have e2 : ({ (it.converged nr).2 with written := true } : Iter).resmax = it.resmax := h1.resmax
    have h3 := h2.cases
    rw [e1, e2] at h3
    rcases h3 with h | h | h
    · exact Or.inl h
    · exact Or.inr (Or.inl h)
    · right; right
      refine ⟨h.1, h.2.1, h.2.2.1, ?_⟩
      rw [h.2.2.2]
      rcases h1.cases with g | g | g
      · exact absurd g.1 h.1
      · exact absurd g.1 h.2.1
      · exact g.2.2.2
  · exact converged_spec it nr

/-- the outcome of `finished` does not depend on the verbosity -/
theorem finished_noise (it : Iter) (nr : Fl) (b w : Bool) :
    (({ it with noise := b, written := w } : Iter).finished nr).1 = (it.finished nr).1 ∧
    (({ it with noise := b, written := w } : Iter).finished nr).2.status = (it.finished nr).2.status := by
  have h1 := (finished_spec it nr).cases
  have h2 := (finished_spec { it with noise := b, written := w } nr).cases
  change _ ∨ (nr.abs.le (it.rhsn * it.resmax) ∧ _) ∨
    (_ ∧ ¬ nr.abs.le (it.rhsn * it.resmax) ∧ _ ∧ _ = it.status) at h2
  have nl : nr.abs = .nan → ¬ nr.abs.le (it.rhsn * it.resmax) := by
    intro h hl; rw [h] at hl
    revert hl
    cases (it.rhsn * it.resmax) <;> exact fun h => h
  rcases h1 with ⟨a1, a2, a3⟩ | ⟨a1, a2, a3⟩ | ⟨a0, a1, a2, a3⟩ <;>
    rcases h2 with ⟨b1, b2, b3⟩ | ⟨b1, b2, b3⟩ | ⟨b0, b1, b2, b3⟩ <;>
    first
      | exact ⟨b2.trans a2.symm, b3.trans a3.symm⟩
      | (exact absurd b1 (nl a1))
      | (exact absurd a1 (nl b1))
      | (exact absurd a1 b0)
      | (exact absurd b1 a0)
      | (exact absurd b1 a1)
      | (exact absurd a1 b1)

theorem finished_nan {it : Iter} {nr : Fl} (h : nr = .nan) :
    (it.finished nr).1 = false ∧ (it.finished nr).2.status = .CANNOT_CONVERGE := by
  subst h
  rcases (finished_spec it .nan).cases with h | h | h
  · exact h.2
  · exfalso
    have := h.1
    revert this
    cases (it.rhsn * it.resmax) <;> exact fun h => h
  · exact absurd rfl h.1

/-- leaving on convergence with a finite threshold means the residual is finite and below it -/
theorem finished_true {it : Iter} {X : Vec n} {t : ℝ} (ht : it.rhsn * it.resmax = .fin t)
    (h : (it.finished (norm X)).1 = true) : ∃ y, X = lift y ∧ Real.sqrt (∑ i, y i ^ 2) ≤ t := by
  have h3 := (finished_spec it (norm X)).cases
  have hle : (norm X).abs.le (.fin t) := by
    rcases h3 with g | g | g
    · rw [g.2.1] at h; cases h
    · rw [← ht]; exact g.1
    · rw [g.2.2.1] at h; cases h
  rw [norm_abs] at hle
  have hf : (norm X).IsFin := by
    revert hle
    cases hx : norm X with
    | nan => exact fun h => h
    | inf s =>
      intro h
      have hs : s = true := h
      subst hs
      exact absurd hx norm_not_neg_inf
    | fin x => exact fun _ => trivial
  obtain ⟨y, rfl⟩ := exists_lift (norm_isFin hf)
  rw [norm_lift] at hle
  exact ⟨y, rfl, hle⟩

theorem loop_mono {S : Type} (body : S → Bool × S) (k m : ℕ) (h : k ≤ m) (st out : S)
    (hk : loop body k st = some out) : loop body m st = some out := by
  induction k generalizing st m with
  | zero => cases hk
  | succ k ih =>
    obtain ⟨m, rfl⟩ : ∃ m', m = m' + 1 := ⟨m - 1, by omega⟩
    unfold loop at hk ⊢
    dsimp only at hk ⊢
    split at hk
    · rename_i hb; rw [if_pos hb]; exact hk
    · rename_i hb; rw [if_neg hb]; exact ih m (by omega) _ hk

/-- induction over a loop -/
theorem loop_inv {S : Type} (body : S → Bool × S) (I Q : S → Prop)
    (hc : ∀ st, I st → (body st).1 = false → I (body st).2)
    (hs : ∀ st, I st → (body st).1 = true → Q (body st).2) (k : ℕ) (st out : S) (h0 : I st)
    (h : loop body k st = some out) : Q out := by
  induction k generalizing st with
  | zero => cases h
  | succ k ih =>
    unfold loop at h
    dsimp only at h
    split at h
    · rename_i hb; cases h; exact hs st h0 hb
    · rename_i hb
      exact ih _ (hc st h0 (by simpa using hb)) h

end Verif.Krylov
