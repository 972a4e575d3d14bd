import Verif.Proofs.KrylovExample

/-!
# C12-C17: the iterative solvers
-/

namespace Verif.Krylov

open Verif

variable {n : ℕ}

/-! ## helpers -/

theorem freeNorm_mask (ld : List (Fin n)) (y z : Fin n → ℝ) (h : ∀ i, i ∉ ld → y i = z i) :
    freeNorm ld y = freeNorm ld z := by
  unfold freeNorm
  congr 1
  refine Finset.sum_congr rfl fun i _ => ?_
  split
  · rfl
  · rename_i hi; rw [h i hi]

theorem maskR_zero (ld : List (Fin n)) (y : Fin n → ℝ) : ∀ i ∈ ld, maskR ld y i = 0 := fun _ hi => if_pos hi

theorem maskR_free (ld : List (Fin n)) (y : Fin n → ℝ) {i : Fin n} (hi : i ∉ ld) : maskR ld y i = y i :=
  if_neg hi

theorem D_masked (A : Mat n) (ld : List (Fin n)) : ∀ i ∈ ld, applyMask ld (diagPrecond A) i = 0 :=
  fun _ hi => applyMask_of_mem hi

theorem sub_lift (x y : Fin n → ℝ) : sub (lift x) (lift y) = lift (y - x) := by
  funext i
  show (Fl.fin _ - Fl.fin _ : Fl) = _
  rw [Fl.fin_sub]; rfl

theorem lift_inj {x y : Fin n → ℝ} (h : lift x = lift y) : x = y :=
  funext fun i => Fl.fin.inj (congrFun h i)

theorem fuel_le (it : Iter) (h : it.nit = 0) : (max 1 it.maxiter).toNat + 1 ≤ fuel it + it.nit := by
  rw [h]; exact le_rfl

theorem fuel_pos (it : Iter) : 0 < fuel it := Nat.succ_pos _

theorem decided_of {s : Status} (h : s ≠ .UNDEFINED) : Decided s := by
  cases s
  · exact absurd rfl h
  · exact Or.inl rfl
  · exact Or.inr (Or.inl rfl)
  · exact Or.inr (Or.inr rfl)

/-! ## C12 -/

/-- **C12** (mask, no prescribed values; the LLG solve): a converged status certifies the residual on
the rows outside the mask of the vector returned, which is finite. -/
theorem C12_bicg_mask (it : Iter) (tol : ℝ) (ht : it.resmax = .fin tol) (A : Mat n)
    (M : Matrix (Fin n) (Fin n) ℝ) (hA : Represents A M) (hd : DiagStored A) (x0 rhs : Fin n → ℝ)
    (ld : List (Fin n)) (st : BState n) (h : bicgMask it A (lift x0) (lift rhs) ld = some st)
    (hc : st.iter.status = .CONVERGED) :
    ∃ x, st.x = lift x ∧ freeNorm ld (residual M rhs x) ≤ tol * freeNorm ld rhs ∧
      st.iter.res = .fin (freeNorm ld (residual M rhs x)) := by
  unfold bicgMask at h
  dsimp only at h
  rw [applyMask_lift] at h
  obtain ⟨x, hx, hle, hr⟩ := bicg_converged hA hd (D_masked A ld) it tol ht x0 (maskR ld rhs)
    (maskR_zero ld rhs) _ st h hc
  have e1 : freeNorm ld (maskR ld rhs - M.mulVec x) = freeNorm ld (residual M rhs x) :=
    freeNorm_mask ld _ _ fun i hi => by simp [residual, maskR_free ld rhs hi]
  have e2 : freeNorm ld (maskR ld rhs) = freeNorm ld rhs :=
    freeNorm_mask ld _ _ fun i hi => maskR_free ld rhs hi
  rw [e1] at hle hr
  rw [e2] at hle
  exact ⟨x, hx, hle, hr⟩

/-- **C12** (no mask): the residual of the whole system. -/
theorem C12_bicg (it : Iter) (tol : ℝ) (ht : it.resmax = .fin tol) (A : Mat n)
    (M : Matrix (Fin n) (Fin n) ℝ) (hA : Represents A M) (hd : DiagStored A) (x0 rhs : Fin n → ℝ)
    (st : BState n) (h : bicg it A (lift x0) (lift rhs) = some st) (hc : st.iter.status = .CONVERGED) :
    ∃ x, st.x = lift x ∧ freeNorm [] (residual M rhs x) ≤ tol * freeNorm [] rhs ∧
      st.iter.res = .fin (freeNorm [] (residual M rhs x)) :=
  bicg_converged hA hd (by simp) it tol ht x0 rhs (by simp) _ st h hc

/-- **C12** (Dirichlet values): the residual of the returned vector, Dirichlet values included, is
below the tolerance relative to the right-hand side of the reduced system. -/
theorem C12_bicg_dir (it : Iter) (tol : ℝ) (ht : it.resmax = .fin tol) (A : Mat n)
    (M : Matrix (Fin n) (Fin n) ℝ) (hA : Represents A M) (hd : DiagStored A)
    (x0 rhs xd : Fin n → ℝ) (ld : List (Fin n)) (st : BState n)
    (h : bicgDir it A (lift x0) (lift rhs) (lift xd) ld = some st) (hc : st.iter.status = .CONVERGED) :
    ∃ x, st.x = lift x ∧ freeNorm ld (residual M rhs x) ≤ tol * freeNorm ld (residual M rhs xd) ∧
      st.iter.res = .fin (freeNorm ld (residual M rhs x)) := by
  unfold bicgDir at h
  dsimp only at h
  rw [mult_lift hA, sub_lift, applyMask_lift] at h
  obtain ⟨s, hs, rfl⟩ := Option.map_eq_some_iff.mp h
  obtain ⟨x, hx, hle, hr⟩ := bicg_converged hA hd (D_masked A ld) it tol ht x0 _
    (maskR_zero ld (rhs - M.mulVec xd)) _ s hs hc
  have e1 : freeNorm ld (maskR ld (rhs - M.mulVec xd) - M.mulVec x) = freeNorm ld (residual M rhs (x + xd)) :=
    freeNorm_mask ld _ _ fun i hi => by
      simp [residual, maskR_free ld _ hi, Matrix.mulVec_add]; ring
  have e2 : freeNorm ld (maskR ld (rhs - M.mulVec xd)) = freeNorm ld (residual M rhs xd) :=
    freeNorm_mask ld _ _ fun i hi => maskR_free ld _ hi
  refine ⟨x + xd, ?_, ?_, ?_⟩
  · funext i
    show s.x i + lift xd i = _
    rw [hx]; rfl
  · rw [e1, e2] at hle; exact hle
  · rw [e1] at hr; exact hr

/-- the hypotheses can be met: `2 x₀ + x₁ = 6`, `x₁ = 2` -/
example : ∃ out, bicgDir Ex.it Ex2.A (lift 0) (lift Ex2.rhs) (lift Ex2.xd) [1] = some out ∧
    out.iter.status = .CONVERGED ∧ Represents Ex2.A Ex2.M ∧ DiagStored Ex2.A ∧ out.x = lift ![2, 2] :=
  let ⟨out, h1, h2, h3⟩ := Ex2.converges
  ⟨out, h1, h2, Ex2.represents, Ex2.diagStored, h3⟩

/-! ## C13 -/

/-- **C13** (partial): masked components of the solution of `bicg_dir` are the prescribed value plus the
initial guess, or NaN. The full claim excludes NaN; `C13_negation` shows that it can occur. -/
theorem C13_dirichlet_bicg_partial (it : Iter) (A : Mat n) (x0 xd : Fin n → ℝ) (rhs : Vec n)
    (ld : List (Fin n)) (st : BState n) (h : bicgDir it A (lift x0) rhs (lift xd) ld = some st)
    (i : Fin n) (hi : i ∈ ld) : st.x i = .fin (x0 i + xd i) ∨ st.x i = .nan := by
  unfold bicgDir at h
  dsimp only at h
  obtain ⟨s, hs, rfl⟩ := Option.map_eq_some_iff.mp h
  rcases bicg_masked A _ ld (D_masked A ld) _ _ s x0 i hi rfl hs with e | e
  · left
    show s.x i + lift xd i = _
    rw [e]; rfl
  · right
    show s.x i + lift xd i = _
    rw [e, Fl.nan_add]

/-- **C13** (partial): same for `cg_dir`. -/
theorem C13_dirichlet_cg_partial (it : Iter) (A : Mat n) (x0 xd : Fin n → ℝ) (rhs : Vec n)
    (ld : List (Fin n)) (st : CState n) (h : cgDir it A (lift x0) rhs (lift xd) ld = some st)
    (i : Fin n) (hi : i ∈ ld) : st.x i = .fin (x0 i + xd i) ∨ st.x i = .nan := by
  unfold cgDir at h
  dsimp only at h
  obtain ⟨s, hs, rfl⟩ := Option.map_eq_some_iff.mp h
  have hp0 : ∀ b : Vec n, (cgInit it A (applyMask ld (diagPrecond A)) ld (lift x0) b).p i = 0 ∨
      (cgInit it A (applyMask ld (diagPrecond A)) ld (lift x0) b).p i = .nan := by
    intro b
    show applyMask ld (diagPrecond A) i * _ = 0 ∨ applyMask ld (diagPrecond A) i * _ = .nan
    rw [applyMask_of_mem hi]
    exact Fl.zero_mul' _
  rcases cg_masked A _ ld (D_masked A ld) _ _ s x0 i hi rfl (hp0 _) hs with e | e
  · left
    show s.x i + lift xd i = _
    rw [e]; rfl
  · right
    show s.x i + lift xd i = _
    rw [e, Fl.nan_add]

/-- **C13**, mask without prescribed values: the initial guess is kept, or NaN. -/
theorem C13_mask_bicg_partial (it : Iter) (A : Mat n) (x0 : Fin n → ℝ) (rhs : Vec n)
    (ld : List (Fin n)) (st : BState n) (h : bicgMask it A (lift x0) rhs ld = some st)
    (i : Fin n) (hi : i ∈ ld) : st.x i = .fin (x0 i) ∨ st.x i = .nan :=
  bicg_masked A _ ld (D_masked A ld) _ _ st x0 i hi rfl h

/-- **C13** for the outcome that is used: when convergence is reported for finite data the Dirichlet
components are exact. -/
theorem C13_converged_exact (it : Iter) (tol : ℝ) (ht : it.resmax = .fin tol) (A : Mat n)
    (M : Matrix (Fin n) (Fin n) ℝ) (hA : Represents A M) (hd : DiagStored A) (x0 rhs xd : Fin n → ℝ)
    (ld : List (Fin n)) (i : Fin n) (hi : i ∈ ld) :
    (∀ st, bicgDir it A (lift x0) (lift rhs) (lift xd) ld = some st → st.iter.status = .CONVERGED →
      st.x i = .fin (x0 i + xd i)) ∧
    (∀ st, bicgMask it A (lift x0) (lift rhs) ld = some st → st.iter.status = .CONVERGED →
      st.x i = .fin (x0 i)) ∧
    (∀ st, cgDir it A (lift x0) (lift rhs) (lift xd) ld = some st → st.iter.status = .CONVERGED →
      st.x i = .fin (x0 i + xd i)) := by
  refine ⟨?_, ?_, ?_⟩
  · intro st h hc
    obtain ⟨x, hx, _⟩ := C12_bicg_dir it tol ht A M hA hd x0 rhs xd ld st h hc
    rcases C13_dirichlet_bicg_partial it A x0 xd _ ld st h i hi with e | e
    · exact e
    · rw [hx] at e; cases e
  · intro st h hc
    obtain ⟨x, hx, _⟩ := C12_bicg_mask it tol ht A M hA hd x0 rhs ld st h hc
    rcases C13_mask_bicg_partial it A x0 _ ld st h i hi with e | e
    · exact e
    · rw [hx] at e; cases e
  · intro st h hc
    rcases C13_dirichlet_cg_partial it A x0 xd _ ld st h i hi with e | e
    · exact e
    · exfalso
      unfold cgDir at h
      dsimp only at h
      rw [mult_lift hA, sub_lift, applyMask_lift] at h
      obtain ⟨s, hs, rfl⟩ := Option.map_eq_some_iff.mp h
      obtain ⟨x, hx, _⟩ := cg_converged hA hd (D_masked A ld) it tol ht x0 _
        (maskR_zero ld (rhs - M.mulVec xd)) _ s hs hc
      have e' : s.x i + lift xd i = .nan := e
      rw [hx] at e'
      cases e'

/-- **C13** fails as stated for every outcome: on a singular system the breakdown of the method turns
the Dirichlet components into NaN as well. -/
theorem C13_negation : ¬ ∀ (n : ℕ) (it : Iter) (A : Mat n) (M : Matrix (Fin n) (Fin n) ℝ)
    (_ : Represents A M) (_ : DiagStored A) (x0 rhs xd : Fin n → ℝ) (ld : List (Fin n)) (st : BState n)
    (_ : bicgDir it A (lift x0) (lift rhs) (lift xd) ld = some st) (i : Fin n) (_ : i ∈ ld),
    st.x i = .fin (x0 i + xd i) := by
  intro h
  obtain ⟨out, h1, h2⟩ := Ex.breakdown
  have := h 3 Ex.it Ex.A Ex.M Ex.represents Ex.diagStored 0 Ex.rhs Ex.xd [2] out h1 2 (by simp)
  rw [h2] at this
  cases this

/-! ## C14 -/

/-- **C14**: `bicg_dir` with a mask returns within `max(1, max_iter)` iterations with a decided status,
whatever the entries; the bound put on the loop in the model plays no role. -/
theorem C14_bicg_mask (it : Iter) (h0 : it.nit = 0) (A : Mat n) (x rhs : Vec n) (ld : List (Fin n)) :
    ∃ st, bicgMask it A x rhs ld = some st ∧ Decided st.iter.status ∧
      (st.iter.nit : ℤ) ≤ max 1 it.maxiter ∧
      ∀ m, fuel it ≤ m → loop (bicgBody A (applyMask ld (diagPrecond A)) ld) m
        (bicgInit it A ld x (applyMask ld rhs)) = some st := by
  have hf : Flagged (bicgInit it A ld x (applyMask ld rhs)).iter := Or.inl h0
  obtain ⟨st, hst⟩ := bicg_loop_some A (applyMask ld (diagPrecond A)) ld (fuel it) _ hf (fuel_le it h0) (fuel_pos it)
  have hn : ((bicgInit it A ld x (applyMask ld rhs)).iter.nit : ℤ) ≤
      max 1 (bicgInit it A ld x (applyMask ld rhs)).iter.maxiter := by
    show (it.nit : ℤ) ≤ max 1 it.maxiter
    rw [h0]; simp
  have hs := bicg_loop_status A _ ld _ _ st hf hn hst
  exact ⟨st, hst, decided_of hs.1, hs.2, fun m hm => loop_mono _ _ m hm _ _ hst⟩

/-- **C14** for `bicg`. -/
theorem C14_bicg (it : Iter) (h0 : it.nit = 0) (A : Mat n) (x rhs : Vec n) :
    ∃ st, bicg it A x rhs = some st ∧ Decided st.iter.status ∧ (st.iter.nit : ℤ) ≤ max 1 it.maxiter ∧
      ∀ m, fuel it ≤ m → loop (bicgBody A (diagPrecond A) []) m (bicgInit it A [] x rhs) = some st := by
  have hf : Flagged (bicgInit it A [] x rhs).iter := Or.inl h0
  obtain ⟨st, hst⟩ := bicg_loop_some A (diagPrecond A) [] (fuel it) _ hf (fuel_le it h0) (fuel_pos it)
  have hn : ((bicgInit it A [] x rhs).iter.nit : ℤ) ≤ max 1 (bicgInit it A [] x rhs).iter.maxiter := by
    show (it.nit : ℤ) ≤ max 1 it.maxiter
    rw [h0]; simp
  have hs := bicg_loop_status A _ [] _ _ st hf hn hst
  exact ⟨st, hst, decided_of hs.1, hs.2, fun m hm => loop_mono _ _ m hm _ _ hst⟩

/-- **C14** for `bicg_dir` with prescribed values. -/
theorem C14_bicg_dir (it : Iter) (h0 : it.nit = 0) (A : Mat n) (x rhs xd : Vec n) (ld : List (Fin n)) :
    ∃ st, bicgDir it A x rhs xd ld = some st ∧ Decided st.iter.status ∧
      (st.iter.nit : ℤ) ≤ max 1 it.maxiter := by
  have hf : Flagged (bicgInit it A ld x (applyMask ld (sub (mult A xd) rhs))).iter := Or.inl h0
  obtain ⟨st, hst⟩ := bicg_loop_some A (applyMask ld (diagPrecond A)) ld (fuel it) _ hf (fuel_le it h0) (fuel_pos it)
  have hn : ((bicgInit it A ld x (applyMask ld (sub (mult A xd) rhs))).iter.nit : ℤ) ≤
      max 1 (bicgInit it A ld x (applyMask ld (sub (mult A xd) rhs))).iter.maxiter := by
    show (it.nit : ℤ) ≤ max 1 it.maxiter
    rw [h0]; simp
  have hs := bicg_loop_status A _ ld _ _ st hf hn hst
  refine ⟨{ st with x := add xd st.x }, ?_, decided_of hs.1, hs.2⟩
  unfold bicgDir
  dsimp only
  rw [hst]; rfl

/-- **C14** for `cg_dir`; `cg` is `C14_cg`. -/
theorem C14_cg_dir (it : Iter) (h0 : it.nit = 0) (A : Mat n) (x rhs xd : Vec n) (ld : List (Fin n)) :
    ∃ st, cgDir it A x rhs xd ld = some st ∧ Decided st.iter.status ∧
      (st.iter.nit : ℤ) ≤ max 1 it.maxiter := by
  have hf : Flagged (cgInit it A (applyMask ld (diagPrecond A)) ld x
    (applyMask ld (sub (mult A xd) rhs))).iter := Or.inl h0
  obtain ⟨st, hst⟩ := cg_loop_some A (applyMask ld (diagPrecond A)) ld (fuel it) _ hf (fuel_le it h0) (fuel_pos it)
  have hn : ((cgInit it A (applyMask ld (diagPrecond A)) ld x (applyMask ld (sub (mult A xd) rhs))).iter.nit : ℤ) ≤
      max 1 (cgInit it A (applyMask ld (diagPrecond A)) ld x (applyMask ld (sub (mult A xd) rhs))).iter.maxiter := by
    show (it.nit : ℤ) ≤ max 1 it.maxiter
    rw [h0]; simp
  have hs := cg_loop_status A _ ld _ _ st hf hn hst
  refine ⟨{ st with x := add xd st.x }, ?_, decided_of hs.1, hs.2⟩
  unfold cgDir
  dsimp only
  rw [hst]; rfl

theorem C14_cg (it : Iter) (h0 : it.nit = 0) (A : Mat n) (x rhs : Vec n) :
    ∃ st, cg it A x rhs = some st ∧ Decided st.iter.status ∧ (st.iter.nit : ℤ) ≤ max 1 it.maxiter := by
  have hf : Flagged (cgInit it A (diagPrecond A) [] x rhs).iter := Or.inl h0
  obtain ⟨st, hst⟩ := cg_loop_some A (diagPrecond A) [] (fuel it) _ hf (fuel_le it h0) (fuel_pos it)
  have hn : ((cgInit it A (diagPrecond A) [] x rhs).iter.nit : ℤ) ≤
      max 1 (cgInit it A (diagPrecond A) [] x rhs).iter.maxiter := by
    show (it.nit : ℤ) ≤ max 1 it.maxiter
    rw [h0]; simp
  have hs := cg_loop_status A _ [] _ _ st hf hn hst
  exact ⟨st, hst, decided_of hs.1, hs.2⟩

/-- every solve starts from a reset monitor (solver.cpp:9, electrostatSolver.cpp:132,
spinAccumulationSolver.cpp:168), so the hypothesis of C14 holds -/
example (it : Iter) : it.reset.nit = 0 ∧ it.reset.maxiter = it.maxiter := ⟨rfl, rfl⟩

/-! ## C15 -/

/-- **C15**: a successful LLG solve comes from a converged status, and its residual satisfies both the
absolute and the relative bound. -/
theorem C15_success_converged (it : Iter) (tol : ℝ) (ht : it.resmax = .fin tol) (K : Mat n)
    (M : Matrix (Fin n) (Fin n) ℝ) (hK : Represents K M) (hd : DiagStored K) (guess L : Fin n → ℝ)
    (lvd : List (Fin n)) (X : Vec n) (h : llgSolve it K (lift guess) (lift L) lvd = some X) :
    ∃ x, X = lift x ∧ freeNorm lvd (residual M L x) ≤ tol ∧
      freeNorm lvd (residual M L x) ≤ tol * freeNorm lvd L ∧
      (∀ i ∈ lvd, x i = guess i) ∧
      ∃ st, bicgMask it.reset K (lift guess) (lift L) lvd = some st ∧ st.iter.status = .CONVERGED ∧ st.x = X := by
  obtain ⟨st, hst, hdec, _⟩ := C14_bicg_mask it.reset rfl K (lift guess) (lift L) lvd
  unfold llgSolve at h
  rw [hst] at h
  dsimp only at h
  split at h
  · cases h
  · rename_i hn
    push Not at hn
    have hc : st.iter.status = .CONVERGED := by
      rcases hdec with e | e | e
      · exact e
      · exact absurd e hn.1
      · exact absurd e hn.2.1
    have hX : st.x = X := Option.some.inj h
    obtain ⟨x, hx, hle, hr⟩ := C12_bicg_mask it.reset tol ht K M hK hd guess L lvd st hst hc
    have hresmax : st.iter.resmax = .fin tol := by
      have inv := loop_inv (bicgBody K (applyMask lvd (diagPrecond K)) lvd)
        (fun s => s.iter.resmax = .fin tol) (fun s => s.iter.resmax = .fin tol) ?_ ?_ _ _ st
        (show (bicgInit it.reset K lvd (lift guess) (applyMask lvd (lift L))).iter.resmax = .fin tol from ht) hst
      · exact inv
      · intro s hs hb
        have hk := bicgBody_kind K (applyMask lvd (diagPrecond K)) lvd s
        generalize he : bicgBody K (applyMask lvd (diagPrecond K)) lvd s = r at hk hb
        cases hk with
        | conv1 => cases hb
        | zero => cases hb
        | conv2 => cases hb
        | stop => cases hb
        | next =>
          show (bIt2 K (applyMask lvd (diagPrecond K)) lvd s).incr.resmax = _
          rw [incr_resmax]
          exact ((finished_spec _ _).resmax.trans (finished_spec _ _).resmax).trans hs
      · intro s hs hb
        have hk := bicgBody_kind K (applyMask lvd (diagPrecond K)) lvd s
        generalize he : bicgBody K (applyMask lvd (diagPrecond K)) lvd s = r at hk hb
        cases hk with
        | conv1 => exact (finished_spec _ _).resmax.trans hs
        | zero => exact (finished_spec _ _).resmax.trans hs
        | conv2 => exact ((finished_spec _ _).resmax.trans (finished_spec _ _).resmax).trans hs
        | stop => exact ((finished_spec _ _).resmax.trans (finished_spec _ _).resmax).trans hs
        | next => cases hb
    refine ⟨x, hX.symm.trans hx, ?_, hle, ?_, st, hst, hc, hX⟩
    · have h3 := hn.2.2
      rw [hr, hresmax] at h3
      have h4 : ¬ ¬ (freeNorm lvd (residual M L x) ≤ tol) := h3
      exact not_not.mp h4
    · intro i hi
      have := (C13_converged_exact it.reset tol ht K M hK hd guess L 0 lvd i hi).2.1 st hst hc
      rw [hx] at this
      exact Fl.fin.inj this

example : ∃ X, llgSolve Ex.it Ex2.A (lift 0) (lift ![4, 0]) [1] = some X := Ex2.llg_succeeds

/-- **C15**, arbitrary data (NaN and infinities included): success implies that the final status is
CONVERGED. -/
theorem C15_status (it : Iter) (K : Mat n) (guess L : Vec n) (lvd : List (Fin n)) (X : Vec n)
    (h : llgSolve it K guess L lvd = some X) :
    ∃ st, bicgMask it.reset K guess L lvd = some st ∧ st.iter.status = .CONVERGED ∧ st.x = X := by
  obtain ⟨st, hst, hdec, _⟩ := C14_bicg_mask it.reset rfl K guess L lvd
  unfold llgSolve at h
  rw [hst] at h
  dsimp only at h
  split at h
  · cases h
  · rename_i hn
    push Not at hn
    refine ⟨st, hst, ?_, Option.some.inj h⟩
    rcases hdec with e | e | e
    · exact e
    · exact absurd e hn.1
    · exact absurd e hn.2.1

/-! ## C16 -/

/-- **C16**: a converged status of `cg_dir` certifies the residual of the returned vector. -/
theorem C16_cg_dir (it : Iter) (tol : ℝ) (ht : it.resmax = .fin tol) (A : Mat n)
    (M : Matrix (Fin n) (Fin n) ℝ) (hA : Represents A M) (hd : DiagStored A)
    (x0 rhs xd : Fin n → ℝ) (ld : List (Fin n)) (st : CState n)
    (h : cgDir it A (lift x0) (lift rhs) (lift xd) ld = some st) (hc : st.iter.status = .CONVERGED) :
    ∃ x, st.x = lift x ∧ freeNorm ld (residual M rhs x) ≤ tol * freeNorm ld (residual M rhs xd) := by
  unfold cgDir at h
  dsimp only at h
  rw [mult_lift hA, sub_lift, applyMask_lift] at h
  obtain ⟨s, hs, rfl⟩ := Option.map_eq_some_iff.mp h
  obtain ⟨x, hx, hle⟩ := cg_converged hA hd (D_masked A ld) it tol ht x0 _
    (maskR_zero ld (rhs - M.mulVec xd)) _ s hs hc
  have e1 : freeNorm ld (maskR ld (rhs - M.mulVec xd) - M.mulVec x) = freeNorm ld (residual M rhs (x + xd)) :=
    freeNorm_mask ld _ _ fun i hi => by
      simp [residual, maskR_free ld _ hi, Matrix.mulVec_add]; ring
  have e2 : freeNorm ld (maskR ld (rhs - M.mulVec xd)) = freeNorm ld (residual M rhs xd) :=
    freeNorm_mask ld _ _ fun i hi => maskR_free ld _ hi
  refine ⟨x + xd, ?_, ?_⟩
  · funext i
    show s.x i + lift xd i = _
    rw [hx]; rfl
  · rw [e1, e2] at hle; exact hle

/-- **C16** without Dirichlet conditions. -/
theorem C16_cg (it : Iter) (tol : ℝ) (ht : it.resmax = .fin tol) (A : Mat n)
    (M : Matrix (Fin n) (Fin n) ℝ) (hA : Represents A M) (hd : DiagStored A) (x0 rhs : Fin n → ℝ)
    (st : CState n) (h : cg it A (lift x0) (lift rhs) = some st) (hc : st.iter.status = .CONVERGED) :
    ∃ x, st.x = lift x ∧ freeNorm [] (residual M rhs x) ≤ tol * freeNorm [] rhs := by
  have h' : loop (cgBody A (diagPrecond A) []) (fuel it)
      (cgInit it A (diagPrecond A) [] (lift x0) (lift rhs)) = some st := h
  exact cg_converged hA hd (by simp) it tol ht x0 rhs (by simp) _ st h' hc

example : ∃ out, cgDir Ex.it Ex2.A (lift 0) (lift Ex2.rhs) (lift Ex2.xd) [1] = some out ∧
    out.iter.status = .CONVERGED ∧ Represents Ex2.A Ex2.M ∧ DiagStored Ex2.A ∧ out.x = lift ![2, 2] :=
  let ⟨out, h1, h2, h3⟩ := Ex2.cg_converges
  ⟨out, h1, h2, Ex2.represents, Ex2.diagStored, h3⟩

/-! ## C17 -/

theorem visits_loop {S : Type} {body : S → Bool × S} {st s out : S} (hv : Visits body st s) {k : ℕ}
    (h : loop body k st = some out) : ∃ k', loop body (k' + 1) s = some out := by
  induction hv with
  | refl =>
    cases k with
    | zero => cases h
    | succ k => exact ⟨k, h⟩
  | next hv hb ih =>
    obtain ⟨k', hk'⟩ := ih
    unfold loop at hk'
    dsimp only at hk'
    rw [hb] at hk'
    cases k' with
    | zero => cases hk'
    | succ k' => exact ⟨k', hk'⟩

/-- **C17**, monitor: a NaN residual is never convergence and sets CANNOT_CONVERGE, whatever the
history of the monitor and the right-hand side norm. -/
theorem C17_monitor (it : Iter) :
    (it.finished .nan).1 = false ∧ (it.finished .nan).2.status = .CANNOT_CONVERGE := finished_nan rfl

/-- **C17**: a BiCGStab solve that has met a NaN residual ends in that iteration with status
CANNOT_CONVERGE. -/
theorem C17_bicg_nan (A : Mat n) (D : Vec n) (ld : List (Fin n)) (st s out : BState n) (k : ℕ)
    (h : loop (bicgBody A D ld) k st = some out) (hv : Visits (bicgBody A D ld) st s)
    (hn : norm s.r = .nan) :
    out.iter.status = .CANNOT_CONVERGE ∧ out.iter.nit = s.iter.nit ∧ out.x = s.x := by
  obtain ⟨k', hk'⟩ := visits_loop hv h
  obtain ⟨o, h1, h2⟩ := bicg_nan A D ld k' s hn
  rw [hk'] at h1
  cases h1
  exact h2

/-- **C17** for the conjugate gradient. -/
theorem C17_cg_nan (A : Mat n) (D : Vec n) (ld : List (Fin n)) (st s out : CState n) (k : ℕ)
    (h : loop (cgBody A D ld) k st = some out) (hv : Visits (cgBody A D ld) st s)
    (hn : norm s.r = .nan) :
    out.iter.status = .CANNOT_CONVERGE ∧ out.iter.nit = s.iter.nit ∧ out.x = s.x := by
  obtain ⟨k', hk'⟩ := visits_loop hv h
  obtain ⟨o, h1, h2⟩ := cg_nan A D ld k' s hn
  rw [hk'] at h1
  cases h1
  exact h2

/-- **C17**: a NaN in the right-hand side outside the mask is reported as CANNOT_CONVERGE by every
solver, and the initial guess is returned (plus the prescribed values). -/
theorem C17_rhs_nan (it : Iter) (A : Mat n) (x rhs xd : Vec n) (ld : List (Fin n)) (i : Fin n)
    (hi : i ∉ ld) (hn : rhs i = .nan) :
    (∃ st, bicgMask it A x rhs ld = some st ∧ st.iter.status = .CANNOT_CONVERGE ∧ st.x = x) ∧
    (∃ st, bicg it A x rhs = some st ∧ st.iter.status = .CANNOT_CONVERGE ∧ st.x = x) ∧
    (∃ st, bicgDir it A x rhs xd ld = some st ∧ st.iter.status = .CANNOT_CONVERGE ∧ st.x = add xd x) ∧
    (∃ st, cgDir it A x rhs xd ld = some st ∧ st.iter.status = .CANNOT_CONVERGE ∧ st.x = add xd x) ∧
    (∃ st, cg it A x rhs = some st ∧ st.iter.status = .CANNOT_CONVERGE ∧ st.x = x) := by
  have key : ∀ (ld' : List (Fin n)) (b : Vec n), i ∉ ld' → b i = .nan →
      norm (applyMask ld' (sub (mult A x) b)) = .nan := by
    intro ld' b hi' hb
    apply norm_of_nan (i := i)
    rw [applyMask_of_not_mem hi']
    show b i - _ = _
    rw [hb, Fl.nan_sub]
  have hb1 : applyMask ld rhs i = .nan := by rw [applyMask_of_not_mem hi, hn]
  have hb2 : applyMask ld (sub (mult A xd) rhs) i = .nan := by
    rw [applyMask_of_not_mem hi]
    show rhs i - _ = _
    rw [hn, Fl.nan_sub]
  have hnil : i ∉ ([] : List (Fin n)) := by simp
  refine ⟨?_, ?_, ?_, ?_, ?_⟩
  · obtain ⟨o, h1, h2, _, h4⟩ := bicg_nan A (applyMask ld (diagPrecond A)) ld _
      (bicgInit it A ld x (applyMask ld rhs)) (key ld _ hi hb1)
    exact ⟨o, h1, h2, h4⟩
  · obtain ⟨o, h1, h2, _, h4⟩ := bicg_nan A (diagPrecond A) [] _ (bicgInit it A [] x rhs) (key [] _ hnil hn)
    exact ⟨o, h1, h2, h4⟩
  · obtain ⟨o, h1, h2, _, h4⟩ := bicg_nan A (applyMask ld (diagPrecond A)) ld _
      (bicgInit it A ld x (applyMask ld (sub (mult A xd) rhs))) (key ld _ hi hb2)
    refine ⟨{ o with x := add xd o.x }, ?_, h2, by show add xd o.x = _; rw [h4]; rfl⟩
    exact congrArg (Option.map _) h1
  · obtain ⟨o, h1, h2, _, h4⟩ := cg_nan A (applyMask ld (diagPrecond A)) ld _
      (cgInit it A (applyMask ld (diagPrecond A)) ld x (applyMask ld (sub (mult A xd) rhs))) (key ld _ hi hb2)
    refine ⟨{ o with x := add xd o.x }, ?_, h2, by show add xd o.x = _; rw [h4]; rfl⟩
    exact congrArg (Option.map _) h1
  · obtain ⟨o, h1, h2, _, h4⟩ := cg_nan A (diagPrecond A) [] _
      (cgInit it A (diagPrecond A) [] x rhs) (key [] _ hnil hn)
    exact ⟨o, h1, h2, h4⟩

/-- a NaN residual is met by the singular system of `C13_negation` -/
example : Visits (bicgBody Ex.A Ex.D [2]) Ex.s0 (bNext Ex.A Ex.D [2] Ex.s0) ∧
    norm (bNext Ex.A Ex.D [2] Ex.s0).r = .nan := by
  constructor
  · have h := Visits.next (body := bicgBody Ex.A Ex.D [2]) Visits.refl (by rw [Ex.body0])
    rw [Ex.body0] at h
    exact h
  · apply norm_of_nan (i := 0)
    show bS Ex.A Ex.D [2] Ex.s0 0 - bT Ex.A Ex.D [2] Ex.s0 0 * bOmega Ex.A Ex.D [2] Ex.s0 = .nan
    rw [Ex.bOmega_eq, Fl.mul_nan, Fl.sub_nan]

end Verif.Krylov
