import Verif.Proofs.Bicg

namespace Verif.Krylov

open Verif

variable {n : ℕ} (A : Mat n) (D : Vec n) (ld : List (Fin n)) (st : CState n)

noncomputable def cIt : Iter := (st.iter.finished (norm st.r)).2
noncomputable def cZ : Vec n := pDirect D st.r
noncomputable def cRho : Fl := if 0 < (cIt st).nit then dot (cZ D st) st.r else st.rho
noncomputable def cP : Vec n :=
  if 0 < (cIt st).nit then add (cZ D st) (scaled (cRho D st / st.rho1) st.p) else st.p
noncomputable def cQ : Vec n := applyMask ld (mult A (cP D st))
noncomputable def cA : Fl := cRho D st / dot (cQ A D ld st) (cP D st)
noncomputable def cX : Vec n := scaledAdd (cP D st) (cA A D ld st) st.x
noncomputable def cR : Vec n := scaledAdd (cQ A D ld st) (-(cA A D ld st)) st.r

noncomputable def cNext : CState n :=
  { iter := (cIt st).incr, x := cX A D ld st, r := cR A D ld st, p := cP D st
    rho := cRho D st, rho1 := cRho D st }

inductive CKind : Bool × CState n → Prop
  | leave (h : (st.iter.finished (norm st.r)).1 = true ∨ (cIt st).status = .ITER_OVERFLOW ∨
      (cIt st).status = .CANNOT_CONVERGE) : CKind (true, { st with iter := cIt st })
  | zero (h : (st.iter.finished (norm st.r)).1 = false) :
      CKind (true, { st with
        iter := { cIt st with status := .CANNOT_CONVERGE }, p := cP D st, rho := cRho D st })
  | next (h : (st.iter.finished (norm st.r)).1 = false) (hs : (cIt st).status ≠ .ITER_OVERFLOW)
      (hs' : (cIt st).status ≠ .CANNOT_CONVERGE) : CKind (false, cNext A D ld st)

theorem cgBody_kind : CKind A D ld st (cgBody A D ld st) := by
  by_cases h : (st.iter.finished (norm st.r)).1 = true ∨ (cIt st).status = .ITER_OVERFLOW ∨
      (cIt st).status = .CANNOT_CONVERGE
  · have e : cgBody A D ld st = (true, { st with iter := cIt st }) := if_pos h
    rw [e]; exact .leave h
  · have h' := h
    push Not at h'
    have hf : (st.iter.finished (norm st.r)).1 = false := by simpa using h'.1
    by_cases hz : (dot (cQ A D ld st) (cP D st)).isZero
    · have e : cgBody A D ld st = (true, { st with
          iter := { cIt st with status := .CANNOT_CONVERGE }, p := cP D st, rho := cRho D st }) :=
        (if_neg h).trans (if_pos hz)
      rw [e]; exact .zero hf
    · have e : cgBody A D ld st = (false, cNext A D ld st) := (if_neg h).trans (if_neg hz)
      rw [e]; exact .next hf h'.2.1 h'.2.2

theorem cIt_nit : (cIt st).nit = st.iter.nit := (finished_spec _ _).nit
theorem cIt_maxiter : (cIt st).maxiter = st.iter.maxiter := (finished_spec _ _).maxiter

theorem cg_next_lt {A : Mat n} {D : Vec n} {ld : List (Fin n)} {st : CState n} (hf : Flagged st.iter)
    (h : (cgBody A D ld st).1 = false) :
    (st.iter.nit = 0 ∨ (st.iter.nit : ℤ) < st.iter.maxiter) ∧ cgBody A D ld st = (false, cNext A D ld st) := by
  have hk := cgBody_kind A D ld st
  generalize he : cgBody A D ld st = r at hk h
  cases hk with
  | leave => cases h
  | zero => cases h
  | next h1 hs hs' =>
    refine ⟨?_, rfl⟩
    rcases hf with g | g | g
    · exact Or.inl g
    · exact Or.inr g
    · exfalso
      rcases finished_bad h1 (Or.inl g) with c | c
      · exact hs c
      · exact hs' c

theorem cflagged_next {A : Mat n} {D : Vec n} {ld : List (Fin n)} {st : CState n} :
    Flagged (cNext A D ld st).iter := by
  by_cases h : ((cIt st).maxiter ≤ (cIt st).nit + 1)
  · exact Or.inr (Or.inr (incr_status _ h))
  · right; left
    show (((cIt st).incr.nit : ℕ) : ℤ) < (cIt st).incr.maxiter
    rw [incr_nit, incr_maxiter]
    push_cast
    omega

theorem cNext_nit : (cNext A D ld st).iter.nit = st.iter.nit + 1 := by
  show (cIt st).incr.nit = _
  rw [incr_nit, cIt_nit]

theorem cNext_maxiter : (cNext A D ld st).iter.maxiter = st.iter.maxiter := by
  show (cIt st).incr.maxiter = _
  rw [incr_maxiter, cIt_maxiter]

theorem cg_loop_some (A : Mat n) (D : Vec n) (ld : List (Fin n)) (k : ℕ) (st : CState n)
    (hf : Flagged st.iter) (hk : (max 1 st.iter.maxiter).toNat + 1 ≤ k + st.iter.nit)
    (hk0 : 0 < k) : ∃ out, loop (cgBody A D ld) k st = some out := by
  induction k generalizing st with
  | zero => omega
  | succ k ih =>
    unfold loop
    dsimp only
    split
    · exact ⟨_, rfl⟩
    · rename_i hb
      obtain ⟨hlt, e⟩ := cg_next_lt hf (by simpa using hb)
      rw [e]
      refine ih _ cflagged_next ?_ ?_
      · rw [cNext_nit, cNext_maxiter]; omega
      · omega

theorem cg_loop_status (A : Mat n) (D : Vec n) (ld : List (Fin n)) (k : ℕ) (st out : CState n)
    (hf : Flagged st.iter) (hn : (st.iter.nit : ℤ) ≤ max 1 st.iter.maxiter)
    (h : loop (cgBody A D ld) k st = some out) :
    out.iter.status ≠ .UNDEFINED ∧ (out.iter.nit : ℤ) ≤ max 1 st.iter.maxiter := by
  have main := loop_inv (cgBody A D ld)
    (fun s => Flagged s.iter ∧ (s.iter.nit : ℤ) ≤ max 1 st.iter.maxiter ∧ s.iter.maxiter = st.iter.maxiter)
    (fun s => s.iter.status ≠ .UNDEFINED ∧ (s.iter.nit : ℤ) ≤ max 1 st.iter.maxiter) ?_ ?_ k st out
    ⟨hf, hn, rfl⟩ h
  · exact main
  · rintro s ⟨h1, h2, h3⟩ hb
    obtain ⟨hlt, e⟩ := cg_next_lt h1 hb
    rw [e]
    refine ⟨cflagged_next, ?_, (cNext_maxiter _ _ _ _).trans h3⟩
    show (((cNext A D ld s).iter.nit : ℕ) : ℤ) ≤ _
    rw [cNext_nit]; push_cast
    rw [h3] at hlt
    omega
  · rintro s ⟨h1, h2, h3⟩ hb
    have hk := cgBody_kind A D ld s
    generalize he : cgBody A D ld s = r at hk hb
    cases hk with
    | leave g =>
      refine ⟨?_, by rw [cIt_nit]; exact h2⟩
      show (cIt s).status ≠ _
      rcases g with g | g | g
      · rcases (finished_spec s.iter (norm s.r)).cases with c | c | c
        · rw [c.2.1] at g; cases g
        · unfold cIt
          rw [c.2.2]; decide
        · rw [c.2.2.1] at g; cases g
      · rw [g]; decide
      · rw [g]; decide
    | zero => exact ⟨by simp, by simpa [cIt_nit] using h2⟩
    | next => cases hb

/-! ## the residual -/

section residual

variable {A D ld}
variable {M : Matrix (Fin n) (Fin n) ℝ} (b : Fin n → ℝ)

structure CGood (M : Matrix (Fin n) (Fin n) ℝ) (ld : List (Fin n)) (b : Fin n → ℝ) (st : CState n) : Prop where
  xr : ∃ x, st.x = lift x ∧ st.r = lift (maskR ld (b - M.mulVec x))
  p : ∀ i ∈ ld, (st.p i).IsFin

def CInv (M : Matrix (Fin n) (Fin n) ℝ) (ld : List (Fin n)) (b : Fin n → ℝ) (tol : ℝ) (st : CState n) : Prop :=
  ((∃ i, ¬ (st.r i).IsFin) ∨ CGood M ld b st) ∧ ∃ t, st.iter.rhsn * st.iter.resmax = .fin t ∧ t = tol

theorem cg_next_inv (hA : Represents A M) (hd : DiagStored A) (hD : ∀ i ∈ ld, D i = 0)
    {i0 : Fin n} (hi0 : i0 ∉ ld) {b : Fin n → ℝ} {st : CState n}
    (hg : (∃ i, ¬ (st.r i).IsFin) ∨ CGood M ld b st) :
    (∃ i, ¬ (cR A D ld st i).IsFin) ∨ CGood M ld b (cNext A D ld st) := by
  by_cases hr : ∃ i, ¬ (cR A D ld st i).IsFin
  · exact Or.inl hr
  · right
    push Not at hr
    have hs' : ∀ i, (st.r i).IsFin ∧ (cA A D ld st).IsFin ∧ (cQ A D ld st i).IsFin := by
      intro i
      have h := hr i
      unfold cR scaledAdd at h
      rw [Fl.isFin_add, Fl.isFin_mul, Fl.isFin_neg] at h
      exact h
    have hgood : CGood M ld b st := by
      rcases hg with ⟨i, hi⟩ | hg
      · exact absurd (hs' i).1 hi
      · exact hg
    have hp0 : (cP D st i0).IsFin := by
      have h := (hs' i0).2.2
      unfold cQ at h
      rw [applyMask_of_not_mem hi0] at h
      exact mult_isFin h (hd i0)
    have hp : ∀ i ∈ ld, (cP D st i).IsFin := by
      intro i hi
      unfold cP at hp0 ⊢
      split at hp0
      · rename_i hn
        rw [if_pos hn]
        unfold add scaled at hp0 ⊢
        rw [Fl.isFin_add, Fl.isFin_mul] at hp0 ⊢
        refine ⟨⟨hgood.p i hi, hp0.1.2⟩, ?_⟩
        unfold cZ pDirect
        rw [Fl.isFin_mul, hD i hi]
        exact ⟨trivial, (hs' i).1⟩
      · rename_i hn
        rw [if_neg hn]
        exact hgood.p i hi
    obtain ⟨φ, e1, e2⟩ := direction hA hd hp (fun i => (hs' i).2.2)
    obtain ⟨x, hx, hr⟩ := hgood.xr
    obtain ⟨c, hc⟩ := Fl.isFin_iff.mp (hs' i0).2.1
    have e2' : cQ A D ld st = lift (maskR ld (M.mulVec φ)) := e2
    refine ⟨⟨fun i => x i + c * φ i, ?_, ?_⟩, hp⟩
    · funext i
      show st.x i + cA A D ld st * cP D st i = _
      rw [hx, hc, e1]
      simp [lift]
    · funext i
      show st.r i + -(cA A D ld st) * cQ A D ld st i = _
      rw [hr, hc, e2']
      simp only [lift, Fl.fin_neg, Fl.fin_mul, Fl.fin_add]
      rw [← residual_update]
      congr 1
      ring

theorem cg_loop_residual (hA : Represents A M) (hd : DiagStored A) (hD : ∀ i ∈ ld, D i = 0)
    {i0 : Fin n} (hi0 : i0 ∉ ld) (b : Fin n → ℝ) (tol : ℝ) (k : ℕ) (st out : CState n)
    (h0 : CInv M ld b tol st) (h : loop (cgBody A D ld) k st = some out)
    (hc : out.iter.status = .CONVERGED) :
    ∃ x, out.x = lift x ∧ freeNorm ld (b - M.mulVec x) ≤ tol := by
  have main := loop_inv (cgBody A D ld) (fun s => CInv M ld b tol s)
    (fun s => s.iter.status = .CONVERGED → ∃ x, s.x = lift x ∧ freeNorm ld (b - M.mulVec x) ≤ tol)
    ?_ ?_ k st out h0 h
  · exact main hc
  · rintro s ⟨hg, t, ht, rfl⟩ hb
    have hk := cgBody_kind A D ld s
    generalize he : cgBody A D ld s = r at hk hb
    cases hk with
    | leave => cases hb
    | zero => cases hb
    | next h1 hs hs' =>
      refine ⟨cg_next_inv hA hd hD hi0 hg, t, ?_, rfl⟩
      show (cIt s).incr.rhsn * (cIt s).incr.resmax = _
      rw [incr_rhsn, incr_resmax]
      unfold cIt
      rw [(finished_spec _ _).rhsn, (finished_spec _ _).resmax]
      exact ht
  · rintro s ⟨hg, t, ht, rfl⟩ hb
    have hk := cgBody_kind A D ld s
    generalize he : cgBody A D ld s = r at hk hb
    cases hk with
    | leave h1 =>
      intro hc
      change (cIt s).status = _ at hc
      have h1' : (s.iter.finished (norm s.r)).1 = true := by
        rcases h1 with h1 | h1 | h1
        · exact h1
        · rw [h1] at hc; cases hc
        · rw [h1] at hc; cases hc
      obtain ⟨y, hy, hle⟩ := finished_true ht h1'
      have hgood : CGood M ld b s := by
        rcases hg with ⟨i, hi⟩ | hg
        · rw [hy] at hi; exact absurd trivial hi
        · exact hg
      obtain ⟨x, hx, hr⟩ := hgood.xr
      refine ⟨x, hx, ?_⟩
      rw [freeNorm_eq]
      have : y = maskR ld (b - M.mulVec x) := by
        funext i
        have := congrFun (hy.symm.trans hr) i
        exact Fl.fin.inj this
      rw [← this]; exact hle
    | zero => intro hc; cases hc
    | next => cases hb

theorem cgInit_inv (hA : Represents A M) (hD : ∀ i ∈ ld, D i = 0) (it : Iter) (tol : ℝ)
    (hres : it.resmax = .fin tol) (x0 b : Fin n → ℝ) :
    CInv M ld b (Real.sqrt (∑ i, b i ^ 2) * tol) (cgInit it A D ld (lift x0) (lift b)) := by
  have hr : (cgInit it A D ld (lift x0) (lift b)).r = lift (maskR ld (b - M.mulVec x0)) := by
    show applyMask ld (sub (mult A (lift x0)) (lift b)) = _
    rw [mult_lift hA, ← applyMask_lift]
    refine congrArg _ (funext fun i => ?_)
    show (Fl.fin _ - Fl.fin _ : Fl) = _
    rw [Fl.fin_sub]
    rfl
  refine ⟨Or.inr ⟨⟨x0, rfl, hr⟩, ?_⟩, _, ?_, rfl⟩
  · intro i hi
    show (D i * (cgInit it A D ld (lift x0) (lift b)).r i).IsFin
    rw [hr, hD i hi]; trivial
  · show norm (lift b) * it.resmax = _
    rw [norm_lift, hres, Fl.fin_mul]

theorem cg_converged (hA : Represents A M) (hd : DiagStored A) (hD : ∀ i ∈ ld, D i = 0)
    (it : Iter) (tol : ℝ) (hres : it.resmax = .fin tol) (x0 b : Fin n → ℝ) (hb : ∀ i ∈ ld, b i = 0)
    (k : ℕ) (out : CState n)
    (h : loop (cgBody A D ld) k (cgInit it A D ld (lift x0) (lift b)) = some out)
    (hc : out.iter.status = .CONVERGED) :
    ∃ x, out.x = lift x ∧ freeNorm ld (b - M.mulVec x) ≤ tol * freeNorm ld b := by
  have hbm : maskR ld b = b := by
    funext i; unfold maskR; split
    · rename_i hi; exact (hb i hi).symm
    · rfl
  by_cases hfree : ∃ i0, i0 ∉ ld
  · obtain ⟨i0, hi0⟩ := hfree
    obtain ⟨x, hx, hle⟩ := cg_loop_residual hA hd hD hi0 b _ k _ out (cgInit_inv hA hD it tol hres x0 b) h hc
    refine ⟨x, hx, ?_⟩
    rw [freeNorm_eq ld b, hbm, mul_comm]
    exact hle
  · push Not at hfree
    obtain ⟨hg, t, ht, htt⟩ := cgInit_inv (ld := ld) hA hD it tol hres x0 b
    have hb0 : b = 0 := funext fun i => hb i (hfree i)
    have hz : ∀ y : Fin n → ℝ, maskR ld y = 0 := fun y => funext fun i => if_pos (hfree i)
    have ht0 : t = 0 := by rw [htt, hb0]; simp
    have hgood : CGood M ld b (cgInit it A D ld (lift x0) (lift b)) := by
      rcases hg with ⟨i, hi⟩ | hg
      · exfalso; apply hi
        show (applyMask ld _ i).IsFin
        rw [applyMask_of_mem (hfree i)]; trivial
      · exact hg
    cases k with
    | zero => cases h
    | succ k =>
      have hfin : ((cgInit it A D ld (lift x0) (lift b)).iter.finished
          (norm (cgInit it A D ld (lift x0) (lift b)).r)).1 = true := by
        obtain ⟨x, hx, hr⟩ := hgood.xr
        have hn : norm (cgInit it A D ld (lift x0) (lift b)).r = .fin 0 := by
          rw [hr, norm_lift, hz]; simp
        rw [hn]
        rcases (finished_spec (cgInit it A D ld (lift x0) (lift b)).iter (.fin 0)).cases with g | g | g
        · cases g.1
        · exact g.2.1
        · exfalso; apply g.2.1
          rw [ht, ht0]
          show |(0:ℝ)| ≤ 0
          simp
      have e : cgBody A D ld (cgInit it A D ld (lift x0) (lift b)) =
          (true, { cgInit it A D ld (lift x0) (lift b) with iter := cIt (cgInit it A D ld (lift x0) (lift b)) }) :=
        if_pos (Or.inl hfin)
      unfold loop at h
      dsimp only at h
      rw [e] at h
      simp only [if_true, Option.some.injEq] at h
      refine ⟨x0, by rw [← h]; rfl, ?_⟩
      rw [freeNorm_eq, freeNorm_eq, hz, hz]; simp

end residual

/-- masked entries of `x` keep their value or become NaN -/
theorem cg_masked (A : Mat n) (D : Vec n) (ld : List (Fin n)) (hD : ∀ i ∈ ld, D i = 0) (k : ℕ)
    (st out : CState n) (x0 : Fin n → ℝ) (i : Fin n) (hi : i ∈ ld) (h0 : st.x i = .fin (x0 i))
    (hp0 : st.p i = 0 ∨ st.p i = .nan)
    (h : loop (cgBody A D ld) k st = some out) : out.x i = .fin (x0 i) ∨ out.x i = .nan := by
  have updp : ∀ (q c y : Fl), (y = 0 ∨ y = .nan) → (y * c + D i * q = 0 ∨ y * c + D i * q = .nan) := by
    intro q c y hy
    rw [hD i hi]
    have h1 : y * c = 0 ∨ y * c = .nan := by
      rcases hy with rfl | rfl
      · exact Fl.zero_mul' c
      · right; simp
    rcases h1 with e | e <;> rw [e]
    · rcases Fl.zero_mul' q with e' | e' <;> rw [e']
      · left; rw [Fl.zero_eq, Fl.fin_add, add_zero]
      · right; simp
    · right; simp
  have upd : ∀ (a p y : Fl), (y = .fin (x0 i) ∨ y = .nan) → (p = 0 ∨ p = .nan) →
      (y + a * p = .fin (x0 i) ∨ y + a * p = .nan) := by
    intro a p y hy hp
    have : a * p = 0 ∨ a * p = .nan := by
      rcases hp with rfl | rfl
      · exact Fl.mul_zero' a
      · right; simp
    rcases hy with rfl | rfl
    · rcases this with e | e
      · left; rw [e, Fl.zero_eq, Fl.fin_add, add_zero]
      · right; rw [e]; simp
    · right; simp
  have hP : ∀ s : CState n, (s.p i = 0 ∨ s.p i = .nan) → (cP D s i = 0 ∨ cP D s i = .nan) := by
    intro s hs
    unfold cP
    split
    · exact updp _ _ _ hs
    · exact hs
  refine loop_inv (cgBody A D ld)
    (fun s => (s.x i = .fin (x0 i) ∨ s.x i = .nan) ∧ (s.p i = 0 ∨ s.p i = .nan))
    (fun s => s.x i = .fin (x0 i) ∨ s.x i = .nan)
    ?_ ?_ k st out ⟨Or.inl h0, hp0⟩ h
  · rintro s ⟨hx, hp⟩ hb
    have hk := cgBody_kind A D ld s
    generalize he : cgBody A D ld s = r at hk hb
    cases hk with
    | leave => cases hb
    | zero => cases hb
    | next => exact ⟨upd _ _ _ hx (hP s hp), hP s hp⟩
  · rintro s ⟨hx, hp⟩ hb
    have hk := cgBody_kind A D ld s
    generalize he : cgBody A D ld s = r at hk hb
    cases hk with
    | leave => exact hx
    | zero => exact hx
    | next => cases hb

theorem cg_nan (A : Mat n) (D : Vec n) (ld : List (Fin n)) (k : ℕ) (st : CState n)
    (h : norm st.r = .nan) : ∃ out, loop (cgBody A D ld) (k + 1) st = some out ∧
      out.iter.status = .CANNOT_CONVERGE ∧ out.iter.nit = st.iter.nit ∧ out.x = st.x := by
  have h1 := finished_nan (it := st.iter) h
  have hk := cgBody_kind A D ld st
  unfold loop
  dsimp only
  generalize he : cgBody A D ld st = r at hk
  cases hk with
  | leave g => exact ⟨_, rfl, h1.2, cIt_nit st, rfl⟩
  | zero => exact ⟨_, rfl, rfl, cIt_nit st, rfl⟩
  | next g g2 hs' => exact absurd h1.2 hs'

end Verif.Krylov
