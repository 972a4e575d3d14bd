import Verif.Proofs.Krylov

namespace Verif.Krylov

open Verif

variable {n : ℕ} (A : Mat n) (D : Vec n) (ld : List (Fin n)) (st : BState n)

/-! ## names for the intermediate values of one iteration -/

noncomputable def bRho1 : Fl := dot st.rt st.r
noncomputable def bBeta : Fl := (bRho1 st / st.rho2) * (st.alpha / st.omega)
noncomputable def bIt1 : Iter := (st.iter.finished (norm st.r)).2
noncomputable def bP : Vec n :=
  if 0 < (bIt1 st).nit then add st.r (scaled (bBeta st) (sub (scaled st.omega st.v) st.p)) else st.p
noncomputable def bPhat : Vec n := pDirect D (bP st)
noncomputable def bV : Vec n := applyMask ld (mult A (bPhat D st))
noncomputable def bAlpha : Fl := bRho1 st / dot (bV A D ld st) st.rt
noncomputable def bS : Vec n := scaledAdd (bV A D ld st) (-(bAlpha A D ld st)) st.r
noncomputable def bIt2 : Iter := ((bIt1 st).finished (norm (bS A D ld st))).2
noncomputable def bShat : Vec n := pDirect D (bS A D ld st)
noncomputable def bT : Vec n := applyMask ld (mult A (bShat A D ld st))
noncomputable def bOmega : Fl := dot (bT A D ld st) (bS A D ld st) / dot (bT A D ld st) (bT A D ld st)
noncomputable def bX1 : Vec n := scaledAdd (bPhat D st) (bAlpha A D ld st) st.x
noncomputable def bX2 : Vec n := scaledAdd (bShat A D ld st) (bOmega A D ld st) (bX1 A D ld st)
noncomputable def bR : Vec n := sub (scaled (bOmega A D ld st) (bT A D ld st)) (bS A D ld st)

/-- the state after a complete iteration -/
noncomputable def bNext : BState n :=
  { iter := (bIt2 A D ld st).incr, x := bX2 A D ld st, r := bR A D ld st, rt := st.rt, p := bP st
    v := bV A D ld st, rho2 := bRho1 st, alpha := bAlpha A D ld st, omega := bOmega A D ld st }

/-- the five ways through the body -/
inductive BKind : Bool × BState n → Prop
  | conv1 (h : (st.iter.finished (norm st.r)).1 = true) : BKind (true, { st with iter := bIt1 st })
  | zero (h : (st.iter.finished (norm st.r)).1 = false) (hn : 0 < (bIt1 st).nit)
      (hz : st.rho2.isZero ∨ st.omega.isZero) :
      BKind (true, { st with iter := { bIt1 st with status := .CANNOT_CONVERGE } })
  | conv2 (h : (st.iter.finished (norm st.r)).1 = false)
      (h2 : ((bIt1 st).finished (norm (bS A D ld st))).1 = true) :
      BKind (true, { st with
        iter := bIt2 A D ld st, x := bX1 A D ld st, p := bP st, v := bV A D ld st
        alpha := bAlpha A D ld st })
  | stop (h : (st.iter.finished (norm st.r)).1 = false)
      (h2 : ((bIt1 st).finished (norm (bS A D ld st))).1 = false)
      (hs : (bIt2 A D ld st).status = .ITER_OVERFLOW ∨ (bIt2 A D ld st).status = .CANNOT_CONVERGE) :
      BKind (true, { st with
        iter := bIt2 A D ld st, p := bP st, v := bV A D ld st, alpha := bAlpha A D ld st })
  | next (h : (st.iter.finished (norm st.r)).1 = false)
      (h2 : ((bIt1 st).finished (norm (bS A D ld st))).1 = false)
      (hs : ¬ ((bIt2 A D ld st).status = .ITER_OVERFLOW ∨ (bIt2 A D ld st).status = .CANNOT_CONVERGE)) :
      BKind (false, bNext A D ld st)

theorem bicgBody_kind : BKind A D ld st (bicgBody A D ld st) := by
  by_cases h : (st.iter.finished (norm st.r)).1 = true
  · have e : bicgBody A D ld st = (true, { st with iter := bIt1 st }) := if_pos h
    rw [e]; exact .conv1 h
  · have h' : (st.iter.finished (norm st.r)).1 = false := by simpa using h
    by_cases hz : 0 < (bIt1 st).nit ∧ (st.rho2.isZero ∨ st.omega.isZero)
    · have e : bicgBody A D ld st =
          (true, { st with iter := { bIt1 st with status := .CANNOT_CONVERGE } }) :=
        (if_neg h).trans (if_pos hz)
      rw [e]; exact .zero h' hz.1 hz.2
    · by_cases h2 : ((bIt1 st).finished (norm (bS A D ld st))).1 = true
      · have e : bicgBody A D ld st = (true, { st with
            iter := bIt2 A D ld st, x := bX1 A D ld st, p := bP st, v := bV A D ld st
            alpha := bAlpha A D ld st }) :=
          (if_neg h).trans ((if_neg hz).trans (if_pos h2))
        rw [e]; exact .conv2 h' h2
      · have h2' : ((bIt1 st).finished (norm (bS A D ld st))).1 = false := by simpa using h2
        by_cases hs : (bIt2 A D ld st).status = .ITER_OVERFLOW ∨ (bIt2 A D ld st).status = .CANNOT_CONVERGE
        · have e : bicgBody A D ld st = (true, { st with
              iter := bIt2 A D ld st, p := bP st, v := bV A D ld st, alpha := bAlpha A D ld st }) :=
            (if_neg h).trans ((if_neg hz).trans ((if_neg h2).trans (if_pos hs)))
          rw [e]; exact .stop h' h2' hs
        · have e : bicgBody A D ld st = (false, bNext A D ld st) :=
            (if_neg h).trans ((if_neg hz).trans ((if_neg h2).trans (if_neg hs)))
          rw [e]; exact .next h' h2' hs

/-! ## termination and status -/

theorem bIt1_nit : (bIt1 st).nit = st.iter.nit := (finished_spec _ _).nit
theorem bIt1_maxiter : (bIt1 st).maxiter = st.iter.maxiter := (finished_spec _ _).maxiter
theorem bIt2_nit : (bIt2 A D ld st).nit = st.iter.nit := (finished_spec _ _).nit.trans (bIt1_nit st)
theorem bIt2_maxiter : (bIt2 A D ld st).maxiter = st.iter.maxiter :=
  (finished_spec _ _).maxiter.trans (bIt1_maxiter st)

theorem incr_nit (it : Iter) : it.incr.nit = it.nit + 1 := by
  unfold Iter.incr; dsimp only; split <;> rfl

theorem incr_maxiter (it : Iter) : it.incr.maxiter = it.maxiter := by
  unfold Iter.incr; dsimp only; split <;> rfl

theorem incr_rhsn (it : Iter) : it.incr.rhsn = it.rhsn := by
  unfold Iter.incr; dsimp only; split <;> rfl

theorem incr_resmax (it : Iter) : it.incr.resmax = it.resmax := by
  unfold Iter.incr; dsimp only; split <;> rfl

theorem incr_status (it : Iter) (h : it.maxiter ≤ it.nit + 1) : it.incr.status = .ITER_OVERFLOW := by
  unfold Iter.incr
  have h' : it.maxiter ≤ ((it.nit + 1 : ℕ) : ℤ) := by push_cast; exact h
  dsimp only
  rw [if_pos h']

theorem finished_bad {it : Iter} {nr : Fl} (h : (it.finished nr).1 = false)
    (hs : it.status = .ITER_OVERFLOW ∨ it.status = .CANNOT_CONVERGE) :
    (it.finished nr).2.status = .ITER_OVERFLOW ∨ (it.finished nr).2.status = .CANNOT_CONVERGE := by
  rcases (finished_spec it nr).cases with g | g | g
  · exact Or.inr g.2.2
  · rw [g.2.1] at h; cases h
  · rw [g.2.2.2]; exact hs

/-- a state whose counter has reached the limit is flagged -/
def Flagged (it : Iter) : Prop :=
  it.nit = 0 ∨ it.nit < it.maxiter ∨ it.status = .ITER_OVERFLOW

theorem bicg_next_lt {A : Mat n} {D : Vec n} {ld : List (Fin n)} {st : BState n} (hf : Flagged st.iter)
    (h : (bicgBody A D ld st).1 = false) :
    (st.iter.nit = 0 ∨ (st.iter.nit : ℤ) < st.iter.maxiter) ∧ bicgBody A D ld st = (false, bNext A D ld st) := by
  have hk := bicgBody_kind A D ld st
  generalize he : bicgBody A D ld st = r at hk h
  cases hk with
  | conv1 => cases h
  | zero => cases h
  | conv2 => cases h
  | stop => cases h
  | next h1 h2 hs =>
    refine ⟨?_, rfl⟩
    rcases hf with g | g | g
    · exact Or.inl g
    · exact Or.inr g
    · exfalso
      exact hs (finished_bad h2 (finished_bad h1 (Or.inl g)))

theorem flagged_next {A : Mat n} {D : Vec n} {ld : List (Fin n)} {st : BState n} :
    Flagged (bNext A D ld st).iter := by
  by_cases h : ((bIt2 A D ld st).maxiter ≤ (bIt2 A D ld st).nit + 1)
  · exact Or.inr (Or.inr (incr_status _ h))
  · right; left
    show (((bIt2 A D ld st).incr.nit : ℕ) : ℤ) < (bIt2 A D ld st).incr.maxiter
    rw [incr_nit, incr_maxiter]
    push_cast
    omega

theorem bicg_loop_some (A : Mat n) (D : Vec n) (ld : List (Fin n)) (k : ℕ) (st : BState n)
    (hf : Flagged st.iter) (hk : (max 1 st.iter.maxiter).toNat + 1 ≤ k + st.iter.nit)
    (hk0 : 0 < k) : ∃ out, loop (bicgBody A D ld) k st = some out := by
  induction k generalizing st with
  | zero => omega
  | succ k ih =>
    unfold loop
    dsimp only
    split
    · exact ⟨_, rfl⟩
    · rename_i hb
      obtain ⟨hlt, e⟩ := bicg_next_lt hf (by simpa using hb)
      rw [e]
      have hn : (bNext A D ld st).iter.nit = st.iter.nit + 1 := by
        show (bIt2 A D ld st).incr.nit = _
        rw [incr_nit, bIt2_nit]
      have hm : (bNext A D ld st).iter.maxiter = st.iter.maxiter := by
        show (bIt2 A D ld st).incr.maxiter = _
        rw [incr_maxiter, bIt2_maxiter]
      refine ih _ flagged_next ?_ ?_
      · rw [hn, hm]; omega
      · omega

/-- final status and iteration count -/
theorem bicg_loop_status (A : Mat n) (D : Vec n) (ld : List (Fin n)) (k : ℕ) (st out : BState n)
    (hf : Flagged st.iter) (hn : (st.iter.nit : ℤ) ≤ max 1 st.iter.maxiter)
    (h : loop (bicgBody A D ld) k st = some out) :
    out.iter.status ≠ .UNDEFINED ∧ (out.iter.nit : ℤ) ≤ max 1 st.iter.maxiter := by
  have main := loop_inv (bicgBody A D ld)
    (fun s => Flagged s.iter ∧ (s.iter.nit : ℤ) ≤ max 1 st.iter.maxiter ∧ s.iter.maxiter = st.iter.maxiter)
    (fun s => s.iter.status ≠ .UNDEFINED ∧ (s.iter.nit : ℤ) ≤ max 1 st.iter.maxiter) ?_ ?_ k st out
    ⟨hf, hn, rfl⟩ h
  · exact main
  · rintro s ⟨h1, h2, h3⟩ hb
    obtain ⟨hlt, e⟩ := bicg_next_lt h1 hb
    rw [e]
    have hn' : (bNext A D ld s).iter.nit = s.iter.nit + 1 := by
      show (bIt2 A D ld s).incr.nit = _
      rw [incr_nit, bIt2_nit]
    have hm' : (bNext A D ld s).iter.maxiter = s.iter.maxiter := by
      show (bIt2 A D ld s).incr.maxiter = _
      rw [incr_maxiter, bIt2_maxiter]
    refine ⟨flagged_next, ?_, hm'.trans h3⟩
    show (((bNext A D ld s).iter.nit : ℕ) : ℤ) ≤ _
    rw [hn']; push_cast
    rw [h3] at hlt
    omega
  · rintro s ⟨h1, h2, h3⟩ hb
    have hk := bicgBody_kind A D ld s
    generalize he : bicgBody A D ld s = r at hk hb
    cases hk with
    | conv1 g =>
      refine ⟨?_, by rw [bIt1_nit]; exact h2⟩
      rcases (finished_spec s.iter (norm s.r)).cases with c | c | c
      · rw [c.2.1] at g; cases g
      · show (bIt1 s).status ≠ _
        unfold bIt1
        rw [c.2.2]; decide
      · rw [c.2.2.1] at g; cases g
    | zero => exact ⟨by simp, by simpa [bIt1_nit] using h2⟩
    | conv2 g g2 =>
      refine ⟨?_, by rw [bIt2_nit]; exact h2⟩
      rcases (finished_spec (bIt1 s) (norm (bS A D ld s))).cases with c | c | c
      · rw [c.2.1] at g2; cases g2
      · show (bIt2 A D ld s).status ≠ _
        unfold bIt2
        rw [c.2.2]; decide
      · rw [c.2.2.1] at g2; cases g2
    | stop g g2 hs =>
      refine ⟨?_, by rw [bIt2_nit]; exact h2⟩
      show (bIt2 A D ld s).status ≠ _
      rcases hs with hs | hs <;> rw [hs] <;> decide
    | next => cases hb

/-! ## the residual -/

section residual

variable {A D ld}
variable {M : Matrix (Fin n) (Fin n) ℝ} (b : Fin n → ℝ)

/-- a state free of infinities whose `r` is the residual of its `x` -/
structure BGood (M : Matrix (Fin n) (Fin n) ℝ) (ld : List (Fin n)) (b : Fin n → ℝ) (st : BState n) : Prop where
  xr : ∃ x, st.x = lift x ∧ st.r = lift (maskR ld (b - M.mulVec x))
  p : ∀ i ∈ ld, (st.p i).IsFin
  v : ∀ i ∈ ld, (st.v i).IsFin

def BInv (M : Matrix (Fin n) (Fin n) ℝ) (ld : List (Fin n)) (b : Fin n → ℝ) (tol : ℝ) (st : BState n) : Prop :=
  ((∃ i, ¬ (st.r i).IsFin) ∨ BGood M ld b st) ∧ ∃ t, st.iter.rhsn * st.iter.resmax = .fin t ∧ t = tol

theorem residual_update (M : Matrix (Fin n) (Fin n) ℝ) (ld : List (Fin n)) (b x φ : Fin n → ℝ) (c : ℝ) (i : Fin n) :
    maskR ld (b - M.mulVec x) i - c * maskR ld (M.mulVec φ) i =
      maskR ld (b - M.mulVec (fun i => x i + c * φ i)) i := by
  have : M.mulVec (fun i => x i + c * φ i) = M.mulVec x + c • M.mulVec φ := by
    rw [← Matrix.mulVec_smul, ← Matrix.mulVec_add]; rfl
  rw [this]
  unfold maskR
  split
  · simp
  · simp; ring

/-- first half of the iteration, when `s` is finite -/
theorem bicg_half (hA : Represents A M) (hd : DiagStored A) (hD : ∀ i ∈ ld, D i = 0)
    {i0 : Fin n} (hi0 : i0 ∉ ld) {b : Fin n → ℝ} {st : BState n}
    (hg : (∃ i, ¬ (st.r i).IsFin) ∨ BGood M ld b st) (hs : ∀ i, (bS A D ld st i).IsFin) :
    (∃ x, bX1 A D ld st = lift x ∧ bS A D ld st = lift (maskR ld (b - M.mulVec x))) ∧
    (∀ i ∈ ld, (bP st i).IsFin) := by
  have hs' : ∀ i, (st.r i).IsFin ∧ (bAlpha A D ld st).IsFin ∧ (bV A D ld st i).IsFin := by
    intro i
    have h := hs i
    unfold bS scaledAdd at h
    rw [Fl.isFin_add, Fl.isFin_mul, Fl.isFin_neg] at h
    exact h
  have hgood : BGood M ld b st := by
    rcases hg with ⟨i, hi⟩ | hg
    · exact absurd (hs' i).1 hi
    · exact hg
  -- the new p is finite on the masked rows
  have hphat0 : (bPhat D st i0).IsFin := by
    have h := (hs' i0).2.2
    unfold bV at h
    rw [applyMask_of_not_mem hi0] at h
    exact mult_isFin h (hd i0)
  have hp0 : (bP st i0).IsFin := by
    unfold bPhat pDirect at hphat0
    exact (Fl.isFin_mul.mp hphat0).2
  have hp : ∀ i ∈ ld, (bP st i).IsFin := by
    intro i hi
    unfold bP at hp0 ⊢
    split at hp0
    · rename_i hn
      rw [if_pos hn]
      unfold add scaled sub at hp0 ⊢
      rw [Fl.isFin_add, Fl.isFin_mul, Fl.isFin_sub, Fl.isFin_mul] at hp0 ⊢
      exact ⟨⟨⟨hgood.p i hi, hgood.v i hi, hp0.1.1.2.2⟩, hp0.1.2⟩, (hs' i).1⟩
    · rename_i hn
      rw [if_neg hn]
      exact hgood.p i hi
  have hphat : ∀ i ∈ ld, (bPhat D st i).IsFin := by
    intro i hi
    unfold bPhat pDirect
    rw [Fl.isFin_mul, hD i hi]
    exact ⟨trivial, hp i hi⟩
  obtain ⟨φ, e1, e2⟩ := direction hA hd hphat (fun i => (hs' i).2.2)
  obtain ⟨x, hx, hr⟩ := hgood.xr
  obtain ⟨c, hc⟩ := Fl.isFin_iff.mp (hs' i0).2.1
  refine ⟨⟨fun i => x i + c * φ i, ?_, ?_⟩, hp⟩
  · funext i
    show st.x i + bAlpha A D ld st * bPhat D st i = _
    rw [hx, hc, e1]
    simp [lift]
  · funext i
    show st.r i + -(bAlpha A D ld st) * bV A D ld st i = _
    have e2' : bV A D ld st = lift (maskR ld (M.mulVec φ)) := e2
    rw [hr, hc, e2']
    simp only [lift, Fl.fin_neg, Fl.fin_mul, Fl.fin_add]
    rw [← residual_update]
    congr 1
    ring

theorem bicg_next_inv (hA : Represents A M) (hd : DiagStored A) (hD : ∀ i ∈ ld, D i = 0)
    {i0 : Fin n} (hi0 : i0 ∉ ld) {b : Fin n → ℝ} {st : BState n}
    (hg : (∃ i, ¬ (st.r i).IsFin) ∨ BGood M ld b st) :
    (∃ i, ¬ (bR A D ld st i).IsFin) ∨ BGood M ld b (bNext A D ld st) := by
  by_cases hr : ∃ i, ¬ (bR A D ld st i).IsFin
  · exact Or.inl hr
  · right
    push Not at hr
    have hr' : ∀ i, (bS A D ld st i).IsFin ∧ (bT A D ld st i).IsFin ∧ (bOmega A D ld st).IsFin := by
      intro i
      have h := hr i
      unfold bR sub scaled at h
      rw [Fl.isFin_sub, Fl.isFin_mul] at h
      exact h
    obtain ⟨⟨x, hx, hs⟩, hp⟩ := bicg_half hA hd hD hi0 hg (fun i => (hr' i).1)
    have hshat : ∀ i ∈ ld, (bShat A D ld st i).IsFin := by
      intro i hi
      unfold bShat pDirect
      rw [Fl.isFin_mul, hD i hi]
      exact ⟨trivial, (hr' i).1⟩
    obtain ⟨φ, e1, e2⟩ := direction hA hd hshat (fun i => (hr' i).2.1)
    obtain ⟨c, hc⟩ := Fl.isFin_iff.mp (hr' i0).2.2
    have e2' : bT A D ld st = lift (maskR ld (M.mulVec φ)) := e2
    refine ⟨⟨fun i => x i + c * φ i, ?_, ?_⟩, hp, ?_⟩
    · funext i
      show bX1 A D ld st i + bOmega A D ld st * bShat A D ld st i = _
      rw [hx, hc, e1]
      simp [lift]
    · funext i
      show bS A D ld st i - bT A D ld st i * bOmega A D ld st = _
      rw [hs, hc, e2']
      simp only [lift, Fl.fin_sub, Fl.fin_mul]
      rw [← residual_update]
      congr 1
      ring
    · intro i hi
      show (applyMask ld _ i).IsFin
      rw [applyMask_of_mem hi]; trivial

theorem bicg_loop_residual (hA : Represents A M) (hd : DiagStored A) (hD : ∀ i ∈ ld, D i = 0)
    {i0 : Fin n} (hi0 : i0 ∉ ld) (b : Fin n → ℝ) (tol : ℝ) (k : ℕ) (st out : BState n)
    (h0 : BInv M ld b tol st) (h : loop (bicgBody A D ld) k st = some out)
    (hc : out.iter.status = .CONVERGED) :
    ∃ x, out.x = lift x ∧ freeNorm ld (b - M.mulVec x) ≤ tol ∧
      out.iter.res = .fin (freeNorm ld (b - M.mulVec x)) := by
  have main := loop_inv (bicgBody A D ld) (BInv M ld b tol)
    (fun s => s.iter.status = .CONVERGED → ∃ x, s.x = lift x ∧ freeNorm ld (b - M.mulVec x) ≤ tol ∧
      s.iter.res = .fin (freeNorm ld (b - M.mulVec x)))
    ?_ ?_ k st out h0 h
  · exact main hc
  · rintro s ⟨hg, t, ht, rfl⟩ hb
    have hk := bicgBody_kind A D ld s
    generalize he : bicgBody A D ld s = r at hk hb
    cases hk with
    | conv1 => cases hb
    | zero => cases hb
    | conv2 => cases hb
    | stop => cases hb
    | next h1 h2 hs =>
      refine ⟨bicg_next_inv hA hd hD hi0 hg, t, ?_, rfl⟩
      show (bIt2 A D ld s).incr.rhsn * (bIt2 A D ld s).incr.resmax = _
      rw [incr_rhsn, incr_resmax]
      unfold bIt2 bIt1
      rw [(finished_spec _ _).rhsn, (finished_spec _ _).resmax, (finished_spec _ _).rhsn,
        (finished_spec _ _).resmax]
      exact ht
  · rintro s ⟨hg, t, ht, rfl⟩ hb
    have hk := bicgBody_kind A D ld s
    generalize he : bicgBody A D ld s = r at hk hb
    cases hk with
    | conv1 h1 =>
      intro _
      obtain ⟨y, hy, hle⟩ := finished_true ht h1
      have hgood : BGood M ld b s := by
        rcases hg with ⟨i, hi⟩ | hg
        · rw [hy] at hi; exact absurd trivial hi
        · exact hg
      obtain ⟨x, hx, hr⟩ := hgood.xr
      refine ⟨x, hx, ?_, ?_⟩
      · rw [freeNorm_eq]
        have : y = maskR ld (b - M.mulVec x) := by
          funext i
          have := congrFun (hy.symm.trans hr) i
          exact Fl.fin.inj this
        rw [← this]; exact hle
      · show (bIt1 s).res = _
        unfold bIt1
        rw [(finished_spec _ _).res, norm_abs, hr, norm_lift, freeNorm_eq]
    | zero => intro hc; cases hc
    | conv2 h1 h2 =>
      intro _
      have ht' : (bIt1 s).rhsn * (bIt1 s).resmax = .fin t := by
        unfold bIt1
        rw [(finished_spec _ _).rhsn, (finished_spec _ _).resmax]
        exact ht
      obtain ⟨y, hy, hle⟩ := finished_true ht' h2
      obtain ⟨⟨x, hx, hr⟩, _⟩ := bicg_half hA hd hD hi0 hg (fun i => by rw [hy]; trivial)
      refine ⟨x, hx, ?_, ?_⟩
      · rw [freeNorm_eq]
        have : y = maskR ld (b - M.mulVec x) := by
          funext i
          have := congrFun (hy.symm.trans hr) i
          exact Fl.fin.inj this
        rw [← this]; exact hle
      · show (bIt2 A D ld s).res = _
        unfold bIt2
        rw [(finished_spec _ _).res, norm_abs, hr, norm_lift, freeNorm_eq]
    | stop h1 h2 hs =>
      intro hc
      change (bIt2 A D ld s).status = _ at hc
      rcases hs with hs | hs <;> rw [hs] at hc <;> cases hc
    | next => cases hb

theorem bicgInit_inv (hA : Represents A M) (it : Iter) (tol : ℝ) (hres : it.resmax = .fin tol)
    (x0 b : Fin n → ℝ) :
    BInv M ld b (Real.sqrt (∑ i, b i ^ 2) * tol) (bicgInit it A ld (lift x0) (lift b)) := by
  have hr : (bicgInit it A ld (lift x0) (lift b)).r = lift (maskR ld (b - M.mulVec x0)) := by
    show applyMask ld (sub (mult A (lift x0)) (lift b)) = _
    rw [mult_lift hA, ← applyMask_lift]
    refine congrArg _ (funext fun i => ?_)
    show (Fl.fin _ - Fl.fin _ : Fl) = _
    rw [Fl.fin_sub]
    rfl
  refine ⟨Or.inr ⟨⟨x0, rfl, hr⟩, ?_, ?_⟩, _, ?_, rfl⟩
  · intro i hi
    show ((bicgInit it A ld (lift x0) (lift b)).r i).IsFin
    rw [hr]; trivial
  · intro i hi
    show (mult A (lift x0) i).IsFin
    rw [mult_lift hA]; trivial
  · show norm (lift b) * it.resmax = _
    rw [norm_lift, hres, Fl.fin_mul]

/-- convergence of the loop started on `M x = b` -/
theorem bicg_converged (hA : Represents A M) (hd : DiagStored A) (hD : ∀ i ∈ ld, D i = 0)
    (it : Iter) (tol : ℝ) (hres : it.resmax = .fin tol) (x0 b : Fin n → ℝ) (hb : ∀ i ∈ ld, b i = 0)
    (k : ℕ) (out : BState n)
    (h : loop (bicgBody A D ld) k (bicgInit it A ld (lift x0) (lift b)) = some out)
    (hc : out.iter.status = .CONVERGED) :
    ∃ x, out.x = lift x ∧ freeNorm ld (b - M.mulVec x) ≤ tol * freeNorm ld b ∧
      out.iter.res = .fin (freeNorm ld (b - M.mulVec x)) := by
  have hbm : maskR ld b = b := by
    funext i; unfold maskR; split
    · rename_i hi; exact (hb i hi).symm
    · rfl
  by_cases hfree : ∃ i0, i0 ∉ ld
  · obtain ⟨i0, hi0⟩ := hfree
    obtain ⟨x, hx, hle, hr⟩ := bicg_loop_residual hA hd hD hi0 b _ k _ out (bicgInit_inv hA it tol hres x0 b) h hc
    refine ⟨x, hx, ?_, hr⟩
    rw [freeNorm_eq ld b, hbm, mul_comm]
    exact hle
  · -- nothing to solve
    push Not at hfree
    obtain ⟨hg, t, ht, htt⟩ := bicgInit_inv (ld := ld) hA it tol hres x0 b
    have hb0 : b = 0 := funext fun i => hb i (hfree i)
    have hz : ∀ y : Fin n → ℝ, maskR ld y = 0 := fun y => funext fun i => if_pos (hfree i)
    have ht0 : t = 0 := by rw [htt, hb0]; simp
    have hgood : BGood M ld b (bicgInit it A ld (lift x0) (lift b)) := by
      rcases hg with ⟨i, hi⟩ | hg
      · exfalso; apply hi
        show (applyMask ld _ i).IsFin
        rw [applyMask_of_mem (hfree i)]; trivial
      · exact hg
    cases k with
    | zero => cases h
    | succ k =>
      have hk := bicgBody_kind A D ld (bicgInit it A ld (lift x0) (lift b))
      have hfin : ((bicgInit it A ld (lift x0) (lift b)).iter.finished
          (norm (bicgInit it A ld (lift x0) (lift b)).r)).1 = true := by
        obtain ⟨x, hx, hr⟩ := hgood.xr
        have hn : norm (bicgInit it A ld (lift x0) (lift b)).r = .fin 0 := by
          rw [hr, norm_lift, hz]; simp
        rw [hn]
        rcases (finished_spec (bicgInit it A ld (lift x0) (lift b)).iter (.fin 0)).cases with g | g | g
        · cases g.1
        · exact g.2.1
        · exfalso; apply g.2.1
          rw [ht, ht0]
          show |(0:ℝ)| ≤ 0
          simp
      have e : bicgBody A D ld (bicgInit it A ld (lift x0) (lift b)) =
          (true, { bicgInit it A ld (lift x0) (lift b) with iter := bIt1 (bicgInit it A ld (lift x0) (lift b)) }) :=
        if_pos hfin
      unfold loop at h
      dsimp only at h
      rw [e] at h
      simp only [if_true, Option.some.injEq] at h
      refine ⟨x0, by rw [← h]; rfl, ?_, ?_⟩
      · rw [freeNorm_eq, freeNorm_eq, hz, hz]; simp
      · rw [← h]
        show (bIt1 _).res = _
        unfold bIt1
        obtain ⟨x, hx, hr⟩ := hgood.xr
        rw [(finished_spec _ _).res, norm_abs, hr, norm_lift, freeNorm_eq, hz, hz]

end residual

/-! ## masked entries -/

/-- masked entries of `x` keep their value or become NaN -/
theorem bicg_masked (A : Mat n) (D : Vec n) (ld : List (Fin n)) (hD : ∀ i ∈ ld, D i = 0) (k : ℕ)
    (st out : BState n) (x0 : Fin n → ℝ) (i : Fin n) (hi : i ∈ ld) (h0 : st.x i = .fin (x0 i))
    (h : loop (bicgBody A D ld) k st = some out) : out.x i = .fin (x0 i) ∨ out.x i = .nan := by
  have upd : ∀ (a q y : Fl), (y = .fin (x0 i) ∨ y = .nan) →
      (y + a * (D i * q) = .fin (x0 i) ∨ y + a * (D i * q) = .nan) := by
    intro a q y hy
    rw [hD i hi]
    have : a * ((0 : Fl) * q) = 0 ∨ a * ((0 : Fl) * q) = .nan := by
      rcases Fl.zero_mul' q with e | e
      · rw [e]; exact Fl.mul_zero' a
      · rw [e]; right; simp
    rcases hy with rfl | rfl
    · rcases this with e | e
      · left; rw [e, Fl.zero_eq, Fl.fin_add, add_zero]
      · right; rw [e]; simp
    · right; simp
  refine loop_inv (bicgBody A D ld)
    (fun s => s.x i = .fin (x0 i) ∨ s.x i = .nan) (fun s => s.x i = .fin (x0 i) ∨ s.x i = .nan)
    ?_ ?_ k st out (Or.inl h0) h
  · intro s hx hb
    have hk := bicgBody_kind A D ld s
    generalize he : bicgBody A D ld s = r at hk hb
    cases hk with
    | conv1 => cases hb
    | zero => cases hb
    | conv2 => cases hb
    | stop => cases hb
    | next => exact upd _ _ _ (upd _ _ _ hx)
  · intro s hx hb
    have hk := bicgBody_kind A D ld s
    generalize he : bicgBody A D ld s = r at hk hb
    cases hk with
    | conv1 => exact hx
    | zero => exact hx
    | conv2 => exact upd _ _ _ hx
    | stop => exact hx
    | next => cases hb

/-! ## NaN -/

/-- a NaN residual ends the loop at once, with the failure status, without touching `x` -/
theorem bicg_nan (A : Mat n) (D : Vec n) (ld : List (Fin n)) (k : ℕ) (st : BState n)
    (h : norm st.r = .nan) : ∃ out, loop (bicgBody A D ld) (k + 1) st = some out ∧
      out.iter.status = .CANNOT_CONVERGE ∧ out.iter.nit = st.iter.nit ∧ out.x = st.x := by
  have h1 := finished_nan (it := st.iter) h
  have hs : norm (bS A D ld st) = .nan := by
    obtain ⟨i, hi⟩ := norm_nan h
    exact norm_of_nan (i := i) (show st.r i + _ = _ by rw [hi, Fl.nan_add])
  have h2 := finished_nan (it := bIt1 st) hs
  have hk := bicgBody_kind A D ld st
  unfold loop
  dsimp only
  generalize he : bicgBody A D ld st = r at hk
  cases hk with
  | conv1 g => rw [h1.1] at g; cases g
  | zero => exact ⟨_, rfl, rfl, bIt1_nit st, rfl⟩
  | conv2 g g2 => rw [h2.1] at g2; cases g2
  | stop g g2 hs => exact ⟨_, rfl, h2.2, bIt2_nit A D ld st, rfl⟩
  | next g g2 hs' => exact absurd (Or.inr h2.2) hs'

end Verif.Krylov
