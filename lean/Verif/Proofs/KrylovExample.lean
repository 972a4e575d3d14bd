import Mathlib.LinearAlgebra.Matrix.Notation
import Mathlib.Tactic.NormNum
import Mathlib.Tactic.FinCases
import Verif.Proofs.Cg

/-!
Concrete systems used to show that hypotheses can be met, and that some claims fail.
-/

namespace Verif.Krylov.Ex

open Verif

/-- the singular matrix `[1 1; 2 2]` with a third, Dirichlet, unknown -/
noncomputable def A : Mat 3 :=
  ![[(0, .fin 1), (1, .fin 1)], [(0, .fin 2), (1, .fin 2)], [(2, .fin 1)]]

def M : Matrix (Fin 3) (Fin 3) ℝ := !![1, 1, 0; 2, 2, 0; 0, 0, 1]

theorem represents : Represents A M := by
  refine ⟨?_, ?_, ?_⟩
  · intro i; fin_cases i <;> simp [A]
  · intro i j v h
    fin_cases i <;> simp [A] at h
    · rcases h with ⟨rfl, rfl⟩ | ⟨rfl, rfl⟩ <;> simp [M]
    · rcases h with ⟨rfl, rfl⟩ | ⟨rfl, rfl⟩ <;> simp [M]
    · rcases h with ⟨rfl, rfl⟩; simp [M]
  · intro i j h
    fin_cases i <;> fin_cases j <;> simp [A, M] at h ⊢

theorem diagStored : DiagStored A := by
  intro i; fin_cases i <;> simp [A]

/-- monitor with tolerance 1/10 and at most 100 iterations -/
noncomputable def it : Iter := Iter.mk' (.fin (1 / 10)) false 100

def rhs : Fin 3 → ℝ := ![2, 1, 0]
def xd : Fin 3 → ℝ := ![0, 0, 7]

noncomputable def D : Vec 3 := applyMask [2] (diagPrecond A)

theorem D_eq : D = lift ![1, 1 / 2, 0] := by
  funext i
  fin_cases i
  · show Fl.fin 1 / Fl.fin 1 = _
    rw [Fl.fin_div one_ne_zero]; simp [lift]
  · show Fl.fin 1 / Fl.fin 2 = _
    rw [Fl.fin_div two_ne_zero]; simp [lift]
  · rfl

theorem b_eq : applyMask [2] (sub (mult A (lift xd)) (lift rhs)) = lift ![2, 1, 0] := by
  rw [mult_lift represents]
  have : sub (lift (M.mulVec xd)) (lift rhs) = lift (rhs - M.mulVec xd) := by
    funext i
    show (Fl.fin _ - Fl.fin _ : Fl) = _
    rw [Fl.fin_sub]; rfl
  rw [this, applyMask_lift]
  congr 1
  funext i
  fin_cases i <;> simp [maskR, rhs, xd, M]

noncomputable def s0 : BState 3 := bicgInit it A [2] (lift 0) (lift ![2, 1, 0])

theorem s0_r : s0.r = lift ![2, 1, 0] := by
  show applyMask [2] (sub (mult A (lift 0)) (lift ![2, 1, 0])) = _
  rw [mult_lift represents]
  have : sub (lift (M.mulVec 0)) (lift ![2, 1, 0]) = lift ![2, 1, 0] := by
    funext i
    show (Fl.fin _ - Fl.fin _ : Fl) = _
    rw [Fl.fin_sub]; simp [lift]
  rw [this, applyMask_lift]
  congr 1
  funext i
  fin_cases i <;> simp [maskR]

theorem s0_rt : s0.rt = lift ![2, 1, 0] := s0_r
theorem s0_p : s0.p = lift ![2, 1, 0] := s0_r

theorem thr : s0.iter.rhsn * s0.iter.resmax = .fin (Real.sqrt 5 * (1 / 10)) := by
  show norm (lift ![2, 1, 0]) * Fl.fin (1 / 10) = _
  rw [norm_lift, Fl.fin_mul]
  congr 3
  simp [Fin.sum_univ_three]; norm_num

theorem finished_false {it : Iter} {x : Fin 3 → ℝ} {t : ℝ} (ht : it.rhsn * it.resmax = .fin t)
    (h : t < Real.sqrt (∑ i, x i ^ 2)) :
    (it.finished (norm (lift x))).1 = false ∧ (it.finished (norm (lift x))).2.status = it.status := by
  rcases (finished_spec it (norm (lift x))).cases with g | g | g
  · have := g.1; rw [norm_abs, norm_lift] at this; cases this
  · exfalso
    have := g.1
    rw [norm_abs, norm_lift, ht] at this
    exact absurd h (not_lt.mpr this)
  · exact g.2.2

theorem sqrt5 : Real.sqrt 5 < 3 := by
  rw [Real.sqrt_lt' (by norm_num)]; norm_num

theorem fin1 : (s0.iter.finished (norm s0.r)).1 = false ∧ (bIt1 s0).status = .UNDEFINED := by
  unfold bIt1
  rw [s0_r]
  have := finished_false (x := ![2, 1, 0]) thr (by
    have : (∑ i, (![2, 1, 0] : Fin 3 → ℝ) i ^ 2) = 5 := by simp [Fin.sum_univ_three]; norm_num
    rw [this]
    have h5 : 0 < Real.sqrt 5 := Real.sqrt_pos.mpr (by norm_num)
    linarith)
  exact this

theorem thr1 : (bIt1 s0).rhsn * (bIt1 s0).resmax = .fin (Real.sqrt 5 * (1 / 10)) := by
  unfold bIt1
  rw [(finished_spec _ _).rhsn, (finished_spec _ _).resmax, thr]

theorem bP_eq : bP s0 = lift ![2, 1, 0] := by
  unfold bP
  rw [if_neg]
  · exact s0_p
  · rw [bIt1_nit]; exact lt_irrefl 0

theorem bPhat_eq : bPhat D s0 = lift ![2, 1 / 2, 0] := by
  unfold bPhat pDirect
  rw [D_eq, bP_eq]
  funext i
  fin_cases i <;> simp [lift]

theorem bV_eq : bV A D [2] s0 = lift ![5 / 2, 5, 0] := by
  unfold bV
  rw [bPhat_eq, mult_lift represents, applyMask_lift]
  congr 1
  funext i
  fin_cases i <;> simp [maskR, M, Matrix.mulVec, dotProduct, Fin.sum_univ_three] <;> norm_num

theorem bAlpha_eq : bAlpha A D [2] s0 = .fin (1 / 2) := by
  unfold bAlpha bRho1
  rw [bV_eq, s0_rt, s0_r, dot_lift, dot_lift]
  simp only [Fin.sum_univ_three]
  simp only [Matrix.cons_val]
  rw [Fl.fin_div (by norm_num)]
  congr 1
  norm_num

theorem bS_eq : bS A D [2] s0 = lift ![3 / 4, -(3 / 2), 0] := by
  unfold bS scaledAdd
  rw [bV_eq, bAlpha_eq, s0_r]
  funext i
  fin_cases i <;> simp [lift] <;> norm_num

theorem fin2 : ((bIt1 s0).finished (norm (bS A D [2] s0))).1 = false ∧
    (bIt2 A D [2] s0).status = .UNDEFINED := by
  unfold bIt2
  rw [bS_eq]
  have := finished_false (x := ![3 / 4, -(3 / 2), 0]) thr1 (by
    have e : (∑ i, (![3 / 4, -(3 / 2), 0] : Fin 3 → ℝ) i ^ 2) = 45 / 16 := by
      simp [Fin.sum_univ_three]; norm_num
    rw [e]
    have h1 : (1 : ℝ) ≤ Real.sqrt (45 / 16) := by
      rw [Real.one_le_sqrt]; norm_num
    have := sqrt5
    linarith)
  exact ⟨this.1, this.2.trans fin1.2⟩

theorem bShat_eq : bShat A D [2] s0 = lift ![3 / 4, -(3 / 4), 0] := by
  unfold bShat pDirect
  rw [bS_eq, D_eq]
  funext i
  fin_cases i <;> simp [lift]
  norm_num

theorem bT_eq : bT A D [2] s0 = lift 0 := by
  unfold bT
  rw [bShat_eq, mult_lift represents, applyMask_lift]
  congr 1
  funext i
  fin_cases i <;> simp [maskR, M, Matrix.mulVec, dotProduct, Fin.sum_univ_three]

theorem bOmega_eq : bOmega A D [2] s0 = .nan := by
  unfold bOmega
  rw [bT_eq, bS_eq, dot_lift, dot_lift]
  show Fl.div (.fin _) (.fin _) = _
  simp [Fl.div]

theorem body0 : bicgBody A D [2] s0 = (false, bNext A D [2] s0) := by
  have hk := bicgBody_kind A D [2] s0
  generalize he : bicgBody A D [2] s0 = r at hk
  cases hk with
  | conv1 h => rw [fin1.1] at h; cases h
  | zero h hn => rw [bIt1_nit] at hn; exact absurd hn (lt_irrefl 0)
  | conv2 h h2 => rw [fin2.1] at h2; cases h2
  | stop h h2 hs => rw [fin2.2] at hs; rcases hs with hs | hs <;> cases hs
  | next => rfl

theorem loop_next {S : Type} {body : S → Bool × S} {st st' : S} (h : body st = (false, st')) (k : ℕ) :
    loop body (k + 1) st = loop body k st' := by
  rw [loop, h]; rfl

theorem bicgDir_eq (it : Iter) (A : Mat 3) (x rhs xd b : Vec 3) (ld : List (Fin 3))
    (hb : applyMask ld (sub (mult A xd) rhs) = b) :
    bicgDir it A x rhs xd ld =
      (loop (bicgBody A (applyMask ld (diagPrecond A)) ld) (fuel it) (bicgInit it A ld x b)).map
        fun st => { st with x := add xd st.x } := by
  rw [← hb]; rfl

theorem fuel_it : fuel it = 99 + 1 + 1 := by
  have : it.maxiter = 100 := rfl
  unfold fuel
  rw [this]; decide

/-- the solve breaks down and all components, the Dirichlet one included, are NaN -/
theorem breakdown : ∃ out, bicgDir it A (lift 0) (lift rhs) (lift xd) [2] = some out ∧ out.x 2 = .nan := by
  have hr : norm (bNext A D [2] s0).r = .nan := by
    apply norm_of_nan (i := 0)
    show bS A D [2] s0 0 - bT A D [2] s0 0 * bOmega A D [2] s0 = .nan
    rw [bOmega_eq, Fl.mul_nan, Fl.sub_nan]
  obtain ⟨out, h1, _, _, h4⟩ := bicg_nan A D [2] 99 (bNext A D [2] s0) hr
  refine ⟨{ out with x := add (lift xd) out.x }, ?_, ?_⟩
  · have e := bicgDir_eq it A (lift 0) (lift rhs) (lift xd) _ [2] b_eq
    have hl := (loop_next body0 (99 + 1)).trans h1
    rw [e, fuel_it]
    exact congrArg _ hl
  · show out.x 2 + lift xd 2 = .nan
    rw [h4]
    show bX1 A D [2] s0 2 + bOmega A D [2] s0 * bShat A D [2] s0 2 + lift xd 2 = .nan
    rw [bOmega_eq, Fl.nan_mul, Fl.add_nan, Fl.nan_add]

end Verif.Krylov.Ex

/-! A solvable system: `2 x₀ + x₁ = 6` with `x₁ = 2` prescribed. -/

namespace Verif.Krylov.Ex2

open Verif Verif.Krylov.Ex

noncomputable def A : Mat 2 := ![[(0, .fin 2), (1, .fin 1)], [(1, .fin 1)]]
def M : Matrix (Fin 2) (Fin 2) ℝ := !![2, 1; 0, 1]
def rhs : Fin 2 → ℝ := ![6, 0]
def xd : Fin 2 → ℝ := ![0, 2]

theorem represents : Represents A M := by
  refine ⟨?_, ?_, ?_⟩
  · intro i; fin_cases i <;> simp [A]
  · intro i j v h
    fin_cases i <;> simp [A] at h
    · rcases h with ⟨rfl, rfl⟩ | ⟨rfl, rfl⟩ <;> simp [M]
    · rcases h with ⟨rfl, rfl⟩; simp [M]
  · intro i j h
    fin_cases i <;> fin_cases j <;> simp [A, M] at h ⊢

theorem diagStored : DiagStored A := by
  intro i; fin_cases i <;> simp [A]

noncomputable def D : Vec 2 := applyMask [1] (diagPrecond A)

theorem D_eq : D = lift ![1 / 2, 0] := by
  funext i
  fin_cases i
  · show Fl.fin 1 / Fl.fin 2 = _
    rw [Fl.fin_div two_ne_zero]; simp [lift]
  · rfl

theorem b_eq : applyMask [1] (sub (mult A (lift xd)) (lift rhs)) = lift ![4, 0] := by
  rw [mult_lift represents]
  have : sub (lift (M.mulVec xd)) (lift rhs) = lift (rhs - M.mulVec xd) := by
    funext i
    show (Fl.fin _ - Fl.fin _ : Fl) = _
    rw [Fl.fin_sub]; rfl
  rw [this, applyMask_lift]
  congr 1
  funext i
  fin_cases i <;> simp [maskR, rhs, xd, M]
  norm_num

noncomputable def s0 : BState 2 := bicgInit it A [1] (lift 0) (lift ![4, 0])
noncomputable def c0 : CState 2 := cgInit it A D [1] (lift 0) (lift ![4, 0])

theorem s0_r : s0.r = lift ![4, 0] := by
  show applyMask [1] (sub (mult A (lift 0)) (lift ![4, 0])) = _
  rw [mult_lift represents]
  have : sub (lift (M.mulVec 0)) (lift ![4, 0]) = lift ![4, 0] := by
    funext i
    show (Fl.fin _ - Fl.fin _ : Fl) = _
    rw [Fl.fin_sub]; simp [lift]
  rw [this, applyMask_lift]
  congr 1
  funext i
  fin_cases i <;> simp [maskR]

theorem c0_r : c0.r = lift ![4, 0] := s0_r

theorem norm0 : norm (lift ![4, 0]) = .fin 4 := by
  rw [norm_lift]
  congr 1
  rw [show (∑ i, (![4, 0] : Fin 2 → ℝ) i ^ 2) = 4 ^ 2 by simp]
  exact Real.sqrt_sq (by norm_num)

theorem finished0 (it' : Iter) (h1 : it'.rhsn = .fin 4) (h2 : it'.resmax = .fin (1 / 10)) :
    (it'.finished (.fin 4)).1 = false ∧ (it'.finished (.fin 4)).2.status = it'.status := by
  rcases (finished_spec it' (.fin 4)).cases with g | g | g
  · cases g.1
  · exfalso
    have := g.1
    rw [h1, h2] at this
    have h : |(4:ℝ)| ≤ 4 * (1 / 10) := this
    norm_num at h
  · exact g.2.2

theorem finished1 (it' : Iter) (h1 : it'.rhsn = .fin 4) (h2 : it'.resmax = .fin (1 / 10)) :
    (it'.finished (.fin 0)).1 = true ∧ (it'.finished (.fin 0)).2.status = .CONVERGED := by
  rcases (finished_spec it' (.fin 0)).cases with g | g | g
  · cases g.1
  · exact g.2
  · exfalso
    apply g.2.1
    rw [h1, h2]
    show |(0:ℝ)| ≤ 4 * (1 / 10)
    norm_num

theorem bIt1_s0 : (s0.iter.finished (norm s0.r)).1 = false ∧ (bIt1 s0).status = .UNDEFINED ∧
    (bIt1 s0).rhsn = .fin 4 ∧ (bIt1 s0).resmax = .fin (1 / 10) := by
  have e1 : s0.iter.rhsn = .fin 4 := norm0
  have e2 : s0.iter.resmax = .fin (1 / 10) := rfl
  have h := finished0 s0.iter e1 e2
  unfold bIt1
  rw [s0_r, norm0]
  exact ⟨h.1, h.2, (finished_spec _ _).rhsn.trans e1, (finished_spec _ _).resmax.trans e2⟩

theorem bPhat_eq : bPhat D s0 = lift ![2, 0] := by
  have hp : bP s0 = lift ![4, 0] := by
    unfold bP
    rw [if_neg]
    · exact s0_r
    · rw [bIt1_nit]; exact lt_irrefl 0
  unfold bPhat pDirect
  rw [D_eq, hp]
  funext i
  fin_cases i <;> simp [lift]
  norm_num

theorem bV_eq : bV A D [1] s0 = lift ![4, 0] := by
  unfold bV
  rw [bPhat_eq, mult_lift represents, applyMask_lift]
  congr 1
  funext i
  fin_cases i <;> simp [maskR, M]
  norm_num

theorem bAlpha_eq : bAlpha A D [1] s0 = .fin 1 := by
  unfold bAlpha bRho1
  have hrt : s0.rt = lift ![4, 0] := s0_r
  rw [bV_eq, hrt, s0_r, dot_lift]
  simp only [Fin.sum_univ_two, Matrix.cons_val]
  rw [Fl.fin_div (by norm_num)]
  congr 1
  norm_num

theorem bS_eq : norm (bS A D [1] s0) = .fin 0 := by
  have : bS A D [1] s0 = lift 0 := by
    unfold bS scaledAdd
    rw [bV_eq, bAlpha_eq, s0_r]
    funext i
    fin_cases i <;> simp [lift]
  rw [this, norm_lift]; simp

theorem body0 : bicgBody A D [1] s0 = (true, { s0 with
    iter := bIt2 A D [1] s0, x := bX1 A D [1] s0, p := bP s0, v := bV A D [1] s0
    alpha := bAlpha A D [1] s0 }) := by
  have hf := finished1 (bIt1 s0) bIt1_s0.2.2.1 bIt1_s0.2.2.2
  have hk := bicgBody_kind A D [1] s0
  generalize he : bicgBody A D [1] s0 = r at hk
  cases hk with
  | conv1 h => rw [bIt1_s0.1] at h; cases h
  | zero h hn => rw [bIt1_nit] at hn; exact absurd hn (lt_irrefl 0)
  | conv2 h h2 => rfl
  | stop h h2 hs => rw [bS_eq, hf.1] at h2; cases h2
  | next h h2 hs => rw [bS_eq, hf.1] at h2; cases h2

/-- the solver converges to `x = (2, 2)` -/
theorem converges : ∃ out, bicgDir it A (lift 0) (lift rhs) (lift xd) [1] = some out ∧
    out.iter.status = .CONVERGED ∧ out.x = lift ![2, 2] := by
  have e : bicgDir it A (lift 0) (lift rhs) (lift xd) [1] =
      (loop (bicgBody A D [1]) (fuel it) (bicgInit it A [1] (lift 0) (lift ![4, 0]))).map
        fun st => { st with x := add (lift xd) st.x } := by
    rw [← b_eq]; rfl
  have hl : loop (bicgBody A D [1]) (99 + 1 + 1) s0 = some { s0 with
      iter := bIt2 A D [1] s0, x := bX1 A D [1] s0, p := bP s0, v := bV A D [1] s0
      alpha := bAlpha A D [1] s0 } := by
    rw [loop, body0]; rfl
  rw [e, fuel_it]
  refine ⟨_, congrArg _ hl, ?_, ?_⟩
  · show (bIt2 A D [1] s0).status = _
    unfold bIt2
    rw [bS_eq]
    exact (finished1 (bIt1 s0) bIt1_s0.2.2.1 bIt1_s0.2.2.2).2
  · funext i
    show s0.x i + bAlpha A D [1] s0 * bPhat D s0 i + lift xd i = _
    rw [bAlpha_eq, bPhat_eq]
    have : s0.x = lift 0 := rfl
    rw [this]
    fin_cases i <;> simp [lift, xd]

/-- the LLG decision on the reduced system `2 x₀ = 4` -/
theorem llg_succeeds : ∃ X, llgSolve it A (lift 0) (lift ![4, 0]) [1] = some X := by
  have hm : applyMask [1] (lift ![4, 0]) = (lift ![4, 0] : Vec 2) := by
    rw [applyMask_lift]
    congr 1
    funext i
    fin_cases i <;> simp [maskR]
  have hl : loop (bicgBody A D [1]) (99 + 1 + 1) s0 = some { s0 with
      iter := bIt2 A D [1] s0, x := bX1 A D [1] s0, p := bP s0, v := bV A D [1] s0
      alpha := bAlpha A D [1] s0 } := by
    rw [loop, body0]; rfl
  have hr : it.reset = it := rfl
  have e : bicgMask it.reset A (lift 0) (lift ![4, 0]) [1] = loop (bicgBody A D [1]) (fuel it) s0 := by
    rw [hr]
    unfold bicgMask
    dsimp only
    rw [hm]; rfl
  have hf := finished1 (bIt1 s0) bIt1_s0.2.2.1 bIt1_s0.2.2.2
  unfold llgSolve
  rw [e, fuel_it, hl]
  dsimp only
  rw [if_neg]
  · exact ⟨_, rfl⟩
  · have h1 : (bIt2 A D [1] s0).status = .CONVERGED := by
      unfold bIt2; rw [bS_eq]; exact hf.2
    have h2 : (bIt2 A D [1] s0).res = .fin 0 := by
      unfold bIt2; rw [(finished_spec _ _).res, bS_eq]; simp [Fl.abs]
    have h3 : (bIt2 A D [1] s0).resmax = .fin (1 / 10) :=
      (finished_spec _ _).resmax.trans bIt1_s0.2.2.2
    rw [h1, h2, h3]
    rintro (h | h | h)
    · cases h
    · cases h
    · apply h
      show (0 : ℝ) ≤ 1 / 10
      norm_num

/-! the same with the conjugate gradient -/

theorem cIt_c0 : (c0.iter.finished (norm c0.r)).1 = false ∧ (cIt c0).status = .UNDEFINED := by
  have e1 : c0.iter.rhsn = .fin 4 := norm0
  have e2 : c0.iter.resmax = .fin (1 / 10) := rfl
  have h := finished0 c0.iter e1 e2
  unfold cIt
  rw [c0_r, norm0]
  exact ⟨h.1, h.2⟩

theorem c0_p : c0.p = lift ![2, 0] := by
  have hp : c0.p = pDirect D c0.r := rfl
  rw [hp, c0_r]
  unfold pDirect
  rw [D_eq]
  funext i
  fin_cases i <;> simp [lift]
  norm_num

theorem cP_eq : cP D c0 = lift ![2, 0] := by
  unfold cP
  rw [if_neg]
  · exact c0_p
  · rw [cIt_nit]; exact lt_irrefl 0

theorem cRho_eq : cRho D c0 = .fin 8 := by
  unfold cRho
  rw [if_neg]
  · have hp : c0.rho = dot c0.p c0.r := rfl
    rw [hp, c0_p, c0_r, dot_lift]
    congr 1
    simp; norm_num
  · rw [cIt_nit]; exact lt_irrefl 0

theorem cQ_eq : cQ A D [1] c0 = lift ![4, 0] := by
  unfold cQ
  rw [cP_eq, mult_lift represents, applyMask_lift]
  congr 1
  funext i
  fin_cases i <;> simp [maskR, M]
  norm_num

theorem cA_eq : cA A D [1] c0 = .fin 1 := by
  unfold cA
  rw [cRho_eq, cQ_eq, cP_eq, dot_lift]
  simp only [Fin.sum_univ_two, Matrix.cons_val]
  rw [Fl.fin_div (by norm_num)]
  congr 1
  norm_num

theorem cbody0 : cgBody A D [1] c0 = (false, cNext A D [1] c0) := by
  have h : ¬ ((c0.iter.finished (norm c0.r)).1 = true ∨ (cIt c0).status = .ITER_OVERFLOW ∨
      (cIt c0).status = .CANNOT_CONVERGE) := by
    rw [cIt_c0.1, cIt_c0.2]; decide
  have hz : ¬ (dot (cQ A D [1] c0) (cP D c0)).isZero := by
    rw [cQ_eq, cP_eq, dot_lift]
    show ¬ (_ = (0:ℝ))
    simp
  exact (if_neg h).trans (if_neg hz)

theorem cNext_r : norm (cNext A D [1] c0).r = .fin 0 := by
  have : (cNext A D [1] c0).r = lift 0 := by
    show cR A D [1] c0 = _
    unfold cR scaledAdd
    rw [cQ_eq, cA_eq, c0_r]
    funext i
    fin_cases i <;> simp [lift]
  rw [this, norm_lift]; simp

theorem cfin : ((cNext A D [1] c0).iter.finished (norm (cNext A D [1] c0).r)).1 = true ∧
    ((cNext A D [1] c0).iter.finished (norm (cNext A D [1] c0).r)).2.status = .CONVERGED := by
  rw [cNext_r]
  apply finished1
  · show (cIt c0).incr.rhsn = _
    rw [incr_rhsn]
    unfold cIt
    rw [(finished_spec _ _).rhsn]
    exact norm0
  · show (cIt c0).incr.resmax = _
    rw [incr_resmax]
    unfold cIt
    rw [(finished_spec _ _).resmax]
    rfl

theorem cg_converges : ∃ out, cgDir it A (lift 0) (lift rhs) (lift xd) [1] = some out ∧
    out.iter.status = .CONVERGED ∧ out.x = lift ![2, 2] := by
  have e : cgDir it A (lift 0) (lift rhs) (lift xd) [1] =
      (loop (cgBody A D [1]) (fuel it) (cgInit it A D [1] (lift 0) (lift ![4, 0]))).map
        fun st => { st with x := add (lift xd) st.x } := by
    rw [← b_eq]; rfl
  have hb : cgBody A D [1] (cNext A D [1] c0) =
      (true, { cNext A D [1] c0 with iter := cIt (cNext A D [1] c0) }) := if_pos (Or.inl cfin.1)
  have hl : loop (cgBody A D [1]) (99 + 1 + 1) c0 =
      some { cNext A D [1] c0 with iter := cIt (cNext A D [1] c0) } := by
    rw [loop_next cbody0, loop, hb]; rfl
  rw [e, fuel_it]
  refine ⟨_, congrArg _ hl, cfin.2, ?_⟩
  funext i
  show c0.x i + cA A D [1] c0 * cP D c0 i + lift xd i = _
  rw [cA_eq, cP_eq]
  have : c0.x = lift 0 := rfl
  rw [this]
  fin_cases i <;> simp [lift, xd]

end Verif.Krylov.Ex2
