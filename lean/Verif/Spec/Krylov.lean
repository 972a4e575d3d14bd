import Mathlib.LinearAlgebra.Matrix.DotProduct
import Verif.Model.Krylov

/-!
# Specification of linear solves

Stated on dense real matrices and vectors, independently of the iterative algorithms.
-/

namespace Verif.Krylov

variable {n : ℕ}

/-- the `double` vector holding the real vector `x` -/
def lift (x : Fin n → ℝ) : Vec n := fun i => .fin (x i)

/-- the sparse storage `A` holds the real matrix `M`: no column twice in a row, stored values those of
`M`, nothing lost -/
structure Represents (A : Mat n) (M : Matrix (Fin n) (Fin n) ℝ) : Prop where
  nodup : ∀ i, ((A i).map Prod.fst).Nodup
  stored : ∀ i j v, (j, v) ∈ A i → v = .fin (M i j)
  absent : ∀ i j, j ∉ (A i).map Prod.fst → M i j = 0

/-- every diagonal entry is stored -/
def DiagStored (A : Mat n) : Prop := ∀ i, i ∈ (A i).map Prod.fst

/-- euclidean norm of the entries of `y` not in `ld` -/
noncomputable def freeNorm (ld : List (Fin n)) (y : Fin n → ℝ) : ℝ :=
  Real.sqrt (∑ i, if i ∈ ld then 0 else y i ^ 2)

/-- residual `rhs - M x` -/
def residual (M : Matrix (Fin n) (Fin n) ℝ) (rhs x : Fin n → ℝ) : Fin n → ℝ := rhs - M.mulVec x

end Verif.Krylov

namespace Verif.Krylov

/-- states at the head of a loop: `Visits body st s` when the loop started in `st` comes to `s` -/
inductive Visits {S : Type} (body : S → Bool × S) (st : S) : S → Prop
  | refl : Visits body st st
  | next {s : S} (h : Visits body st s) (hb : (body s).1 = false) : Visits body st (body s).2

/-- the status of a solve that has come to a decision -/
def Decided (s : Status) : Prop := s = .CONVERGED ∨ s = .ITER_OVERFLOW ∨ s = .CANNOT_CONVERGE

end Verif.Krylov
