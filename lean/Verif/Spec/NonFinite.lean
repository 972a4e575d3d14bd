import Verif.Spec.Krylov

/-!
# Specification: a linear system without infinities and NaN
-/

namespace Verif.NonFinite

open Verif.Krylov

variable {n : ℕ}

/-- every number used by the equations outside the mask is finite: right hand side, coefficients, and the first guess of the
unknowns they multiply -/
def FreeFinite (K : Mat n) (guess L : Vec n) (ld : List (Fin n)) : Prop :=
  ∀ i, i ∉ ld → (L i).IsFin ∧ ∀ e ∈ K i, e.2.IsFin ∧ (guess e.1).IsFin

end Verif.NonFinite
