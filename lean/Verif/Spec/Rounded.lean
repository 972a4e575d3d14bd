import Verif.Model.Rounded

/-! Specification: unit vectors up to rounding, and what a run is. -/

namespace Verif.Rounded

/-- the length differs from 1 by at most `δ` -/
def NearUnit (δ : ℝ) (v : V3) : Prop := |Real.sqrt (v.x ^ 2 + v.y ^ 2 + v.z ^ 2) - 1| ≤ δ

variable {n : ℕ}

/-- the successive states of the nodes: each attempt is accepted or not -/
def Run (ε gamma0 DUMAX : ℝ) (mag : Fin n → Bool) (nodes : ℕ → Fin n → Node) : Prop :=
  ∀ k, Accepted ε gamma0 DUMAX mag (nodes k) (nodes (k + 1)) ∨ Rejected ε gamma0 mag (nodes k) (nodes (k + 1))

end Verif.Rounded
