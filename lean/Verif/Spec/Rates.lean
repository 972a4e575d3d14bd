import Verif.Model.Rates
import Verif.Spec.TimeLoop

/-! What the columns about the last time step mean. `σ` is the sequence of states of a run. -/

namespace Verif.TimeLoop

variable {n : ℕ} {ET : Type}

/-- transition `k` writes the row `r` -/
def Writes (σ : ℕ → St n ET) (k : ℕ) (r : Row n ET) : Prop := (σ (k + 1)).rows = (σ k).rows ++ [r]

/-- transition `j` is the last time step kept before transition `k` -/
structure LastStep (σ : ℕ → St n ET) (j k : ℕ) : Prop where
  before : j < k
  kept : Accepted (σ j) (σ (j + 1))
  last : ∀ i, j < i → i < k → ¬ Accepted (σ i) (σ (i + 1))

/-- the magnetization at the start of the time step of transition `j` -/
def startU (σ : ℕ → St n ET) (j : ℕ) (i : Fin n) : V3 := ((σ j).nodes i).cur.u

end Verif.TimeLoop
