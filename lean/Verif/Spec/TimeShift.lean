import Verif.Spec.TimeLoop

/-!
# Vocabulary for C113: the same simulation at another time
-/

namespace Verif.TimeShift

variable {n : ℕ} {ET : Type}

/-- a row of the table, later by `τ` -/
def row (τ : ℝ) (r : Row n ET) : Row n ET := { r with t := r.t + τ }

/-- a saved configuration, later by `τ` -/
def sol (τ : ℝ) (f : SolFile n) : SolFile n := { f with t := f.t + τ }

/-- a state of the time loop, later by `τ` -/
def state (τ : ℝ) (s : St n ET) : St n ET :=
  { s with t := s.t + τ, rows := s.rows.map (row τ), sols := s.sols.map (sol τ) }

/-- the settings of the second run: final time later by `τ`, and an applied field later by `τ` in the energies -/
structure Later (τ : ℝ) (cfg cfg' : Cfg n ET) : Prop where
  tf : cfg'.tf = cfg.tf + τ
  DTMIN : cfg'.DTMIN = cfg.DTMIN
  DTMAX : cfg'.DTMAX = cfg.DTMAX
  DUMAX : cfg'.DUMAX = cfg.DUMAX
  timeStep : cfg'.timeStep = cfg.timeStep
  savePeriod : cfg'.savePeriod = cfg.savePeriod
  gamma0 : cfg'.gamma0 = cfg.gamma0
  magNode : cfg'.magNode = cfg.magNode
  recenter : cfg'.recenter = cfg.recenter
  /-- the sum of a time and a step, so for exact sums -/
  add : ∀ t dt, cfg'.add (t + τ) dt = cfg.add t dt + τ
  energy : ∀ nd t, cfg'.energy nd (t + τ) = cfg.energy nd t

end Verif.TimeShift
