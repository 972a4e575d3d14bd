import Verif.Model.TimeLoop
import Verif.Spec.Geometry

/-! Vocabulary of the statements about whole runs: what the user asked for and what can be observed. -/

namespace Verif.TimeLoop

variable {n : ℕ} {ET : Type}

/-- admissible settings: `0 < min(dt) ≤ max(dt)`, positive output period, `max(du)` not negative, and a `min(dt)` above the
resolution of the time -/
structure Valid (cfg : Cfg n ET) : Prop where
  dtmin : 0 < cfg.DTMIN
  dtmax : cfg.DTMIN ≤ cfg.DTMAX
  tstep : 0 < cfg.timeStep
  dumax : 0 ≤ cfg.DUMAX
  /-- times are added with an error below half of `min(dt)` (otherwise a step could leave the time unchanged; only the times
  reached by the run matter) -/
  addErr : ∀ t dt, |cfg.add t dt - (t + dt)| ≤ cfg.DTMIN / 2

/-- the requested output times: `m` instants, the first at `t0`, spaced by `p` -/
noncomputable def gridTimes (t0 p : ℝ) (m : ℕ) : List ℝ := (List.range m).map (fun i : ℕ => t0 + (i : ℝ) * p)

/-- the program is still integrating -/
def Running (s : St n ET) : Prop := s.ctl = .running

/-- an attempt is made from state `s` on this input -/
def Attempt (cfg : Cfg n ET) (t0 : ℝ) (inp : Input n) (s : St n ET) : Prop :=
  s.ctl = .running ∧ s.t < t0 + s.stepNb * cfg.timeStep ∧ inp.sig = false

/-- the transition kept the result of an attempt -/
def Accepted (s s' : St n ET) : Prop := s'.nt = s.nt + 1

/-- the transition is an attempt that will be tried again -/
def Retried (s s' : St n ET) : Prop := s'.flag = s.flag + 1

/-- every magnetic node has a unit magnetization, at the start and at the end of the step -/
def AllUnit (cfg : Cfg n ET) (nodes : Fin n → Node) : Prop :=
  ∀ i, cfg.magNode i = true → IsUnit3 (nodes i).cur.u ∧ IsUnit3 (nodes i).next.u

/-- recentering does not change what outputs are computed from: positions, `NEXT` magnetization and
potential (recentering.cpp:122-123 writes `CURRENT.u` and `NEXT.v` only) -/
def RecenterKeepsNext (cfg : Cfg n ET) : Prop :=
  ∀ nd nd', cfg.recenter nd = some nd' →
    ∀ i, (nd' i).p = (nd i).p ∧ (nd' i).next.u = (nd i).next.u ∧ (nd' i).next.phi = (nd i).next.phi

/-- recentering produces unit vectors from unit vectors -/
def RecenterKeepsUnit (cfg : Cfg n ET) : Prop :=
  ∀ nd nd', cfg.recenter nd = some nd' → AllUnit cfg nd → AllUnit cfg nd'

/-- recentering is disabled -/
def NoRecenter (cfg : Cfg n ET) : Prop := ∀ nd, cfg.recenter nd = some nd

/-- the energies are computed from positions, `NEXT.u` and `NEXT.phi` (energy.cpp:25-26, 57-58) -/
def EnergyOfNext (cfg : Cfg n ET) : Prop :=
  ∀ nd nd' t, (∀ i, (nd' i).p = (nd i).p ∧ (nd' i).next.u = (nd i).next.u ∧
    (nd' i).next.phi = (nd i).next.phi) → cfg.energy nd' t = cfg.energy nd t

/-- the transition is an attempt rejected because `max(du)` was exceeded -/
def DuRejected (inp : Input n) (s s' : St n ET) : Prop := Retried s s' ∧ inp.sol ≠ none

/-- an attempt that gives a reason to abort: failed solve with a small step, or a velocity so large
that `0.95 max(du)/|v|` is below three times `min(dt)` -/
def AbortReason (cfg : Cfg n ET) (inp : Input n) (s s' : St n ET) : Prop :=
  (Retried s s' ∧ inp.sol = none ∧ s'.dt < 6 * cfg.DTMIN) ∨
  (∃ X, inp.sol = some X ∧ ∃ i, cfg.magNode i = true ∧
    0.95 * cfg.DUMAX < 3 * cfg.DTMIN * (cfg.gamma0 * Real.sqrt ((X i).1 ^ 2 + (X i).2 ^ 2)))

end Verif.TimeLoop
