import Verif.Spec.TimeLoop
import Verif.Model.LlgElem
import Verif.Model.EnergyAll

/-!
# Vocabulary for C111: stronger fields and shorter times

The magnetizations `Ms` and the applied fields are multiplied by a positive number `c`, the constants `A`, `K`, `K3` and `Ks` by its
square, and all times are divided by `c`. Then all fields are multiplied by `c` and the precession is faster in the same ratio.
-/

namespace Verif.Rescale

open Verif.Mesh Verif.Tetra Verif.Llg

variable {n : ℕ} {ET ET' : Type}

/-- the data of a node: the magnetization stays, velocities and potentials go as the fields, `phiv` as their square -/
noncomputable def data (c : ℝ) (x : DataNode) : DataNode := ⟨x.u, c * x.v, c * x.phi, c ^ 2 * x.phiv⟩

/-- a node; its basis stays -/
noncomputable def node (c : ℝ) (x : Node) : Node := { x with cur := data c x.cur, next := data c x.next }

noncomputable def nodes (c : ℝ) (nd : Fin n → Node) : Fin n → Node := fun i => node c (nd i)

/-- a volume region -/
noncomputable def prm (c : ℝ) (m : Prm) : Prm := { m with A := c ^ 2 * m.A, Ms := c * m.Ms, K := c ^ 2 * m.K, K3 := c ^ 2 * m.K3 }

/-- a surface region -/
noncomputable def sprm (c : ℝ) (m : SurfPrm) : SurfPrm := { m with Ks := c ^ 2 * m.Ks }

/-- a triangle with its jump of magnetization -/
noncomputable def tri (c : ℝ) (f : Tri × ℝ) : Tri × ℝ := (f.1, c * f.2)

/-- potentials of a node -/
noncomputable def pot (c : ℝ) (p : Fin n → ℝ × ℝ) : Fin n → ℝ × ℝ := fun i => (c * (p i).1, c ^ 2 * (p i).2)

/-- components of the velocities -/
noncomputable def vel (c : ℝ) (X : Fin n → ℝ × ℝ) : Fin n → ℝ × ℝ := fun i => (c * (X i).1, c * (X i).2)

/-- what the time loop receives at an attempt -/
noncomputable def input (c : ℝ) (i : Input n) : Input n := ⟨i.sig, i.r, i.sol.map (vel c), pot c i.pot⟩

noncomputable def stepper (c : ℝ) (s : TimeStepper) : TimeStepper := ⟨s.hardMin / c, s.hardMax / c, s.softMax / c⟩

/-- a row of the table; `e` acts on the energies -/
noncomputable def row (c : ℝ) (e : ET → ET') (r : Row n ET) : Row n ET' := ⟨r.nt, r.t / c, r.dt / c, e r.E, nodes c r.nodes⟩

/-- a saved configuration: the same magnetization at another time -/
noncomputable def sol (c : ℝ) (f : SolFile n) : SolFile n := ⟨f.nt, f.t / c, f.u⟩

/-- a state of the time loop -/
noncomputable def state (c : ℝ) (e : ET → ET') (s : St n ET) : St n ET' where
  ctl := s.ctl
  stepNb := s.stepNb
  t := s.t / c
  dt := s.dt / c
  stepper := stepper c s.stepper
  nodes := nodes c s.nodes
  vmax := c * s.vmax
  E := e s.E
  flag := s.flag
  nt := s.nt
  rows := s.rows.map (row c e)
  sols := s.sols.map (sol c)

/-- the settings of the second run are those of the first with all times divided by `c` -/
structure Settings (c : ℝ) (e : ET → ET') (cfg : Cfg n ET) (cfg' : Cfg n ET') : Prop where
  tf : cfg'.tf = cfg.tf / c
  DTMIN : cfg'.DTMIN = cfg.DTMIN / c
  DTMAX : cfg'.DTMAX = cfg.DTMAX / c
  DUMAX : cfg'.DUMAX = cfg.DUMAX
  timeStep : cfg'.timeStep = cfg.timeStep / c
  savePeriod : cfg'.savePeriod = cfg.savePeriod
  gamma0 : cfg'.gamma0 = cfg.gamma0
  magNode : cfg'.magNode = cfg.magNode
  /-- the sum of two times in the other unit: so for the exact sum, and for a rounded one when `c` is a power of 2 -/
  add : ∀ x y, cfg'.add (x / c) (y / c) = cfg.add x y / c
  energy : ∀ nd t, cfg'.energy (nodes c nd) (t / c) = e (cfg.energy nd t)
  recenter : ∀ nd, cfg'.recenter (nodes c nd) = (cfg.recenter nd).map (nodes c)

/-- the energies: all multiplied by `c²` -/
noncomputable def terms (c : ℝ) (e : EnergyAll.Terms) : EnergyAll.Terms :=
  ⟨c ^ 2 * e.exchange, c ^ 2 * e.anisotropy, c ^ 2 * e.demag, .fin (c ^ 2) * e.zeeman⟩

/-- the applied field: a uniform one, or the amplitude of a space dependent one -/
noncomputable def applied {k : ℕ} (c : ℝ) : EnergyAll.Applied k → EnergyAll.Applied k
  | .undef => .undef
  | .uniform H => .uniform (c * H)
  | .space amp H => .space (c * amp) H

end Verif.Rescale
