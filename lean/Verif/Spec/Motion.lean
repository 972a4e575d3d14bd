import Verif.Spec.Geometry
import Verif.Spec.TimeLoop
import Verif.Model.LlgElem

/-!
# Vocabulary for C79: a sample moved as a whole

A rotation and a translation are applied to everything: positions of the nodes, magnetization, velocities, easy axes,
applied field.
-/

namespace Verif

open Verif.Tetra Verif.Llg

/-- a rotation, given by the images `a, b, c` of the three unit vectors of the axes, and a translation `d` -/
structure Motion where
  a : V3
  b : V3
  c : V3
  d : V3
  basis : DirectOrthonormal a b c

namespace Motion

/-- a vector turned -/
def vec (M : Motion) (v : V3) : V3 := v.x * M.a + v.y * M.b + v.z * M.c

/-- a point turned and displaced -/
def pt (M : Motion) (p : V3) : V3 := M.vec p + M.d

/-- magnetization and velocity turned; the potentials are numbers -/
def data (M : Motion) (x : DataNode) : DataNode := ⟨M.vec x.u, M.vec x.v, x.phi, x.phiv⟩

/-- the same material with its axes turned -/
def prm (M : Motion) (m : Prm) : Prm :=
  ⟨m.alpha, m.A, m.Ms, m.K, M.vec m.uk, m.K3, M.vec m.ex, M.vec m.ey, M.vec m.ez⟩

/-- the same surface with its axis turned -/
def sprm (M : Motion) (m : SurfPrm) : SurfPrm := ⟨m.Ks, M.vec m.uk⟩

end Motion

namespace TimeLoop

variable {n : ℕ} {ET : Type}

/-- the nodes `b` are the nodes `a` moved by `M`; nothing is said of the bases of the tangent planes -/
def Moved (M : Motion) (a b : Fin n → Node) : Prop :=
  ∀ i, (b i).p = M.pt (a i).p ∧ (b i).cur = M.data (a i).cur ∧ (b i).next = M.data (a i).next

/-- the same row of the table, for the moved sample -/
structure MovedRow (M : Motion) (a b : Row n ET) : Prop where
  nt : b.nt = a.nt
  t : b.t = a.t
  dt : b.dt = a.dt
  E : b.E = a.E
  nodes : Moved M a.nodes b.nodes

/-- the saved configuration of the moved sample -/
structure MovedSol (M : Motion) (a b : SolFile n) : Prop where
  nt : b.nt = a.nt
  t : b.t = a.t
  u : ∀ i, b.u i = M.vec (a.u i)

/-- the second run is at the same point as the first, with the moved sample -/
structure MovedState (M : Motion) (a b : St n ET) : Prop where
  ctl : b.ctl = a.ctl
  stepNb : b.stepNb = a.stepNb
  t : b.t = a.t
  dt : b.dt = a.dt
  stepper : b.stepper = a.stepper
  nodes : Moved M a.nodes b.nodes
  vmax : b.vmax = a.vmax
  E : b.E = a.E
  flag : b.flag = a.flag
  nt : b.nt = a.nt
  rows : List.Forall₂ (MovedRow M) a.rows b.rows
  sols : List.Forall₂ (MovedSol M) a.sols b.sols

end TimeLoop
end Verif
