import Verif.Spec.TimeLoop

/-!
# Vocabulary for C73: two runs of the same problem

Two runs differ by the random angles of the tangent bases and by the order in which threads assemble the system. What
can be observed of a run: the rows of the table, the saved configurations, the time, the number of steps, how it ends.
-/

namespace Verif.TimeLoop

variable {n : ℕ} {ET : Type}

/-- the same nodes, up to the choice of the bases of the tangent planes -/
def SameNodes (a b : Fin n → Node) : Prop := ∀ i, (a i).p = (b i).p ∧ (a i).cur = (b i).cur ∧ (a i).next = (b i).next

/-- the same row of the table -/
structure SameRow (a b : Row n ET) : Prop where
  nt : a.nt = b.nt
  t : a.t = b.t
  dt : a.dt = b.dt
  E : a.E = b.E
  nodes : SameNodes a.nodes b.nodes

/-- nothing that can be observed, now or later, distinguishes the two states -/
structure SameState (a b : St n ET) : Prop where
  ctl : a.ctl = b.ctl
  stepNb : a.stepNb = b.stepNb
  t : a.t = b.t
  dt : a.dt = b.dt
  stepper : a.stepper = b.stepper
  nodes : SameNodes a.nodes b.nodes
  vmax : a.vmax = b.vmax
  E : a.E = b.E
  flag : a.flag = b.flag
  nt : a.nt = b.nt
  rows : List.Forall₂ SameRow a.rows b.rows
  sols : a.sols = b.sols

/-- energies and recentering do not look at the bases (energy.cpp, recentering.cpp read positions, `u`, `phi` only) -/
structure BlindToBases (cfg : Cfg n ET) : Prop where
  energy : ∀ a b t, SameNodes a b → cfg.energy a t = cfg.energy b t
  recenter : ∀ a b, SameNodes a b → (cfg.recenter a = none ↔ cfg.recenter b = none) ∧
    ∀ a' b', cfg.recenter a = some a' → cfg.recenter b = some b' → SameNodes a' b'

end Verif.TimeLoop
