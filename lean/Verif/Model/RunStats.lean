import Verif.Model.TimeLoop
import Verif.Model.LogStats

/-!
# Statistics on the time steps (src/time_integration.cpp:40-67, 161-244)

Computed beside the machine of `Model/TimeLoop.lean`, from the same data.
-/

namespace Verif.TimeLoop

open Verif.LogStats

variable {n : ℕ} {ET : Type}

/-- `struct Stats`, time_integration.cpp:40-47; the angle is a number (the case of NaN is C32) -/
structure RunStats where
  goodDt : LogStats.Stats
  goodDumax : LogStats.Stats
  badDt : LogStats.Stats
  maxAngle : ℝ

/-- lines 161-162; `angle` is `msh.max_angle()`, computed from the nodes (`Model/MaxAngle.lean`) -/
noncomputable def RunStats.new (angle : (Fin n → Node) → ℝ) (nodes : Fin n → Node) : RunStats :=
  ⟨Stats.new, Stats.new, Stats.new, angle nodes⟩

open Classical in
/-- what the body of the inner `while` does to the statistics, time_integration.cpp:172-244 -/
noncomputable def statBody (cfg : Cfg n ET) (t0 : ℝ) (angle : (Fin n → Node) → ℝ) (inp : Input n) (s : St n ET)
    (st : RunStats) : RunStats :=
  if inp.sig then st
  else
    let dt := s.stepper.step (tTarget cfg t0 s.stepNb - s.t)
    if dt < cfg.DTMIN then st
    else match inp.sol with
      | none =>
        -- line 212
        { st with badDt := st.badDt.add (.fin dt) }
      | some X =>
        -- lines 216-218
        let dumax := dt * vMax cfg.gamma0 cfg.magNode X
        let st := { st with goodDt := st.goodDt.add (.fin dt), goodDumax := st.goodDumax.add (.fin dumax) }
        -- lines 225-229
        if cfg.DUMAX < dumax then st
        else
          -- lines 231-241, then line 244
          match cfg.recenter (computeAllNodes cfg.magNode inp.pot
              (updateNodes cfg X dt (baseProjection inp.r s.nodes))) with
          | none => st
          | some nodes => { st with maxAngle := max st.maxAngle (angle nodes) }

open Classical in
/-- one step of the machine -/
noncomputable def statStep (cfg : Cfg n ET) (t0 : ℝ) (angle : (Fin n → Node) → ℝ) (inp : Input n) (s : St n ET)
    (st : RunStats) : RunStats :=
  match s.ctl with
  | .running => if s.t < tTarget cfg t0 s.stepNb then statBody cfg t0 angle inp s st else st
  | _ => st

/-- the statistics after `k` steps, printed by `print_stats` (lines 49-67) when the program ends -/
noncomputable def stats (cfg : Cfg n ET) (t0 : ℝ) (angle : (Fin n → Node) → ℝ) (nodes : Fin n → Node)
    (pot : Fin n → ℝ × ℝ) (inp : ℕ → Input n) : ℕ → RunStats
  | 0 => RunStats.new angle (init cfg t0 nodes pot).nodes
  | k + 1 => statStep cfg t0 angle (inp k) (run cfg t0 nodes pot inp k) (stats cfg t0 angle nodes pot inp k)

end Verif.TimeLoop
