import Verif.Model.Node
import Verif.Model.TimeStepper

/-!
# The time integration loop (`Fem::time_integration`, src/time_integration.cpp:136-254)

The two nested loops are a state machine: one `step` is either one iteration of the inner `while`
(lines 170-245), or one output (line 246) followed by the increment of the `for` (line 166).
Everything outside the loop's own logic is adversarial: at each attempt an `Input` supplies whether a
signal was received, the random angle, the outcome of the linear solve and the potentials computed by
the demagnetizing field solver. Theorems quantify over all infinite sequences of inputs.
-/

namespace Verif

variable {n : ℕ}

/-- Outcome supplied by the environment for one attempted step. -/
structure Input (n : ℕ) where
  /-- `received_signal != 0` when tested, time_integration.cpp:105 -/
  sig : Bool
  /-- random number `r` of `LinAlgebra::base_projection`, linear_algebra.cpp:8 -/
  r : ℝ
  /-- result of the linear solve: `none` is failure (solver.cpp:62-69), `some X` the velocities
  `(Xw[2*i], Xw[2*i+1])` (solver.cpp:80-81) -/
  sol : Option (Fin n → ℝ × ℝ)
  /-- `(phi, phiv)` computed by `myFMM.calc_demag`, fem.h:208 -/
  pot : Fin n → ℝ × ℝ

/-- What is written by `Fem::saver` (save.cpp:13-162) for one visible step: row of the `.evol` file. -/
structure Row (n : ℕ) (ET : Type) where
  nt : ℕ
  t : ℝ
  dt : ℝ
  E : ET
  nodes : Fin n → Node

/-- A `.sol` file: its number (none for `_at_exit.sol`), the time of its header (`solMetadata`),
the magnetization written (`savesol` writes `d[NEXT].u`, save.cpp:179-180). -/
structure SolFile (n : ℕ) where
  nt : Option ℕ
  t : ℝ
  u : Fin n → V3

/-- Constant data of a run. `ET` is the type of the energies `E[]`. -/
structure Cfg (n : ℕ) (ET : Type) where
  tf : ℝ
  DTMIN : ℝ
  DTMAX : ℝ
  /-- `settings.DUMAX`; the model is faithful for `0 ≤ DUMAX` only (division by `vmax = 0`) -/
  DUMAX : ℝ
  /-- `settings.time_step` -/
  timeStep : ℝ
  /-- `settings.save_period` (made non-negative by settings.cpp:334-340) -/
  savePeriod : ℕ
  gamma0 : ℝ
  magNode : Fin n → Bool
  /-- the sum of two times as computed by `timing::inc_t`, time_integration.h:48 (rounded, so it need not be exact) -/
  add : ℝ → ℝ → ℝ
  /-- `Fem::energy(t)`, energy.cpp:5-68, a function of the nodes and of the time -/
  energy : (Fin n → Node) → ℝ → ET
  /-- `if (settings.recenter) recenter(...)`, time_integration.cpp:241; `none` when the program exits
  with "No Domain Wall" (recentering.cpp:94-98); see `Model/Recenter.lean` -/
  recenter : (Fin n → Node) → Option (Fin n → Node)

/-- Control state. -/
inductive Ctl
  | running
  /-- returned with this exit status, time_integration.cpp:253 -/
  | done (status : ℕ)
  /-- terminated by `exit_if_signal_received`, time_integration.cpp:101-134 -/
  | signalled
  /-- `exit(1)` inside `recenter` -/
  | noDomainWall
  deriving DecidableEq

/-- State of the integration. -/
structure St (n : ℕ) (ET : Type) where
  ctl : Ctl
  /-- `step_nb` of the `for` -/
  stepNb : ℕ
  t : ℝ
  dt : ℝ
  stepper : TimeStepper
  nodes : Fin n → Node
  vmax : ℝ
  E : ET
  /-- consecutive retries -/
  flag : ℕ
  /-- number of accepted integration steps -/
  nt : ℕ
  rows : List (Row n ET)
  sols : List (SolFile n)

namespace TimeLoop

variable {ET : Type}

open Classical in
/-- `v2max` of solver.cpp:74-87 -/
noncomputable def v2max (mag : Fin n → Bool) (X : Fin n → ℝ × ℝ) : ℝ :=
  (List.finRange n).foldl
    (fun m i => if mag i then
        (let v2 := (X i).1 * (X i).1 + (X i).2 * (X i).2
         if m < v2 then v2 else m) else m) 0

/-- `LinAlgebra::get_v_max` after a successful solve, solver.cpp:88 -/
noncomputable def vMax (gamma0 : ℝ) (mag : Fin n → Bool) (X : Fin n → ℝ × ℝ) : ℝ :=
  gamma0 * Real.sqrt (v2max mag X)

/-- node updates of `LinAlgebra::solve` on success, solver.cpp:76-87; `mesh::updateNode`
multiplies by `gamma0`, mesh.h:185-186 -/
noncomputable def updateNodes (cfg : Cfg n ET) (X : Fin n → ℝ × ℝ) (dt : ℝ)
    (nodes : Fin n → Node) : Fin n → Node := fun i =>
  if cfg.magNode i then (nodes i).makeEvol ((X i).1 * cfg.gamma0) ((X i).2 * cfg.gamma0) dt
  else nodes i

/-- `LinAlgebra::base_projection`, linear_algebra.cpp:3-11: `msh->setBasis(M_2_PI * r)`, with
`M_2_PI` = 2/π as defined by POSIX -/
noncomputable def baseProjection (r : ℝ) (nodes : Fin n → Node) : Fin n → Node :=
  fun i => (nodes i).setBasis (2 / Real.pi * r)

/-- effect of `calc_demag` on the nodes: `set_phi`, `set_phiv` on the magnetic nodes
(node.h:165-168, fmm_demag.h:184-224) -/
def setPot (mag : Fin n → Bool) (pot : Fin n → ℝ × ℝ) (nodes : Fin n → Node) : Fin n → Node :=
  fun i => if mag i then
      { nodes i with next := { (nodes i).next with phi := (pot i).1, phiv := (pot i).2 } }
    else nodes i

/-- nodes after `compute_all`, fem.h:203-224: demag, then `evolution()` -/
def computeAllNodes (mag : Fin n → Bool) (pot : Fin n → ℝ × ℝ) (nodes : Fin n → Node) :
    Fin n → Node := fun i => (setPot mag pot nodes i).evolution

/-- energies computed by `compute_all(…, t)`, fem.h:222: on the nodes after demag, before
`evolution` -/
def computeAllE (cfg : Cfg n ET) (pot : Fin n → ℝ × ℝ) (nodes : Fin n → Node) (t : ℝ) : ET :=
  cfg.energy (setPot cfg.magNode pot nodes) t

/-- `stepper.set_soft_limit((settings.DUMAX / vmax) * 0.95)`, time_integration.cpp:224. With
`vmax = 0` the C++ quotient is `+inf` (or NaN if `DUMAX = 0`) and `std::min` keeps the old limit. -/
noncomputable def softLimitDu (s : TimeStepper) (DUMAX vmax : ℝ) : TimeStepper :=
  if vmax = 0 then s else s.setSoftLimit ((DUMAX / vmax) * 0.95)

/-- `step_count`, time_integration.cpp:159 -/
noncomputable def stepCount (cfg : Cfg n ET) (t0 : ℝ) : ℤ := cRound ((cfg.tf - t0) / cfg.timeStep)

/-- `t_target`, time_integration.cpp:168 -/
def tTarget (cfg : Cfg n ET) (t0 : ℝ) (stepNb : ℕ) : ℝ := t0 + stepNb * cfg.timeStep

/-- `exit_if_signal_received`, time_integration.cpp:101-134, when a signal was received -/
def onSignal (cfg : Cfg n ET) (s : St n ET) : St n ET :=
  { s with ctl := .signalled
           sols := if 0 < cfg.savePeriod
                   then s.sols ++ [{ nt := none, t := s.t, u := fun i => (s.nodes i).next.u }]
                   else s.sols }

open Classical in
/-- body of the inner `while`, time_integration.cpp:172-244 -/
noncomputable def whileBody (cfg : Cfg n ET) (t0 : ℝ) (inp : Input n) (s : St n ET) : St n ET :=
  if inp.sig then onSignal cfg s
  else
    let target := tTarget cfg t0 s.stepNb
    -- line 174
    let dt := s.stepper.step (target - s.t)
    let stepper := s.stepper.next (target - s.t)
    -- line 175
    let lastStep := dt = target - s.t
    let s := { s with dt := dt, stepper := stepper }
    -- lines 187-192
    if dt < cfg.DTMIN then { s with ctl := .done 1 }
    else
      -- line 193
      let s := { s with nodes := baseProjection inp.r s.nodes }
      match inp.sol with
      | none =>
        -- lines 208-214
        { s with flag := s.flag + 1, stepper := s.stepper.setSoftLimit (dt / 2) }
      | some X =>
        -- line 205-206
        let s := { s with nodes := updateNodes cfg X dt s.nodes, vmax := vMax cfg.gamma0 cfg.magNode X }
        let dumax := dt * s.vmax
        -- line 224
        let s := { s with stepper := softLimitDu s.stepper cfg.DUMAX s.vmax }
        -- lines 225-229
        if cfg.DUMAX < dumax then { s with flag := s.flag + 1 }
        else
          -- line 231: compute_all with the time *before* the increment
          let s := { s with E := computeAllE cfg inp.pot s.nodes s.t
                            nodes := computeAllNodes cfg.magNode inp.pot s.nodes }
          -- lines 232-239
          let s := { s with nt := s.nt + 1, flag := 0
                            t := if lastStep then target else cfg.add s.t dt }
          -- line 241
          match cfg.recenter s.nodes with
          | none => { s with ctl := .noDomainWall }
          | some nodes => { s with nodes := nodes }

/-- `Fem::saver`, save.cpp:13-162: one row; a `.sol` file when `save_period && nt % save_period == 0`
(save.cpp:146). `nt_output` is the number of rows already written (time_integration.cpp:155, 246). -/
def saver (cfg : Cfg n ET) (s : St n ET) : St n ET :=
  let k := s.rows.length
  { s with
    rows := s.rows ++ [{ nt := k, t := s.t, dt := s.dt, E := s.E, nodes := s.nodes }]
    sols := if cfg.savePeriod ≠ 0 ∧ k % cfg.savePeriod = 0
            then s.sols ++ [{ nt := some k, t := s.t, u := fun i => (s.nodes i).next.u }]
            else s.sols }

/-- end of one iteration of the `for`: output (line 246), increment and test (line 166) -/
noncomputable def forBody (cfg : Cfg n ET) (t0 : ℝ) (s : St n ET) : St n ET :=
  let s := saver cfg s
  let s := { s with stepNb := s.stepNb + 1 }
  if (s.stepNb : ℤ) ≤ stepCount cfg t0 then s else { s with ctl := .done 0 }

open Classical in
/-- one step of the machine -/
noncomputable def step (cfg : Cfg n ET) (t0 : ℝ) (inp : Input n) (s : St n ET) : St n ET :=
  match s.ctl with
  | .running =>
    if s.t < tTarget cfg t0 s.stepNb then whileBody cfg t0 inp s else forBody cfg t0 s
  | _ => s

/-- state at the first test of the `for`, time_integration.cpp:140-166: `compute_all` on the initial
nodes at the initial time; `timing` initialises `dt` to `sqrt(DTMIN*DTMAX)` (time_integration.h:14)
and `TimeStepper` starts from it (line 160). -/
noncomputable def init (cfg : Cfg n ET) (t0 : ℝ) (nodes : Fin n → Node) (pot : Fin n → ℝ × ℝ) :
    St n ET :=
  let dt := Real.sqrt (cfg.DTMIN * cfg.DTMAX)
  { ctl := if 0 ≤ stepCount cfg t0 then .running else .done 0
    stepNb := 0, t := t0, dt := dt
    stepper := TimeStepper.mk' dt cfg.DTMIN cfg.DTMAX
    nodes := computeAllNodes cfg.magNode pot nodes
    vmax := 0
    E := computeAllE cfg pot nodes t0
    flag := 0, nt := 0, rows := [], sols := [] }

/-- state after `k` steps -/
noncomputable def run (cfg : Cfg n ET) (t0 : ℝ) (nodes : Fin n → Node) (pot : Fin n → ℝ × ℝ)
    (inp : ℕ → Input n) : ℕ → St n ET
  | 0 => init cfg t0 nodes pot
  | k + 1 => step cfg t0 (inp k) (run cfg t0 nodes pot inp k)

end TimeLoop
end Verif
