import Verif.Model.Options
import Verif.Model.Settings
import Verif.Model.Evol
import Verif.Model.TimeLoop

/-!
# The whole program (`main`, src/main.cpp:204-286): what it does to the file system, and how it ends

The outcome is the list of the operations on the file system, in the order of the first access to each file, and the exit status.
The command line, the settings, the columns of the table and the time integration are those of the other models. Parameters
(`World`): the contents of the settings files, the state of the file system, the answers of the numerical parts (mesh accepted or not,
solver converged or not), and the inputs of the time loop. `n` is the number of nodes of the mesh.

Not modelled: what is printed; a disk that becomes full; exceptions thrown by user expressions during the run; the failures of
memory allocation; a file that is opened under several names.
-/

namespace Verif.Main

open Verif.Text Verif.Settings

variable {D ET : Type} {n : ℕ}

/-- what `YAML::LoadFile` or `YAML::Load` find, settings.cpp:596-616 -/
inductive Source
  /-- the file cannot be opened (`YAML::BadFile`) -/
  | missing
  /-- not a YAML document: an exception that nobody catches -/
  | malformed
  | doc (y : Yaml)

/-- result of `stat`, main.cpp:41-60 -/
inductive Stat
  | absent | directory | other
  /-- an error different from `ENOENT` -/
  | error

/-- what is written in a file -/
inductive Content (n : ℕ) (ET : Type)
  /-- header and complete rows of the table -/
  | table (rows : List (Row n ET))
  | sol (f : SolFile n)
  /-- the electric potential -/
  | potential

/-- an operation on the file system -/
inductive Op (n : ℕ) (ET : Type)
  | mkdir (path : Str)
  /-- the file is created, or emptied, and this is written -/
  | write (path : Str) (c : Content n ET)

inductive Status
  | exit (status : ℕ)
  /-- ended by the signal that was received -/
  | killed
  /-- not ended yet -/
  | running
  | undefined
  deriving DecidableEq

structure Outcome (n : ℕ) (ET : Type) where
  ops : List (Op n ET)
  status : Status

/-- everything around the program -/
structure World (D : Type) (n : ℕ) (ET : Type) where
  C : Conv D
  /-- the settings after the constructor (built-in defaults) -/
  builtin : All D
  toSeed : Str → ℕ
  randomDevice : ℕ
  /-- `get_user_defaults_filename()` -/
  userDefaults : Str
  /-- the settings files; `-` is the standard input -/
  file : Str → Source
  stat : Str → Stat
  /-- `mkdir` succeeds -/
  canMkdir : Str → Bool
  /-- `std::ofstream` opens the file -/
  canOpen : Str → Bool
  /-- the constructor of `Fem` returns: mesh and initial magnetization accepted -/
  femOk : All D → Bool
  /-- `spinAcc::checkBoundaryConditions` and `electrostatSolver::checkBoundaryConditions` return -/
  conditionsOk : All D → Bool
  /-- the electrostatic solver converges -/
  potentialOk : All D → Bool
  /-- the first spin diffusion problem is solved -/
  spinOk : All D → Bool
  /-- both calls of `sigaction` succeed -/
  sigactionOk : Bool
  /-- the value of a number -/
  num : D → ℝ
  /-- the time in the file given for the initial magnetization -/
  restoredTime : Str → ℝ
  gamma0 : ℝ
  magNode : All D → Fin n → Bool
  add : ℝ → ℝ → ℝ
  energy : All D → (Fin n → Node) → ℝ → ET
  recenter : All D → (Fin n → Node) → Option (Fin n → Node)
  nodes : All D → Fin n → Node
  pot : All D → Fin n → ℝ × ℝ
  /-- for each seed -/
  inp : All D → Option ℕ → ℕ → Input n

/-- `Settings::read(filename)`, settings.cpp:596-616; `none`: the program ends with an error -/
def readSource (w : World D n ET) (s : All D) (name : Str) : Option (All D × Bool) :=
  match w.file name with
  | .missing => readFile w.C s none
  | .malformed => none
  | .doc y => readFile w.C s (some y)

/-- `create_dir_if_needed`, main.cpp:37-71; `none`: `exit(1)` -/
def createDir (w : World D n ET) (dir : Str) : Option (List (Op n ET)) :=
  match w.stat dir with
  | .error => none
  | .directory => some []
  | .other => none
  | .absent => if w.canMkdir dir then some [.mkdir dir] else none

/-- the constructor of `spinAcc`, spinAccumulationSolver.cpp:8-39, with `electrostatSolver::compute` and `save`
(electrostatSolver.cpp:78-94, 138-157): what is written, and whether it returns -/
def spinSetup (w : World D n ET) (s : All D) : List (Op n ET) × Bool :=
  if s.spin.enable then
    if w.conditionsOk s then
      if w.potentialOk s then
        if s.spin.vFile then
          let name := s.simName ++ "_V.sol".toList
          if w.canOpen name then ([.write name .potential], w.spinOk s) else ([], false)
        else ([], w.spinOk s)
      else ([], false)
    else ([], false)
  else ([], true)

/-- the parameters of the time integration: settings, `timing` (main.cpp:235) -/
def cfgOf (w : World D n ET) (s : All D) : Cfg n ET where
  tf := w.num s.outputs.finalTime
  DTMIN := w.num s.time.dtMin
  DTMAX := w.num s.time.dtMax
  DUMAX := w.num s.time.duMax
  timeStep := w.num s.outputs.timeStep
  savePeriod := s.outputs.savePeriod.toNat
  gamma0 := w.gamma0
  magNode := w.magNode s
  add := w.add
  energy := w.energy s
  recenter := fun nd => if s.recentering.enable then w.recenter s nd else some nd

/-- the initial time, fem.h:102-115 (`timing` starts from 0) -/
def startTime (w : World D n ET) (s : All D) : ℝ :=
  if w.C.isNaN s.initialTime then
    if s.mag.restoreFileName = [] then 0 else w.restoredTime s.mag.restoreFileName
  else w.num s.initialTime

/-- `baseName`, time_integration.cpp:141, save.cpp:144 -/
def baseName (s : All D) : Str := s.outputs.directory ++ '/' :: s.simName

/-- name of a `.sol` file, save.cpp:148, time_integration.cpp:114-115 -/
def solName (s : All D) (f : SolFile n) : Str :=
  match f.nt with
  | some k => baseName s ++ "_iter".toList ++ Nat.toDigits 10 k ++ ".sol".toList
  | none => baseName s ++ "_at_exit.sol".toList

/-- the `.sol` files in the order of their writing; `savesol` ends the program if one cannot be opened (save.cpp:167-172). The files
written, and the one that could not be opened. -/
def writeSols (w : World D n ET) (s : All D) : List (SolFile n) → List (SolFile n) × Option (SolFile n)
  | [] => ([], none)
  | f :: fs =>
    if w.canOpen (solName s f) then
      let r := writeSols w s fs
      (f :: r.1, r.2)
    else ([], some f)

/-- exit status, time_integration.cpp:128-133 and 253, main.cpp:285; recentering.cpp:94-98 -/
def statusOf : Ctl → Status
  | .running => .running
  | .done k => .exit k
  | .signalled => .killed
  | .noDomainWall => .exit 1

/-- `Fem::time_integration`, time_integration.cpp:136-254, after `k` transitions of the loop -/
noncomputable def integrate (w : World D n ET) (s : All D) (seed : Option ℕ) (k : ℕ) : Outcome n ET :=
  let evol := baseName s ++ ".evol".toList
  if w.canOpen evol then
    let st := TimeLoop.run (cfgOf w s) (startTime w s) (w.nodes s) (w.pot s) (w.inp s seed) k
    if s.outputs.evolColumns = [] then
      -- settings.cpp:296-299 reads the last element of an empty list
      ⟨[.write evol (.table [])], .undefined⟩
    else if st.rows ≠ [] ∧
        (Evol.row (fun _ => []) (s.mesh.tetra.map (·.regName)) s.outputs.evolColumns).2 = false then
      -- the first call of `saver` ends the program inside the first row
      ⟨[.write evol (.table [])], .exit 1⟩
    else
      let r := writeSols w s st.sols
      let sols := r.1.map fun f => Op.write (solName s f) (.sol f)
      match r.2 with
      | none => ⟨.write evol (.table st.rows) :: sols, statusOf st.ctl⟩
      | some f =>
        -- the row with the number of the file was written before
        let rows := match f.nt with
          | some j => st.rows.take (j + 1)
          | none => st.rows
        ⟨.write evol (.table rows) :: sols, .exit 1⟩
  else ⟨[], .exit 1⟩

/-- `main` from line 225 on: a run -/
noncomputable def runFile (w : World D n ET) (file : Str) (seed : Option ℕ) (k : ℕ) : Outcome n ET :=
  match readSource w w.builtin w.userDefaults with
  | none => ⟨[], .exit 1⟩
  | some (s, _) =>
    match readSource w s file with
    | none => ⟨[], .exit 1⟩
    | some (_, false) => ⟨[], .exit 1⟩
    | some (s, true) =>
      match createDir w s.outputs.directory with
      | none => ⟨[], .exit 1⟩
      | some dirOps =>
        if w.femOk s then
          let sp := spinSetup w s
          if sp.2 then
            if w.sigactionOk then
              let r := integrate w s seed k
              ⟨dirOps ++ sp.1 ++ r.ops, r.status⟩
            else ⟨dirOps ++ sp.1, .exit 1⟩
          else ⟨dirOps ++ sp.1, .exit 1⟩
        else ⟨dirOps, .exit 1⟩

/-- `main`, main.cpp:204-286 -/
noncomputable def main (w : World D n ET) (argv : List Str) (k : ℕ) : Outcome n ET :=
  match Options.parseOptions w.toSeed w.randomDevice 0 argv with
  | .help => ⟨[], .exit 0⟩
  | .version => ⟨[], .exit 0⟩
  | .defaults => ⟨[], .exit 0⟩
  | .template => ⟨[], .exit 0⟩
  | .usage => ⟨[], .exit 1⟩
  | .outOfBounds => ⟨[], .undefined⟩
  | .verify file _ =>
    -- main.cpp:188-194: the results of `read` are not used
    match readSource w w.builtin w.userDefaults with
    | none => ⟨[], .exit 1⟩
    | some (s, _) =>
      match readSource w s file with
      | none => ⟨[], .exit 1⟩
      | some _ => ⟨[], .exit 0⟩
  | .run file _ seed => runFile w file seed k

end Verif.Main
