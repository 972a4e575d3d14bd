import Verif.Model.Main
import Verif.Spec.Settings
import Verif.Spec.TimeLoop
import Verif.Spec.Evol

/-!
# Specification: what a run may do to the file system, and what its exit status means
-/

namespace Verif.Main

open Verif.Text Verif.Settings

variable {D ET : Type} {n : ℕ}

/-- the settings of the run of `file`: read from the user's defaults, if there are any, then from `file`, which has to contain some -/
def HasSettings (w : World D n ET) (file : Str) (s : All D) : Prop :=
  ∃ (u : Option Yaml) (y : Yaml),
    (match u with
      | none => w.file w.userDefaults = .missing
      | some d => w.file w.userDefaults = .doc d) ∧
    w.file file = .doc y ∧ y ≠ .null ∧ readFiles w.C w.builtin [u, some y] = some s

/-- decimal digits -/
def Digits (d : Str) : Prop := d ≠ [] ∧ ∀ c ∈ d, c.isDigit = true

/-- the names documented for the files of a run: the table, the numbered magnetizations, the magnetization at a premature end -/
inductive OwnFile (dir name : Str) : Str → Prop
  | evol : OwnFile dir name (dir ++ "/".toList ++ name ++ ".evol".toList)
  | iter {d : Str} : Digits d → OwnFile dir name (dir ++ "/".toList ++ name ++ "_iter".toList ++ d ++ ".sol".toList)
  | atExit : OwnFile dir name (dir ++ "/".toList ++ name ++ "_at_exit.sol".toList)

/-- the command line asks for information only -/
def AsksInfo (w : World D n ET) (argv : List Str) : Prop :=
  let r := Options.parseOptions w.toSeed w.randomDevice 0 argv
  r = .help ∨ r = .version ∨ r = .defaults ∨ r = .template

/-- the command line asks for the verification of a file -/
def AsksVerify (w : World D n ET) (argv : List Str) (file : Str) : Prop :=
  ∃ v, Options.parseOptions w.toSeed w.randomDevice 0 argv = .verify file v

/-- the command line asks for a run -/
def AsksRun (w : World D n ET) (argv : List Str) (file : Str) (seed : Option ℕ) : Prop :=
  ∃ v, Options.parseOptions w.toSeed w.randomDevice 0 argv = .run file v seed

/-- all the columns asked for have a meaning -/
def Meaningful (s : All D) : Prop :=
  s.outputs.evolColumns ≠ [] ∧ ∀ c ∈ s.outputs.evolColumns, ∃ q, Evol.Means (s.mesh.tetra.map (·.regName)) c q

/-- one of them is not documented -/
def UnknownColumn (s : All D) : Prop :=
  ∃ c ∈ s.outputs.evolColumns, ':' ∉ c ∧ ∀ q, (c, q) ∉ Evol.wholeTable

/-- the directory exists, or can be created -/
def DirUsable (w : World D n ET) (dir : Str) : Prop :=
  w.stat dir = .directory ∨ (w.stat dir = .absent ∧ w.canMkdir dir = true)

/-- what is decided before the electric current is computed -/
def InputAccepted (w : World D n ET) (s : All D) : Prop :=
  DirUsable w s.outputs.directory ∧ w.femOk s = true ∧
    (s.spin.enable = true → w.conditionsOk s = true ∧ w.potentialOk s = true)

/-- the initial time: the one in the settings; if there is none, the time of the file with the initial magnetization; if there is none, zero -/
structure StartsAt (w : World D n ET) (s : All D) (t0 : ℝ) : Prop where
  given : w.C.isNaN s.initialTime = false → t0 = w.num s.initialTime
  restored : w.C.isNaN s.initialTime = true → s.mag.restoreFileName ≠ [] → t0 = w.restoredTime s.mag.restoreFileName
  fresh : w.C.isNaN s.initialTime = true → s.mag.restoreFileName = [] → t0 = 0

/-- the number of rows of a complete table that starts at `t0` -/
noncomputable def rowCount (w : World D n ET) (s : All D) (t0 : ℝ) : ℕ :=
  (cRound ((w.num s.outputs.finalTime - t0) / w.num s.outputs.timeStep) + 1).toNat

end Verif.Main
