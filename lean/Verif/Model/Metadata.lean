import Verif.Model.Text

/-!
# Headers of the output files (src/settings.cpp:273-312)

The version, host name, date and settings file name are arbitrary strings.
-/

namespace Verif.Metadata

open Verif.Text

/-- what goes into the headers -/
structure Info where
  version : Str
  /-- `none` if `gethostname` reports a name that is too long -/
  hostname : Option Str
  date : Str
  settingsFile : Str
  /-- `userMetadata`, settings.h:322 -/
  user : List (Str × Str)
  evolColumns : List Str
  spinAcc : Bool

/-- the lines of one item of user metadata, settings.cpp:285-288; `none` is undefined behaviour: `back()` of an empty
string, line 286 -/
def userItem (item : Str × Str) : Option Str :=
  match item.2.getLast? with
  | none => none
  | some last =>
    let value := if last = '\n' then item.2.dropLast else item.2
    some ("## ".toList ++ item.1 ++ ": ".toList ++ replace ['\n'] "\n##  ".toList value ++ ['\n'])

/-- `Settings::commonMetadata`, settings.cpp:273-291 (tags: tags.h:21-25) -/
def common (m : Info) : Option Str := do
  let user ← m.user.mapM userItem
  return "## feeLLGood version: ".toList ++ m.version ++ ['\n'] ++
    (match m.hostname with
     | some h => "## hostname: ".toList ++ h ++ ['\n']
     | none => []) ++
    "## real-world time: ".toList ++ m.date ++ ['\n'] ++
    "## settings file: ".toList ++ m.settingsFile ++ ['\n'] ++ user.flatten

/-- the column names, settings.cpp:296-299: `evol_columns.size() - 1` is computed on unsigned integers and
`evol_columns[size - 1]` is read, which is undefined for an empty list -/
def evolColumnLine (cols : List Str) : Option Str :=
  match cols.getLast? with
  | none => none
  | some last => some ("## columns: ".toList ++ (cols.dropLast.flatMap fun c => c ++ ['\t']) ++ last ++ ['\n'])

/-- `Settings::evolMetadata`, settings.cpp:293-301 -/
def evol (m : Info) : Option Str := do
  let c ← common m
  let l ← evolColumnLine m.evolColumns
  return c ++ l

/-- `Settings::solMetadata`, settings.cpp:303-312; `time` is the text of `t` (line 306) -/
def sol (m : Info) (time : Str) : Option Str := do
  let c ← common m
  return c ++ "## time: ".toList ++ time ++ ['\n'] ++
    "## columns: idx\tmx\tmy\tmz\tphi".toList ++ (if m.spinAcc then "\tsx\tsy\tsz".toList else []) ++ ['\n']

end Verif.Metadata
