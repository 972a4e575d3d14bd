import Verif.Model.Settings

/-!
# Strings in the dump of the settings (src/settings.cpp:70-77, 92-119, 155-271)

Only the strings of the dump are modelled, and each of them alone: the text between the key and the end of its last line. Numbers
are printed with the six digits of `std::ostream` and are not considered.
-/

namespace Verif.Settings

open Verif.Text

/-- `str(std::string s, int level)`, settings.cpp:95-119 -/
def str (s : Str) (level : ℕ) : Str :=
  if '\n' ∈ s then
    let indent : Str := List.replicate ((level + 1) * 2) ' '
    let t := '|' :: '\n' :: s
    let t := if t.getLast? = some '\n' then t.dropLast else t
    replace ['\n'] ('\n' :: indent) t
  else '"' :: replace ['"'] ['\\', '"'] s ++ ['"']

/-- how `toYaml` prints a string: as it is, between quotes as it is, or with `str` -/
inductive Style
  | raw
  | quotes
  | str (level : ℕ)

/-- the printed text -/
def Style.text : Style → Str → Str
  | .raw, s => s
  | .quotes, s => '"' :: s ++ ['"']
  | .str level, s => Settings.str s level

/-- the strings printed by `toYaml`, settings.cpp:155-271, with the keys under which they stand -/
def strings {D : Type} (s : All D) : List (List Str × Style × Str) :=
  [(["outputs".toList, "directory".toList], .raw, s.outputs.directory),
   (["outputs".toList, "file_basename".toList], .raw, s.simName)] ++
  s.outputs.evolColumns.map (fun c => (["outputs".toList, "evol_columns".toList], .raw, c)) ++
  s.outputs.userMetadata.map (fun p => (["outputs".toList, "metadata".toList, p.1], .str 2, p.2)) ++
  [(["mesh".toList, "filename".toList], .raw, s.mesh.pbName)] ++
  (if s.mag.sM ≠ [] then [(["initial_magnetization".toList], .str 0, s.mag.sM)]
   else if s.mag.restoreFileName = [] then
    [(["initial_magnetization".toList], .quotes, s.mag.sMx), (["initial_magnetization".toList], .quotes, s.mag.sMy),
     (["initial_magnetization".toList], .quotes, s.mag.sMz)]
   else [(["initial_magnetization".toList], .raw, s.mag.restoreFileName)]) ++
  (match s.field.type with
   | .R4toR3 => [(["Bext".toList, "space".toList], .str 1, s.field.sSpace), (["Bext".toList, "time".toList], .str 1, s.field.sTime)]
   | _ => if s.field.sB ≠ [] then [(["Bext".toList], .str 0, s.field.sB)]
     else [(["Bext".toList], .quotes, s.field.sBx), (["Bext".toList], .quotes, s.field.sBy), (["Bext".toList], .quotes, s.field.sBz)])

end Verif.Settings
