import Verif.Model.Options

/-!
# Specification of the command line

`feellgood [options] settings_file`, where the options are words or `--seed` followed by a value.
-/

namespace Verif.Options

open Verif.Text

/-- the words of the documentation for each option -/
def words : Flag → List Str
  | .help => ["-h".toList, "--help".toList]
  | .version => ["-V".toList, "--version".toList]
  | .defaults => ["--print-defaults".toList]
  | .template => ["--print-template".toList]
  | .verify => ["--verify".toList]
  | .verbose => ["-v".toList, "--verbose".toList]
  | .fixedSeed => ["--seed".toList]

/-- one option as the user writes it -/
inductive Item
  | word (f : Flag) (w : Str)
  | seed (value : Str)

def Item.args : Item → List Str
  | .word _ w => [w]
  | .seed v => ["--seed".toList, v]

/-- options that do not end the program by themselves, with a documented word -/
def Item.Runs : Item → Prop
  | .word f w => (f = .verbose ∨ f = .verify) ∧ w ∈ words f
  | .seed _ => True

def Item.isVerify : Item → Bool
  | .word .verify _ => true
  | _ => false

def Item.isVerbose : Item → Bool
  | .word .verbose _ => true
  | _ => false

/-- the seed given, the last one counts -/
def lastSeed (toSeed : Str → ℕ) (items : List Item) : Option ℕ :=
  (items.filterMap (fun i => match i with | .seed v => some (toSeed v) | _ => none)).getLast?

/-- not an option, nor the empty string -/
def IsFile (w : Str) : Prop := w ≠ [] ∧ ∀ f, w ∉ words f

end Verif.Options
