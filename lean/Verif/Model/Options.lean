import Verif.Model.Text
import Mathlib.Data.Int.Notation

/-!
# The command line (src/main.cpp, `parseOptions`)

`argv` is a list of strings, `argc` its length; every read of an element is checked, a read outside gives `outOfBounds`.
The conversion of a number (`atol`, then to `unsigned int`) and the value of the random device are parameters.
What is printed is reduced to the kind of text.
-/

namespace Verif.Options

open Verif.Text

/-- the flags that the options increment, main.cpp:105-110 and `settings.verbose` -/
inductive Flag
  | help | version | defaults | template | verify | verbose | fixedSeed
  deriving DecidableEq

/-- main.cpp:111-116 -/
structure Opt where
  shortOpt : Str
  longOpt : Str
  setting : Flag

/-- the table, main.cpp:117-126, without the sentinel -/
def options : List Opt :=
  [⟨"-h".toList, "--help".toList, .help⟩,
   ⟨"-V".toList, "--version".toList, .version⟩,
   ⟨"".toList, "--print-defaults".toList, .defaults⟩,
   ⟨"".toList, "--print-template".toList, .template⟩,
   ⟨"".toList, "--verify".toList, .verify⟩,
   ⟨"-v".toList, "--verbose".toList, .verbose⟩,
   ⟨"".toList, "--seed".toList, .fixedSeed⟩]

/-- the variables; `seed = none`: not initialized -/
structure St where
  count : Flag → ℕ
  seed : Option ℕ

def St.incr (s : St) (f : Flag) : St := { s with count := fun g => if g = f then s.count g + 1 else s.count g }

/-- how `parseOptions` ends -/
inductive Result
  /-- `exit(0)` after some text -/
  | help | version | defaults | template
  /-- `exit(1)` after the usage message -/
  | usage
  /-- a settings file is verified, then `exit(0)` -/
  | verify (file : Str) (verbose : ℕ)
  /-- normal return; `seed = none`: `random_seed` is not initialized -/
  | run (file : Str) (verbose : ℕ) (seed : Option ℕ)
  /-- an element of `argv` is read that does not exist -/
  | outOfBounds
  deriving DecidableEq

/-- inner loop, main.cpp:132-144: the option found, the first that fits -/
def findOpt (opt : Str) : List Opt → Option Opt
  | [] => none
  | o :: os => if opt = o.shortOpt ∨ opt = o.longOpt then some o else findOpt opt os

/-- outer loop, main.cpp:128-147: the final `optind` and the variables, or `none` after a read out of bounds -/
def loop (toSeed : Str → ℕ) (argv : List Str) (optind : ℕ) (s : St) : Option (ℕ × St) :=
  if optind < argv.length then
    match argv[optind]? with
    | none => none
    | some opt =>
      match findOpt opt options with
      | none => some (optind, s)
      | some o =>
        if o.longOpt = "--seed".toList ∧ (optind : ℤ) < (argv.length : ℤ) - 1 then
          match argv[optind + 1]? with
          | none => none
          | some v => loop toSeed argv (optind + 1 + 1) { s.incr o.setting with seed := some (toSeed v) }
        else loop toSeed argv (optind + 1) (s.incr o.setting)
  else some (optind, s)
termination_by argv.length - optind

/-- `parseOptions`, main.cpp:103-202; `random_seed` is not initialized by the caller (main.cpp:209), `settings.verbose` is
`v0`; `rd` is the value of the random device -/
def parseOptions (toSeed : Str → ℕ) (rd : ℕ) (v0 : ℕ) (argv : List Str) : Result :=
  match loop toSeed argv 1 ⟨fun f => if f = .verbose then v0 else 0, none⟩ with
  | none => .outOfBounds
  | some (optind, s) =>
    if s.count .help ≠ 0 then
      match argv[0]? with
      | none => .outOfBounds
      | some _ => .help
    else if s.count .version ≠ 0 then .version
    else if s.count .defaults ≠ 0 then .defaults
    else if s.count .template ≠ 0 then .template
    else if (optind : ℤ) ≠ (argv.length : ℤ) - 1 then .usage
    else
      match argv[optind]? with
      | none => .outOfBounds
      | some file =>
        if s.count .verify ≠ 0 then .verify file (s.count .verbose)
        else if s.count .fixedSeed = 0 then .run file (s.count .verbose) (some rd)
        else .run file (s.count .verbose) s.seed

end Verif.Options
