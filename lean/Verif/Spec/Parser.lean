import Verif.Model.Parser

/-!
# Specification of the evaluation of user functions

Without a stack: there is a current function (or none yet), and an evaluation applies it to its arguments.
-/

namespace Verif.Parser

open Verif.Text

variable {W V : Type}

/-- component `i` of the value `v` -/
def component (E : Engine W V) (w : W) (v : V) (i : ℕ) : Outcome (Fl × W) :=
  match E.getProp w v i with
  | (_, none) => .fatal
  | (_, some none) => .exit
  | (w', some (some x)) => .val (E.toNum x, w')

/-- the three components, read one after the other -/
def components (E : Engine W V) (w : W) (v : V) : Outcome ((Fl × Fl × Fl) × W) :=
  match component E w v 0 with
  | .exit => .exit
  | .fatal => .fatal
  | .val (x, w) =>
    match component E w v 1 with
    | .exit => .exit
    | .fatal => .fatal
    | .val (y, w) =>
      match component E w v 2 with
      | .exit => .exit
      | .fatal => .fatal
      | .val (z, w) => .val ((x, y, z), w)

/-- the current function applied to some arguments, as a vector -/
def applyVector (E : Engine W V) (w : W) (cur : Option V) (args : List V) : Outcome (Ret × W × Option V) :=
  match cur with
  | none => .fatal
  | some f =>
    match E.call w f args with
    | (_, .inr _) => .exit
    | (w, .inl v) =>
      match components E w v with
      | .exit => .exit
      | .fatal => .fatal
      | .val (xyz, w) => .val (.vector xyz, w, some f)

/-- an array with the given strings -/
def arrayOf (E : Engine W V) (w : W) (rs : List Str) : W × V :=
  let a := E.newArray w
  (rs.zipIdx.foldl (fun w r => E.putIdx w a.2 r.2 (E.str r.1)) a.1, a.2)

/-- make `js` the current function -/
def define (E : Engine W V) (w : W) (js : Str) : Outcome (Ret × W × Option V) :=
  match E.compile w js with
  | (_, .inr _) => .exit
  | (w, .inl f) => .val (.unit, w, some f)

/-- what a call does, given the heap and the current function; evaluating before any function is given is fatal -/
def Call.spec (E : Engine W V) (w : W) (cur : Option V) : Call → Outcome (Ret × W × Option V)
  | .setFunction js => define E w js
  | .setExpressions p x y z => define E w (expressions p x y z)
  | .parameterCount => .val (.count ((cur.map (E.length w)).getD 0), w, cur)
  | .scalar a =>
    match cur with
    | none => .fatal
    | some f =>
      match E.call w f [E.num a] with
      | (_, .inr _) => .exit
      | (w, .inl v) => .val (.scalar (E.toNum v), w, some f)
  | .vectorT a => applyVector E w cur [E.num a]
  | .vectorP x y z => applyVector E w cur [E.num x, E.num y, E.num z]
  | .vectorR x y z rs =>
    applyVector E (arrayOf E w rs).1 cur [E.num x, E.num y, E.num z, (arrayOf E w rs).2]

/-- a sequence of calls -/
def specCalls (E : Engine W V) (w : W) (cur : Option V) : List Call → Outcome (List Ret × W × Option V)
  | [] => .val ([], w, cur)
  | c :: cs =>
    match c.spec E w cur with
    | .exit => .exit
    | .fatal => .fatal
    | .val (r, w, cur) =>
      match specCalls E w cur cs with
      | .exit => .exit
      | .fatal => .fatal
      | .val (rs, w, cur) => .val (r :: rs, w, cur)

end Verif.Parser
