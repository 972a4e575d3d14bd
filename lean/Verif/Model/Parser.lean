import Verif.Model.Fl
import Verif.Model.Text

/-!
# Evaluation of user functions (src/expression_parser.cpp, src/expression_parser.h)

The JavaScript interpreter (Duktape, not in the repository) is a parameter: what it does with a program is arbitrary,
but its documented stack discipline is modelled, operation by operation: every call of the C API that would underflow the
stack, or grow it beyond the 64 entries that the library reserves, ends in the fatal error handler.
-/

namespace Verif.Parser

open Verif.Text

/-- the interpreter: `W` are the states of its heap (global variables, objects), `V` the values on its stack -/
structure Engine (W V : Type) where
  /-- `duk_pcompile_string` with `DUK_COMPILE_FUNCTION`: the function or an error object -/
  compile : W → Str → W × (V ⊕ V)
  /-- a protected call: the result or an error object -/
  call : W → V → List V → W × (V ⊕ V)
  /-- property `v[idx]`: an uncaught exception, "missing", or the value -/
  getProp : W → V → ℕ → W × Option (Option V)
  /-- the value pushed when the property is missing -/
  undef : V
  /-- numbers as values and values as numbers (NaN for what is not a number, `duk_get_number`) -/
  num : Fl → V
  toNum : V → Fl
  /-- `duk_push_array`, a string value, `duk_put_prop_index` -/
  newArray : W → W × V
  str : Str → V
  putIdx : W → V → ℕ → V → W
  /-- `duk_get_length` -/
  length : W → V → ℕ

/-- how a C++ function ends: with a value, by `exit(EXIT_FAILURE)` after a message, or in the fatal error handler of the
interpreter -/
inductive Outcome (α : Type)
  | val (a : α)
  | exit
  | fatal
  deriving DecidableEq

/-- C++ code working on the interpreter; the head of the list is the top of the stack -/
def Act (W V α : Type) := W × List V → Outcome (α × W × List V)

variable {W V α β : Type}

def Act.pure (a : α) : Act W V α := fun s => .val (a, s.1, s.2)

def Act.bind (m : Act W V α) (f : α → Act W V β) : Act W V β := fun s =>
  match m s with
  | .val (a, w, st) => f a (w, st)
  | .exit => .exit
  | .fatal => .fatal

instance : Monad (Act W V) where
  pure := Act.pure
  bind := Act.bind

/-- `exit(EXIT_FAILURE)` -/
def exitFailure : Act W V α := fun _ => .exit

/-! ## the interface of the interpreter -/

/-- number of entries that can be pushed without asking (`DUK_API_ENTRY_STACK`) -/
def reserve : ℕ := 64

/-- pushes -/
def push (v : V) : Act W V Unit := fun s =>
  if s.2.length < reserve then .val ((), s.1, v :: s.2) else .fatal

/-- `duk_dup(ctx, -1)` -/
def dupTop : Act W V Unit := fun s =>
  match s.2 with
  | [] => .fatal
  | v :: _ => push v s

/-- `duk_pop(ctx)` -/
def pop : Act W V Unit := fun s =>
  match s.2 with
  | [] => .fatal
  | _ :: st => .val ((), s.1, st)

/-- `duk_set_top(ctx, 0)` -/
def clear : Act W V Unit := fun s => .val ((), s.1, [])

/-- `duk_get_top(ctx)` -/
def getTop : Act W V ℕ := fun s => .val (s.2.length, s.1, s.2)

/-- `duk_pcompile_string`: pushes the function or an error object; `true` is `DUK_ERR_NONE` -/
def pcompile (E : Engine W V) (src : Str) : Act W V Bool := fun s =>
  match E.compile s.1 src with
  | (w, .inl f) => (push f >>= fun _ => Act.pure true) (w, s.2)
  | (w, .inr e) => (push e >>= fun _ => Act.pure false) (w, s.2)

/-- `duk_pcall(ctx, n)`: `n` arguments and the function below are replaced by the result or an error object -/
def pcall (E : Engine W V) (n : ℕ) : Act W V Bool := fun s =>
  match s.2.drop n with
  | [] => .fatal
  | f :: st =>
    match E.call s.1 f (s.2.take n).reverse with
    | (w, .inl v) => .val (true, w, v :: st)
    | (w, .inr e) => .val (false, w, e :: st)

/-- `duk_get_number(ctx, -1)` (NaN when the stack is empty) -/
def getNumber (E : Engine W V) : Act W V Fl := fun s =>
  match s.2 with
  | [] => .val (.nan, s.1, s.2)
  | v :: _ => .val (E.toNum v, s.1, s.2)

/-- `duk_push_int(ctx, idx); duk_get_prop(ctx, -2)`: the key is replaced by the property of the value below; an exception is
not caught -/
def getPropIdx (E : Engine W V) (idx : ℕ) : Act W V Bool := fun s =>
  match s.2 with
  | [] => .fatal
  | v :: _ =>
    match E.getProp s.1 v idx with
    | (_, none) => .fatal
    | (w, some none) => (push E.undef >>= fun _ => Act.pure false) (w, s.2)
    | (w, some (some x)) => (push x >>= fun _ => Act.pure true) (w, s.2)

/-- `duk_push_array(ctx)` -/
def pushArray (E : Engine W V) : Act W V Unit := fun s => push (E.newArray s.1).2 ((E.newArray s.1).1, s.2)

/-- `duk_put_prop_index(ctx, -2, i)`: the value on top becomes element `i` of the array below -/
def putPropIndex (E : Engine W V) (i : ℕ) : Act W V Unit := fun s =>
  match s.2 with
  | v :: a :: st => .val ((), E.putIdx s.1 a i v, a :: st)
  | _ => .fatal

/-! ## the class -/

/-- `die_if_error`, expression_parser.cpp:54-59 -/
def dieIfError (noErr : Bool) : Act W V Unit := if noErr then Act.pure () else exitFailure

/-- `set_function`, expression_parser.cpp:62-72 -/
def setFunction (E : Engine W V) (js : Str) : Act W V Unit := do
  clear
  let err ← pcompile E js
  dieIfError err
  let top ← getTop
  if top ≠ 1 then exitFailure else pure ()

/-- the text compiled by `set_expressions`, expression_parser.cpp:74-79 -/
def expressions (params x y z : Str) : Str :=
  "function(".toList ++ params ++ ") { return [(".toList ++ x ++ "), (".toList ++ y ++ "), (".toList ++ z ++ ")]; }".toList

/-- `set_expressions`, expression_parser.cpp:74-79 -/
def setExpressions (E : Engine W V) (params x y z : Str) : Act W V Unit := setFunction E (expressions params x y z)

/-- `get_scalar`, expression_parser.cpp:81-90 -/
def getScalar (E : Engine W V) (arg : Fl) : Act W V Fl := do
  dupTop
  push (E.num arg)
  let err ← pcall E 1
  dieIfError err
  let result ← getNumber E
  pop
  pure result

/-- `get_vector_component`, expression_parser.cpp:92-104 -/
def getVectorComponent (E : Engine W V) (idx : ℕ) : Act W V Fl := do
  let success ← getPropIdx E idx
  if !success then exitFailure
  else do
    let val ← getNumber E
    pop
    pure val

/-- `compute_vector`, expression_parser.cpp:106-115 -/
def computeVector (E : Engine W V) (argc : ℕ) : Act W V (Fl × Fl × Fl) := do
  let err ← pcall E argc
  dieIfError err
  let x ← getVectorComponent E 0
  let y ← getVectorComponent E 1
  let z ← getVectorComponent E 2
  pop
  pure (x, y, z)

/-- `get_vector(double)`, expression_parser.cpp:117-122 -/
def getVectorT (E : Engine W V) (arg : Fl) : Act W V (Fl × Fl × Fl) := do
  dupTop
  push (E.num arg)
  computeVector E 1

/-- `get_vector(Vector3d)`, expression_parser.cpp:124-131 -/
def getVectorP (E : Engine W V) (x y z : Fl) : Act W V (Fl × Fl × Fl) := do
  dupTop
  push (E.num x)
  push (E.num y)
  push (E.num z)
  computeVector E 3

/-- the loop over the region names, expression_parser.cpp:141-145 -/
def pushRegions (E : Engine W V) : ℕ → List Str → Act W V Unit
  | _, [] => Act.pure ()
  | i, r :: rs => do
    push (E.str r)
    putPropIndex E i
    pushRegions E (i + 1) rs

/-- `get_vector(Vector3d, regions)`, expression_parser.cpp:133-147 -/
def getVectorR (E : Engine W V) (x y z : Fl) (regions : List Str) : Act W V (Fl × Fl × Fl) := do
  dupTop
  push (E.num x)
  push (E.num y)
  push (E.num z)
  pushArray E
  pushRegions E 0 regions
  computeVector E 4

/-- `parameter_count`, expression_parser.h:47 (0 when the stack is empty) -/
def parameterCount (E : Engine W V) : Act W V ℕ := fun s =>
  match s.2 with
  | [] => .val (0, s.1, s.2)
  | v :: _ => .val (E.length s.1 v, s.1, s.2)

/-- calls of the public interface -/
inductive Call
  | setFunction (js : Str)
  | setExpressions (params x y z : Str)
  | parameterCount
  | scalar (arg : Fl)
  | vectorT (arg : Fl)
  | vectorP (x y z : Fl)
  | vectorR (x y z : Fl) (regions : List Str)

/-- what a call returns -/
inductive Ret
  | unit
  | count (n : ℕ)
  | scalar (x : Fl)
  | vector (v : Fl × Fl × Fl)

/-- one call -/
def Call.exec (E : Engine W V) : Call → Act W V Ret
  | .setFunction js => do Parser.setFunction E js; pure .unit
  | .setExpressions p x y z => do Parser.setExpressions E p x y z; pure .unit
  | .parameterCount => do let n ← Parser.parameterCount E; pure (.count n)
  | .scalar a => do let x ← getScalar E a; pure (.scalar x)
  | .vectorT a => do let v ← getVectorT E a; pure (.vector v)
  | .vectorP x y z => do let v ← getVectorP E x y z; pure (.vector v)
  | .vectorR x y z rs => do let v ← getVectorR E x y z rs; pure (.vector v)

/-- a sequence of calls on one object: the values returned -/
def runCalls (E : Engine W V) : List Call → Act W V (List Ret)
  | [] => pure []
  | c :: cs => do
    let r ← c.exec E
    let rs ← runCalls E cs
    pure (r :: rs)

end Verif.Parser
