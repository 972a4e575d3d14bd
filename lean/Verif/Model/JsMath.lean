import Mathlib.Analysis.SpecialFunctions.Log.Basic
import Verif.Model.Fl

/-!
# The mathematical functions offered to the user's expressions (`js_library`, src/expression_parser.cpp:9-32)

Numbers are `Fl`: exact reals, infinities and NaN. The functions of the JavaScript object `Math` which the library calls
(`abs`, `exp`, `log`, `sqrt`, `sign`, `hypot`, `LN2`) are those of the ECMAScript standard, without rounding.
-/

namespace Verif.JsMath

open Verif.Fl

/-- `Math.exp` -/
noncomputable def exp : Fl → Fl
  | nan => nan
  | inf neg => if neg then fin 0 else inf false
  | fin x => fin (Real.exp x)

open Classical in
/-- `Math.log` -/
noncomputable def log : Fl → Fl
  | nan => nan
  | inf neg => if neg then nan else inf false
  | fin x => if x < 0 then nan else if x = 0 then inf true else fin (Real.log x)

open Classical in
/-- `Math.sign` -/
noncomputable def sign : Fl → Fl
  | nan => nan
  | inf neg => if neg then fin (-1) else fin 1
  | fin x => if x < 0 then fin (-1) else if x = 0 then fin 0 else fin 1

/-- `Math.hypot` with two arguments -/
noncomputable def hypot (a b : Fl) : Fl :=
  match a, b with
  | inf _, _ => inf false
  | _, inf _ => inf false
  | a, b => Fl.sqrt (a * a + b * b)

/-- `Math.LN2` -/
noncomputable def LN2 : Fl := fin (Real.log 2)

open Classical in
/-- `expm1`, expression_parser.cpp:16 (`a < b` is `b > a`) -/
noncomputable def expm1 (x : Fl) : Fl := if (fin 2e-8).gt x.abs then x else exp x - fin 1

open Classical in
/-- `log1p`, expression_parser.cpp:17 -/
noncomputable def log1p (x : Fl) : Fl := if (fin 2e-8).gt x.abs then x else log (fin 1 + x)

/-- `cosh`, expression_parser.cpp:20 -/
noncomputable def cosh (x : Fl) : Fl := exp (x - LN2) + exp (-x - LN2)

open Classical in
/-- `sinh`, expression_parser.cpp:21 -/
noncomputable def sinh (x : Fl) : Fl := if (fin 1e-5).gt x.abs then x else exp (x - LN2) - exp (-x - LN2)

open Classical in
/-- `tanh`, expression_parser.cpp:22 -/
noncomputable def tanh (x : Fl) : Fl :=
  if x.abs.gt (fin 20) then sign x else expm1 (fin 2 * x) / (exp (fin 2 * x) + fin 1)

open Classical in
/-- `acosh`, expression_parser.cpp:25 -/
noncomputable def acosh (x : Fl) : Fl :=
  if x.gt (fin 1e8) then log x + LN2 else log (x + Fl.sqrt (x * x - fin 1))

open Classical in
/-- `asinh`, expression_parser.cpp:26 -/
noncomputable def asinh (x : Fl) : Fl :=
  if (fin 1e-5).gt x.abs then x else sign x * (log (x.abs / fin 2 + hypot (fin 1) x / fin 2) + LN2)

open Classical in
/-- `atanh`, expression_parser.cpp:27 -/
noncomputable def atanh (x : Fl) : Fl :=
  if (fin 1e-5).gt x.abs then x else log ((fin 1 + x) / (fin 1 - x)) / fin 2

end Verif.JsMath
