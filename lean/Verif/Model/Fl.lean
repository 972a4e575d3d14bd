import Mathlib.Analysis.SpecialFunctions.Pow.Real

/-!
# IEEE numbers without rounding

`double` as used by src/algebra: finite values with exact real arithmetic, the two infinities and NaN
with the IEEE rules for propagating them. Not modelled: rounding, overflow of finite results, the sign
of zero (a nonzero number divided by zero has the sign of the number).
-/

namespace Verif

/-- a `double` -/
inductive Fl
  | nan
  /-- `inf true` is -∞ -/
  | inf (neg : Bool)
  | fin (x : ℝ)

namespace Fl

instance : Zero Fl := ⟨fin 0⟩

/-- `std::isfinite` -/
def IsFin : Fl → Prop
  | fin _ => True
  | _ => False

/-- the real value of a finite number -/
def val : Fl → ℝ
  | fin x => x
  | _ => 0

/-- `std::isnan` -/
def IsNan : Fl → Prop
  | nan => True
  | _ => False

protected def neg : Fl → Fl
  | nan => nan
  | inf s => inf (!s)
  | fin x => fin (-x)

protected noncomputable def add : Fl → Fl → Fl
  | nan, _ => nan
  | _, nan => nan
  | inf s, inf t => if s = t then inf s else nan
  | inf s, fin _ => inf s
  | fin _, inf t => inf t
  | fin x, fin y => fin (x + y)

open Classical in
protected noncomputable def mul : Fl → Fl → Fl
  | nan, _ => nan
  | _, nan => nan
  | inf s, inf t => inf (s != t)
  | inf s, fin y => if y = 0 then nan else inf (s != decide (y < 0))
  | fin x, inf t => if x = 0 then nan else inf (t != decide (x < 0))
  | fin x, fin y => fin (x * y)

open Classical in
protected noncomputable def div : Fl → Fl → Fl
  | nan, _ => nan
  | _, nan => nan
  | inf _, inf _ => nan
  | inf s, fin y => inf (s != decide (y < 0))
  | fin _, inf _ => fin 0
  | fin x, fin y => if y = 0 then (if x = 0 then nan else inf (decide (x < 0))) else fin (x / y)

noncomputable instance : Neg Fl := ⟨Fl.neg⟩
noncomputable instance : Add Fl := ⟨Fl.add⟩
noncomputable instance : Mul Fl := ⟨Fl.mul⟩
noncomputable instance : Div Fl := ⟨Fl.div⟩
/-- IEEE `a - b` is `a + (-b)` -/
noncomputable instance : Sub Fl := ⟨fun a b => a + -b⟩

/-- `std::fabs` -/
def abs : Fl → Fl
  | nan => nan
  | inf _ => inf false
  | fin x => fin |x|

open Classical in
/-- `sqrt` -/
noncomputable def sqrt : Fl → Fl
  | nan => nan
  | inf s => if s then nan else inf false
  | fin x => if x < 0 then nan else fin (Real.sqrt x)

/-- `a <= b` -/
def le : Fl → Fl → Prop
  | nan, _ => False
  | _, nan => False
  | inf s, inf t => s = true ∨ t = false
  | inf s, fin _ => s = true
  | fin _, inf t => t = false
  | fin x, fin y => x ≤ y

/-- `a > b` -/
def gt (a b : Fl) : Prop :=
  match a, b with
  | nan, _ => False
  | _, nan => False
  | a, b => ¬ le a b

/-- `a == 0` -/
def isZero : Fl → Prop
  | fin x => x = 0
  | _ => False

end Fl
end Verif
