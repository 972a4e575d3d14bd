import Verif.Model.Axes
import Verif.Spec.Settings

/-!
# Specification of the directions in the settings
-/

namespace Verif.Settings

open Verif.Text

/-- a vector of length one -/
def UnitVec (v : Fl × Fl × Fl) : Prop := ∃ x y z : ℝ, v = (.fin x, .fin y, .fin z) ∧ x ^ 2 + y ^ 2 + z ^ 2 = 1

/-- `v` has the direction of `(x, y, z)` -/
def Along (x y z : ℝ) (v : Fl × Fl × Fl) : Prop := ∃ k : ℝ, 0 < k ∧ v = (.fin (k * x), .fin (k * y), .fin (k * z))

/-- a vector whose components are zero -/
def ZeroVec (v : Fl × Fl × Fl) : Prop := v = (.fin 0, .fin 0, .fin 0)

/-- some component is infinite or NaN -/
def NotFinite (v : Fl × Fl × Fl) : Prop := ¬ v.1.IsFin ∨ ¬ v.2.1.IsFin ∨ ¬ v.2.2.IsFin

/-- the directions of a volume region: key of the settings and stored vector -/
def volAxes {D : Type} : List (String × (TetraPrm D → D × D × D)) :=
  [("uk", TetraPrm.uk), ("ex", TetraPrm.ex), ("ey", TetraPrm.ey), ("ez", TetraPrm.ez)]

/-- those of a surface region -/
def surfAxes {D : Type} : List (String × (TriPrm D → D × D × D)) := [("uk", TriPrm.uk), ("uP", TriPrm.uP)]

/-- the vector that a node of the settings gives for a key -/
def Gives {D : Type} (C : Conv D) (y : Yaml) (key : String) (v : D × D × D) : Prop :=
  ∃ a b c, y.at [key.toList] = some (.seq [.scalar a, .scalar b, .scalar c]) ∧
    C.toD a = some v.1 ∧ C.toD b = some v.2.1 ∧ C.toD c = some v.2.2

/-- the regions that a file describes under `mesh` -/
def regionsOf (file : Option Yaml) (section_ : String) : List (Str × Yaml) :=
  match file with
  | none => []
  | some y =>
    match y.at ["mesh".toList, section_.toList] with
    | some (.map l) => l
    | _ => []

/-- every direction that the files give for a region is a vector of finite components, not all zero -/
def ProperAxes (C : Conv Fl) (files : List (Option Yaml)) (section_ : String) (keys : List String) : Prop :=
  ∀ f ∈ files, ∀ e ∈ regionsOf f section_, ∀ k ∈ keys, ∀ v, Gives C e.2 k v →
    ∃ x y z : ℝ, v = (.fin x, .fin y, .fin z) ∧ (x ≠ 0 ∨ y ≠ 0 ∨ z ≠ 0)

end Verif.Settings
