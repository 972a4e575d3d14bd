import Mathlib.Analysis.SpecialFunctions.Pow.Real
import Mathlib.Tactic.Ring
import Mathlib.Tactic.Linarith
import Mathlib.Tactic.FieldSimp

/-!
# Three-component vectors (`Eigen::Vector3d`)

Model of the part of Eigen used by `src/node.h`, `src/tetra.cpp`, `src/triangle.cpp`.
`double` is modelled by exact reals (see DESIGN.md, trusted base).
-/

namespace Verif

/-- `Eigen::Vector3d` (`typedef` used everywhere in /repo/src, e.g. node.h:49). -/
@[ext] structure V3 where
  x : ℝ
  y : ℝ
  z : ℝ

namespace V3

instance : Zero V3 := ⟨⟨0, 0, 0⟩⟩
instance : Add V3 := ⟨fun a b => ⟨a.x + b.x, a.y + b.y, a.z + b.z⟩⟩
instance : Sub V3 := ⟨fun a b => ⟨a.x - b.x, a.y - b.y, a.z - b.z⟩⟩
instance : Neg V3 := ⟨fun a => ⟨-a.x, -a.y, -a.z⟩⟩

/-- scalar times vector, Eigen `operator*` -/
def smul (k : ℝ) (a : V3) : V3 := ⟨k * a.x, k * a.y, k * a.z⟩

instance : HMul ℝ V3 V3 := ⟨smul⟩

/-- Eigen `dot` -/
def dot (a b : V3) : ℝ := a.x * b.x + a.y * b.y + a.z * b.z

/-- Eigen `cross` -/
def cross (a b : V3) : V3 :=
  ⟨a.y * b.z - a.z * b.y, a.z * b.x - a.x * b.z, a.x * b.y - a.y * b.x⟩

/-- Eigen `squaredNorm` -/
def nsq (a : V3) : ℝ := a.x * a.x + a.y * a.y + a.z * a.z

/-- Eigen `norm` -/
noncomputable def norm (a : V3) : ℝ := Real.sqrt a.nsq

open Classical in
/-- Eigen 3.4 `normalize`: `z = squaredNorm(); if (z > 0) *this /= sqrt(z);` (the zero vector is
left unchanged). -/
noncomputable def normalize (a : V3) : V3 :=
  if 0 < a.nsq then (1 / Real.sqrt a.nsq) * a else a

/-- component by index (`Nodes::index`, node.h:32-38: 0,1,2) -/
def comp (a : V3) : Fin 3 → ℝ
  | 0 => a.x
  | 1 => a.y
  | 2 => a.z

/-- Eigen `setUnit(i)` / `Unit(i)` -/
def unit : Fin 3 → V3
  | 0 => ⟨1, 0, 0⟩
  | 1 => ⟨0, 1, 0⟩
  | 2 => ⟨0, 0, 1⟩

@[simp] theorem add_x (a b : V3) : (a + b).x = a.x + b.x := rfl
@[simp] theorem add_y (a b : V3) : (a + b).y = a.y + b.y := rfl
@[simp] theorem add_z (a b : V3) : (a + b).z = a.z + b.z := rfl
@[simp] theorem sub_x (a b : V3) : (a - b).x = a.x - b.x := rfl
@[simp] theorem sub_y (a b : V3) : (a - b).y = a.y - b.y := rfl
@[simp] theorem sub_z (a b : V3) : (a - b).z = a.z - b.z := rfl
@[simp] theorem neg_x (a : V3) : (-a).x = -a.x := rfl
@[simp] theorem neg_y (a : V3) : (-a).y = -a.y := rfl
@[simp] theorem neg_z (a : V3) : (-a).z = -a.z := rfl
@[simp] theorem smul_x (k : ℝ) (a : V3) : (k * a).x = k * a.x := rfl
@[simp] theorem smul_y (k : ℝ) (a : V3) : (k * a).y = k * a.y := rfl
@[simp] theorem smul_z (k : ℝ) (a : V3) : (k * a).z = k * a.z := rfl
@[simp] theorem zero_x : (0 : V3).x = 0 := rfl
@[simp] theorem zero_y : (0 : V3).y = 0 := rfl
@[simp] theorem zero_z : (0 : V3).z = 0 := rfl

end V3
end Verif
