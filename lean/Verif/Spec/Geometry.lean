import Verif.Model.V3

/-! Specifications on vectors, independent of the code. -/

namespace Verif

/-- `(a, b, c)` is a direct orthonormal basis. -/
def DirectOrthonormal (a b c : V3) : Prop :=
  a.nsq = 1 ∧ b.nsq = 1 ∧ c.nsq = 1 ∧ a.dot b = 0 ∧ b.dot c = 0 ∧ c.dot a = 0 ∧ a.cross b = c

/-- Euclidean distance. -/
noncomputable def edist (a b : V3) : ℝ := Real.sqrt ((a.x - b.x) ^ 2 + (a.y - b.y) ^ 2 + (a.z - b.z) ^ 2)

/-- unit vector -/
def IsUnit3 (a : V3) : Prop := a.x ^ 2 + a.y ^ 2 + a.z ^ 2 = 1

end Verif
