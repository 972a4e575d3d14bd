import Mathlib.Algebra.BigOperators.Fin
import Verif.Model.V3

/-!
# Sums of vectors
-/

namespace Verif.V3

instance : AddCommGroup V3 where
  add_assoc a b c := by ext <;> simp <;> ring
  zero_add a := by ext <;> simp
  add_zero a := by ext <;> simp
  add_comm a b := by ext <;> simp <;> ring
  neg_add_cancel a := by ext <;> simp
  sub_eq_add_neg a b := by ext <;> simp <;> ring
  nsmul := nsmulRec
  zsmul := zsmulRec

/-- the components as additive maps -/
def xHom : V3 →+ ℝ := ⟨⟨V3.x, rfl⟩, fun _ _ => rfl⟩
def yHom : V3 →+ ℝ := ⟨⟨V3.y, rfl⟩, fun _ _ => rfl⟩
def zHom : V3 →+ ℝ := ⟨⟨V3.z, rfl⟩, fun _ _ => rfl⟩

@[simp] theorem sum_x {ι : Type} (s : Finset ι) (f : ι → V3) : (∑ i ∈ s, f i).x = ∑ i ∈ s, (f i).x :=
  map_sum xHom f s
@[simp] theorem sum_y {ι : Type} (s : Finset ι) (f : ι → V3) : (∑ i ∈ s, f i).y = ∑ i ∈ s, (f i).y :=
  map_sum yHom f s
@[simp] theorem sum_z {ι : Type} (s : Finset ι) (f : ι → V3) : (∑ i ∈ s, f i).z = ∑ i ∈ s, (f i).z :=
  map_sum zHom f s

end Verif.V3
