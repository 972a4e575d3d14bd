import Verif.Spec.Regions
import Verif.Spec.TimeLoop

/-!
# Vocabulary for C100: a sample alone, and the same sample in non-magnetic surroundings

The second mesh has more nodes and more tetrahedrons; the nodes of the first mesh keep their numbers (C91 is about other
numbers), and the magnetic tetrahedrons their order. Nothing is said of the non-magnetic tetrahedrons. The second mesh may have
more triangles between magnetic nodes; they separate nothing.
-/

namespace Verif.Surroundings

open Verif.Mesh Verif.Tetra Verif.Llg Verif.Regions

/-- the same magnetic tetrahedrons and the same triangles, and additional inert triangles -/
structure SameMagnet (prm prm' : ℕ → Prm) (mag mag' : ℕ → Bool) (sprm sprm' : ℕ → SurfPrm) (tets tets' : List Tet)
    (tris tris' : List (Tri × ℝ)) : Prop where
  volumes : List.Forall₂ (SameTet prm prm' mag mag') (tets.filter fun t => mag t.reg) (tets'.filter fun t => mag' t.reg)
  surfaces : ∃ kept extra, tris'.Perm (kept ++ extra) ∧ List.Forall₂ (SameTri sprm sprm') tris kept ∧
    ∀ f ∈ extra, Inert sprm' f

variable {n n' : ℕ}

/-- the same positions and states of the magnetic nodes; nothing is said of the bases of the tangent planes -/
def SameState (h : n ≤ n') (magN : Fin n → Bool) (a : Fin n → Node) (b : Fin n' → Node) : Prop :=
  ∀ i, magN i = true → (b (i.castLE h)).p = (a i).p ∧ (b (i.castLE h)).cur = (a i).cur ∧ (b (i.castLE h)).next = (a i).next

/-- the same magnetization of the magnetic nodes -/
def SameU (h : n ≤ n') (magN : Fin n → Bool) (a : Fin n → V3) (b : Fin n' → V3) : Prop :=
  ∀ i, magN i = true → b (i.castLE h) = a i

end Verif.Surroundings
