import Verif.Model.LlgElem

/-!
# Vocabulary for C98: one sample, its regions grouped in two ways

The two lists of elements have the same elements with the same materials; only the names (indices) of the regions differ. The
second list may have more triangles, which separate nothing: no jump of magnetization and no surface anisotropy.
-/

namespace Verif.Regions

open Verif.Mesh Verif.Tetra Verif.Llg

/-- the same tetrahedron in two groupings -/
structure SameTet (prm prm' : ℕ → Prm) (mag mag' : ℕ → Bool) (t t' : Tet) : Prop where
  nodes : t'.ind = t.ind
  material : prm' t'.reg = prm t.reg
  magnetic : mag' t'.reg = mag t.reg

/-- the same triangle, with the same jump of magnetization -/
structure SameTri (sprm sprm' : ℕ → SurfPrm) (f f' : Tri × ℝ) : Prop where
  nodes : f'.1.ind = f.1.ind
  jump : f'.2 = f.2
  material : sprm' f'.1.reg = sprm f.1.reg

/-- a triangle that separates nothing -/
def Inert (sprm : ℕ → SurfPrm) (f : Tri × ℝ) : Prop := f.2 = 0 ∧ (sprm f.1.reg).Ks = 0

/-- the same tetrahedrons in the same order; the same triangles in any order, and additional inert ones -/
structure SameSample (prm prm' : ℕ → Prm) (mag mag' : ℕ → Bool) (sprm sprm' : ℕ → SurfPrm) (tets tets' : List Tet)
    (tris tris' : List (Tri × ℝ)) : Prop where
  volumes : List.Forall₂ (SameTet prm prm' mag mag') tets tets'
  surfaces : ∃ kept extra, tris'.Perm (kept ++ extra) ∧ List.Forall₂ (SameTri sprm sprm') tris kept ∧
    ∀ f ∈ extra, Inert sprm' f

end Verif.Regions
