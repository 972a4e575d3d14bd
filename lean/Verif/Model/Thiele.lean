import Verif.Model.MeshElem

/-!
# Thiele length (src/mesh.cpp:61-86)

Exact reals stand for `double`; a division by zero is kept apart from a number.
-/

namespace Verif.Thiele

open Verif.Mesh Verif.MeshElem

/-- what is printed in the table: a number, infinity or not-a-number -/
inductive Ratio where
  | val (x : ℝ)
  | inf
  | nan

open Classical in
/-- division of `double`s, the numerator being not negative -/
noncomputable def ratio (a b : ℝ) : Ratio := if b ≠ 0 then .val (a / b) else if a = 0 then .nan else .inf

/-- the value returned by the lambda for one element, mesh.cpp:64-79; `region` is `none` for -1 -/
noncomputable def term (G : Tetra.Rule) (p u : ℕ → V3) (region : Option ℕ) (t : Tet) : ℝ :=
  if region = some t.reg ∨ region = none then
    ∑ j, (Tetra.deriv (nod4 p t) 2 (nod4 u t)).dot (Tetra.deriv (nod4 p t) 2 (nod4 u t)) * Tetra.weight G (nod4 p t) j
  else 0

/-- `mesh::thiele`, mesh.cpp:61-86; `lz` is `l.z()`, the length of the mesh along z computed by the constructor
(mesh.h:51-60); it is not zero. An index of region past the end is undefined behaviour (here the volume is 0; the
caller, save.cpp:36-41, checks it) -/
noncomputable def thiele (G : Tetra.Rule) (p u : ℕ → V3) (mag : ℕ → Bool) (nreg : ℕ) (tets : List Tet) (lz : ℝ)
    (region : Option ℕ) : Ratio :=
  let sum := ((magTet mag tets).map (term G p u region)).sum
  let volume := match region with
    | none => (volumes G p mag nreg tets).2
    | some r => (volumes G p mag nreg tets).1.getD r 0
  let crossSection := volume / lz
  ratio (2 * crossSection) sum

end Verif.Thiele
