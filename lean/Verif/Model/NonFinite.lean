import Verif.Model.Fl
import Verif.Model.LlgElem

/-!
# Surface anisotropy with infinities and NaN (src/triangle.cpp, src/linear_algebra.cpp)

`TriElem.BE` and `Llg.LpTri` are the same computation over the reals, for triangles on which the magnetization jumps. Here
the divisor may be zero, so the values computed from it are `double`s. Positions, magnetization, the axis and the two
vectors of the tangent plane are finite.
-/

namespace Verif.NonFinite

open Verif.Mesh Verif.Assembly Verif.Llg

/-- `double Kbis = 2.0*params.Ks / dMs;`, triangle.cpp:8 -/
noncomputable def kbis (Ks dMs : Fl) : Fl := .fin 2 * Ks / dMs

/-- `_prefactor`, triangle.cpp:18 -/
noncomputable def pref (H : TriElem.Rule) (Ks dMs : Fl) (uk : V3) (p u : Fin 3 → V3) (j : Fin H.n) : Fl :=
  .fin (TriElem.weight H p j) * kbis Ks dMs * .fin (uk.dot (TriElem.interpV H u j))

/-- `BE(k,i)`, triangle.cpp:13-25: zero, then one addition for each Gauss point -/
noncomputable def BE (H : TriElem.Rule) (Ks dMs : Fl) (uk : V3) (p u : Fin 3 → V3) (k i : Fin 3) : Fl :=
  (List.finRange H.n).foldl (fun s j => s + pref H Ks dMs uk p u j * .fin (H.a i j) * .fin (uk.comp k)) 0

/-- all columns of `P` and of the vector `BE.reshaped()`, triangle.cpp:35 -/
def cols : List (Fin 3 × Fin 3) :=
  (List.finRange 3).flatMap fun k => (List.finRange 3).map fun i => (k, i)

/-- `Lp = Perm * P * BE.reshaped()`, triangle.cpp:27-35: dense products, so the zeros of `P` are multiplied too (the order of
the additions is that of the columns; it matters for rounding only) -/
noncomputable def Lp (H : TriElem.Rule) (Ks dMs : Fl) (uk : V3) (p u ep eq : Fin 3 → V3) (r : Fin 2 × Fin 3) : Fl :=
  cols.foldl (fun s c => s + .fin (matP3 ep eq (1 - r.1, r.2) c) * BE H Ks dMs uk p u c.1 c.2) 0

open Classical in
/-- a triangle as handed to the assembly, linear_algebra.cpp:45-51 and 75-80: computed only when `Ks != 0` (true for NaN) -/
noncomputable def triElem (H : TriElem.Rule) (Ks : Fl) (uk : V3) (dMs : Fl) (nodes : ℕ → Node) (f : Tri) : Elem 3 Fl where
  ind := f.ind
  Ke := fun _ _ => 0
  Le := fun r => if ¬ Ks.isZero then
    Lp H Ks dMs uk (fun i => (nodes (f.ind i)).p) (fun i => (nodes (f.ind i)).cur.u)
      (fun i => (nodes (f.ind i)).ep) (fun i => (nodes (f.ind i)).eq)
      (Fin.ofNat 2 (r / 3), Fin.ofNat 3 (r % 3)) else 0

end Verif.NonFinite
