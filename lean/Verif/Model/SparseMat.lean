import Mathlib.Data.Finset.Sort

/-!
# Sparse matrix (src/algebra/sparseMat.h)

Asserts are compiled out (CMakeLists.txt adds -DNDEBUG), so that an access outside the shape is not
diagnosed: it either lands on another stored entry or past the end of the array. The latter, and the use
of a row index out of range, is undefined behaviour, written `none`.
The mutexes are in `Model/SparseConc.lean`; here operations are sequential.
-/

namespace Verif.SparseMat

variable {α : Type}

/-- `SparseVector`, sparseMat.h:59-63 -/
structure Row (α : Type) where
  indices : List ℕ
  values : List α

/-- `std::lower_bound` on a sorted range: position of the first element not less than `j` -/
def lowerBound (l : List ℕ) (j : ℕ) : ℕ := l.findIdx (fun x => decide (j ≤ x))

/-- `SparseVector::operator[]`, sparseMat.h:68-74: the position referred to; `none` when it is past the
end of `values` -/
def Row.ref (r : Row α) (j : ℕ) : Option ℕ :=
  let k := lowerBound r.indices j
  if k < r.values.length then some k else none

/-- `class SparseMatrix` -/
structure Sp (α : Type) where
  rows : List (Row α)

/-- `MatrixShape`, sparseMat.h:38 -/
abbrev Shape := List (Finset ℕ)

/-- constructor, sparseMat.h:79-90 (a `std::set` is traversed in increasing order) -/
def ofShape [Zero α] (shape : Shape) : Sp α :=
  ⟨shape.map fun s => ⟨s.sort (· ≤ ·), List.replicate s.card 0⟩⟩

/-- `clear`, sparseMat.h:93-98 -/
def Sp.clear [Zero α] (m : Sp α) : Sp α :=
  ⟨m.rows.map fun r => { r with values := r.values.map fun _ => 0 }⟩

/-- the common part of `set` and `add`: replace the value referred to by `rows[i][j]` -/
def Sp.modify (m : Sp α) (i j : ℕ) (f : α → α) : Option (Sp α) :=
  match m.rows[i]? with
  | none => none
  | some r =>
    match r.ref j with
    | none => none
    | some k => some ⟨m.rows.set i { r with values := r.values.modify k f }⟩

/-- `set`, sparseMat.h:103-108 -/
def Sp.set (m : Sp α) (i j : ℕ) (v : α) : Option (Sp α) := m.modify i j fun _ => v

/-- `add`, sparseMat.h:114-124 -/
def Sp.add [Add α] (m : Sp α) (i j : ℕ) (v : α) : Option (Sp α) := m.modify i j fun x => x + v

/-- the body of `operator()` for a row, sparseMat.h:149-153 -/
def Row.get [Zero α] (r : Row α) (j : ℕ) : Option α :=
  let k := lowerBound r.indices j
  if r.indices[k]? ≠ some j then some 0 else r.values[k]?

/-- `operator()`, sparseMat.h:144-154 -/
def Sp.get [Zero α] (m : Sp α) (i j : ℕ) : Option α :=
  match m.rows[i]? with
  | none => none
  | some r => r.get j

/-- product of a row with a vector, sparseMat.h:163-169 (`X` read outside its size is not modelled:
`X` is a function) -/
def Row.dot [Zero α] [Add α] [Mul α] (r : Row α) (X : ℕ → α) : α :=
  (r.indices.zip r.values).foldl (fun val e => val + e.2 * X e.1) 0

/-- `mult`, sparseMat.h:158-170; rows are independent, so the execution policy does not matter -/
def Sp.mult [Zero α] [Add α] [Mul α] (m : Sp α) (X : ℕ → α) : List α := m.rows.map (·.dot X)

/-- `build_diag_precond`, sparseMat.h:174-183 -/
def Sp.diagPrecond [Zero α] [One α] [Div α] (m : Sp α) : List (Option α) :=
  (List.range m.rows.length).map fun i => (m.get i i).map (1 / ·)

/-- the operations of a solver on a matrix -/
inductive Op (α : Type)
  | clear
  | set (i j : ℕ) (v : α)
  | add (i j : ℕ) (v : α)

def Sp.exec [Zero α] [Add α] (m : Sp α) : Op α → Option (Sp α)
  | .clear => some m.clear
  | .set i j v => m.set i j v
  | .add i j v => m.add i j v

/-- a sequence of operations -/
def Sp.run [Zero α] [Add α] (m : Sp α) : List (Op α) → Option (Sp α)
  | [] => some m
  | o :: os => (m.exec o).bind fun m' => m'.run os

end Verif.SparseMat
