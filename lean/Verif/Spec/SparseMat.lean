import Verif.Model.SparseMat

/-!
# Specification of the sparse matrix: a plain table of numbers
-/

namespace Verif.SparseMat

variable {α : Type}

/-- a dense table -/
abbrev Table (α : Type) := ℕ → ℕ → α

/-- effect of an operation on a table -/
def Table.exec [Zero α] [Add α] (t : Table α) : Op α → Table α
  | .clear => fun _ _ => 0
  | .set i j v => fun a b => if a = i ∧ b = j then v else t a b
  | .add i j v => fun a b => if a = i ∧ b = j then t a b + v else t a b

def Table.run [Zero α] [Add α] (t : Table α) (ops : List (Op α)) : Table α := ops.foldl Table.exec t

/-- `(i, j)` is a position of the shape -/
def InShape (shape : Shape) (i j : ℕ) : Prop := ∃ s, shape[i]? = some s ∧ j ∈ s

/-- the operation only touches positions of the shape -/
def Op.InShape (shape : Shape) : Op α → Prop
  | .clear => True
  | .set i j _ => SparseMat.InShape shape i j
  | .add i j _ => SparseMat.InShape shape i j

end Verif.SparseMat
