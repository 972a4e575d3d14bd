import Verif.Model.MeshRead

/-! Specifications for the reading of a mesh: what the file says, independently of the way it is read. -/

namespace Verif.MeshRead

open Verif.Mesh Verif.Text

/-- what gmsh guarantees: distinct node tags; one block per type of element; whole elements; elements refer to nodes -/
structure WellFormed (f : File) : Prop where
  distinct : (f.nodes.map (·.1)).Nodup
  blocks : ∀ e ∈ f.vol ++ f.surf, (e.blocks.map (·.typ)).Nodup
  whole4 : ∀ e ∈ f.vol, ∀ b ∈ e.blocks, b.typ = 4 → 4 ∣ b.tags.length
  whole3 : ∀ e ∈ f.surf, ∀ b ∈ e.blocks, b.typ = 2 → 3 ∣ b.tags.length
  refer : ∀ e ∈ f.vol ++ f.surf, ∀ b ∈ e.blocks, ∀ i ∈ b.tags, i ∈ f.nodes.map (·.1)

/-- the `i`-th element of a list of node tags has the tags `n i, …, n i + n - 1` -/
def elemsOf (n : ℕ) (tags : List ℕ) : List (Fin n → ℕ) :=
  (List.range (tags.length / n)).map fun i k => tags.getD (n * i + k) 0

/-- the elements of the file with `n` nodes in the named regions, each with the name of its region; an element whose
entity is in several named groups is listed once for each -/
def fileElems (n typ : ℕ) (regs : List Str) (l : List Entity) : List (Str × (Fin n → ℕ)) :=
  l.flatMap fun e => (e.groups.filter (· ∈ regs)).flatMap fun g =>
    (e.blocks.filter (·.typ = typ)).flatMap fun b => (elemsOf n b.tags).map fun t => (g, t)

/-- region index `r` means the region named `g`, the first one if there are several -/
def Names (regs : List Str) (r : ℕ) (g : Str) : Prop := regs[r]? = some g ∧ ∀ q < r, regs[q]? ≠ some g

/-- position of the node with a given tag -/
def At (f : File) (tag : ℕ) (x : V3) : Prop := (tag, x) ∈ f.nodes

/-- six times the signed volume of a tetrahedron with these vertices -/
def vol6 (a b c d : V3) : ℝ := (b - a).dot ((c - a).cross (d - a))

end Verif.MeshRead
