import Mathlib.Data.Fin.VecNotation
import Verif.Proofs.Mesh

/-!
# C30 (edge list) and C56 (duplicate removal)
-/

namespace Verif.Mesh

/-- specification: two distinct vertices of one tetrahedron carry the indices `a` and `b` -/
def Adjacent (tets : List Tet) (a b : ℕ) : Prop := ∃ t ∈ tets, ∃ i j : Fin 4, i ≠ j ∧ t.ind i = a ∧ t.ind j = b

/-- **C30**: the list of edges holds exactly the pairs of adjacent vertices, smaller index first, in strictly
increasing lexicographic order (in particular each only once). -/
theorem C30_edges (tets : List Tet) :
    (∀ a b, (a, b) ∈ edges tets ↔ a ≤ b ∧ Adjacent tets a b) ∧
    (edges tets).Pairwise (fun p q => p.1 < q.1 ∨ (p.1 = q.1 ∧ p.2 < q.2)) ∧ (edges tets).Nodup := by
  have hs : (edges tets).Pairwise fun p q => pairLE p q ∧ p ≠ q :=
    unique_strict pairLE pairLE_anti _ (List.pairwise_insertionSort pairLE _)
  refine ⟨?_, ?_, ?_⟩
  · intro a b
    unfold edges
    rw [unique_mem, List.mem_insertionSort, List.mem_flatMap]
    constructor
    · rintro ⟨t, ht, h⟩
      obtain ⟨hab, h⟩ := (mem_tetEdges t a b).mp h
      exact ⟨hab, t, ht, h⟩
    · rintro ⟨hab, t, ht, h⟩
      exact ⟨t, ht, (mem_tetEdges t a b).mpr ⟨hab, h⟩⟩
  · refine hs.imp ?_
    rintro ⟨a, b⟩ ⟨c, d⟩ ⟨h, hne⟩
    unfold pairLE at h
    simp only [ne_eq, Prod.mk.injEq, not_and] at h hne ⊢
    omega
  · exact hs.imp fun h => h.2

/-- **C30**: when no tetrahedron uses an index twice, every edge is a pair of different indices. -/
theorem C30_no_loop (tets : List Tet) (hinj : ∀ t ∈ tets, Function.Injective t.ind) (a b : ℕ)
    (h : (a, b) ∈ edges tets) : a < b := by
  obtain ⟨hab, t, ht, i, j, hij, e1, e2⟩ := ((C30_edges tets).1 a b).mp h
  refine lt_of_le_of_ne hab fun e => hij (hinj t ht ?_)
  rw [e1, e2, e]

/-- two tetrahedrons sharing a face: 9 edges, not 12 -/
example : edges [⟨![3, 0, 1, 2], 0⟩, ⟨![1, 2, 3, 4], 1⟩] =
    [(0, 1), (0, 2), (0, 3), (1, 2), (1, 3), (1, 4), (2, 3), (2, 4), (3, 4)] := by
  simp [edges, tetEdges, minmax, List.insertionSort, List.orderedInsert, pairLE, unique]

/-- **C56**: duplicate removal gives a strictly increasing list with the same values. -/
theorem C56_suppress_copies (l : List ℕ) :
    (suppressCopies l).Pairwise (· < ·) ∧ ∀ x, x ∈ suppressCopies l ↔ x ∈ l := by
  refine ⟨?_, fun x => ?_⟩
  · refine (unique_strict (· ≤ ·) (fun a b => Nat.le_antisymm) _ (List.pairwise_insertionSort (· ≤ ·) l)).imp ?_
    intro a b h
    exact lt_of_le_of_ne h.1 h.2
  · unfold suppressCopies
    rw [unique_mem, List.mem_insertionSort]

/-- **C56**: these two facts determine the result. -/
theorem C56_unique (l r : List ℕ) (hr : r.Pairwise (· < ·)) (hm : ∀ x, x ∈ r ↔ x ∈ l) : r = suppressCopies l := by
  obtain ⟨h1, h2⟩ := C56_suppress_copies l
  have hn1 : r.Nodup := hr.imp fun h => ne_of_lt h
  have hn2 : (suppressCopies l).Nodup := h1.imp fun h => ne_of_lt h
  refine List.Perm.eq_of_pairwise (le := (· < ·)) (fun a b _ _ h h' => absurd h' (lt_asymm h)) hr h1 ?_
  rw [List.perm_ext_iff_of_nodup hn1 hn2]
  intro x
  rw [hm, h2]

example : suppressCopies [3, 1, 3, 2, 1] = [1, 2, 3] := by
  simp [suppressCopies, List.insertionSort, List.orderedInsert, unique]

end Verif.Mesh
