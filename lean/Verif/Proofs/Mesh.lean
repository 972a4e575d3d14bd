import Mathlib.Tactic.FinCases
import Mathlib.Data.Fintype.Basic
import Verif.Model.Mesh

/-!
# Lemmas on sorting, duplicate removal and the edge list
-/

namespace Verif.Mesh

theorem unique_mem {β : Type} [DecidableEq β] (l : List β) (x : β) : x ∈ unique l ↔ x ∈ l := by
  induction l using unique.induct with
  | case1 => simp [unique]
  | case2 a => simp [unique]
  | case3 b l ih => rw [unique]; simp [ih]
  | case4 a b l hne ih => rw [unique]; simp [hne, ih]

theorem unique_strict {β : Type} [DecidableEq β] (r : β → β → Prop) (anti : ∀ a b, r a b → r b a → a = b)
    (l : List β) (h : l.Pairwise r) : (unique l).Pairwise fun a b => r a b ∧ a ≠ b := by
  induction l using unique.induct with
  | case1 => simp [unique]
  | case2 a => simp [unique]
  | case3 b l ih =>
    rw [unique, if_pos rfl]
    exact ih (h.sublist (by simp))
  | case4 a b l hne ih =>
    rw [unique, if_neg hne, List.pairwise_cons]
    rw [List.pairwise_cons] at h
    refine ⟨?_, ih h.2⟩
    intro x hx
    rw [unique_mem] at hx
    refine ⟨h.1 x hx, ?_⟩
    rintro rfl
    rcases List.mem_cons.mp hx with e | e
    · exact hne e
    · exact hne (anti _ _ (h.1 b (by simp)) ((List.pairwise_cons.mp h.2).1 _ e))

instance : Std.Total pairLE := ⟨by
  intro a b
  unfold pairLE
  omega⟩

instance : IsTrans (ℕ × ℕ) pairLE := ⟨by
  intro a b c
  unfold pairLE
  omega⟩

theorem pairLE_anti (a b : ℕ × ℕ) : pairLE a b → pairLE b a → a = b := by
  unfold pairLE
  intro h1 h2
  ext <;> omega

theorem minmax_eq (a b x y : ℕ) : minmax a b = (x, y) ↔ x ≤ y ∧ ((a = x ∧ b = y) ∨ (a = y ∧ b = x)) := by
  unfold minmax
  split <;> simp only [Prod.mk.injEq] <;> omega

theorem mem_tetEdges (t : Tet) (a b : ℕ) :
    (a, b) ∈ tetEdges t ↔ a ≤ b ∧ ∃ i j : Fin 4, i ≠ j ∧ t.ind i = a ∧ t.ind j = b := by
  constructor
  · intro h
    simp only [tetEdges, List.mem_cons, List.not_mem_nil, or_false] at h
    rcases h with h | h | h | h | h | h <;>
      obtain ⟨hab, ⟨e1, e2⟩ | ⟨e1, e2⟩⟩ := (minmax_eq _ _ _ _).mp h.symm <;>
      first
        | exact ⟨hab, _, _, by decide, e1, e2⟩
        | exact ⟨hab, _, _, by decide, e2, e1⟩
  · rintro ⟨hab, i, j, hij, e1, e2⟩
    have key : ∀ p q, t.ind p = a ∧ t.ind q = b ∨ t.ind p = b ∧ t.ind q = a →
        (a, b) = minmax (t.ind p) (t.ind q) := fun p q h => ((minmax_eq _ _ _ _).mpr ⟨hab, h⟩).symm
    simp only [tetEdges, List.mem_cons, List.not_mem_nil, or_false]
    fin_cases i <;> fin_cases j <;> first
      | exact absurd rfl hij
      | exact Or.inl (key 0 1 (Or.inl ⟨e1, e2⟩))
      | exact Or.inl (key 0 1 (Or.inr ⟨e2, e1⟩))
      | exact Or.inr (Or.inl (key 0 2 (Or.inl ⟨e1, e2⟩)))
      | exact Or.inr (Or.inl (key 0 2 (Or.inr ⟨e2, e1⟩)))
      | exact Or.inr (Or.inr (Or.inl (key 0 3 (Or.inl ⟨e1, e2⟩))))
      | exact Or.inr (Or.inr (Or.inl (key 0 3 (Or.inr ⟨e2, e1⟩))))
      | exact Or.inr (Or.inr (Or.inr (Or.inl (key 1 2 (Or.inl ⟨e1, e2⟩)))))
      | exact Or.inr (Or.inr (Or.inr (Or.inl (key 1 2 (Or.inr ⟨e2, e1⟩)))))
      | exact Or.inr (Or.inr (Or.inr (Or.inr (Or.inl (key 1 3 (Or.inl ⟨e1, e2⟩))))))
      | exact Or.inr (Or.inr (Or.inr (Or.inr (Or.inl (key 1 3 (Or.inr ⟨e2, e1⟩))))))
      | exact Or.inr (Or.inr (Or.inr (Or.inr (Or.inr (key 2 3 (Or.inl ⟨e1, e2⟩))))))
      | exact Or.inr (Or.inr (Or.inr (Or.inr (Or.inr (key 2 3 (Or.inr ⟨e2, e1⟩))))))

theorem magNode_length (mag : ℕ → Bool) (nod : ℕ) (tets : List Tet) : (magNode mag nod tets).length = nod := by
  have : ∀ (l : List Bool), (tets.foldl (fun l t =>
      if t.isMagnetic mag then (((l.set (t.ind 0) true).set (t.ind 1) true).set (t.ind 2) true).set (t.ind 3) true
      else l) l).length = l.length := by
    induction tets with
    | nil => intro l; rfl
    | cons t ts ih =>
      intro l
      rw [List.foldl_cons, ih]
      split <;> simp
  rw [magNode, this]
  simp

theorem getD_set_true (l : List Bool) (k i : ℕ) :
    (l.set k true).getD i false = true ↔ (l.getD i false = true ∨ (k = i ∧ i < l.length)) := by
  simp only [List.getD_eq_getElem?_getD, List.getElem?_set]
  by_cases h : k = i
  · subst h
    by_cases hk : k < l.length <;> simp [hk]
  · simp [h]

/-- `magNode[i]` is true exactly for the nodes of magnetic tetrahedrons -/
theorem magNode_iff (mag : ℕ → Bool) (nod : ℕ) (tets : List Tet) (i : ℕ) (hi : i < nod) :
    (magNode mag nod tets).getD i false = true ↔ ∃ t ∈ tets, mag t.reg = true ∧ ∃ k, t.ind k = i := by
  have : ∀ (l : List Bool), i < l.length → ((tets.foldl (fun l t =>
      if t.isMagnetic mag then (((l.set (t.ind 0) true).set (t.ind 1) true).set (t.ind 2) true).set (t.ind 3) true
      else l) l).getD i false = true ↔ (l.getD i false = true ∨ ∃ t ∈ tets, mag t.reg = true ∧ ∃ k, t.ind k = i)) := by
    induction tets with
    | nil => intro l _; simp
    | cons t ts ih =>
      intro l hl
      rw [List.foldl_cons]
      by_cases hm : t.isMagnetic mag = true
      · rw [if_pos hm, ih _ (by simpa using hl)]
        simp only [getD_set_true, List.length_set]
        unfold Tet.isMagnetic at hm
        simp only [hl, and_true, List.mem_cons, exists_eq_or_imp, hm, true_and]
        constructor
        · rintro (((((h | h) | h) | h) | h) | h) <;> first | exact Or.inl h | exact Or.inr (Or.inl ⟨_, h⟩) | exact Or.inr (Or.inr h)
        · rintro (h | ⟨k, h⟩ | h)
          · exact Or.inl (Or.inl (Or.inl (Or.inl (Or.inl h))))
          · left
            fin_cases k
            · exact Or.inl (Or.inl (Or.inl (Or.inr h)))
            · exact Or.inl (Or.inl (Or.inr h))
            · exact Or.inl (Or.inr h)
            · exact Or.inr h
          · exact Or.inr h
      · rw [if_neg hm, ih _ hl]
        unfold Tet.isMagnetic at hm
        simp [hm]
  rw [magNode, this _ (by simpa using hi)]
  simp [List.getD_eq_getElem?_getD, hi]

end Verif.Mesh
