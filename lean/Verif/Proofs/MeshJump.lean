import Mathlib.Tactic.LinearCombination
import Verif.Proofs.MeshCheck2
import Verif.Model.Geom

/-!
# Lemmas on the jump of magnetization
-/

namespace Verif.MeshCheck

open Verif.Mesh Verif.Geom

variable {tets : List Tet} {tris : List Tri} {sorted : List BasicTri}

/-- in a sorted list, the run found by `lower_bound` is the whole group -/
theorem run_eq_grp (l : List BasicTri) (hs : Sorted l) (k : Key) :
    ((l.dropWhile fun x => decide (keyLT x.nodes k)).takeWhile fun x => decide (x.nodes = k)) = grp l k := by
  induction l with
  | nil => rfl
  | cons b l ih =>
    have hs' := (List.pairwise_cons.mp hs)
    by_cases h1 : keyLT b.nodes k
    · rw [List.dropWhile_cons_of_pos (by simpa using h1), ih hs'.2]
      have hne : b.nodes ≠ k := by
        intro e; rw [e] at h1; unfold keyLT at h1; omega
      unfold grp
      rw [List.filter_cons_of_neg (by simpa using hne)]
    · rw [List.dropWhile_cons_of_neg (by simpa using h1)]
      have aux : ∀ l : List BasicTri, Sorted l → (∀ x ∈ l, keyLE k x.nodes) →
          (l.takeWhile fun x => decide (x.nodes = k)) = grp l k := by
        intro l
        induction l with
        | nil => intros; rfl
        | cons c l ih' =>
          intro hl hk
          have hl' := List.pairwise_cons.mp hl
          unfold grp
          by_cases h2 : c.nodes = k
          · rw [List.takeWhile_cons_of_pos (by simpa using h2), List.filter_cons_of_pos (by simpa using h2),
              ih' hl'.2 fun x hx => hk x (List.mem_cons_of_mem _ hx)]
            rfl
          · rw [List.takeWhile_cons_of_neg (by simpa using h2), eq_comm, List.filter_eq_nil_iff]
            intro x hx
            rcases List.mem_cons.mp hx with rfl | hx
            · simpa using h2
            · have h3 := hl'.1 x hx
              have h4 := hk c (by simp)
              simp only [decide_eq_true_eq]
              intro h5
              rw [h5] at h3
              exact h2 (keyLE_anti h3 h4)
      apply aux (b :: l) hs
      intro x hx
      rcases List.mem_cons.mp hx with rfl | hx
      · exact h1
      · exact keyLE_trans h1 (hs'.1 x hx)

/-- contribution of a face to the jump -/
def jumpOf {R : Type} [Zero R] [Neg R] (Ms : ℕ → R) (fl : Bool) (x : BasicTri) : R :=
  if x.surf then 0 else if xor fl x.flipped then -Ms x.reg else Ms x.reg

theorem dMs_eq_sum {R : Type} [AddCommGroup R] (Ms : ℕ → R) (h : IsSortOf sorted (allTri tets tris)) (f : Tri) :
    dMs Ms sorted f = (tets.map fun t => ((grp (faces t) (BasicTri.ofTri f).nodes).map
      (jumpOf Ms (BasicTri.ofTri f).flipped)).sum).sum := by
  have e1 : dMs Ms sorted f = ((grp sorted (BasicTri.ofTri f).nodes).map (jumpOf Ms (BasicTri.ofTri f).flipped)).sum := by
    unfold dMs
    dsimp only
    rw [run_eq_grp sorted h.2]
    generalize grp sorted (BasicTri.ofTri f).nodes = g
    rw [← zero_add (List.sum _)]
    generalize (0 : R) = a
    induction g generalizing a with
    | nil => simp
    | cons x g ih =>
      rw [List.foldl_cons, ih, List.map_cons, List.sum_cons, ← add_assoc]
      congr 1
      unfold jumpOf
      by_cases hx : x.surf = true
      · rw [if_pos hx, if_pos hx, add_zero]
      · rw [if_neg hx, if_neg hx]
  rw [e1]
  have e2 := (((h.1.filter fun b => decide (b.nodes = (BasicTri.ofTri f).nodes))).map
    (jumpOf Ms (BasicTri.ofTri f).flipped)).sum_eq
  unfold grp
  rw [e2]
  unfold allTri
  rw [List.filter_append, List.map_append, List.sum_append]
  have e3 : (List.map (jumpOf Ms (BasicTri.ofTri f).flipped)
      (List.filter (fun b => decide (b.nodes = (BasicTri.ofTri f).nodes)) (tris.map .ofTri))).sum = 0 := by
    apply List.sum_eq_zero
    intro x hx
    obtain ⟨b, hb, rfl⟩ := List.mem_map.mp hx
    obtain ⟨g, _, rfl⟩ := List.mem_map.mp (List.mem_filter.mp hb).1
    rfl
  rw [e3, add_zero]
  induction tets with
  | nil => rfl
  | cons t tets ih =>
    clear e1 e2 h ih
    have : ∀ ts : List Tet, (List.map (jumpOf Ms (BasicTri.ofTri f).flipped)
        (List.filter (fun b => decide (b.nodes = (BasicTri.ofTri f).nodes)) (ts.flatMap faces))).sum =
        (ts.map fun t => (List.map (jumpOf Ms (BasicTri.ofTri f).flipped)
          (List.filter (fun b => decide (b.nodes = (BasicTri.ofTri f).nodes)) (faces t))).sum).sum := by
      intro ts
      induction ts with
      | nil => rfl
      | cons t ts ih =>
        rw [List.flatMap_cons, List.filter_append, List.map_append, List.sum_append, ih, List.map_cons, List.sum_cons]
    exact this (t :: tets)

/-! ## parity of a vertex order -/

/-- orientation of a point with respect to an oriented triangle -/
def orient (p : ℕ → V3) (a b c : ℕ) (q : V3) : ℝ := V3.dot (V3.cross (p b - p a) (p c - p a)) (q - p a)

theorem multiset_three {a b c a' b' c' : ℕ} (h : ({a, b, c} : Multiset ℕ) = {a', b', c'}) :
    (a = a' ∧ b = b' ∧ c = c') ∨ (a = b' ∧ b = c' ∧ c = a') ∨ (a = c' ∧ b = a' ∧ c = b') ∨
    (a = b' ∧ b = a' ∧ c = c') ∨ (a = a' ∧ b = c' ∧ c = b') ∨ (a = c' ∧ b = b' ∧ c = a') := by
  have pair : ∀ {x y x' y' : ℕ}, ({x, y} : Multiset ℕ) = {x', y'} → (x = x' ∧ y = y') ∨ (x = y' ∧ y = x') := by
    intro x y x' y' h
    have h' : (([x, y] : List ℕ) : Multiset ℕ) = {x', y'} := h
    rw [coe_eq_pair] at h'
    simpa using h'
  have ha : a ∈ ({a', b', c'} : Multiset ℕ) := by rw [← h]; simp
  simp only [Multiset.insert_eq_cons, Multiset.mem_cons, Multiset.mem_singleton] at ha
  rcases ha with rfl | rfl | rfl
  · have h2 : ({b, c} : Multiset ℕ) = {b', c'} := (Multiset.cons_inj_right a).mp h
    rcases pair h2 with ⟨rfl, rfl⟩ | ⟨rfl, rfl⟩ <;> simp
  · have h2 : ({b, c} : Multiset ℕ) = {a', c'} := by
      apply (Multiset.cons_inj_right a).mp
      rw [← Multiset.insert_eq_cons, h]
      exact Multiset.cons_swap _ _ _
    rcases pair h2 with ⟨rfl, rfl⟩ | ⟨rfl, rfl⟩ <;> simp
  · have h2 : ({b, c} : Multiset ℕ) = {a', b'} := by
      apply (Multiset.cons_inj_right a).mp
      rw [← Multiset.insert_eq_cons, h]
      show (([a', b', a] : List ℕ) : Multiset ℕ) = (([a, a', b'] : List ℕ) : Multiset ℕ)
      rw [Multiset.coe_eq_coe]
      exact ((List.Perm.swap _ _ _).cons _).trans (List.Perm.swap _ _ _)
    rcases pair h2 with ⟨rfl, rfl⟩ | ⟨rfl, rfl⟩ <;> simp

theorem inv_xor {a b c a' b' c' : ℕ} (hab : a ≠ b) (hbc : b ≠ c) (hac : a ≠ c)
    (h : ({a, b, c} : Multiset ℕ) = {a', b', c'}) :
    (xor (inversions a b c % 2 == 1) (inversions a' b' c' % 2 == 1) = false ∧
      ((a = a' ∧ b = b' ∧ c = c') ∨ (a = b' ∧ b = c' ∧ c = a') ∨ (a = c' ∧ b = a' ∧ c = b'))) ∨
    (xor (inversions a b c % 2 == 1) (inversions a' b' c' % 2 == 1) = true ∧
      ((a = b' ∧ b = a' ∧ c = c') ∨ (a = a' ∧ b = c' ∧ c = b') ∨ (a = c' ∧ b = b' ∧ c = a'))) := by
  rcases multiset_three h with ⟨rfl, rfl, rfl⟩ | ⟨rfl, rfl, rfl⟩ | ⟨rfl, rfl, rfl⟩ | ⟨rfl, rfl, rfl⟩ |
    ⟨rfl, rfl, rfl⟩ | ⟨rfl, rfl, rfl⟩
  · exact Or.inl ⟨by simp, by simp⟩
  · refine Or.inl ⟨?_, by simp⟩
    rcases lt_or_gt_of_ne hab with h1 | h1 <;> rcases lt_or_gt_of_ne hbc with h2 | h2 <;>
      rcases lt_or_gt_of_ne hac with h3 | h3 <;>
      first | (exfalso; omega) | simp [inversions, h1, h2, h3, not_lt.mpr h1.le, not_lt.mpr h2.le, not_lt.mpr h3.le]
  · refine Or.inl ⟨?_, by simp⟩
    rcases lt_or_gt_of_ne hab with h1 | h1 <;> rcases lt_or_gt_of_ne hbc with h2 | h2 <;>
      rcases lt_or_gt_of_ne hac with h3 | h3 <;>
      first | (exfalso; omega) | simp [inversions, h1, h2, h3, not_lt.mpr h1.le, not_lt.mpr h2.le, not_lt.mpr h3.le]
  · refine Or.inr ⟨?_, by simp⟩
    rcases lt_or_gt_of_ne hab with h1 | h1 <;> rcases lt_or_gt_of_ne hbc with h2 | h2 <;>
      rcases lt_or_gt_of_ne hac with h3 | h3 <;>
      first | (exfalso; omega) | simp [inversions, h1, h2, h3, not_lt.mpr h1.le, not_lt.mpr h2.le, not_lt.mpr h3.le]
  · refine Or.inr ⟨?_, by simp⟩
    rcases lt_or_gt_of_ne hab with h1 | h1 <;> rcases lt_or_gt_of_ne hbc with h2 | h2 <;>
      rcases lt_or_gt_of_ne hac with h3 | h3 <;>
      first | (exfalso; omega) | simp [inversions, h1, h2, h3, not_lt.mpr h1.le, not_lt.mpr h2.le, not_lt.mpr h3.le]
  · refine Or.inr ⟨?_, by simp⟩
    rcases lt_or_gt_of_ne hab with h1 | h1 <;> rcases lt_or_gt_of_ne hbc with h2 | h2 <;>
      rcases lt_or_gt_of_ne hac with h3 | h3 <;>
      first | (exfalso; omega) | simp [inversions, h1, h2, h3, not_lt.mpr h1.le, not_lt.mpr h2.le, not_lt.mpr h3.le]

/-- the flag tells whether two vertex orders have the same normal -/
theorem flipped_normal (p : ℕ → V3) {a b c a' b' c' : ℕ} (hab : a ≠ b) (hbc : b ≠ c) (hac : a ≠ c)
    (h : ({a, b, c} : Multiset ℕ) = {a', b', c'}) :
    (xor (inversions a b c % 2 == 1) (inversions a' b' c' % 2 == 1) = false ∧
      V3.cross (p b - p a) (p c - p a) = V3.cross (p b' - p a') (p c' - p a') ∧
      ∀ q, orient p a b c q = orient p a' b' c' q) ∨
    (xor (inversions a b c % 2 == 1) (inversions a' b' c' % 2 == 1) = true ∧
      V3.cross (p b - p a) (p c - p a) = -V3.cross (p b' - p a') (p c' - p a') ∧
      ∀ q, orient p a b c q = - orient p a' b' c' q) := by
  rcases inv_xor hab hbc hac h with ⟨hx, hp⟩ | ⟨hx, hp⟩
  · left
    refine ⟨hx, ?_, ?_⟩
    · rcases hp with ⟨rfl, rfl, rfl⟩ | ⟨rfl, rfl, rfl⟩ | ⟨rfl, rfl, rfl⟩ <;> ext <;> simp [V3.cross] <;> ring
    · intro q
      rcases hp with ⟨rfl, rfl, rfl⟩ | ⟨rfl, rfl, rfl⟩ | ⟨rfl, rfl, rfl⟩ <;> simp [orient, V3.cross, V3.dot] <;> ring
  · right
    refine ⟨hx, ?_, ?_⟩
    · rcases hp with ⟨rfl, rfl, rfl⟩ | ⟨rfl, rfl, rfl⟩ | ⟨rfl, rfl, rfl⟩ <;> ext <;> simp [V3.cross] <;> ring
    · intro q
      rcases hp with ⟨rfl, rfl, rfl⟩ | ⟨rfl, rfl, rfl⟩ | ⟨rfl, rfl, rfl⟩ <;> simp [orient, V3.cross, V3.dot] <;> ring

theorem mixedProd_distinct (p : ℕ → V3) (t : Tet) (h : 0 < mixedProd p t) : ∀ i j, t.ind i = t.ind j → i = j := by
  intro i j e
  by_contra hne
  apply h.ne'
  unfold mixedProd
  fin_cases i <;> fin_cases j <;> first | (exact absurd rfl hne) | (simp at e; simp [e, V3.dot, V3.cross]; try ring)

theorem orient_faces (p : ℕ → V3) (t : Tet) :
    orient p (t.ind 0) (t.ind 2) (t.ind 1) (p (t.ind 3)) = - mixedProd p t ∧
    orient p (t.ind 1) (t.ind 2) (t.ind 3) (p (t.ind 0)) = - mixedProd p t ∧
    orient p (t.ind 2) (t.ind 0) (t.ind 3) (p (t.ind 1)) = - mixedProd p t ∧
    orient p (t.ind 3) (t.ind 0) (t.ind 1) (p (t.ind 2)) = - mixedProd p t := by
  refine ⟨?_, ?_, ?_, ?_⟩ <;> simp only [orient, mixedProd, V3.dot, V3.cross, V3.sub_x, V3.sub_y, V3.sub_z] <;> ring

open Classical in
/-- sign with which the region of a tetrahedron counts, seen from the triangle -/
theorem jump_face (p : ℕ → V3) (Ms : ℕ → ℝ) (f : Tri) (a b c r : ℕ) (q : V3) (hab : a ≠ b) (hbc : b ≠ c)
    (hac : a ≠ c) (ho : orient p a b c q < 0) :
    ((grp [BasicTri.mk' a b c r false] (BasicTri.ofTri f).nodes).map (jumpOf Ms (BasicTri.ofTri f).flipped)).sum =
      if ({a, b, c} : Multiset ℕ) = verts f then
        (if V3.dot (normalVect p f) (q - p (f.ind 0)) < 0 then Ms r else -Ms r) else 0 := by
  have hk : (BasicTri.mk' a b c r false).nodes = (BasicTri.ofTri f).nodes ↔ ({a, b, c} : Multiset ℕ) = verts f :=
    sort3_eq_iff _ _ _ _ _ _
  unfold grp
  by_cases h : ({a, b, c} : Multiset ℕ) = verts f
  · rw [List.filter_cons_of_pos (by simpa using hk.mpr h), if_pos h]
    simp only [List.filter_nil, List.map_cons, List.map_nil, List.sum_cons, List.sum_nil, add_zero]
    have hd : V3.dot (normalVect p f) (q - p (f.ind 0)) = orient p (f.ind 0) (f.ind 1) (f.ind 2) q := rfl
    rw [hd]
    have hj : jumpOf Ms (BasicTri.ofTri f).flipped (BasicTri.mk' a b c r false) =
        if xor (inversions a b c % 2 == 1) (inversions (f.ind 0) (f.ind 1) (f.ind 2) % 2 == 1) = true then -Ms r else Ms r := by
      rw [Bool.xor_comm]; rfl
    rw [hj]
    rcases flipped_normal p hab hbc hac h with ⟨h1, _, h2⟩ | ⟨h1, _, h2⟩
    · have h3 := h2 q
      rw [h1, if_neg (by simp), if_pos (by linarith)]
    · have h3 := h2 q
      rw [h1, if_pos rfl, if_neg (by linarith)]
  · rw [List.filter_cons_of_neg (by simpa using mt hk.mp h), if_neg h]
    rfl

open Classical in
theorem jump_tet (p : ℕ → V3) (Ms : ℕ → ℝ) (f : Tri) (t : Tet) (ht : 0 < mixedProd p t) :
    ((grp (faces t) (BasicTri.ofTri f).nodes).map (jumpOf Ms (BasicTri.ofTri f).flipped)).sum =
      ∑ k : Fin 4, if face t k = verts f then
        (if V3.dot (normalVect p f) (p (t.ind k) - p (f.ind 0)) < 0 then Ms t.reg else -Ms t.reg) else 0 := by
  have hd := mixedProd_distinct p t ht
  have hne : ∀ i j, i ≠ j → t.ind i ≠ t.ind j := fun i j h e => h (hd i j e)
  obtain ⟨o3, o0, o1, o2⟩ := orient_faces p t
  obtain ⟨f3, f0, f1, f2⟩ := face_eq t
  have split : ∀ a b c d : BasicTri, ((grp [a, b, c, d] (BasicTri.ofTri f).nodes).map (jumpOf Ms (BasicTri.ofTri f).flipped)).sum =
      ((grp [a] (BasicTri.ofTri f).nodes).map (jumpOf Ms (BasicTri.ofTri f).flipped)).sum +
      ((grp [b] (BasicTri.ofTri f).nodes).map (jumpOf Ms (BasicTri.ofTri f).flipped)).sum +
      ((grp [c] (BasicTri.ofTri f).nodes).map (jumpOf Ms (BasicTri.ofTri f).flipped)).sum +
      ((grp [d] (BasicTri.ofTri f).nodes).map (jumpOf Ms (BasicTri.ofTri f).flipped)).sum := by
    intro a b c d
    have : [a, b, c, d] = [a] ++ [b] ++ [c] ++ [d] := rfl
    rw [this]
    unfold grp
    simp only [List.filter_append, List.map_append, List.sum_append]
  unfold faces
  rw [split, jump_face p Ms f _ _ _ _ (p (t.ind 3)) (hne _ _ (by decide)) (hne _ _ (by decide)) (hne _ _ (by decide)) (by rw [o3]; linarith),
    jump_face p Ms f _ _ _ _ (p (t.ind 0)) (hne _ _ (by decide)) (hne _ _ (by decide)) (hne _ _ (by decide)) (by rw [o0]; linarith),
    jump_face p Ms f _ _ _ _ (p (t.ind 1)) (hne _ _ (by decide)) (hne _ _ (by decide)) (hne _ _ (by decide)) (by rw [o1]; linarith),
    jump_face p Ms f _ _ _ _ (p (t.ind 2)) (hne _ _ (by decide)) (hne _ _ (by decide)) (hne _ _ (by decide)) (by rw [o2]; linarith),
    Fin.sum_univ_four, f0, f1, f2, f3]
  ring

end Verif.MeshCheck
