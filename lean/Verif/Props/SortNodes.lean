import Mathlib.Data.List.FinRange
import Mathlib.Data.Fin.VecNotation
import Mathlib.Data.Fintype.Basic
import Mathlib.Tactic.FinCases
import Mathlib.Tactic.NormNum
import Verif.Spec.SortNodes

/-!
# C28: renumbering the nodes changes nothing observable
-/

namespace Verif.SortNodes

open Verif.Mesh

variable {α : Type}

theorem getD_lt {β : Type} (l : List β) (i : ℕ) (d : β) (h : i < l.length) : l.getD i d = l[i] := by
  rw [List.getD_eq_getElem?_getD, List.getElem?_eq_getElem h]; rfl

theorem inverse_length (n : ℕ) (perm : List ℕ) : (inverse n perm).length = n := by
  have : ∀ (l : List (ℕ × ℕ)) (s : List ℕ), (l.foldl (fun idx p => idx.set p.1 p.2) s).length = s.length := by
    intro l
    induction l with
    | nil => intro s; rfl
    | cons a l ih => intro s; rw [List.foldl_cons, ih]; simp
  unfold inverse
  rw [this]; simp

theorem fold_set (l : List ℕ) : ∀ (k : ℕ) (s : List ℕ), l.Nodup → (∀ a ∈ l, a < s.length) →
    (∀ (i : ℕ) (h : i < l.length), ((l.zipIdx k).foldl (fun idx p => idx.set p.1 p.2) s)[l[i]]? = some (k + i)) ∧
    (∀ a, a ∉ l → ((l.zipIdx k).foldl (fun idx p => idx.set p.1 p.2) s)[a]? = s[a]?) := by
  induction l with
  | nil => intro k s _ _; simp
  | cons b l ih =>
    intro k s hn hl
    rw [List.nodup_cons] at hn
    obtain ⟨h1, h2⟩ := ih (k + 1) (s.set b k) hn.2 (by
      intro a ha; rw [List.length_set]; exact hl a (List.mem_cons_of_mem _ ha))
    rw [List.zipIdx_cons, List.foldl_cons]
    constructor
    · intro i hi
      cases i with
      | zero =>
        simp only [List.getElem_cons_zero]
        rw [h2 b hn.1]
        simp [hl b List.mem_cons_self]
      | succ i =>
        simp only [List.getElem_cons_succ]
        rw [h1 i (by simpa using hi)]
        congr 1; omega
    · intro a ha
      rw [h2 a (fun h => ha (List.mem_cons_of_mem _ h))]
      exact List.getElem?_set_ne (fun h : b = a => ha (by rw [h]; exact List.mem_cons_self))

/-- the table built from a permutation is its inverse -/
theorem inverse_get (n : ℕ) (perm : List ℕ) (hp : perm.Perm (List.range n)) (i : ℕ) (hi : i < perm.length) :
    (inverse n perm)[perm[i]]? = some i := by
  have hn : perm.Nodup := hp.nodup_iff.mpr List.nodup_range
  have h := (fold_set perm 0 (List.replicate n 0) hn (by
    intro a ha
    have := hp.mem_iff.mp ha
    simpa using this)).1 i hi
  simpa [inverse] using h

theorem exists_pos (n : ℕ) (perm : List ℕ) (hp : perm.Perm (List.range n)) (a : ℕ) (ha : a < n) :
    ∃ (i : ℕ) (h : i < perm.length), perm[i] = a := by
  have : a ∈ perm := hp.mem_iff.mpr (List.mem_range.mpr ha)
  obtain ⟨i, hi, e⟩ := List.getElem_of_mem this
  exact ⟨i, hi, e⟩

theorem mapM_some {β γ : Type} (f : β → Option γ) (g : β → γ) (l : List β) (h : ∀ x ∈ l, f x = some (g x)) :
    l.mapM f = some (l.map g) := by
  induction l with
  | nil => rfl
  | cons a l ih =>
    rw [List.mapM_cons, h a List.mem_cons_self, ih (fun x hx => h x (List.mem_cons_of_mem _ hx))]
    rfl

theorem inverse_perm (n : ℕ) (perm : List ℕ) (hp : perm.Perm (List.range n)) :
    (inverse n perm).Perm (List.range n) := by
  have hlen : perm.length = n := by simpa using hp.length_eq
  have key : ∀ (a : ℕ) (ha : a < n), ∃ i, ∃ h : i < perm.length, perm[i] = a ∧ (inverse n perm)[a]? = some i := by
    intro a ha
    obtain ⟨i, hi, e⟩ := exists_pos n perm hp a ha
    refine ⟨i, hi, e, ?_⟩
    rw [← e]; exact inverse_get n perm hp i hi
  have hnd : (inverse n perm).Nodup := by
    rw [List.nodup_iff_injective_getElem]
    intro ⟨a, ha⟩ ⟨b, hb⟩ hab
    rw [inverse_length] at ha hb
    obtain ⟨i, hi, e1, e2⟩ := key a ha
    obtain ⟨j, hj, f1, f2⟩ := key b hb
    simp only at hab
    rw [List.getElem?_eq_getElem (by rw [inverse_length]; exact ha)] at e2
    rw [List.getElem?_eq_getElem (by rw [inverse_length]; exact hb)] at f2
    have hij : i = j := by
      have := hab
      rw [Option.some.injEq] at e2 f2
      rw [← e2, ← f2]; exact this
    subst hij
    simp only [Fin.mk.injEq]
    exact e1.symm.trans f1
  refine (List.perm_ext_iff_of_nodup hnd List.nodup_range).mpr ?_
  intro x
  rw [List.mem_range]
  constructor
  · intro hx
    obtain ⟨a, ha, e⟩ := List.getElem_of_mem hx
    rw [inverse_length] at ha
    obtain ⟨i, hi, e1, e2⟩ := key a ha
    rw [List.getElem?_eq_getElem (by rw [inverse_length]; exact ha)] at e2
    rw [Option.some.injEq] at e2
    omega
  · intro hx
    have hx' : x < perm.length := by omega
    have := inverse_get n perm hp x hx'
    exact List.mem_of_getElem? this

theorem map_forall2 {β γ : Type} (R : β → γ → Prop) (g : β → γ) (l : List β) (h : ∀ x ∈ l, R x (g x)) :
    List.Forall₂ R l (l.map g) := by
  induction l with
  | nil => exact .nil
  | cons a l ih =>
    exact .cons (h a List.mem_cons_self) (ih fun x hx => h x (List.mem_cons_of_mem _ hx))

/-- Whatever order `std::sort` gives to nodes at the same coordinate: the function succeeds, the nodes are
rearranged in increasing order along the axis, the table `node_index` is a bijection that gives the new place of
every node, and every element keeps its region and has the same nodes at the same local vertices. -/
theorem C28_renumbering (pos : α → ℝ) (m : Msh α) (perm : List ℕ)
    (hs : IsStdSort (lessAlong pos m.node) (List.range m.node.length) perm) (hv : Valid m) :
    ∃ m', sortNodes perm m = some m' ∧
      m'.node.Perm m.node ∧
      m'.node.Pairwise (fun a b => pos a ≤ pos b) ∧
      m'.nodeIndex.Perm (List.range m.node.length) ∧
      (∀ i < m.node.length, ∃ j, m'.nodeIndex[i]? = some j ∧ m'.node[j]? = m.node[i]?) ∧
      List.Forall₂ (SameTet m m') m.tet m'.tet ∧ List.Forall₂ (SameTri m m') m.tri m'.tri := by
  obtain ⟨hp, hsorted⟩ := hs
  set n := m.node.length with hn
  have hlen : perm.length = n := by simpa using hp.length_eq
  have hperm : ∀ i ∈ perm, i < n := fun i hi => List.mem_range.mp (hp.mem_iff.mp hi)
  set idx := inverse n perm with hidx
  have hidxlen : idx.length = n := inverse_length n perm
  rcases Nat.eq_zero_or_pos n with h0 | hpos
  · -- no node: no element either
    have hnode : m.node = [] := List.eq_nil_of_length_eq_zero (by omega)
    have hperm0 : perm = [] := List.eq_nil_of_length_eq_zero (by omega)
    have ht : m.tet = [] := by
      rcases List.eq_nil_or_concat m.tet with h | ⟨l, t, h⟩
      · exact h
      · exfalso
        have := hv.1 t (by rw [h]; simp) 0
        omega
    have hf : m.tri = [] := by
      rcases List.eq_nil_or_concat m.tri with h | ⟨l, t, h⟩
      · exact h
      · exfalso
        have := hv.2 t (by rw [h]; simp) 0
        omega
    refine ⟨⟨[], [], [], []⟩, ?_, ?_, ?_, ?_, ?_, ?_, ?_⟩
    · unfold sortNodes
      rw [hperm0, ht, hf, hnode]
      rfl
    · rw [hnode]
    · simp
    · simp [h0]
    · intro i hi; omega
    · rw [ht]; exact .nil
    · rw [hf]; exact .nil
  -- a node to fill the tables with
  obtain ⟨d⟩ : Nonempty α := ⟨m.node[0]'(by omega)⟩
  have hnodeM : perm.mapM (fun i => m.node[i]?) = some (perm.map fun i => m.node.getD i d) := by
    apply mapM_some
    intro i hi
    have := hperm i hi
    rw [List.getElem?_eq_getElem (by omega), getD_lt _ _ _ (by omega)]
  have hrel : ∀ {k : ℕ} (ind : Fin k → ℕ), (∀ i, ind i < n) →
      relabel idx ind = some fun i => idx.getD (ind i) 0 := by
    intro k ind h
    unfold relabel
    rw [dif_pos (by intro i; rw [hidxlen]; exact h i)]
    congr 1
    funext i
    rw [getD_lt _ _ _ (by rw [hidxlen]; exact h i)]
  have htetM : m.tet.mapM (relabelTet idx) =
      some (m.tet.map fun t => { t with ind := fun i => idx.getD (t.ind i) 0 }) := by
    apply mapM_some
    intro t ht
    unfold relabelTet
    rw [hrel t.ind (hv.1 t ht)]; rfl
  have htriM : m.tri.mapM (relabelTri idx) =
      some (m.tri.map fun t => { t with ind := fun i => idx.getD (t.ind i) 0 }) := by
    apply mapM_some
    intro t ht
    unfold relabelTri
    rw [hrel t.ind (hv.2 t ht)]; rfl
  -- the new place of node `a`
  have hplace : ∀ a < n, idx[a]? = some (idx.getD a 0) ∧
      (perm.map fun i => m.node.getD i d)[idx.getD a 0]? = m.node[a]? := by
    intro a ha
    obtain ⟨i, hi, e⟩ := exists_pos n perm hp a ha
    have hg := inverse_get n perm hp i hi
    rw [e, ← hidx] at hg
    have hgd : idx.getD a 0 = i := by rw [List.getD_eq_getElem?_getD, hg]; rfl
    refine ⟨by rw [hgd]; exact hg, ?_⟩
    rw [hgd, List.getElem?_map, List.getElem?_eq_getElem hi, e,
      List.getElem?_eq_getElem (show a < m.node.length by omega)]
    simp only [Option.map_some]
    rw [getD_lt _ _ _ (by omega)]
  refine ⟨⟨perm.map fun i => m.node.getD i d, m.tet.map fun t => { t with ind := fun i => idx.getD (t.ind i) 0 },
    m.tri.map fun t => { t with ind := fun i => idx.getD (t.ind i) 0 }, idx⟩, ?_, ?_, ?_, ?_, ?_, ?_, ?_⟩
  · unfold sortNodes
    rw [← hn, ← hidx]
    dsimp only
    rw [hnodeM, htetM, htriM]
    rfl
  · have h : (perm.map fun i => m.node.getD i d).Perm ((List.range n).map fun i => m.node.getD i d) := hp.map _
    have e : (List.range n).map (fun i => m.node.getD i d) = m.node := by
      apply List.ext_getElem
      · simp [hn]
      · intro i h1 h2
        simp only [List.getElem_map, List.getElem_range]
        exact getD_lt _ _ _ h2
    rw [e] at h
    exact h
  · refine List.pairwise_map.mpr ?_
    refine List.Pairwise.imp_of_mem ?_ hsorted
    intro a b ha hb hab
    have ha' := hperm a ha
    have hb' := hperm b hb
    by_contra hc
    push Not at hc
    refine hab ⟨m.node.getD b d, m.node.getD a d, ?_, ?_, hc⟩
    · rw [List.getElem?_eq_getElem (by omega), getD_lt _ _ _ (by omega)]
    · rw [List.getElem?_eq_getElem (by omega), getD_lt _ _ _ (by omega)]
  · exact inverse_perm n perm hp
  · intro i hi
    exact ⟨_, (hplace i hi).1, (hplace i hi).2⟩
  · apply map_forall2
    intro t ht
    refine ⟨rfl, fun i => ?_⟩
    have := hplace (t.ind i) (hv.1 t ht i)
    exact ⟨this.2, this.1⟩
  · apply map_forall2
    intro t ht
    refine ⟨rfl, fun i => ?_⟩
    have := hplace (t.ind i) (hv.2 t ht i)
    exact ⟨this.2, this.1⟩

/-- the hypotheses are met: two nodes at the same coordinate after a third one; the tetrahedron is relabelled -/
example : ∃ (m : Msh ℝ) (perm : List ℕ),
    IsStdSort (lessAlong id m.node) (List.range m.node.length) perm ∧ Valid m ∧ m.tet ≠ [] ∧ m.tri ≠ [] := by
  refine ⟨⟨[3, 1, 1, 2], [⟨![0, 1, 2, 3], 1⟩], [⟨![0, 1, 3], 0⟩], []⟩, [2, 1, 3, 0], ⟨by decide, ?_⟩, ⟨?_, ?_⟩,
    by simp, by simp⟩
  · simp only [List.pairwise_cons, lessAlong]
    refine ⟨?_, ?_, ?_, ?_, List.Pairwise.nil⟩ <;> (simp; try norm_num)
  · intro t ht i
    simp only [List.mem_singleton] at ht
    subst ht
    fin_cases i <;> simp
  · intro t ht i
    simp only [List.mem_singleton] at ht
    subst ht
    fin_cases i <;> simp

end Verif.SortNodes
