import Verif.Props.Mesh
import Verif.Proofs.SparseMat
import Verif.Spec.SparseMat
import Verif.Spec.Assembly

/-!
# Lemmas on the shape and the assembled sums
-/

namespace Verif.Assembly

open Verif.Mesh Verif.SparseMat

variable {α : Type}

theorem insertAt_length (s : Shape) (r c : ℕ) : (insertAt s r c).length = s.length := by simp [insertAt]

theorem insertAt_in (s : Shape) (r c a b : ℕ) :
    InShape (insertAt s r c) a b ↔ InShape s a b ∨ (a = r ∧ b = c ∧ r < s.length) := by
  unfold InShape insertAt
  simp only [List.getElem?_modify]
  by_cases h : a = r
  · subst h
    by_cases hl : a < s.length
    · rw [List.getElem?_eq_getElem hl]
      simp [hl, or_comm]
    · rw [List.getElem?_eq_none (by omega)]
      simp [hl]
  · simp [h, Ne.symm h]

theorem foldl_in {β : Type} (a b n : ℕ) (f : Shape → β → Shape) (Q : β → Prop)
    (hlen : ∀ s x, (f s x).length = s.length)
    (hQ : ∀ s x, s.length = n → (InShape (f s x) a b ↔ InShape s a b ∨ Q x)) (l : List β) :
    ∀ s : Shape, s.length = n → ((l.foldl f s).length = n ∧
      (InShape (l.foldl f s) a b ↔ InShape s a b ∨ ∃ x ∈ l, Q x)) := by
  induction l with
  | nil => intro s hs; simp [hs]
  | cons x l ih =>
    intro s hs
    rw [List.foldl_cons]
    obtain ⟨h1, h2⟩ := ih (f s x) (by rw [hlen, hs])
    refine ⟨h1, ?_⟩
    rw [h2, hQ s x hs]
    simp [or_assoc]

theorem foldl_length {β : Type} (f : Shape → β → Shape) (hlen : ∀ s x, (f s x).length = s.length) (l : List β) :
    ∀ s : Shape, (l.foldl f s).length = s.length := by
  induction l with
  | nil => intro s; rfl
  | cons x l ih => intro s; rw [List.foldl_cons, ih, hlen]

theorem addBlock_length (D : ℕ) (s : Shape) (i j : ℕ) : (addBlock D s i j).length = s.length :=
  foldl_length _ (fun s _ => foldl_length _ (fun s _ => insertAt_length s _ _) _ s) _ s

theorem addBlock_in (D : ℕ) (s : Shape) (i j a b : ℕ) (hi : D * i + D ≤ s.length) :
    InShape (addBlock D s i j) a b ↔
      InShape s a b ∨ ∃ k < D, ∃ l < D, a = D * i + k ∧ b = D * j + l := by
  have h := (foldl_in a b s.length
    (fun s k => (List.range D).foldl (fun s l => insertAt s (D * i + k) (D * j + l)) s)
    (fun k => ∃ l < D, a = D * i + k ∧ b = D * j + l ∧ D * i + k < s.length)
    (fun s k => foldl_length _ (fun s _ => insertAt_length s _ _) _ s)
    (by
      intro s' k hs'
      have := (foldl_in a b s.length (fun s l => insertAt s (D * i + k) (D * j + l))
        (fun l => a = D * i + k ∧ b = D * j + l ∧ D * i + k < s.length)
        (fun s _ => insertAt_length s _ _)
        (by intro s'' l hs''; rw [insertAt_in, hs'']) (List.range D) s' hs').2
      rw [this]
      simp) (List.range D) s rfl).2
  unfold addBlock
  rw [h]
  simp only [List.mem_range]
  constructor
  · rintro (h | ⟨k, hk, l, hl, e1, e2, _⟩)
    · exact Or.inl h
    · exact Or.inr ⟨k, hk, l, hl, e1, e2⟩
  · rintro (h | ⟨k, hk, l, hl, e1, e2⟩)
    · exact Or.inl h
    · exact Or.inr ⟨k, hk, l, hl, e1, e2, by omega⟩

theorem block_le {D i nod : ℕ} (h : i < nod) : D * i + D ≤ D * nod := by
  calc D * i + D = D * (i + 1) := (Nat.mul_succ D i).symm
    _ ≤ D * nod := Nat.mul_le_mul_left D h

/-- positions of the shape -/
theorem buildShape_in (D nod : ℕ) (es : List (ℕ × ℕ)) (filter : ℕ × ℕ → Bool)
    (he : ∀ e ∈ es, e.1 < nod ∧ e.2 < nod) (a b : ℕ) :
    (buildShape D nod es filter).length = D * nod ∧
    (InShape (buildShape D nod es filter) a b ↔
      ∃ i j, i < nod ∧ (i = j ∨ ((i, j) ∈ es ∧ filter (i, j) = true) ∨ ((j, i) ∈ es ∧ filter (j, i) = true)) ∧
        ∃ k < D, ∃ l < D, a = D * i + k ∧ b = D * j + l) := by
  have h1 := foldl_in a b (D * nod) (fun s (x : Fin nod) => addBlock D s x x)
    (fun x => ∃ k < D, ∃ l < D, a = D * x + k ∧ b = D * x + l)
    (fun s x => addBlock_length D s x x)
    (by intro s x hs; exact addBlock_in D s x x a b (by rw [hs]; exact block_le x.2))
    (List.finRange nod) (List.replicate (D * nod) ∅) (by simp)
  have e1 : (List.finRange nod).foldl (fun s (x : Fin nod) => addBlock D s x x) (List.replicate (D * nod) ∅) =
      (List.range nod).foldl (fun s i => addBlock D s i i) (List.replicate (D * nod) ∅) := by
    rw [← List.map_coe_finRange_eq_range, List.foldl_map]
  rw [e1] at h1
  -- edges
  have key : ∀ (l : List (ℕ × ℕ)), (∀ e ∈ l, e.1 < nod ∧ e.2 < nod) → ∀ s : Shape, s.length = D * nod →
      (l.foldl (fun s e => if filter e then addBlock D (addBlock D s e.1 e.2) e.2 e.1 else s) s).length = D * nod ∧
      (InShape (l.foldl (fun s e => if filter e then addBlock D (addBlock D s e.1 e.2) e.2 e.1 else s) s) a b ↔
        InShape s a b ∨ ∃ e ∈ l, filter e = true ∧ ∃ k < D, ∃ m < D,
          (a = D * e.1 + k ∧ b = D * e.2 + m) ∨ (a = D * e.2 + k ∧ b = D * e.1 + m)) := by
    intro l
    induction l with
    | nil => intro _ s hs; simp [hs]
    | cons e l ih =>
      intro hl s hs
      rw [List.foldl_cons]
      have he1 := hl e (by simp)
      by_cases hf : filter e = true
      · rw [if_pos hf]
        obtain ⟨i1, i2⟩ := ih (fun e he => hl e (by simp [he])) (addBlock D (addBlock D s e.1 e.2) e.2 e.1)
          (by rw [addBlock_length, addBlock_length, hs])
        refine ⟨i1, ?_⟩
        rw [i2, addBlock_in _ _ _ _ _ _ (by rw [addBlock_length, hs]; exact block_le he1.2),
          addBlock_in _ _ _ _ _ _ (by rw [hs]; exact block_le he1.1)]
        simp only [List.mem_cons, exists_eq_or_imp, hf, true_and]
        constructor
        · rintro (((h | ⟨k, hk, m, hm, h⟩) | ⟨k, hk, m, hm, h⟩) | h)
          · exact Or.inl h
          · exact Or.inr (Or.inl ⟨k, hk, m, hm, Or.inl h⟩)
          · exact Or.inr (Or.inl ⟨k, hk, m, hm, Or.inr h⟩)
          · exact Or.inr (Or.inr h)
        · rintro (h | ⟨k, hk, m, hm, h | h⟩ | h)
          · exact Or.inl (Or.inl (Or.inl h))
          · exact Or.inl (Or.inl (Or.inr ⟨k, hk, m, hm, h⟩))
          · exact Or.inl (Or.inr ⟨k, hk, m, hm, h⟩)
          · exact Or.inr h
      · rw [if_neg hf]
        obtain ⟨i1, i2⟩ := ih (fun e he => hl e (by simp [he])) s hs
        refine ⟨i1, ?_⟩
        rw [i2]
        simp [hf]
  obtain ⟨k1, k2⟩ := key es he _ h1.1
  refine ⟨k1, ?_⟩
  unfold buildShape
  dsimp only
  rw [k2, h1.2]
  have h0 : ¬ InShape (List.replicate (D * nod) (∅ : Finset ℕ)) a b := by
    rintro ⟨s, hs, hb⟩
    have := List.mem_of_getElem? hs
    rw [List.eq_of_mem_replicate this] at hb
    simp at hb
  constructor
  · rintro ((h | ⟨x, _, k, hk, l, hl, e1, e2⟩) | ⟨⟨p, q⟩, hpq, hf, k, hk, m, hm, ⟨e1, e2⟩ | ⟨e1, e2⟩⟩)
    · exact absurd h h0
    · exact ⟨x, x, x.2, Or.inl rfl, k, hk, l, hl, e1, e2⟩
    · exact ⟨p, q, (he _ hpq).1, Or.inr (Or.inl ⟨hpq, hf⟩), k, hk, m, hm, e1, e2⟩
    · exact ⟨q, p, (he _ hpq).2, Or.inr (Or.inr ⟨hpq, hf⟩), k, hk, m, hm, e1, e2⟩
  · rintro ⟨i, j, hi, h | ⟨h, hf⟩ | ⟨h, hf⟩, k, hk, l, hl, e1, e2⟩
    · subst h
      exact Or.inl (Or.inr ⟨⟨i, hi⟩, List.mem_finRange _, k, hk, l, hl, e1, e2⟩)
    · exact Or.inr ⟨_, h, hf, k, hk, l, hl, Or.inl ⟨e1, e2⟩⟩
    · exact Or.inr ⟨_, h, hf, k, hk, l, hl, Or.inr ⟨e1, e2⟩⟩

theorem edges_lt {nod : ℕ} {tets : List Tet} (hv : IndicesValid nod tets) (e : ℕ × ℕ) (he : e ∈ edges tets) :
    e.1 < nod ∧ e.2 < nod := by
  obtain ⟨_, t, ht, i, j, _, e1, e2⟩ := ((C30_edges tets).1 e.1 e.2).mp he
  exact ⟨e1 ▸ hv t ht i, e2 ▸ hv t ht j⟩

theorem mem_buildMat {D N : ℕ} (e : Elem N α) (o : Op α) :
    o ∈ buildMat D e ↔ ∃ ie je : Fin N, ∃ di < D, ∃ dj < D,
      o = Op.add (D * e.ind ie + di) (D * e.ind je + dj) (e.Ke (di * N + ie) (dj * N + je)) := by
  simp only [buildMat, List.mem_flatMap, List.mem_finRange, true_and, List.mem_map, List.mem_range]
  constructor
  · rintro ⟨ie, je, di, hdi, dj, hdj, rfl⟩; exact ⟨ie, je, di, hdi, dj, hdj, rfl⟩
  · rintro ⟨ie, je, di, hdi, dj, hdj, rfl⟩; exact ⟨ie, je, di, hdi, dj, hdj, rfl⟩

/-- writes of one element are in the shape as soon as its edges pass the filter -/
theorem buildMat_inShape {D nod : ℕ} {tets : List Tet} (hv : IndicesValid nod tets) (filter : ℕ × ℕ → Bool)
    (t : Tet) (ht : t ∈ tets) (hf : ∀ i j, filter (t.ind i, t.ind j) = true) (e : Elem 4 α) (he : e.ind = t.ind) :
    ∀ o ∈ buildMat D e, o.InShape (buildShape D nod (edges tets) filter) := by
  intro o ho
  obtain ⟨ie, je, di, hdi, dj, hdj, rfl⟩ := (mem_buildMat e o).mp ho
  show InShape _ _ _
  rw [(buildShape_in D nod (edges tets) filter (edges_lt hv) _ _).2, he]
  refine ⟨t.ind ie, t.ind je, hv t ht ie, ?_, di, hdi, dj, hdj, rfl, rfl⟩
  by_cases hij : ie = je
  · left; rw [hij]
  · right
    rcases Nat.le_total (t.ind ie) (t.ind je) with h | h
    · exact Or.inl ⟨((C30_edges tets).1 _ _).mpr ⟨h, t, ht, ie, je, hij, rfl, rfl⟩, hf ie je⟩
    · exact Or.inr ⟨((C30_edges tets).1 _ _).mpr ⟨h, t, ht, je, ie, Ne.symm hij, rfl, rfl⟩, hf je ie⟩

theorem mem_lvd (magN : List Bool) (nod r : ℕ) :
    r ∈ lvd magN nod ↔ r / 2 < nod ∧ magN.getD (r / 2) false = false := by
  unfold lvd
  simp only [List.mem_flatMap, List.mem_range]
  constructor
  · rintro ⟨i, hi, h⟩
    by_cases hm : magN.getD i false = true
    · simp only [hm, Bool.not_true] at h; simp at h
    · simp only [Bool.not_eq_true] at hm
      simp only [hm, Bool.not_false, if_true, List.mem_cons, List.not_mem_nil, or_false] at h
      have : r / 2 = i := by omega
      rw [this]; exact ⟨hi, hm⟩
  · rintro ⟨h1, h2⟩
    refine ⟨r / 2, h1, ?_⟩
    simp only [h2, Bool.not_false, if_true, List.mem_cons, List.not_mem_nil, or_false]
    omega

/-! ## sums -/

/-- value contributed by an operation at a position (only used for `add`) -/
def opVal [Zero α] (a b : ℕ) : Op α → α
  | .add i j v => if a = i ∧ b = j then v else 0
  | _ => 0

/-- all operations are additions -/
def AllAdd (ops : List (Op α)) : Prop := ∀ o ∈ ops, ∃ i j v, o = Op.add i j v

theorem run_adds [AddCommMonoid α] (ops : List (Op α)) (h : AllAdd ops) (t : Table α) (a b : ℕ) :
    Table.run t ops a b = t a b + (ops.map (opVal a b)).sum := by
  induction ops generalizing t with
  | nil => simp [Table.run]
  | cons o ops ih =>
    show Table.run (t.exec o) ops a b = _
    rw [ih (fun o ho => h o (by simp [ho]))]
    obtain ⟨i, j, v, rfl⟩ := h o (by simp)
    simp only [Table.exec, opVal, List.map_cons, List.sum_cons]
    split_ifs <;> simp [add_assoc]

theorem allAdd_flatMap {D N : ℕ} (order : List (Elem N α)) : AllAdd (order.flatMap (buildMat D)) := by
  intro o ho
  obtain ⟨e, _, ho⟩ := List.mem_flatMap.mp ho
  obtain ⟨ie, je, di, _, dj, _, rfl⟩ := (mem_buildMat e o).mp ho
  exact ⟨_, _, _, rfl⟩

theorem sum_map_flatMap {β γ : Type} [AddCommMonoid α] (l : List β) (f : β → List γ) (g : γ → α) :
    ((l.flatMap f).map g).sum = (l.map fun x => ((f x).map g).sum).sum := by
  induction l with
  | nil => rfl
  | cons x l ih => simp [ih]

theorem sum_finRange [AddCommMonoid α] {N : ℕ} (f : Fin N → α) : ((List.finRange N).map f).sum = ∑ i, f i := by
  rw [← List.ofFn_eq_map, List.sum_ofFn]

theorem sum_range_list [AddCommMonoid α] (D : ℕ) (f : ℕ → α) :
    ((List.range D).map f).sum = ∑ i ∈ Finset.range D, f i := by
  rw [Finset.sum_range, ← List.sum_ofFn, ← List.map_coe_finRange_eq_range, List.map_map, List.ofFn_eq_map]
  rfl

theorem buildMat_sum [AddCommMonoid α] (D : ℕ) {N : ℕ} (e : Elem N α) (a b : ℕ) :
    ((buildMat D e).map (opVal a b)).sum = e.contribution D a b := by
  unfold buildMat Elem.contribution
  rw [sum_map_flatMap, sum_finRange]
  refine Finset.sum_congr rfl fun ie _ => ?_
  rw [sum_map_flatMap, sum_finRange]
  refine Finset.sum_congr rfl fun je _ => ?_
  rw [sum_map_flatMap, sum_range_list]
  refine Finset.sum_congr rfl fun di _ => ?_
  rw [List.map_map, sum_range_list]
  refine Finset.sum_congr rfl fun dj _ => ?_
  simp only [Function.comp, opVal, eq_comm]

theorem run_append [Zero α] [Add α] (t : Table α) (l1 l2 : List (Op α)) :
    Table.run t (l1 ++ l2) = Table.run (Table.run t l1) l2 := by
  simp [Table.run, List.foldl_append]

theorem run_sets [Zero α] [Add α] [One α] (ks : List ℕ) (t : Table α) (a b : ℕ) :
    Table.run t (ks.map fun i => Op.set i i (1 : α)) a b = if a = b ∧ a ∈ ks then 1 else t a b := by
  induction ks generalizing t with
  | nil => simp [Table.run]
  | cons k ks ih =>
    show Table.run (t.exec _) (ks.map _) a b = _
    rw [ih]
    simp only [Table.exec, List.mem_cons]
    by_cases hab : a = b
    · subst hab
      by_cases h1 : a ∈ ks <;> by_cases h2 : a = k <;> simp [h1, h2]
    · have : ¬ (a = k ∧ b = k) := by rintro ⟨rfl, rfl⟩; exact hab rfl
      simp [hab, this]

/-! ## right hand side -/

theorem runVect_spec [AddCommMonoid α] (l : List (ℕ × α)) :
    ∀ v : List α, (∀ p ∈ l, p.1 < v.length) →
      ∃ w, runVect v l = some w ∧ w.length = v.length ∧
        ∀ r, r < v.length → w.getD r 0 = v.getD r 0 + (l.map fun p => if p.1 = r then p.2 else 0).sum := by
  induction l with
  | nil => intro v _; exact ⟨v, rfl, rfl, fun r _ => by simp⟩
  | cons p l ih =>
    obtain ⟨k, x⟩ := p
    intro v hv
    have hk : k < v.length := hv (k, x) (by simp)
    obtain ⟨w, h1, h2, h3⟩ := ih (v.modify k (· + x)) (by
      intro p hp; rw [List.length_modify]; exact hv p (by simp [hp]))
    refine ⟨w, ?_, by rw [h2, List.length_modify], ?_⟩
    · unfold runVect vecAdd
      rw [if_pos hk]
      exact h1
    · intro r hr
      rw [h3 r (by rw [List.length_modify]; exact hr)]
      simp only [List.getD_eq_getElem?_getD, List.getElem?_modify, List.map_cons, List.sum_cons]
      rw [List.getElem?_eq_getElem hr]
      by_cases e : k = r
      · simp [e, add_assoc]
      · simp [e]

theorem buildVect_sum [AddCommMonoid α] (D : ℕ) {N : ℕ} (e : Elem N α) (r : ℕ) :
    ((buildVectCalls D e).map fun p => if p.1 = r then p.2 else 0).sum = e.rhsContribution D r := by
  unfold buildVectCalls Elem.rhsContribution
  rw [sum_map_flatMap, sum_finRange]
  refine Finset.sum_congr rfl fun ie _ => ?_
  rw [List.map_map, sum_range_list]
  rfl

theorem foldl_set_zero [Zero α] (ks : List ℕ) : ∀ v : List α,
    (ks.foldl (fun v i => v.set i 0) v).length = v.length ∧
    ∀ r, (ks.foldl (fun v i => v.set i 0) v).getD r 0 = if r ∈ ks then 0 else v.getD r 0 := by
  induction ks with
  | nil => intro v; simp
  | cons k ks ih =>
    intro v
    obtain ⟨h1, h2⟩ := ih (v.set k 0)
    rw [List.foldl_cons]
    refine ⟨by rw [h1]; simp, ?_⟩
    intro r
    rw [h2]
    by_cases e1 : r ∈ ks
    · simp [e1]
    · simp only [e1, if_false, List.mem_cons, or_false]
      by_cases e : r = k
      · subst e
        simp only [if_true, List.getD_eq_getElem?_getD, List.getElem?_set]
        by_cases hr : r < v.length <;> simp [hr]
      · simp [e, List.getD_eq_getElem?_getD, Ne.symm e]

end Verif.Assembly
