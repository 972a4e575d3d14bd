import Verif.Spec.MeshRead

/-! Lemmas on the reading of a mesh. -/

namespace Verif.MeshRead

open Verif.Mesh Verif.Text

variable {α β : Type}

theorem mapM_ok (f : α → Except Bad β) (l : List α) (r : List β) :
    l.mapM f = .ok r ↔ List.Forall₂ (fun a b => f a = .ok b) l r := by
  induction l generalizing r with
  | nil =>
    constructor
    · intro h
      cases h
      exact .nil
    · intro h
      cases h
      rfl
  | cons a l ih =>
    rw [List.mapM_cons]
    constructor
    · intro h
      cases ha : f a with
      | error e => rw [ha] at h; cases h
      | ok b =>
        cases hl : l.mapM f with
        | error e => rw [ha, hl] at h; cases h
        | ok s =>
          rw [ha, hl] at h
          cases h
          exact .cons ha ((ih s).mp hl)
    · intro h
      cases h with
      | cons h1 h2 =>
        rw [h1, (ih _).mpr h2]
        rfl

theorem mapM_isOk (f : α → Except Bad β) (l : List α) : (∃ r, l.mapM f = .ok r) ↔ ∀ a ∈ l, ∃ b, f a = .ok b := by
  constructor
  · rintro ⟨r, h⟩ a ha
    have := (mapM_ok f l r).mp h
    clear h
    induction this with
    | nil => cases ha
    | cons h1 _ ih =>
      cases ha with
      | head => exact ⟨_, h1⟩
      | tail _ h => exact ih h
  · intro h
    induction l with
    | nil => exact ⟨[], rfl⟩
    | cons a l ih =>
      obtain ⟨b, hb⟩ := h a (by simp)
      obtain ⟨r, hr⟩ := ih fun x hx => h x (by simp [hx])
      exact ⟨b :: r, (mapM_ok f _ _).mpr (.cons hb ((mapM_ok f l r).mp hr))⟩

theorem bind_ok {x : Except Bad α} {f : α → Except Bad β} {b : β} :
    (x >>= f) = .ok b ↔ ∃ a, x = .ok a ∧ f a = .ok b := by
  cases x with
  | error e =>
    constructor
    · intro h
      cases h
    · rintro ⟨a, h, -⟩
      cases h
  | ok a =>
    constructor
    · intro h
      exact ⟨a, rfl, h⟩
    · rintro ⟨a', h, h'⟩
      cases h
      exact h'

/-! ## nodes -/

theorem readNode_ok (scale : ℝ) (st r : List (Option V3)) (n : ℕ × V3) :
    readNode scale st n = .ok r ↔ (1 ≤ n.1 ∧ n.1 ≤ st.length) ∧ r = st.set (n.1 - 1) (some (scale * n.2)) := by
  unfold readNode
  split_ifs with h
  · constructor
    · intro h'
      cases h'
    · rintro ⟨⟨h1, h2⟩, -⟩
      omega
  · constructor
    · intro h'
      cases h'
      exact ⟨by omega, rfl⟩
    · rintro ⟨-, rfl⟩
      rfl

theorem readNodes_fold (scale : ℝ) (nodes : List (ℕ × V3)) (st r : List (Option V3))
    (h : nodes.foldlM (readNode scale) st = .ok r) :
    r.length = st.length ∧ (∀ n ∈ nodes, 1 ≤ n.1 ∧ n.1 ≤ st.length) ∧
    (∀ j, (∀ n ∈ nodes, n.1 ≠ j + 1) → r[j]? = st[j]?) ∧
    ((nodes.map (·.1)).Nodup → ∀ n ∈ nodes, r[n.1 - 1]? = some (some (scale * n.2))) := by
  induction nodes generalizing st with
  | nil =>
    cases h
    exact ⟨rfl, by simp, fun _ _ => rfl, by simp⟩
  | cons n nodes ih =>
    rw [List.foldlM_cons, bind_ok] at h
    obtain ⟨st', h1, h2⟩ := h
    obtain ⟨hr, rfl⟩ := (readNode_ok scale st st' n).mp h1
    obtain ⟨i1, i2, i3, i4⟩ := ih _ h2
    rw [List.length_set] at i1 i2
    refine ⟨i1, ?_, ?_, ?_⟩
    · intro m hm
      rcases List.mem_cons.mp hm with rfl | hm
      · exact hr
      · exact i2 m hm
    · intro j hj
      rw [i3 j fun m hm => hj m (by simp [hm]), List.getElem?_set_ne]
      have := hj n (by simp)
      omega
    · intro hd m hm
      rw [List.map_cons, List.nodup_cons] at hd
      rcases List.mem_cons.mp hm with rfl | hm
      · rw [i3, List.getElem?_set_self (by omega)]
        intro q hq he
        apply hd.1
        have : m.1 = q.1 := by omega
        rw [this]
        exact List.mem_map.mpr ⟨q, hq, rfl⟩
      · exact i4 hd.2 m hm

theorem readNodes_isOk (scale : ℝ) (nodes : List (ℕ × V3)) (st : List (Option V3)) (n0 : ℕ) (hl : st.length = n0) :
    (∃ r, nodes.foldlM (readNode scale) st = .ok r) ↔ ∀ n ∈ nodes, 1 ≤ n.1 ∧ n.1 ≤ n0 := by
  constructor
  · rintro ⟨r, h⟩
    rw [← hl]
    exact (readNodes_fold scale nodes st r h).2.1
  · intro h
    induction nodes generalizing st with
    | nil => exact ⟨st, rfl⟩
    | cons n nodes ih =>
      obtain ⟨r, hr⟩ := ih (st.set (n.1 - 1) (some (scale * n.2))) (by rw [List.length_set, hl])
        fun m hm => h m (by simp [hm])
      refine ⟨r, ?_⟩
      rw [List.foldlM_cons, bind_ok]
      exact ⟨_, (readNode_ok scale st _ n).mpr ⟨by rw [hl]; exact h n (by simp), rfl⟩, hr⟩

/-! ## elements -/

theorem elemsOf_nil (n : ℕ) : elemsOf n [] = [] := by simp [elemsOf]

theorem elemsOf_add (n : ℕ) (hn : 0 < n) (pre l : List ℕ) (hp : pre.length = n) :
    elemsOf n (pre ++ l) = (fun k : Fin n => pre.getD k 0) :: elemsOf n l := by
  unfold elemsOf
  have hl : (pre ++ l).length / n = l.length / n + 1 := by
    rw [List.length_append, hp, Nat.add_comm, Nat.add_div_right _ hn]
  rw [hl, List.range_succ_eq_map, List.map_cons, List.map_map]
  congr 1
  · funext k
    have : (k : ℕ) < pre.length := by rw [hp]; exact k.2
    simp only [List.getD_eq_getElem?_getD, Nat.mul_zero, Nat.zero_add]
    rw [List.getElem?_append_left this]
  · apply List.map_congr_left
    intro i _
    funext k
    simp only [Function.comp_apply, List.getD_eq_getElem?_getD]
    rw [List.getElem?_append_right (by rw [hp, Nat.mul_succ]; omega)]
    congr 2
    rw [hp, Nat.mul_succ]
    omega

theorem chunk4_ok (l : List ℕ) (h : 4 ∣ l.length) : chunk4 l = .ok (elemsOf 4 l) := by
  induction l using chunk4.induct with
  | case1 => rw [elemsOf_nil]; rfl
  | case2 a b c d l ih =>
    have h' : 4 ∣ l.length := by
      simp only [List.length_cons] at h
      omega
    unfold chunk4
    rw [ih h', show a :: b :: c :: d :: l = [a, b, c, d] ++ l from rfl, elemsOf_add 4 (by norm_num) _ _ rfl]
    simp only [Except.map]
    congr 2
    funext k
    fin_cases k <;> rfl
  | case3 l h1 h2 =>
    exfalso
    match l, h1, h2 with
    | [], h1, _ => exact h1 rfl
    | [a], _, _ => simp at h
    | [a, b], _, _ => simp at h
    | [a, b, c], _, _ => simp at h
    | a :: b :: c :: d :: l, _, h2 => exact h2 a b c d l rfl

theorem chunk3_ok (l : List ℕ) (h : 3 ∣ l.length) : chunk3 l = .ok (elemsOf 3 l) := by
  induction l using chunk3.induct with
  | case1 => rw [elemsOf_nil]; rfl
  | case2 a b c l ih =>
    have h' : 3 ∣ l.length := by
      simp only [List.length_cons] at h
      omega
    unfold chunk3
    rw [ih h', show a :: b :: c :: l = [a, b, c] ++ l from rfl, elemsOf_add 3 (by norm_num) _ _ rfl]
    simp only [Except.map]
    congr 2
    funext k
    fin_cases k <;> rfl
  | case3 l h1 h2 =>
    exfalso
    match l, h1, h2 with
    | [], h1, _ => exact h1 rfl
    | [a], _, _ => simp at h
    | [a, b], _, _ => simp at h
    | a :: b :: c :: l, _, h2 => exact h2 a b c l rfl

theorem mem_elemsOf {n : ℕ} {tags : List ℕ} {t : Fin n → ℕ} (h : t ∈ elemsOf n tags) (k : Fin n) : t k ∈ tags := by
  obtain ⟨i, hi, rfl⟩ := List.mem_map.mp h
  rw [List.mem_range] at hi
  have : n * i + k < tags.length := by
    have h1 : n * (i + 1) ≤ n * (tags.length / n) := Nat.mul_le_mul_left n hi
    have h2 := Nat.mul_div_le tags.length n
    have h3 := k.2
    rw [Nat.mul_succ] at h1
    omega
  simp [List.getD_eq_getElem?_getD, this]

theorem firstBlock_ok (typ : ℕ) (blocks : List Block) (hd : (blocks.map (·.typ)).Nodup) (l : List ℕ) :
    firstBlock typ blocks = .ok l ↔ ∃ b, blocks = [b] ∧ b.typ = typ ∧ b.tags = l := by
  unfold firstBlock
  split_ifs with h
  · rw [List.all_eq_true] at h
    match blocks, hd, h with
    | [], _, _ => simp
    | [b], _, h =>
      have := h b (by simp)
      simp only [beq_iff_eq] at this
      constructor
      · intro h'
        cases h'
        exact ⟨b, rfl, this, rfl⟩
      · rintro ⟨b', e, -, rfl⟩
        cases e
        rfl
    | b :: c :: r, hd, h =>
      have h1 := h b (by simp)
      have h2 := h c (by simp)
      simp only [beq_iff_eq] at h1 h2
      simp [h1, h2] at hd
  · constructor
    · intro h'
      cases h'
    · rintro ⟨b, rfl, rfl, -⟩
      simp at h

theorem names_findIdx (regs : List Str) (g : Str) (h : g ∈ regs) : Names regs (regs.findIdx (· == g)) g := by
  have hlt : regs.findIdx (· == g) < regs.length := List.findIdx_lt_length_of_exists ⟨g, h, by simp⟩
  constructor
  · rw [List.getElem?_eq_getElem hlt]
    have := List.findIdx_getElem (p := (· == g)) (w := hlt)
    simp only [beq_iff_eq] at this
    rw [this]
  · intro q hq he
    have := List.not_of_lt_findIdx hq
    rw [List.getElem?_eq_getElem (by omega)] at he
    simp only [Option.some.injEq] at he
    simp [he] at this

end Verif.MeshRead
