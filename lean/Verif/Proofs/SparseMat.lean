import Mathlib.Algebra.BigOperators.Group.Finset.Basic
import Mathlib.Algebra.Ring.Defs
import Mathlib.Tactic.SplitIfs
import Verif.Spec.SparseMat

namespace Verif.SparseMat

variable {α : Type}

/-- class invariant of sparseMat.h:50-55 for the given set of indices -/
structure Row.WF (s : Finset ℕ) (r : Row α) : Prop where
  indices : r.indices = s.sort (· ≤ ·)
  length : r.values.length = s.card

theorem sorted_sort (s : Finset ℕ) : (s.sort (· ≤ ·)).Pairwise (· < ·) := (Finset.sortedLT_sort s).pairwise

theorem lowerBound_mem {l : List ℕ} (hl : l.Pairwise (· < ·)) {j : ℕ} (h : j ∈ l) :
    lowerBound l j < l.length ∧ l[lowerBound l j]? = some j := by
  induction l with
  | nil => cases h
  | cons a l ih =>
    rw [List.pairwise_cons] at hl
    unfold lowerBound at *
    rw [List.findIdx_cons]
    rcases List.mem_cons.mp h with rfl | h'
    · simp
    · have : ¬ j ≤ a := not_le.mpr (hl.1 j h')
      have h2 := ih hl.2 h'
      simp only [this, decide_false, cond_false]
      constructor
      · simpa using h2.1
      · simpa using h2.2

theorem lowerBound_not_mem {l : List ℕ} {j : ℕ} (h : j ∉ l) : l[lowerBound l j]? ≠ some j := by
  intro hc
  exact h (List.mem_of_getElem? hc)

theorem lowerBound_inj {l : List ℕ} (hl : l.Pairwise (· < ·)) {j j' : ℕ} (h : j ∈ l) (h' : j' ∈ l)
    (e : lowerBound l j = lowerBound l j') : j = j' := by
  have h1 := (lowerBound_mem hl h).2
  have h2 := (lowerBound_mem hl h').2
  rw [e, h2] at h1
  exact (Option.some.inj h1).symm

theorem Row.WF.lb_lt {s : Finset ℕ} {r : Row α} (w : r.WF s) {j : ℕ} (h : j ∈ s) :
    lowerBound r.indices j < r.values.length := by
  have := (lowerBound_mem (l := r.indices) (w.indices ▸ sorted_sort s) (by rw [w.indices]; simpa using h)).1
  rw [w.length]
  rw [w.indices, Finset.length_sort] at this
  rw [w.indices]
  exact this

theorem Row.WF.ref_some {s : Finset ℕ} {r : Row α} (w : r.WF s) {j : ℕ} (h : j ∈ s) :
    r.ref j = some (lowerBound r.indices j) := if_pos (w.lb_lt h)

theorem Row.WF.get_some [Zero α] {s : Finset ℕ} {r : Row α} (w : r.WF s) {j : ℕ} (h : j ∈ s) :
    r.get j = r.values[lowerBound r.indices j]? := by
  have := (lowerBound_mem (l := r.indices) (w.indices ▸ sorted_sort s) (by rw [w.indices]; simpa using h)).2
  unfold Row.get
  dsimp only
  rw [if_neg (by simp [this])]

theorem Row.WF.get_zero [Zero α] {s : Finset ℕ} {r : Row α} (w : r.WF s) {j : ℕ} (h : j ∉ s) :
    r.get j = some 0 := by
  unfold Row.get
  dsimp only
  rw [if_pos]
  exact lowerBound_not_mem (by rw [w.indices]; simpa using h)

theorem Row.WF.modify {s : Finset ℕ} {r : Row α} (w : r.WF s) (k : ℕ) (f : α → α) :
    ({ r with values := r.values.modify k f } : Row α).WF s :=
  ⟨w.indices, by simpa using w.length⟩

/-- reading after modifying the entry of `j` -/
theorem Row.WF.get_modify [Zero α] {s : Finset ℕ} {r : Row α} (w : r.WF s) {j : ℕ} (h : j ∈ s) (f : α → α)
    (j' : ℕ) : ({ r with values := r.values.modify (lowerBound r.indices j) f } : Row α).get j' =
      if j' = j then (r.get j').map f else r.get j' := by
  by_cases h' : j' ∈ s
  · rw [(w.modify _ f).get_some h', w.get_some h']
    show (r.values.modify (lowerBound r.indices j) f)[lowerBound r.indices j']? = _
    rw [List.getElem?_modify]
    by_cases e : j' = j
    · subst e; simp
    · have : lowerBound r.indices j ≠ lowerBound r.indices j' := by
        intro hc
        have hs : r.indices.Pairwise (· < ·) := w.indices ▸ sorted_sort s
        exact e (lowerBound_inj hs (by rw [w.indices]; simpa using h) (by rw [w.indices]; simpa using h') hc).symm
      rw [if_neg e]
      simp [this]
  · rw [(w.modify _ f).get_zero h', w.get_zero h', if_neg]
    rintro rfl; exact h' h

/-- the class invariant for all rows -/
def Sp.WF (shape : Shape) (m : Sp α) : Prop :=
  m.rows.length = shape.length ∧ ∀ (i : ℕ) (s : Finset ℕ), shape[i]? = some s → ∃ r : Row α, m.rows[i]? = some r ∧ r.WF s

/-- the matrix holds the table -/
def Sp.Holds [Zero α] (m : Sp α) (shape : Shape) (t : Table α) : Prop :=
  ∀ i j, i < shape.length → m.get i j = some (t i j)

theorem Sp.WF.row {shape : Shape} {m : Sp α} (w : m.WF shape) {i : ℕ} (h : i < shape.length) :
    ∃ (s : Finset ℕ) (r : Row α), shape[i]? = some s ∧ m.rows[i]? = some r ∧ r.WF s := by
  obtain ⟨r, hr, hw⟩ := w.2 i shape[i] (List.getElem?_eq_getElem h)
  exact ⟨shape[i], r, List.getElem?_eq_getElem h, hr, hw⟩

theorem ofShape_wf [Zero α] (shape : Shape) : (ofShape shape : Sp α).WF shape := by
  refine ⟨by simp [ofShape], ?_⟩
  intro i s h
  refine ⟨⟨s.sort (· ≤ ·), List.replicate s.card 0⟩, ?_, rfl, by simp⟩
  simp [ofShape, h]

theorem ofShape_holds [Zero α] (shape : Shape) : (ofShape shape : Sp α).Holds shape (fun _ _ => 0) := by
  intro i j hi
  obtain ⟨s, r, hs, hr, w⟩ := (ofShape_wf (α := α) shape).row hi
  have hr' : r = ⟨s.sort (· ≤ ·), List.replicate s.card 0⟩ := by
    simp [ofShape, hs] at hr
    exact hr.symm
  unfold Sp.get
  rw [hr]
  dsimp only
  by_cases h : j ∈ s
  · rw [w.get_some h]
    have := w.lb_lt h
    rw [List.getElem?_eq_getElem this]
    congr 1
    have : ∀ x ∈ r.values, x = 0 := by
      rw [hr']; intro x hx; exact (List.mem_replicate.mp hx).2
    exact this _ (List.getElem_mem _)
  · exact w.get_zero h

theorem clear_wf [Zero α] {shape : Shape} {m : Sp α} (w : m.WF shape) : m.clear.WF shape := by
  refine ⟨by simpa [Sp.clear] using w.1, ?_⟩
  intro i s h
  obtain ⟨r, hr, hw⟩ := w.2 i s h
  exact ⟨{ r with values := r.values.map fun _ => 0 }, by simp [Sp.clear, hr], hw.indices, by simpa using hw.length⟩

theorem clear_holds [Zero α] {shape : Shape} {m : Sp α} (w : m.WF shape) :
    m.clear.Holds shape (fun _ _ => 0) := by
  intro i j hi
  obtain ⟨s, r, hs, hr, w'⟩ := w.row hi
  have hr' : m.clear.rows[i]? = some { r with values := r.values.map fun _ => 0 } := by
    simp [Sp.clear, hr]
  have wc : ({ r with values := r.values.map fun _ => (0 : α) } : Row α).WF s :=
    ⟨w'.indices, by simpa using w'.length⟩
  unfold Sp.get
  rw [hr']
  dsimp only
  by_cases h : j ∈ s
  · rw [wc.get_some h]
    show (r.values.map fun _ => (0 : α))[_]? = _
    rw [List.getElem?_map, List.getElem?_eq_getElem (w'.lb_lt h)]
    rfl
  · exact wc.get_zero h

theorem modify_spec [Zero α] {shape : Shape} {m : Sp α} (w : m.WF shape) {i j : ℕ} (h : InShape shape i j)
    (f : α → α) : ∃ m', m.modify i j f = some m' ∧ m'.WF shape ∧
      ∀ a b, m'.get a b = if a = i ∧ b = j then (m.get a b).map f else m.get a b := by
  obtain ⟨s, hs, hj⟩ := h
  obtain ⟨r, hr, wr⟩ := w.2 i s hs
  have hi : i < m.rows.length := by
    by_contra hc
    rw [List.getElem?_eq_none (by omega)] at hr; cases hr
  refine ⟨⟨m.rows.set i { r with values := r.values.modify (lowerBound r.indices j) f }⟩, ?_, ?_, ?_⟩
  · unfold Sp.modify
    rw [hr]
    dsimp only
    rw [wr.ref_some hj]
  · refine ⟨by simpa using w.1, ?_⟩
    intro a t ht
    by_cases e : a = i
    · subst e
      rw [hs] at ht
      cases ht
      exact ⟨{ r with values := r.values.modify (lowerBound r.indices j) f }, by simp [hi], wr.modify _ f⟩
    · obtain ⟨r', hr', w'⟩ := w.2 a t ht
      exact ⟨r', by rw [List.getElem?_set]; simp [Ne.symm e, hr'], w'⟩
  · intro a b
    unfold Sp.get
    by_cases e : a = i
    · subst e
      have : (m.rows.set a { r with values := r.values.modify (lowerBound r.indices j) f })[a]? =
          some { r with values := r.values.modify (lowerBound r.indices j) f } := by simp [hi]
      rw [this, hr]
      dsimp only
      rw [wr.get_modify hj]
      simp
    · have : (m.rows.set i { r with values := r.values.modify (lowerBound r.indices j) f })[a]? = m.rows[a]? := by
        rw [List.getElem?_set]; simp [Ne.symm e]
      rw [this]
      simp [e]

theorem exec_spec [Zero α] [Add α] {shape : Shape} {m : Sp α} {t : Table α} (w : m.WF shape)
    (ht : m.Holds shape t) (o : Op α) (ho : o.InShape shape) :
    ∃ m', m.exec o = some m' ∧ m'.WF shape ∧ m'.Holds shape (t.exec o) := by
  cases o with
  | clear => exact ⟨m.clear, rfl, clear_wf w, clear_holds w⟩
  | set i j v =>
    obtain ⟨m', h1, h2, h3⟩ := modify_spec w ho (fun _ => v)
    refine ⟨m', h1, h2, ?_⟩
    intro a b ha
    rw [h3, ht a b ha]
    show _ = some (if a = i ∧ b = j then v else t a b)
    split_ifs <;> rfl
  | add i j v =>
    obtain ⟨m', h1, h2, h3⟩ := modify_spec w ho (fun x => x + v)
    refine ⟨m', h1, h2, ?_⟩
    intro a b ha
    rw [h3, ht a b ha]
    show _ = some (if a = i ∧ b = j then t a b + v else t a b)
    split_ifs <;> rfl

theorem run_spec [Zero α] [Add α] {shape : Shape} (ops : List (Op α)) :
    ∀ {m : Sp α} {t : Table α}, m.WF shape → m.Holds shape t → (∀ o ∈ ops, o.InShape shape) →
    ∃ m', m.run ops = some m' ∧ m'.WF shape ∧ m'.Holds shape (t.run ops) := by
  induction ops with
  | nil => intro m t w h _; exact ⟨m, rfl, w, h⟩
  | cons o ops ih =>
    intro m t w h ho
    obtain ⟨m1, h1, w1, t1⟩ := exec_spec w h o (ho o (by simp))
    obtain ⟨m', h2, w2, t2⟩ := ih w1 t1 (fun o' ho' => ho o' (by simp [ho']))
    refine ⟨m', ?_, w2, t2⟩
    show (m.exec o).bind _ = _
    rw [h1]; exact h2

/-! ## product -/

theorem foldl_add_sum {β : Type} [AddCommMonoid α] (f : β → α) (l : List β) (a : α) :
    l.foldl (fun acc e => acc + f e) a = a + (l.map f).sum := by
  induction l generalizing a with
  | nil => simp
  | cons b l ih => rw [List.foldl_cons, ih]; simp [add_assoc]

theorem zip_map_get [Zero α] {s : Finset ℕ} {r : Row α} (w : r.WF s) :
    r.indices.zip r.values = r.indices.map fun j => (j, (r.get j).getD 0) := by
  apply List.ext_getElem?
  intro k
  have hlen : r.indices.length = r.values.length := by rw [w.indices, w.length]; simp
  have hs : r.indices.Pairwise (· < ·) := w.indices ▸ sorted_sort s
  by_cases hk : k < r.indices.length
  · have hm : r.indices[k] ∈ s := by
      have := List.getElem_mem hk
      have h2 : ∀ x ∈ r.indices, x ∈ s := by rw [w.indices]; simp
      exact h2 _ this
    have hlb : lowerBound r.indices r.indices[k] = k := by
      have h1 := lowerBound_mem hs (List.getElem_mem hk)
      have hnd : r.indices.Nodup := hs.imp (fun h => ne_of_lt h)
      have h2 := h1.2
      rw [List.getElem?_eq_getElem h1.1] at h2
      exact (List.Nodup.getElem_inj_iff hnd).mp (Option.some.inj h2)
    rw [List.getElem?_map, List.getElem?_eq_getElem hk, List.getElem?_eq_getElem (by simp; omega)]
    simp only [List.getElem_zip, Option.map_some]
    congr 2
    rw [w.get_some hm, hlb, List.getElem?_eq_getElem (by omega)]
    rfl
  · rw [List.getElem?_eq_none (by simp; omega), List.getElem?_eq_none (by simp; omega)]

theorem dot_spec [Semiring α] {s : Finset ℕ} {r : Row α} (w : r.WF s) (n : ℕ) (hn : ∀ j ∈ s, j < n) (X : ℕ → α) :
    r.dot X = ∑ j ∈ Finset.range n, (r.get j).getD 0 * X j := by
  unfold Row.dot
  rw [foldl_add_sum (fun e : ℕ × α => e.2 * X e.1), zero_add, zip_map_get w, List.map_map]
  have h1 : (List.map ((fun e : ℕ × α => e.2 * X e.1) ∘ fun j => (j, (r.get j).getD 0)) r.indices).sum =
      ∑ j ∈ s, (r.get j).getD 0 * X j := by
    rw [w.indices]
    have hnd : (s.sort (· ≤ ·)).Nodup := Finset.sort_nodup s (· ≤ ·)
    have := List.sum_toFinset (fun j => (r.get j).getD 0 * X j) hnd
    rw [Finset.sort_toFinset] at this
    exact this.symm
  rw [h1]
  apply Finset.sum_subset
  · intro j hj; exact Finset.mem_range.mpr (hn j hj)
  · intro j _ hj
    rw [w.get_zero hj]
    simp

end Verif.SparseMat
