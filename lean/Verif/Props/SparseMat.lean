import Mathlib.Algebra.Field.Defs
import Verif.Proofs.SparseMat
import Verif.Spec.Krylov

/-!
# C18, C19: the sparse matrix
-/

namespace Verif.SparseMat

variable {α : Type}

/-- **C18**: after any sequence of operations at positions of the shape, the matrix holds what a plain
table would hold (zero outside the shape), its row and column structure is unchanged, and nothing
undefined happened. -/
theorem C18_refines_table [Zero α] [Add α] (shape : Shape) (ops : List (Op α))
    (h : ∀ o ∈ ops, o.InShape shape) :
    ∃ m, (ofShape shape : Sp α).run ops = some m ∧
      (∀ i j, i < shape.length → m.get i j = some (Table.run (fun _ _ => 0) ops i j)) ∧
      m.rows.map (·.indices) = (ofShape shape : Sp α).rows.map (·.indices) := by
  obtain ⟨m, h1, w, h2⟩ := run_spec ops (ofShape_wf shape) (ofShape_holds shape) h
  refine ⟨m, h1, h2, ?_⟩
  apply List.ext_getElem?
  intro i
  rw [List.getElem?_map, List.getElem?_map]
  by_cases hi : i < shape.length
  · obtain ⟨s, r, hs, hr, wr⟩ := w.row hi
    rw [hr]
    simp [ofShape, hs, wr.indices]
  · rw [List.getElem?_eq_none (by rw [w.1]; omega), List.getElem?_eq_none (by simp [ofShape]; omega)]

/-- positions outside the shape read as zero after any admissible sequence -/
theorem C18_zero_outside [Zero α] [Add α] (shape : Shape) (ops : List (Op α))
    (h : ∀ o ∈ ops, o.InShape shape) (m : Sp α) (hm : (ofShape shape : Sp α).run ops = some m)
    (i j : ℕ) (hi : i < shape.length) (hj : ¬ InShape shape i j) : m.get i j = some 0 := by
  obtain ⟨m', h1, w, _⟩ := run_spec ops (ofShape_wf (α := α) shape) (ofShape_holds shape) h
  rw [hm] at h1
  cases h1
  obtain ⟨s, r, hs, hr, wr⟩ := w.row hi
  unfold Sp.get
  rw [hr]
  exact wr.get_zero (fun hc => hj ⟨s, hs, hc⟩)

/-- **C18**: undefined behaviour requires an operation outside the shape. -/
theorem C18_undefined_only_outside [Zero α] [Add α] (shape : Shape) (ops : List (Op α))
    (h : (ofShape shape : Sp α).run ops = none) : ∃ o ∈ ops, ¬ o.InShape shape := by
  by_contra hc
  push Not at hc
  obtain ⟨m, h1, _⟩ := C18_refines_table shape ops hc
  rw [h] at h1
  cases h1

theorem findIdx_congr {p q : ℕ → Bool} (l : List ℕ) (h : ∀ x ∈ l, p x = q x) :
    l.findIdx p = l.findIdx q := by
  induction l with
  | nil => rfl
  | cons a l ih =>
    rw [List.findIdx_cons, List.findIdx_cons, h a (by simp), ih (fun x hx => h x (by simp [hx]))]

/-- **C18**, what the disabled asserts would have caught: writing at a column outside the shape, when the
row has a larger column in the shape, silently modifies the entry of the next column instead. -/
theorem C18_outside_corrupts [Zero α] [Add α] (shape : Shape) (m : Sp α) (w : m.WF shape) (i j : ℕ)
    (s : Finset ℕ) (hs : shape[i]? = some s) (hj : j ∉ s) (k : ℕ) (_hk : k ∈ s) (hjk : j < k)
    (hmin : ∀ l ∈ s, j < l → k ≤ l) (v : α) : m.add i j v = m.add i k v := by
  obtain ⟨r, hr, wr⟩ := w.2 i s hs
  have key : lowerBound r.indices j = lowerBound r.indices k := by
    rw [wr.indices]
    unfold lowerBound
    apply findIdx_congr
    intro x hx
    have hx' : x ∈ s := by simpa using hx
    have : j ≤ x ↔ k ≤ x := by
      constructor
      · intro h
        have : j ≠ x := fun e => hj (e ▸ hx')
        exact hmin x hx' (by omega)
      · intro h; omega
    simp [this]
  unfold Sp.add Sp.modify Row.ref
  rw [hr]
  simp only [key]

/-- a sequence of operations in a 2 × 2 shape -/
example : ∀ o ∈ ([.add 0 1 (3 : ℤ), .set 1 1 4, .clear, .add 0 0 5] : List (Op ℤ)),
    o.InShape [{0, 1}, {1}] := by
  intro o ho
  simp only [List.mem_cons, List.not_mem_nil, or_false] at ho
  rcases ho with rfl | rfl | rfl | rfl
  · exact ⟨{0, 1}, rfl, by simp⟩
  · exact ⟨{1}, rfl, by simp⟩
  · trivial
  · exact ⟨{0, 1}, rfl, by simp⟩

/-- **C19**: the product is the matrix-vector product of the values read at each position. -/
theorem C19_mult [Semiring α] (shape : Shape) (hsq : ∀ s ∈ shape, ∀ j ∈ s, j < shape.length)
    (m : Sp α) (w : m.WF shape) (X : ℕ → α) :
    (m.mult X).length = shape.length ∧
    ∀ i, i < shape.length →
      (m.mult X)[i]? = some (∑ j ∈ Finset.range shape.length, (m.get i j).getD 0 * X j) := by
  refine ⟨by simp [Sp.mult, w.1], ?_⟩
  intro i hi
  obtain ⟨s, r, hs, hr, wr⟩ := w.row hi
  have hget : ∀ j, m.get i j = r.get j := by
    intro j; unfold Sp.get; rw [hr]
  unfold Sp.mult
  rw [List.getElem?_map, hr, Option.map_some]
  simp only [hget]
  rw [dot_spec wr shape.length (hsq s (List.mem_of_getElem? hs))]

/-- **C19**: entry `i` of the diagonal preconditioner is the inverse of the value read at `(i,i)`. -/
theorem C19_diag_precond [DivisionRing α] (shape : Shape) (m : Sp α) (w : m.WF shape) (i : ℕ)
    (hi : i < shape.length) :
    ∃ c, m.get i i = some c ∧ m.diagPrecond[i]? = some (some (1 / c)) := by
  obtain ⟨s, r, hs, hr, wr⟩ := w.row hi
  have hc : ∃ c, m.get i i = some c := by
    unfold Sp.get
    rw [hr]
    dsimp only
    by_cases h : i ∈ s
    · rw [wr.get_some h, List.getElem?_eq_getElem (wr.lb_lt h)]
      exact ⟨_, rfl⟩
    · exact ⟨0, wr.get_zero h⟩
  obtain ⟨c, hc⟩ := hc
  refine ⟨c, hc, ?_⟩
  unfold Sp.diagPrecond
  rw [List.getElem?_map, List.getElem?_range (by rw [w.1]; exact hi)]
  simp [hc]

/-- every matrix reached by admissible operations satisfies the hypotheses of C19 -/
theorem reachable_wf [Zero α] [Add α] (shape : Shape) (ops : List (Op α))
    (h : ∀ o ∈ ops, o.InShape shape) (m : Sp α) (hm : (ofShape shape : Sp α).run ops = some m) :
    m.WF shape := by
  obtain ⟨m', h1, w, _⟩ := run_spec ops (ofShape_wf (α := α) shape) (ofShape_holds shape) h
  rw [hm] at h1
  cases h1
  exact w

example : (ofShape [{0, 1}, {1}] : Sp ℤ).WF [{0, 1}, {1}] ∧
    ∀ s ∈ ([{0, 1}, {1}] : Shape), ∀ j ∈ s, j < 2 := by
  refine ⟨ofShape_wf _, ?_⟩
  decide

/-! ## the matrices of the Krylov solvers -/

/-- the rows of a sparse matrix as used by the solvers of `Model/Krylov.lean` -/
def toMat (n : ℕ) (m : Sp Fl) : Krylov.Mat n := fun i =>
  match m.rows[(i : ℕ)]? with
  | none => []
  | some r => (r.indices.zip r.values).filterMap fun e =>
      if h : e.1 < n then some (⟨e.1, h⟩, e.2) else none

/-- a sparse matrix with finite values represents the real matrix of its entries, and stores its
diagonal when the diagonal is in the shape: the hypotheses of C12 and C16 are those of any assembled
matrix -/
theorem toMat_represents (shape : Shape) (m : Sp Fl) (w : m.WF shape) (M : Matrix (Fin shape.length) (Fin shape.length) ℝ)
    (hM : ∀ i j : Fin shape.length, m.get i j = some (.fin (M i j))) :
    Krylov.Represents (toMat shape.length m) M ∧
    ((∀ i : Fin shape.length, InShape shape i i) → Krylov.DiagStored (toMat shape.length m)) := by
  have key : ∀ i : Fin shape.length, ∃ (s : Finset ℕ) (r : Row Fl), shape[(i : ℕ)]? = some s ∧
      m.rows[(i : ℕ)]? = some r ∧ r.WF s ∧
      toMat shape.length m i = r.indices.filterMap fun j =>
        if h : j < shape.length then some (⟨j, h⟩, (r.get j).getD 0) else none := by
    intro i
    obtain ⟨s, r, hs, hr, wr⟩ := w.row i.2
    refine ⟨s, r, hs, hr, wr, ?_⟩
    unfold toMat
    rw [hr]
    dsimp only
    rw [zip_map_get wr, List.filterMap_map]
    rfl
  have mem : ∀ (i j : Fin shape.length) (v : Fl) (s : Finset ℕ) (r : Row Fl), m.rows[(i : ℕ)]? = some r → r.WF s →
      ((j, v) ∈ (r.indices.filterMap fun j => if h : j < shape.length then
        some ((⟨j, h⟩ : Fin shape.length), (r.get j).getD 0) else none) ↔ (j : ℕ) ∈ s ∧ v = (r.get j).getD 0) := by
    intro i j v s r hr wr
    rw [List.mem_filterMap]
    constructor
    · rintro ⟨a, ha, h⟩
      split_ifs at h with hlt
      simp only [Option.some.injEq, Prod.mk.injEq] at h
      obtain ⟨rfl, rfl⟩ := h
      refine ⟨?_, rfl⟩
      rw [wr.indices] at ha
      simpa using ha
    · rintro ⟨hj, rfl⟩
      exact ⟨j, by rw [wr.indices]; simpa using hj, by simp⟩
  have fst : ∀ (r : Row Fl), ((r.indices.filterMap fun j => if h : j < shape.length then
        some ((⟨j, h⟩ : Fin shape.length), (r.get j).getD 0) else none).map Prod.fst) =
      r.indices.filterMap fun j => if h : j < shape.length then some (⟨j, h⟩ : Fin shape.length) else none := by
    intro r
    rw [List.map_filterMap]
    apply List.filterMap_congr
    intro x _
    split_ifs <;> rfl
  refine ⟨⟨?_, ?_, ?_⟩, ?_⟩
  · intro i
    obtain ⟨s, r, hs, hr, wr, e⟩ := key i
    rw [e, fst]
    apply List.Nodup.filterMap
    · intro a a' b hb hb'
      simp only [Option.mem_def] at hb hb'
      split_ifs at hb hb'
      simp only [Option.some.injEq] at hb hb'
      rw [← hb'] at hb
      exact Fin.mk.inj hb
    · rw [wr.indices]; exact Finset.sort_nodup s (· ≤ ·)
  · intro i j v h
    obtain ⟨s, r, hs, hr, wr, e⟩ := key i
    rw [e, mem i j v s r hr wr] at h
    have := hM i j
    unfold Sp.get at this
    rw [hr] at this
    dsimp only at this
    rw [h.2, this]
    rfl
  · intro i j h
    obtain ⟨s, r, hs, hr, wr, e⟩ := key i
    rw [e] at h
    have hj : (j : ℕ) ∉ s := by
      intro hc
      apply h
      exact List.mem_map.mpr ⟨(j, (r.get j).getD 0), (mem i j _ s r hr wr).mpr ⟨hc, rfl⟩, rfl⟩
    have := hM i j
    unfold Sp.get at this
    rw [hr] at this
    dsimp only at this
    rw [wr.get_zero hj] at this
    exact (Fl.fin.inj (Option.some.inj this)).symm
  · intro hd i
    obtain ⟨s, r, hs, hr, wr, e⟩ := key i
    obtain ⟨s', hs', hi⟩ := hd i
    rw [hs] at hs'
    cases hs'
    rw [e]
    exact List.mem_map.mpr ⟨(i, (r.get i).getD 0), (mem i i _ s r hr wr).mpr ⟨hi, rfl⟩, rfl⟩

end Verif.SparseMat
