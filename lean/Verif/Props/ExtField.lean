import Mathlib.Tactic.NormNum
import Mathlib.Tactic.Linarith
import Verif.Model.ExtField

/-!
# C44: space dependent field

The table is filled by rank among the magnetic tetrahedrons and read by rank among all tetrahedrons. This is right
exactly for the meshes where no magnetic tetrahedron comes after a non magnetic one.
-/

namespace Verif.ExtField

variable {T : Type}

/-- what the property demands: every magnetic tetrahedron reads the field at its own integration points, whatever
the field -/
def AppliedWhereEvaluated (mag : T → Bool) (gauss : T → List V3) (tet : List T) : Prop :=
  ∀ (f : V3 → V3) (i : ℕ) (t : T), tet[i]? = some t → mag t = true →
    readField (setExtSpaceField mag gauss f tet) i = some ((gauss t).map f)

/-- no magnetic tetrahedron comes after a non magnetic one -/
def MagneticFirst (mag : T → Bool) (tet : List T) : Prop :=
  ∀ (i j : ℕ) (s t : T), i < j → tet[i]? = some s → tet[j]? = some t → mag t = true → mag s = true

theorem table_eq (mag : T → Bool) (gauss : T → List V3) (f : V3 → V3) (tet : List T) :
    setExtSpaceField mag gauss f tet = (tet.filter mag).map fun t => (gauss t).map f := by
  unfold setExtSpaceField magTet
  rw [List.filterMap_filterMap]
  have key : ∀ (l : List T) (k : ℕ) (tet : List T), (∀ i, l[i]? = tet[k + i]?) →
      (l.zipIdx k).filterMap (fun x => Option.bind (match x with
        | (te, idx) => if mag te = true then some idx else none)
        fun idx => Option.map (fun t => List.map f (gauss t)) tet[idx]?) =
      (l.filter mag).map fun t => (gauss t).map f := by
    intro l
    induction l with
    | nil => intro k tet _; rfl
    | cons a l ih =>
      intro k tet h
      have h0 := h 0
      simp only [List.getElem?_cons_zero, add_zero] at h0
      have hi := ih (k + 1) tet (by
        intro i
        have := h (i + 1)
        rw [List.getElem?_cons_succ] at this
        rw [this]; congr 1; omega)
      rw [List.zipIdx_cons, List.filterMap_cons]
      by_cases hm : mag a = true
      · simp only [hm, if_true, Option.bind_some, ← h0, Option.map_some, List.filter_cons_of_pos]
        rw [hi]; simp
      · simp only [hm, Bool.false_eq_true, if_false, Option.bind_none, List.filter_cons_of_neg, not_false_eq_true]
        exact hi
  have := key tet 0 tet (by intro i; simp)
  simpa using this

theorem filter_get_of_first (mag : T → Bool) : ∀ (tet : List T) (i : ℕ) (t : T), tet[i]? = some t →
    (∀ j ≤ i, ∀ s, tet[j]? = some s → mag s = true) → (tet.filter mag)[i]? = some t := by
  intro tet
  induction tet with
  | nil => intro i t h; simp at h
  | cons a l ih =>
    intro i t h hm
    have ha : mag a = true := hm 0 (Nat.zero_le _) a rfl
    rw [List.filter_cons_of_pos ha]
    cases i with
    | zero => simpa using h
    | succ i =>
      rw [List.getElem?_cons_succ] at h ⊢
      exact ih i t h fun j hj s hs => hm (j + 1) (by omega) s (by rw [List.getElem?_cons_succ]; exact hs)

theorem filter_length_lt (mag : T → Bool) (tet : List T) (i : ℕ) (s : T) (h : tet[i]? = some s) (hm : mag s = false) :
    (tet.filter mag).length < tet.length := by
  rcases Nat.lt_or_ge (tet.filter mag).length tet.length with h' | h'
  · exact h'
  · exfalso
    have := (List.filter_sublist (p := mag) (l := tet)).eq_of_length_le h'
    have hs : s ∈ tet := List.mem_of_getElem? h
    rw [← this, List.mem_filter] at hs
    rw [hm] at hs
    exact absurd hs.2 (by simp)

/-- The property holds if the magnetic tetrahedrons come first, in particular if all are magnetic. -/
theorem C44_partial (mag : T → Bool) (gauss : T → List V3) (tet : List T) (h : MagneticFirst mag tet) :
    AppliedWhereEvaluated mag gauss tet := by
  intro f i t ht hm
  unfold readField
  rw [table_eq, List.getElem?_map, filter_get_of_first mag tet i t ht]
  · rfl
  · intro j hj s hs
    rcases Nat.lt_or_ge j i with hlt | hge
    · exact h j i s t hlt hs ht hm
    · have : j = i := by omega
      subst this
      rw [hs] at ht
      injection ht with ht
      rw [ht]; exact hm

/-- If a magnetic tetrahedron comes after a non magnetic one, the last magnetic tetrahedron reads the table out of
bounds. -/
theorem C44_out_of_bounds (mag : T → Bool) (gauss : T → List V3) (tet : List T) (i j : ℕ) (s t : T) (hij : i < j)
    (hs : tet[i]? = some s) (hms : mag s = false) (ht : tet[j]? = some t) (hmt : mag t = true) :
    ∃ k t', tet[k]? = some t' ∧ mag t' = true ∧ ∀ f, readField (setExtSpaceField mag gauss f tet) k = none := by
  -- the last magnetic tetrahedron
  have hlast : ∃ k t', j ≤ k ∧ tet[k]? = some t' ∧ mag t' = true ∧
      ∀ k' > k, ∀ r, tet[k']? = some r → mag r = false := by
    by_contra hc
    push Not at hc
    have : ∀ n, ∃ k, n ≤ k ∧ j ≤ k ∧ ∃ t', tet[k]? = some t' ∧ mag t' = true := by
      intro n
      induction n with
      | zero => exact ⟨j, Nat.zero_le _, le_refl _, t, ht, hmt⟩
      | succ n ih =>
        obtain ⟨k, h1, h2, t', h3, h4⟩ := ih
        obtain ⟨k', hk', r, h5, h6⟩ := hc k t' h2 h3 h4
        exact ⟨k', by omega, by omega, r, h5, by simpa using h6⟩
    obtain ⟨k, h1, _, t', h3, _⟩ := this tet.length
    rw [List.getElem?_eq_none h1] at h3
    exact absurd h3 (by simp)
  obtain ⟨k, t', hjk, hk, hmk, hafter⟩ := hlast
  refine ⟨k, t', hk, hmk, ?_⟩
  intro f
  unfold readField
  rw [table_eq, List.getElem?_eq_none]
  rw [List.length_map]
  have hklt : k < tet.length := by
    by_contra hc
    rw [List.getElem?_eq_none (by omega)] at hk
    exact absurd hk (by simp)
  have hsplit : tet.filter mag = (tet.take (k + 1)).filter mag := by
    conv_lhs => rw [← List.take_append_drop (k + 1) tet]
    rw [List.filter_append]
    have : (tet.drop (k + 1)).filter mag = [] := by
      rw [List.filter_eq_nil_iff]
      intro r hr
      obtain ⟨n, hn, e⟩ := List.getElem_of_mem hr
      have := hafter (k + 1 + n) (by omega) r (by
        rw [← e, List.getElem_drop, List.getElem?_eq_getElem])
      simp [this]
    rw [this, List.append_nil]
  rw [hsplit]
  have hi : (tet.take (k + 1))[i]? = some s := by
    rw [List.getElem?_take_of_lt (by omega)]; exact hs
  have := filter_length_lt mag (tet.take (k + 1)) i s hi hms
  rw [List.length_take] at this
  omega

/-- the meshes for which the property holds -/
theorem C44_iff (mag : T → Bool) (gauss : T → List V3) (tet : List T) :
    AppliedWhereEvaluated mag gauss tet ↔ MagneticFirst mag tet := by
  refine ⟨fun h => ?_, C44_partial mag gauss tet⟩
  intro i j s t hij hs ht hmt
  by_contra hms
  obtain ⟨k, t', hk, hmk, hnone⟩ := C44_out_of_bounds mag gauss tet i j s t hij hs (by simpa using hms) ht hmt
  have h1 := h (fun p => p) k t' hk hmk
  rw [hnone] at h1
  exact absurd h1 (by simp)

/-- A mesh read with a non magnetic region before two magnetic ones: the first magnetic tetrahedron receives the field
of the other one. -/
theorem C44_negation : ∃ (tet : List (Bool × V3)) (f : V3 → V3),
    let table := setExtSpaceField (fun t => t.1) (fun t => [t.2]) f tet
    tet[1]? = some (true, ⟨1, 0, 0⟩) ∧ tet[2]? = some (true, ⟨2, 0, 0⟩) ∧
    readField table 1 = some [f ⟨2, 0, 0⟩] ∧ f ⟨2, 0, 0⟩ ≠ f ⟨1, 0, 0⟩ ∧ readField table 2 = none := by
  refine ⟨[(false, ⟨0, 0, 0⟩), (true, ⟨1, 0, 0⟩), (true, ⟨2, 0, 0⟩)], fun p => p, rfl, rfl, ?_, ?_, ?_⟩
  · rw [table_eq]; rfl
  · simp
  · rw [table_eq]; rfl

/-- a mesh that satisfies `MagneticFirst`, with tetrahedrons of both kinds -/
example : MagneticFirst (fun t : Bool => t) [true, true, false] := by
  intro i j s t hij hs ht hm
  rcases i with _ | _ | i
  · simpa using hs.symm
  · simpa using hs.symm
  · exfalso
    have : j < 3 := by
      by_contra hc
      rw [List.getElem?_eq_none (by simp; omega)] at ht
      exact absurd ht (by simp)
    omega

end Verif.ExtField
