import Mathlib.Tactic.NormNum
import Mathlib.Tactic.FinCases
import Mathlib.Data.Fintype.Basic
import Verif.Model.BoundingBox
import Verif.Spec.BoundingBox

/-!
# C31: the bounding box

The box always contains the nodes and its lower faces are exact. Its upper faces are exact only if some node has
a coordinate of at least `DBL_MIN`, because `maxNodes` starts from `__DBL_MIN__`, which is positive.
-/

namespace Verif.BoundingBox

theorem dblMin_pos : 0 < dblMin := by unfold dblMin; positivity

theorem two_le_dblMax : (2 : ℝ) ≤ dblMax := by
  have h1 : (2 : ℝ) ^ 1 ≤ 2 ^ 1023 := pow_le_pow_right₀ (by norm_num) (by norm_num)
  have h2 : (1 : ℝ) ≤ 2 - 1 / 2 ^ 52 := by norm_num
  have h3 : (0 : ℝ) ≤ 2 ^ 1023 := by positivity
  unfold dblMax
  generalize (2 : ℝ) ^ 1023 = M at *
  generalize (2 - 1 / 2 ^ 52 : ℝ) = k at *
  nlinarith

theorem fold_max (coord : Fin 3) (node : List V3) : ∀ init,
    (doOnNodes init coord (fun a b => a > b) node = init ∨
      ∃ p ∈ node, doOnNodes init coord (fun a b => a > b) node = p.comp coord) ∧
    init ≤ doOnNodes init coord (fun a b => a > b) node ∧
    ∀ p ∈ node, p.comp coord ≤ doOnNodes init coord (fun a b => a > b) node := by
  unfold doOnNodes
  induction node with
  | nil => intro init; simp
  | cons q l ih =>
    intro init
    rw [List.foldl_cons]
    by_cases h : q.comp coord > init
    · rw [if_pos h]
      obtain ⟨h1, h2, h3⟩ := ih (q.comp coord)
      refine ⟨Or.inr ?_, le_trans (le_of_lt h) h2, ?_⟩
      · rcases h1 with h1 | ⟨p, hp, h1⟩
        · exact ⟨q, List.mem_cons_self, h1⟩
        · exact ⟨p, List.mem_cons_of_mem _ hp, h1⟩
      · intro p hp
        rcases List.mem_cons.mp hp with rfl | hp
        · exact h2
        · exact h3 p hp
    · rw [if_neg h]
      obtain ⟨h1, h2, h3⟩ := ih init
      refine ⟨?_, h2, ?_⟩
      · rcases h1 with h1 | ⟨p, hp, h1⟩
        · exact Or.inl h1
        · exact Or.inr ⟨p, List.mem_cons_of_mem _ hp, h1⟩
      · intro p hp
        rcases List.mem_cons.mp hp with rfl | hp
        · exact le_trans (not_lt.mp h) h2
        · exact h3 p hp

theorem fold_min (coord : Fin 3) (node : List V3) : ∀ init,
    (doOnNodes init coord (fun a b => a < b) node = init ∨
      ∃ p ∈ node, doOnNodes init coord (fun a b => a < b) node = p.comp coord) ∧
    doOnNodes init coord (fun a b => a < b) node ≤ init ∧
    ∀ p ∈ node, doOnNodes init coord (fun a b => a < b) node ≤ p.comp coord := by
  unfold doOnNodes
  induction node with
  | nil => intro init; simp
  | cons q l ih =>
    intro init
    rw [List.foldl_cons]
    by_cases h : q.comp coord < init
    · rw [if_pos h]
      obtain ⟨h1, h2, h3⟩ := ih (q.comp coord)
      refine ⟨Or.inr ?_, le_trans h2 (le_of_lt h), ?_⟩
      · rcases h1 with h1 | ⟨p, hp, h1⟩
        · exact ⟨q, List.mem_cons_self, h1⟩
        · exact ⟨p, List.mem_cons_of_mem _ hp, h1⟩
      · intro p hp
        rcases List.mem_cons.mp hp with rfl | hp
        · exact h2
        · exact h3 p hp
    · rw [if_neg h]
      obtain ⟨h1, h2, h3⟩ := ih init
      refine ⟨?_, h2, ?_⟩
      · rcases h1 with h1 | ⟨p, hp, h1⟩
        · exact Or.inl h1
        · exact Or.inr ⟨p, List.mem_cons_of_mem _ hp, h1⟩
      · intro p hp
        rcases List.mem_cons.mp hp with rfl | hp
        · exact le_trans h2 (not_lt.mp h)
        · exact h3 p hp

theorem lower (node : List V3) (i : Fin 3) :
    (center node).comp i - (lengths node).comp i / 2 = minNodes i node := by
  fin_cases i <;> simp [center, lengths, V3.comp] <;> ring

theorem upper (node : List V3) (i : Fin 3) :
    (center node).comp i + (lengths node).comp i / 2 = maxNodes i node := by
  fin_cases i <;> simp [center, lengths, V3.comp] <;> ring

/-- the coordinates are finite doubles -/
def Finite (node : List V3) : Prop := ∀ p ∈ node, ∀ i, |p.comp i| ≤ dblMax

theorem min_attained (node : List V3) (hne : node ≠ []) (hf : Finite node) (i : Fin 3) :
    ∃ p ∈ node, minNodes i node = p.comp i := by
  obtain ⟨h1, h2, h3⟩ := fold_min i node dblMax
  rcases h1 with h1 | h1
  · obtain ⟨q, l, rfl⟩ : ∃ q l, node = q :: l := by
      cases node with
      | nil => exact absurd rfl hne
      | cons q l => exact ⟨q, l, rfl⟩
    refine ⟨q, List.mem_cons_self, le_antisymm (h3 q List.mem_cons_self) ?_⟩
    unfold minNodes
    rw [h1]
    exact (abs_le.mp (hf q List.mem_cons_self i)).2
  · exact h1

/-- the box contains all the nodes -/
theorem C31_contains (node : List V3) (p : V3) (hp : p ∈ node) : Contains (center node) (lengths node) p := by
  intro i
  have h1 : minNodes i node ≤ p.comp i := (fold_min i node dblMax).2.2 p hp
  have h2 : p.comp i ≤ maxNodes i node := (fold_max i node dblMin).2.2 p hp
  have := lower node i
  have := upper node i
  rw [abs_le]
  constructor <;> linarith

/-- The computed box is the bounding box exactly if, for every axis, some node has a coordinate of at least
`DBL_MIN`. The full property (without the condition) fails, see `C31_negation`. -/
theorem C31_tight_iff (node : List V3) (hne : node ≠ []) (hf : Finite node) :
    IsBoundingBox node (center node) (lengths node) ↔ ∀ i : Fin 3, ∃ p ∈ node, dblMin ≤ p.comp i := by
  constructor
  · intro h i
    by_contra hc
    push Not at hc
    -- the true maximum along axis `i`
    have hex : ∃ q ∈ node, ∀ p ∈ node, p.comp i ≤ q.comp i := by
      clear h hf hc
      induction node with
      | nil => exact absurd rfl hne
      | cons a l ih =>
        cases l with
        | nil => exact ⟨a, by simp, by intro p hp; simp at hp; rw [hp]⟩
        | cons b l =>
          obtain ⟨q, hq, hmax⟩ := ih (by simp)
          by_cases hqa : q.comp i ≤ a.comp i
          · refine ⟨a, List.mem_cons_self, ?_⟩
            intro p hp
            rcases List.mem_cons.mp hp with rfl | hp
            · exact le_refl _
            · exact le_trans (hmax p hp) hqa
          · refine ⟨q, List.mem_cons_of_mem _ hq, ?_⟩
            intro p hp
            rcases List.mem_cons.mp hp with rfl | hp
            · exact le_of_lt (not_le.mp hqa)
            · exact hmax p hp
    obtain ⟨q, hq, hmax⟩ := hex
    -- a smaller box: cut the computed one at `q`
    let hi : Fin 3 → ℝ := fun j => if j = i then q.comp i else maxNodes j node
    let c' : V3 := ⟨1 / 2 * (hi 0 + minNodes 0 node), 1 / 2 * (hi 1 + minNodes 1 node), 1 / 2 * (hi 2 + minNodes 2 node)⟩
    let l' : V3 := ⟨hi 0 - minNodes 0 node, hi 1 - minNodes 1 node, hi 2 - minNodes 2 node⟩
    have hlo : ∀ j, c'.comp j - l'.comp j / 2 = minNodes j node := by
      intro j; fin_cases j <;> simp [c', l', V3.comp] <;> ring
    have hup : ∀ j, c'.comp j + l'.comp j / 2 = hi j := by
      intro j; fin_cases j <;> simp [c', l', V3.comp] <;> ring
    have := (h.2 c' l' (by
      intro p hp j
      have h1 : minNodes j node ≤ p.comp j := (fold_min j node dblMax).2.2 p hp
      have h2 : p.comp j ≤ hi j := by
        by_cases hj : j = i
        · subst hj; simp only [hi, if_true]; exact hmax p hp
        · simp only [hi, if_neg hj]; exact (fold_max j node dblMin).2.2 p hp
      have := hlo j
      have := hup j
      rw [abs_le]
      constructor <;> linarith) i).2
    rw [upper, hup i] at this
    simp only [hi, if_true] at this
    have h3 : dblMin ≤ maxNodes i node := (fold_max i node dblMin).2.1
    exact absurd (hc q hq) (by push Not; linarith)
  · intro h
    refine ⟨fun p hp => C31_contains node p hp, ?_⟩
    intro c' l' hc' i
    rw [lower, upper]
    constructor
    · obtain ⟨p, hp, e⟩ := min_attained node hne hf i
      rw [e]
      have := (abs_le.mp (hc' p hp i)).1
      linarith
    · obtain ⟨h1, h2, h3⟩ := fold_max i node dblMin
      obtain ⟨q, hq, hqi⟩ := h i
      have : ∃ p ∈ node, maxNodes i node = p.comp i := by
        rcases h1 with h1 | h1
        · refine ⟨q, hq, le_antisymm ?_ (h3 q hq)⟩
          unfold maxNodes
          rw [h1]; exact hqi
        · exact h1
      obtain ⟨p, hp, e⟩ := this
      rw [e]
      have := (abs_le.mp (hc' p hp i)).2
      linarith

/-- what holds of the property: meshes with, along each axis, a node on the positive side -/
theorem C31_tight_partial (node : List V3) (hf : Finite node) (h : ∀ i : Fin 3, ∃ p ∈ node, dblMin ≤ p.comp i) :
    IsBoundingBox node (center node) (lengths node) := by
  refine (C31_tight_iff node ?_ hf).mpr h
  obtain ⟨p, hp, _⟩ := h 0
  exact List.ne_nil_of_mem hp

/-- a unit tetrahedron placed on the negative side of the x axis: the box is twice too long -/
theorem C31_negation : ∃ node : List V3, node ≠ [] ∧ Finite node ∧
    ¬ IsBoundingBox node (center node) (lengths node) ∧ (lengths node).x = 2 + dblMin ∧
    ∀ p ∈ node, -2 ≤ p.x ∧ p.x ≤ -1 := by
  have hmx : ∀ x : ℝ, |x| ≤ 2 → |x| ≤ dblMax := by
    intro x hx
    exact le_trans hx two_le_dblMax
  refine ⟨[⟨-1, 0, 0⟩, ⟨-2, 0, 0⟩, ⟨-2, 1, 0⟩, ⟨-2, 0, 1⟩], by simp, ?_, ?_, ?_, ?_⟩
  · intro p hp i
    apply hmx
    simp only [List.mem_cons, List.not_mem_nil, or_false] at hp
    rcases hp with rfl | rfl | rfl | rfl <;> fin_cases i <;> norm_num [V3.comp]
  · rw [C31_tight_iff _ (by simp)]
    · intro h
      obtain ⟨p, hp, h⟩ := h 0
      have := dblMin_pos
      simp only [List.mem_cons, List.not_mem_nil, or_false] at hp
      rcases hp with rfl | rfl | rfl | rfl <;> simp only [V3.comp] at h <;> linarith
    · intro p hp i
      apply hmx
      simp only [List.mem_cons, List.not_mem_nil, or_false] at hp
      rcases hp with rfl | rfl | rfl | rfl <;> fin_cases i <;> norm_num [V3.comp]
  · have hd := dblMin_pos
    have e1 : maxNodes 0 [⟨-1, 0, 0⟩, ⟨-2, 0, 0⟩, ⟨-2, 1, 0⟩, ⟨-2, 0, 1⟩] = dblMin := by
      obtain ⟨h1, h2, _⟩ := fold_max 0 [⟨-1, 0, 0⟩, ⟨-2, 0, 0⟩, ⟨-2, 1, 0⟩, ⟨-2, 0, 1⟩] dblMin
      rcases h1 with h1 | ⟨p, hp, h1⟩
      · exact h1
      · exfalso
        rw [h1] at h2
        simp only [List.mem_cons, List.not_mem_nil, or_false] at hp
        rcases hp with rfl | rfl | rfl | rfl <;> simp only [V3.comp] at h2 <;> linarith
    have e2 : minNodes 0 [⟨-1, 0, 0⟩, ⟨-2, 0, 0⟩, ⟨-2, 1, 0⟩, ⟨-2, 0, 1⟩] = -2 := by
      obtain ⟨h1, _, h3⟩ := fold_min 0 [⟨-1, 0, 0⟩, ⟨-2, 0, 0⟩, ⟨-2, 1, 0⟩, ⟨-2, 0, 1⟩] dblMax
      have h4 := h3 ⟨-2, 0, 0⟩ (by simp)
      have h2 := two_le_dblMax
      unfold minNodes
      rcases h1 with h1 | ⟨p, hp, h1⟩
      · exfalso
        rw [h1] at h4
        simp only [V3.comp] at h4
        linarith
      · rw [h1] at h4 ⊢
        simp only [List.mem_cons, List.not_mem_nil, or_false] at hp
        rcases hp with rfl | rfl | rfl | rfl <;> simp only [V3.comp] at h4 ⊢ <;> linarith
    unfold lengths
    simp only [e1, e2]
    ring
  · intro p hp
    simp only [List.mem_cons, List.not_mem_nil, or_false] at hp
    rcases hp with rfl | rfl | rfl | rfl <;> norm_num

/-- the axis used to sort the nodes is one along which the computed length is greatest -/
theorem C31_long_axis (l : V3) (i : Fin 3) : l.comp i ≤ l.comp (longAxis l) := by
  unfold longAxis
  by_cases h1 : l.x > l.y
  · rw [if_pos h1]
    by_cases h2 : l.x > l.z
    · rw [if_pos h2]
      fin_cases i <;> simp only [V3.comp] <;> linarith
    · rw [if_neg h2]
      fin_cases i <;> simp only [V3.comp] <;> linarith
  · rw [if_neg h1]
    by_cases h2 : l.y > l.z
    · rw [if_pos h2]
      fin_cases i <;> simp only [V3.comp] <;> linarith
    · rw [if_neg h2]
      fin_cases i <;> simp only [V3.comp] <;> linarith

/-- the hypotheses of `C31_tight_partial` are met by a tetrahedron around the origin -/
example : ∃ node : List V3, Finite node ∧ (∀ i : Fin 3, ∃ p ∈ node, dblMin ≤ p.comp i) ∧
    ∃ p ∈ node, ∀ i : Fin 3, p.comp i < 0 := by
  have hd : dblMin ≤ 1 := by
    unfold dblMin
    rw [div_le_one (by positivity)]
    exact one_le_pow₀ (by norm_num)
  refine ⟨[⟨-1, -1, -1⟩, ⟨1, 0, 0⟩, ⟨0, 1, 0⟩, ⟨0, 0, 1⟩], ?_, ?_, ?_⟩
  · intro p hp i
    have hM : (1 : ℝ) ≤ dblMax := le_trans (by norm_num) two_le_dblMax
    refine le_trans ?_ hM
    simp only [List.mem_cons, List.not_mem_nil, or_false] at hp
    rcases hp with rfl | rfl | rfl | rfl <;> fin_cases i <;> norm_num [V3.comp]
  · intro i
    fin_cases i
    · exact ⟨⟨1, 0, 0⟩, by simp, hd⟩
    · exact ⟨⟨0, 1, 0⟩, by simp, hd⟩
    · exact ⟨⟨0, 0, 1⟩, by simp, hd⟩
  · exact ⟨⟨-1, -1, -1⟩, by simp, by intro i; fin_cases i <;> norm_num [V3.comp]⟩

end Verif.BoundingBox
