import Mathlib.Tactic.NormNum
import Verif.Model.MaxAngle
import Verif.Proofs.Fl

/-!
# C32: the maximum angle and the parallel reduction

Independence of the schedule holds if no magnetization on an edge is NaN. It fails as soon as a mesh has a non
magnetic region.
-/

namespace Verif.MaxAngle

open Verif

/-- the vector is finite -/
def FV.IsFin (a : FV) : Prop := a.x.IsFin ∧ a.y.IsFin ∧ a.z.IsFin

/-- scalar product of the real values -/
def FV.rdot (a b : FV) : ℝ := a.x.val * b.x.val + a.y.val * b.y.val + a.z.val * b.z.val

theorem dot_fin {a b : FV} (ha : a.IsFin) (hb : b.IsFin) : a.dot b = .fin (a.rdot b) := by
  obtain ⟨⟨x, hx⟩, ⟨y, hy⟩, ⟨z, hz⟩⟩ := And.intro (Fl.isFin_iff.mp ha.1)
    (And.intro (Fl.isFin_iff.mp ha.2.1) (Fl.isFin_iff.mp ha.2.2))
  obtain ⟨⟨x', hx'⟩, ⟨y', hy'⟩, ⟨z', hz'⟩⟩ := And.intro (Fl.isFin_iff.mp hb.1)
    (And.intro (Fl.isFin_iff.mp hb.2.1) (Fl.isFin_iff.mp hb.2.2))
  unfold FV.dot FV.rdot
  rw [hx, hy, hz, hx', hy', hz']
  simp [Fl.val]

theorem stdMin_fin (a b : ℝ) : stdMin (.fin a) (.fin b) = .fin (min a b) := by
  unfold stdMin
  by_cases h : a ≤ b
  · rw [if_neg (by simp [Fl.gt, Fl.le, h]), min_eq_left h]
  · rw [if_pos (by simpa [Fl.gt, Fl.le] using h), min_eq_right (le_of_lt (not_le.mp h))]

/-- a reduction of finite values by `std::min` is the least of them, whatever the schedule -/
theorem reduces_min {A : Multiset Fl} {r : Fl} (h : Reduces stdMin A r) (hA : ∀ x ∈ A, x.IsFin) :
    ∃ m : ℝ, r = .fin m ∧ Fl.fin m ∈ A ∧ ∀ x, Fl.fin x ∈ A → m ≤ x := by
  induction h with
  | leaf x =>
    obtain ⟨m, rfl⟩ := Fl.isFin_iff.mp (hA x (Multiset.mem_singleton_self x))
    refine ⟨m, rfl, Multiset.mem_singleton_self _, ?_⟩
    intro y hy
    rw [Multiset.mem_singleton] at hy
    injection hy with hy
    rw [hy]
  | node hl hr ihl ihr =>
    obtain ⟨m, rfl, h1, h2⟩ := ihl fun x hx => hA x (Multiset.mem_add.mpr (Or.inl hx))
    obtain ⟨n, rfl, h3, h4⟩ := ihr fun x hx => hA x (Multiset.mem_add.mpr (Or.inr hx))
    refine ⟨min m n, stdMin_fin m n, ?_, ?_⟩
    · rcases min_choice m n with h | h <;> rw [h, Multiset.mem_add]
      · exact Or.inl h1
      · exact Or.inr h3
    · intro x hx
      rcases Multiset.mem_add.mp hx with hx | hx
      · exact le_trans (min_le_left _ _) (h2 x hx)
      · exact le_trans (min_le_right _ _) (h4 x hx)

/-- the magnetizations at both ends of every edge are finite (true if all nodes are magnetic) -/
def EdgesFinite (u : ℕ → FV) (edges : List (ℕ × ℕ)) : Prop := ∀ e ∈ edges, (u e.1).IsFin ∧ (u e.2).IsFin

/-- With finite magnetizations on the edges, all schedules give the same angle.
Missing from the full property: meshes with non magnetic nodes, where it fails (`C32_negation`). -/
theorem C32_schedule_partial (u : ℕ → FV) (edges : List (ℕ × ℕ)) (hf : EdgesFinite u edges) (r r' : Fl)
    (h : MaxAngle u edges r) (h' : MaxAngle u edges r') : r = r' := by
  obtain ⟨m, hm, rfl⟩ := h
  obtain ⟨m', hm', rfl⟩ := h'
  have hA : ∀ x ∈ ({Fl.fin 1} + ((edges.map fun e => (u e.1).dot (u e.2) : List Fl) : Multiset Fl)), x.IsFin := by
    intro x hx
    rw [Multiset.mem_add, Multiset.mem_singleton, Multiset.mem_coe, List.mem_map] at hx
    rcases hx with rfl | ⟨e, he, rfl⟩
    · trivial
    · rw [dot_fin (hf e he).1 (hf e he).2]; trivial
  obtain ⟨a, rfl, ha1, ha2⟩ := reduces_min hm hA
  obtain ⟨b, rfl, hb1, hb2⟩ := reduces_min hm' hA
  rw [le_antisymm (ha2 b hb1) (hb2 a ha1)]

/-- With unit magnetizations, the result is the greatest angle between the magnetizations at the two ends of an
edge (zero if there is no edge): no schedule, order or grouping appears. -/
theorem C32_value (u : ℕ → FV) (edges : List (ℕ × ℕ)) (hf : EdgesFinite u edges)
    (hu : ∀ e ∈ edges, (u e.1).rdot (u e.1) = 1 ∧ (u e.2).rdot (u e.2) = 1) (r : Fl) (h : MaxAngle u edges r) :
    ∃ θ : ℝ, r = .fin θ ∧ (∀ e ∈ edges, Real.arccos ((u e.1).rdot (u e.2)) ≤ θ) ∧
      (θ = 0 ∨ ∃ e ∈ edges, θ = Real.arccos ((u e.1).rdot (u e.2))) := by
  obtain ⟨m, hm, rfl⟩ := h
  have hA : ∀ x ∈ ({Fl.fin 1} + ((edges.map fun e => (u e.1).dot (u e.2) : List Fl) : Multiset Fl)), x.IsFin := by
    intro x hx
    rw [Multiset.mem_add, Multiset.mem_singleton, Multiset.mem_coe, List.mem_map] at hx
    rcases hx with rfl | ⟨e, he, rfl⟩
    · trivial
    · rw [dot_fin (hf e he).1 (hf e he).2]; trivial
  obtain ⟨a, rfl, ha1, ha2⟩ := reduces_min hm hA
  -- every value lies between -1 and 1
  have hcs : ∀ e ∈ edges, -1 ≤ (u e.1).rdot (u e.2) ∧ (u e.1).rdot (u e.2) ≤ 1 := by
    intro e he
    obtain ⟨h1, h2⟩ := hu e he
    unfold FV.rdot at h1 h2 ⊢
    generalize (u e.1).x.val = a1 at *
    generalize (u e.1).y.val = a2 at *
    generalize (u e.1).z.val = a3 at *
    generalize (u e.2).x.val = b1 at *
    generalize (u e.2).y.val = b2 at *
    generalize (u e.2).z.val = b3 at *
    constructor
    · nlinarith [sq_nonneg (a1 + b1), sq_nonneg (a2 + b2), sq_nonneg (a3 + b3)]
    · nlinarith [sq_nonneg (a1 - b1), sq_nonneg (a2 - b2), sq_nonneg (a3 - b3)]
  have ha3 : a = 1 ∨ ∃ e ∈ edges, a = (u e.1).rdot (u e.2) := by
    rw [Multiset.mem_add, Multiset.mem_singleton, Multiset.mem_coe, List.mem_map] at ha1
    rcases ha1 with h | ⟨e, he, h⟩
    · injection h with h; exact Or.inl h
    · rw [dot_fin (hf e he).1 (hf e he).2] at h
      injection h with h
      exact Or.inr ⟨e, he, h.symm⟩
  have hr : -1 ≤ a ∧ a ≤ 1 := by
    rcases ha3 with rfl | ⟨e, he, rfl⟩
    · constructor <;> norm_num
    · exact hcs e he
  have hin : ∀ e ∈ edges, a ≤ (u e.1).rdot (u e.2) := by
    intro e he
    apply ha2
    rw [Multiset.mem_add, Multiset.mem_coe, List.mem_map]
    exact Or.inr ⟨e, he, dot_fin (hf e he).1 (hf e he).2⟩
  refine ⟨Real.arccos a, if_pos hr, ?_, ?_⟩
  · intro e he
    exact Real.antitone_arccos (hin e he)
  · rcases ha3 with rfl | ⟨e, he, rfl⟩
    · exact Or.inl Real.arccos_one
    · exact Or.inr ⟨e, he, rfl⟩

/-- a result exists, whatever the state -/
theorem C32_exists (u : ℕ → FV) (edges : List (ℕ × ℕ)) : ∃ r, MaxAngle u edges r := by
  have : ∀ l : List Fl, ∀ x : Fl, ∃ m, Reduces stdMin ({x} + (l : Multiset Fl)) m := by
    intro l
    induction l with
    | nil => intro x; exact ⟨x, by simpa using Reduces.leaf x⟩
    | cons a l ih =>
      intro x
      obtain ⟨m, hm⟩ := ih a
      exact ⟨_, Reduces.node (Reduces.leaf x) (by simpa [Multiset.singleton_add] using hm)⟩
  obtain ⟨m, hm⟩ := this (edges.map fun e => (u e.1).dot (u e.2)) (.fin 1)
  exact ⟨_, m, hm, rfl⟩

/-- Two magnetic nodes with perpendicular magnetizations and an edge to a non magnetic node: one schedule of the
reduction gives π/2, another one gives NaN. -/
theorem C32_negation : ∃ (u : ℕ → FV) (edges : List (ℕ × ℕ)),
    MaxAngle u edges (.fin (Real.pi / 2)) ∧ MaxAngle u edges .nan := by
  refine ⟨fun i => if i = 0 then ⟨.fin 1, .fin 0, .fin 0⟩ else if i = 1 then ⟨.fin 0, .fin 1, .fin 0⟩ else
    ⟨.nan, .nan, .nan⟩, [(0, 1), (1, 2)], ?_, ?_⟩
  · refine ⟨stdMin (stdMin (.fin 1) (.fin 0)) .nan, ?_, ?_⟩
    · have h := Reduces.node (op := stdMin) (Reduces.node (op := stdMin) (Reduces.leaf (.fin 1)) (Reduces.leaf (.fin 0)))
        (Reduces.leaf .nan)
      convert h using 1
      simp [FV.dot]
      rfl
    · rw [stdMin_fin]
      unfold stdMin
      rw [if_neg (by simp [Fl.gt]), min_eq_right (by norm_num)]
      have e : acos (.fin 0) = .fin (Real.arccos 0) := if_pos (by norm_num)
      rw [e, Real.arccos_zero]
  · refine ⟨stdMin (stdMin .nan (.fin 1)) (.fin 0), ?_, ?_⟩
    · have h := Reduces.node (op := stdMin) (Reduces.node (op := stdMin) (Reduces.leaf .nan) (Reduces.leaf (.fin 1)))
        (Reduces.leaf (.fin 0))
      convert h using 1
      simp [FV.dot]
      exact Multiset.coe_eq_coe.mpr
        ((List.Perm.cons _ (List.Perm.swap _ _ _)).trans (List.Perm.swap _ _ _))
    · unfold stdMin
      rw [if_neg (by simp [Fl.gt]), if_neg (by simp [Fl.gt])]
      rfl

/-- the hypotheses of `C32_value` are met by perpendicular magnetizations -/
example : ∃ (u : ℕ → FV) (edges : List (ℕ × ℕ)), EdgesFinite u edges ∧ edges ≠ [] ∧
    ∀ e ∈ edges, (u e.1).rdot (u e.1) = 1 ∧ (u e.2).rdot (u e.2) = 1 := by
  refine ⟨fun i => if i = 0 then ⟨.fin 1, .fin 0, .fin 0⟩ else ⟨.fin 0, .fin 1, .fin 0⟩, [(0, 1)], ?_, by simp, ?_⟩
  · intro e he
    simp only [List.mem_singleton] at he
    subst he
    exact ⟨⟨trivial, trivial, trivial⟩, ⟨trivial, trivial, trivial⟩⟩
  · intro e he
    simp only [List.mem_singleton] at he
    subst he
    constructor <;> simp [FV.rdot, Fl.val]

end Verif.MaxAngle
