import Verif.Spec.Recenter
import Verif.Spec.TimeLoop
import Mathlib.Data.Fin.VecNotation
import Mathlib.Tactic.NormNum
import Mathlib.Tactic.FinCases
import Mathlib.Data.Fintype.Basic

/-!
# C46: recentering follows the requested direction
-/

namespace Verif.Recenter

theorem comp_add_unit (p : V3) (D : ℝ) (k : Fin 3) : (p + D * V3.unit k).comp k = p.comp k + D := by
  fin_cases k <;> simp [V3.comp, V3.unit]

open Classical in
theorem source_eq {n : ℕ} (g : Geo n) (k : Fin 3) (D : ℝ) (p : V3) :
    source g k D p =
      if (if (p + D * V3.unit k).comp k - g.c.comp k > 1 / 2 * g.l.comp k then rightEnd g k else p + D * V3.unit k).comp k
          - g.c.comp k < -(1 / 2) * g.l.comp k then leftEnd g k
      else if (p + D * V3.unit k).comp k - g.c.comp k > 1 / 2 * g.l.comp k then rightEnd g k else p + D * V3.unit k := rfl

/-- positions that stay between the ends are not clamped -/
theorem source_inside {n : ℕ} (g : Geo n) (k : Fin 3) (D : ℝ) (p : V3)
    (h : |p.comp k + D - g.c.comp k| ≤ 1 / 2 * g.l.comp k) : source g k D p = p + D * V3.unit k := by
  obtain ⟨h1, h2⟩ := abs_le.mp h
  have e := comp_add_unit p D k
  rw [source_eq, if_neg (c := (p + D * V3.unit k).comp k - g.c.comp k > 1 / 2 * g.l.comp k) (by rw [e]; linarith),
    if_neg (by rw [e]; linarith)]

theorem source_right {n : ℕ} (g : Geo n) (hl : ∀ k, 0 ≤ g.l.comp k) (k : Fin 3) (D : ℝ) (p : V3)
    (h : p.comp k + D - g.c.comp k > 1 / 2 * g.l.comp k) : source g k D p = rightEnd g k := by
  have e := comp_add_unit p D k
  have e2 : (rightEnd g k).comp k = g.c.comp k + 1 / 2 * g.l.comp k := comp_add_unit _ _ _
  have := hl k
  rw [source_eq, if_pos (c := (p + D * V3.unit k).comp k - g.c.comp k > 1 / 2 * g.l.comp k) (by rw [e]; exact h),
    if_neg (by rw [e2]; linarith)]

theorem source_left {n : ℕ} (g : Geo n) (hl : ∀ k, 0 ≤ g.l.comp k) (k : Fin 3) (D : ℝ) (p : V3)
    (h : p.comp k + D - g.c.comp k < -(1 / 2 * g.l.comp k)) : source g k D p = leftEnd g k := by
  have e := comp_add_unit p D k
  have := hl k
  rw [source_eq, if_neg (c := (p + D * V3.unit k).comp k - g.c.comp k > 1 / 2 * g.l.comp k) (by rw [e]; linarith),
    if_pos (by rw [e]; linarith)]

theorem recenter_along {n : ℕ} (g : Geo n) (hl : ∀ k, 0 ≤ g.l.comp k) (thres : ℝ) (ch : ℤ) (nd : Fin n → Node)
    (hn : NearestOk g nd) : RecentersAlong g thres (switchDir ch) nd (recenter g thres ch nd) := by
  generalize hk : switchDir ch = k
  constructor
  · intro h
    subst hk
    exact if_pos h
  · intro h
    refine ⟨g.nearest (leftEnd g k), g.nearest (rightEnd g k), hn _, hn _, ?_, ?_⟩
    · intro hp
      subst hk
      exact (if_neg h).trans (if_pos hp)
    · intro hp
      subst hk
      refine ⟨_, (if_neg h).trans (if_neg hp), ?_⟩
      intro i
      have eD : shift g nd (switchDir ch) = (∑ i, g.w i * (nd i).next.u.comp (switchDir ch)) * (1 / 2 * g.l.comp (switchDir ch)) *
          (nd (g.nearest (leftEnd g (switchDir ch)))).next.u.comp (switchDir ch) := by
        show avg g nd (switchDir ch) * (1 / 2) * g.l.comp (switchDir ch) * _ = _
        rw [mul_assoc (avg g nd (switchDir ch))]
        rfl
      rw [← eD]
      refine ⟨rfl, fun hi => ⟨g.nearest (source g (switchDir ch) (shift g nd (switchDir ch)) (nd i).p), ?_, rfl⟩,
        fun hi => ⟨g.nearest (source g (switchDir ch) (shift g nd (switchDir ch)) (nd i).p), ?_, rfl⟩,
        fun hi => ⟨g.nearest (source g (switchDir ch) (shift g nd (switchDir ch)) (nd i).p), ?_, rfl⟩⟩
      · rw [source_inside g _ _ _ hi]; exact hn _
      · rw [source_right g hl _ _ _ hi]; exact hn _
      · rw [source_left g hl _ _ _ hi]; exact hn _

/-- With direction `Z`, recentering is along Z. Missing from the full property: directions `X` and `Y`
(`C46_negation`, `C46_direction_ignored`). -/
theorem C46_partial {n : ℕ} (g : Geo n) (hl : ∀ k, 0 ≤ g.l.comp k) (thres : ℝ) (nd : Fin n → Node) (hn : NearestOk g nd) :
    ∃ r, run g thres ['Z'] nd = some r ∧ RecentersAlong g thres 2 nd r :=
  ⟨_, rfl, recenter_along g hl thres idxZ nd hn⟩

/-- Whatever the direction in the settings, what happens is a recentering along Z: the enumeration values 0, 1, 2
are given where the letters `X`, `Y`, `Z` are expected. -/
theorem C46_direction_ignored {n : ℕ} (g : Geo n) (thres : ℝ) (nd : Fin n → Node) (direction : Text.Str) (k : Fin 3)
    (h : Axis direction k) : run g thres direction nd = run g thres ['Z'] nd := by
  cases h <;> rfl

/-- The direction must be one of the letters X, Y and Z: any other text is refused when the settings are read, and the letter is
stored as the number of its axis. -/
theorem C46_accepted (direction : Text.Str) :
    (∀ idx, parseDirection direction = some idx → ∃ k : Fin 3, Axis direction k ∧ idx = k) ∧
    (∀ k : Fin 3, Axis direction k → parseDirection direction = some (k : ℤ)) ∧
    ∀ {n : ℕ} (g : Geo n) (thres : ℝ) (nd : Fin n → Node), (∃ r, run g thres direction nd = some r) ↔ ∃ k, Axis direction k := by
  have h1 : ∀ idx, parseDirection direction = some idx → ∃ k : Fin 3, Axis direction k ∧ idx = k := by
    intro idx h
    unfold parseDirection at h
    split at h
    · injection h with h; subst h; exact ⟨0, .x, rfl⟩
    · injection h with h; subst h; exact ⟨1, .y, rfl⟩
    · injection h with h; subst h; exact ⟨2, .z, rfl⟩
    · cases h
  have h2 : ∀ k : Fin 3, Axis direction k → parseDirection direction = some (k : ℤ) := by
    intro k h
    cases h <;> rfl
  refine ⟨h1, h2, ?_⟩
  intro n g thres nd
  constructor
  · rintro ⟨r, hr⟩
    unfold run at hr
    cases hp : parseDirection direction with
    | none => rw [hp] at hr; cases hr
    | some idx =>
      obtain ⟨k, hk, -⟩ := h1 idx hp
      exact ⟨k, hk⟩
  · rintro ⟨k, hk⟩
    unfold run
    rw [h2 k hk]
    exact ⟨_, rfl⟩

/-- nodes on a line along x, with a domain wall near its end -/
def exNode (x ux : ℝ) : Node :=
  { p := ⟨x, 0, 0⟩, ep := 0, eq := 0, cur := ⟨⟨ux, 0, 0⟩, 0, 0, 0⟩, next := ⟨⟨ux, 0, 0⟩, 0, 0, 0⟩ }

def exNodes : Fin 3 → Node := ![exNode 0 1, exNode 1 1, exNode 2 (-1)]

open Classical in
/-- box [0,2]×{0}×{0}; nearest node of a point by its x coordinate -/
noncomputable def exGeo : Geo 3 :=
  { c := ⟨1, 0, 0⟩, l := ⟨2, 0, 0⟩, w := ![3 / 10, 13 / 20, 1 / 20],
    nearest := fun q => if q.x ≤ 1 / 2 then 0 else if q.x ≤ 3 / 2 then 1 else 2 }

theorem exNearest : NearestOk exGeo exNodes := by
  have key : ∀ (q : V3) (a b : ℝ), (q.x - a) ^ 2 ≤ (q.x - b) ^ 2 → edist q ⟨a, 0, 0⟩ ≤ edist q ⟨b, 0, 0⟩ := by
    intro q a b h
    unfold edist
    apply Real.sqrt_le_sqrt
    simp only
    linarith
  intro q i
  by_cases h1 : q.x ≤ 1 / 2
  · have e : exGeo.nearest q = 0 := if_pos h1
    rw [e]
    fin_cases i
    · exact le_refl _
    · exact key q 0 1 (by nlinarith)
    · exact key q 0 2 (by nlinarith)
  · by_cases h2 : q.x ≤ 3 / 2
    · have e : exGeo.nearest q = 1 := (if_neg h1).trans (if_pos h2)
      rw [e]
      push Not at h1
      fin_cases i
      · exact key q 1 0 (by nlinarith)
      · exact le_refl _
      · exact key q 1 2 (by nlinarith)
    · have e : exGeo.nearest q = 2 := (if_neg h1).trans (if_neg h2)
      rw [e]
      push Not at h1 h2
      fin_cases i
      · exact key q 2 0 (by nlinarith)
      · exact key q 2 1 (by nlinarith)
      · exact le_refl _

theorem exLength (k : Fin 3) : 0 ≤ exGeo.l.comp k := by
  fin_cases k
  · show (0 : ℝ) ≤ 2; norm_num
  · exact le_refl _
  · exact le_refl _

theorem exAvgX : avg exGeo exNodes 0 = 9 / 10 := by
  unfold avg
  rw [Fin.sum_univ_three]
  show 3 / 10 * (1 : ℝ) + 13 / 20 * 1 + 1 / 20 * (-1) = 9 / 10
  norm_num

theorem exAvgZ : avg exGeo exNodes 2 = 0 := by
  unfold avg
  rw [Fin.sum_univ_three]
  show 3 / 10 * (0 : ℝ) + 13 / 20 * 0 + 1 / 20 * 0 = 0
  norm_num

/-- With direction `X`, a wall that is far from the centre along X is not recentered. -/
theorem C46_negation : ∃ (g : Geo 3) (nd : Fin 3 → Node) (thres : ℝ), (∀ k, 0 ≤ g.l.comp k) ∧ NearestOk g nd ∧
    (∀ i, IsUnit3 (nd i).next.u) ∧ ∀ r, run g thres ['X'] nd = some r → ¬ RecentersAlong g thres 0 nd r := by
  refine ⟨exGeo, exNodes, 1 / 10, exLength, exNearest, ?_, ?_⟩
  · intro i
    fin_cases i
    · show (1 : ℝ) ^ 2 + 0 ^ 2 + 0 ^ 2 = 1; norm_num
    · show (1 : ℝ) ^ 2 + 0 ^ 2 + 0 ^ 2 = 1; norm_num
    · show (-1 : ℝ) ^ 2 + 0 ^ 2 + 0 ^ 2 = 1; norm_num
  · intro r hr h
    have e : run exGeo (1 / 10) ['X'] exNodes = some .unchanged := by
      show some (recenter exGeo (1 / 10) idxX exNodes) = some .unchanged
      congr 1
      have hk : switchDir idxX = 2 := rfl
      apply if_pos
      rw [hk, exAvgZ, abs_zero]
      norm_num
    rw [e] at hr
    injection hr with hr
    obtain ⟨jL, jR, -, -, h1, h2⟩ := h.2 (by
      have := exAvgX
      unfold avg at this
      rw [this]; norm_num [abs_of_pos])
    by_cases hp : 0 < (exNodes jL).next.u.comp 0 * (exNodes jR).next.u.comp 0
    · have h' := h1 hp
      rw [← hr] at h'; exact absurd h' (by simp)
    · obtain ⟨nd', h', -⟩ := h2 hp
      rw [← hr] at h'; exact absurd h' (by simp)

/-- recentering as it enters the model of the time loop: `Cfg.recenter` -/
noncomputable def loopRecenter {n : ℕ} (g : Geo n) (thres : ℝ) (direction : ℤ) (nd : Fin n → Node) : Option (Fin n → Node) :=
  match recenter g thres direction nd with
  | .unchanged => some nd
  | .noWall => none
  | .shifted nd' => some nd'

open TimeLoop in
/-- the recentering of the code meets the hypotheses on recentering of C04, C05 and C10: what the outputs are
computed from does not change -/
theorem C46_keeps_next {n : ℕ} {ET : Type} (cfg : Cfg n ET) (g : Geo n) (thres : ℝ) (d : ℤ)
    (h : cfg.recenter = loopRecenter g thres d) : RecenterKeepsNext cfg := by
  intro nd nd' e i
  rw [h] at e
  unfold loopRecenter recenter at e
  simp only at e
  split at e
  · injection e with e; rw [← e]; exact ⟨rfl, rfl, rfl⟩
  · exact absurd e (by simp)
  · rename_i nd2 h2
    injection e with e
    subst e
    split at h2
    · exact absurd h2 (by simp)
    · split at h2
      · exact absurd h2 (by simp)
      · injection h2 with h2
        rw [← h2]
        exact ⟨rfl, rfl, rfl⟩

open TimeLoop in
/-- … and if all nodes are magnetic, unit vectors stay unit vectors -/
theorem C46_keeps_unit {n : ℕ} {ET : Type} (cfg : Cfg n ET) (g : Geo n) (thres : ℝ) (d : ℤ)
    (h : cfg.recenter = loopRecenter g thres d) (hm : ∀ i, cfg.magNode i = true) : RecenterKeepsUnit cfg := by
  intro nd nd' e hu i hi
  have hnext := C46_keeps_next cfg g thres d h nd nd' e i
  refine ⟨?_, by rw [hnext.2.1]; exact (hu i hi).2⟩
  rw [h] at e
  unfold loopRecenter recenter at e
  simp only at e
  split at e
  · injection e with e; rw [← e]; exact (hu i hi).1
  · exact absurd e (by simp)
  · rename_i nd2 h2
    injection e with e
    subst e
    split at h2
    · exact absurd h2 (by simp)
    · split at h2
      · exact absurd h2 (by simp)
      · injection h2 with h2
        rw [← h2]
        exact (hu _ (hm _)).2

end Verif.Recenter
