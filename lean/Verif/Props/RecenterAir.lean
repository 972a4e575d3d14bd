import Verif.Model.RecenterFl
import Verif.Props.RecenterRun

/-!
# C100: recentering in non-magnetic surroundings
-/

namespace Verif.Recenter

variable {n : ℕ}

theorem fl_sub (a b : ℝ) : Fl.fin a - Fl.fin b = .fin (a - b) := by
  show Fl.fin (a + -b) = _
  rw [sub_eq_add_neg]

theorem fl_gt (a b : ℝ) : (Fl.fin a).gt (.fin b) ↔ a > b := by
  show ¬ a ≤ b ↔ a > b
  exact not_le

theorem nan_mul (a : Fl) : Fl.nan * a = .nan := by
  show Fl.mul _ _ = _
  unfold Fl.mul
  cases a <;> rfl

theorem mul_nan (a : Fl) : a * Fl.nan = .nan := by
  show Fl.mul _ _ = _
  cases a <;> rfl

theorem add_nan (a : Fl) : a + Fl.nan = .nan := by
  show Fl.add _ _ = _
  cases a <;> rfl

open Classical in
theorem sourceF_fin (g : Geo n) (gF : GeoF n) (hc : gF.c = g.c) (hl : gF.l = g.l) (k : Fin 3) (D : ℝ) (p : V3) :
    sourceF gF k (.fin D) p = F3.of (source g k D p) := by
  have e1 : (fun j => Fl.fin (p.comp j) + scaleUnit (.fin D) k j) = F3.of (p + D * V3.unit k) := by
    funext j
    show Fl.fin (p.comp j + D * (V3.unit k).comp j) = Fl.fin ((p + D * V3.unit k).comp j)
    congr 1
    fin_cases j <;> rfl
  have e2 : ∀ q : V3, F3.of q k = .fin (q.comp k) := fun q => rfl
  unfold sourceF
  rw [e1]
  have t1 : ∀ q : V3, (F3.of q k - .fin (gF.c.comp k)).gt (.fin (1 / 2 * gF.l.comp k)) ↔ q.comp k - g.c.comp k > 1 / 2 * g.l.comp k :=
    fun q => by rw [hc, hl, e2, fl_sub, fl_gt]
  have t2 : ∀ q : V3, (Fl.fin (-(1 / 2) * gF.l.comp k)).gt (F3.of q k - .fin (gF.c.comp k)) ↔
      q.comp k - g.c.comp k < -(1 / 2) * g.l.comp k := fun q => by rw [hc, hl, e2, fl_sub, fl_gt]
  have key : ∀ q : V3, (if (Fl.fin (-(1 / 2) * gF.l.comp k)).gt (F3.of q k - .fin (gF.c.comp k)) then
      F3.of (gF.c - (1 / 2 * gF.l.comp k) * V3.unit k) else F3.of q) =
      F3.of (if q.comp k - g.c.comp k < -(1 / 2) * g.l.comp k then g.c - (1 / 2 * g.l.comp k) * V3.unit k else q) := by
    intro q
    by_cases c : q.comp k - g.c.comp k < -(1 / 2) * g.l.comp k
    · rw [if_pos c, if_pos ((t2 q).mpr c), hc, hl]
    · rw [if_neg c, if_neg fun h => c ((t2 q).mp h)]
  unfold clampF source
  dsimp only
  by_cases c1 : (p + D * V3.unit k).comp k - g.c.comp k > 1 / 2 * g.l.comp k
  · rw [if_pos c1, if_pos ((t1 _).mpr c1), ← key, hc, hl]
  · rw [if_neg c1, if_neg fun h => c1 ((t1 _).mp h), ← key]

/-- **C100** Where all nodes are magnetic recentering is that of `C46`: unchanged, ended and shifted in the same cases, and the
shifted magnetizations are the same. The failure below is due to the non-magnetic nodes. -/
theorem C100_recenter_magnetic (g : Geo n) (gF : GeoF n) (nd : Fin n → Node) (hc : gF.c = g.c) (hl : gF.l = g.l)
    (hp : ∀ i, gF.p i = (nd i).p) (hn : ∀ q, gF.nearest (F3.of q) = g.nearest q) (thres : ℝ) (ch : ℤ) :
    recenterF gF (avg g nd (switchDir ch)) thres ch (fun i => F3.of (nd i).next.u) =
      match recenter g thres ch nd with
      | .unchanged => .unchanged
      | .noWall => .noWall
      | .shifted nd' => .shifted fun i => F3.of (nd' i).cur.u := by
  have e2 : ∀ (q : V3) k, F3.of q k = .fin (q.comp k) := fun q _ => rfl
  unfold recenterF recenter
  dsimp only
  rw [hc, hl, hn, hn]
  by_cases c1 : |avg g nd (switchDir ch)| < |thres|
  · simp only [if_pos c1]
  · simp only [if_neg c1, e2]
    have e3 : ∀ a b : ℝ, Fl.fin a * .fin b = .fin (a * b) := fun _ _ => rfl
    simp only [e3]
    split_ifs with c2 c3 c3
    · rfl
    · exact absurd ((fl_gt _ _).mp c2) c3
    · exact absurd ((fl_gt _ _).mpr c3) c2
    · congr 1
      funext i
      rw [sourceF_fin g gF hc hl, hn, hp]
      rfl

/-- **C100** If the node nearest to the left end of the axis is not magnetic, a recentering gives all nodes the same
magnetization, whatever the configuration was: the absence of a wall is not noticed, and a wall is destroyed. -/
theorem C100_recenter_fails (g : GeoF n) (m thres : ℝ) (ch : ℤ) (u : Fin n → F3) (hm : |thres| ≤ |m|)
    (hL : ∀ j, u (g.nearest (F3.of (g.c - ((1 / 2 : ℝ) * g.l.comp (switchDir ch)) * V3.unit (switchDir ch)))) j = .nan) :
    ∃ j, recenterF g m thres ch u = .shifted fun _ => u j := by
  have hs : ∀ p, sourceF g (switchDir ch) .nan p = fun _ => .nan := by
    intro p
    have e1 : (fun j => Fl.fin (p.comp j) + scaleUnit .nan (switchDir ch) j) = fun _ => .nan := by
      funext j
      unfold scaleUnit
      rw [nan_mul, add_nan]
    have e2 : ∀ a : Fl, ¬ (Fl.nan - a).gt (.fin (1 / 2 * g.l.comp (switchDir ch))) := by
      intro a h
      have : Fl.nan - a = .nan := by
        show Fl.add _ _ = _
        unfold Fl.add
        cases a <;> rfl
      rw [this] at h
      exact h
    have e3 : ∀ a b : Fl, ¬ a.gt (Fl.nan - b) := by
      intro a b h
      have : Fl.nan - b = .nan := by
        show Fl.add _ _ = _
        unfold Fl.add
        cases b <;> rfl
      rw [this] at h
      cases a <;> exact h
    unfold sourceF
    rw [e1]
    unfold clampF
    dsimp only
    rw [if_neg (e2 _), if_neg (e3 _ _)]
  refine ⟨g.nearest fun _ => .nan, ?_⟩
  unfold recenterF
  dsimp only
  rw [if_neg (not_lt.mpr hm), hL, nan_mul, mul_nan, if_neg (show ¬ Fl.nan.gt (.fin 0) from fun h => h)]
  simp only [hs]

/-! ## Example: the wall alone, and between two nodes of air -/

/-- the mesh of `wallGeo` for the model with NaN: a search for a point that is none ends at the first node -/
noncomputable def wallGeoF (s : ℝ) : GeoF 3 where
  c := (wallGeo s).c
  l := (wallGeo s).l
  p i := (wallNodes s i).p
  nearest q := match q 0, q 1, q 2 with
    | .fin x, .fin y, .fin z => (wallGeo s).nearest ⟨x, y, z⟩
    | _, _, _ => 0

/-- `C100_recenter_magnetic` at the wall of `C46_partial`: it is shifted -/
example : ∃ nd' : Fin 3 → Node, recenterF (wallGeoF 1) (avg (wallGeo 1) (wallNodes 1) (switchDir 2)) (1 / 10) 2
    (fun i => F3.of (wallNodes 1 i).next.u) = .shifted fun i => F3.of (nd' i).cur.u := by
  rw [C100_recenter_magnetic (wallGeo 1) (wallGeoF 1) (wallNodes 1) rfl rfl (fun _ => rfl) (fun _ => rfl), wall_shifted (.inl rfl)]
  exact ⟨_, rfl⟩

/-- the three nodes of `wallNodes`, then two nodes of air above and below -/
noncomputable def airGeo : GeoF 5 where
  c := ⟨0, 0, 0⟩
  l := ⟨0, 0, 6⟩
  p := ![⟨0, 0, -1⟩, ⟨0, 0, 0⟩, ⟨0, 0, 1⟩, ⟨0, 0, 3⟩, ⟨0, 0, -3⟩]
  nearest := fun q => match q 2 with
    | .fin z => if 2 < z then 3 else if z < -2 then 4 else if 1 / 2 < z then 2 else if z < -(1 / 2) then 0 else 1
    | _ => 0

noncomputable def airU : Fin 5 → F3 :=
  ![F3.of ⟨12 / 13, 0, 5 / 13⟩, F3.of ⟨0, 0, -1⟩, F3.of ⟨0, 0, -1⟩, fun _ => .nan, fun _ => .nan]

/-- alone the sample is recentered as it should be (`C46_partial`); with the air the hypothesis of `C100_recenter_fails` holds -/
example : (∃ nd, loopRecenter (wallGeo 1) (1 / 10) 2 (wallNodes 1) = some nd) ∧ |(1 / 10 : ℝ)| ≤ |(-(7 / 13) : ℝ)| ∧
    (∀ j, airU (airGeo.nearest (F3.of (airGeo.c - ((1 / 2 : ℝ) * airGeo.l.comp (switchDir 2)) * V3.unit (switchDir 2)))) j = .nan) ∧
    ∃ i j, airU i ≠ airU j := by
  refine ⟨?_, ?_, ?_, 0, 1, ?_⟩
  · obtain ⟨nd, h, -⟩ := wall_recenter (s := 1) (.inl rfl)
    exact ⟨nd, h⟩
  · norm_num [abs_of_pos, abs_neg]
  · intro j
    have e : F3.of (airGeo.c - ((1 / 2 : ℝ) * airGeo.l.comp (switchDir 2)) * V3.unit (switchDir 2)) 2 = .fin (-3) := by
      show Fl.fin ((0 : ℝ) - 1 / 2 * 6 * 1) = _
      norm_num
    have : airGeo.nearest (F3.of (airGeo.c - ((1 / 2 : ℝ) * airGeo.l.comp (switchDir 2)) * V3.unit (switchDir 2))) = 4 := by
      unfold airGeo at e ⊢
      dsimp only at e ⊢
      rw [e]
      norm_num
    rw [this]
    rfl
  · intro h
    have := congrFun h 0
    simp only [airU, F3.of, Matrix.cons_val_zero, Matrix.cons_val_one] at this
    injection this with h
    have h' : (12 / 13 : ℝ) = 0 := h
    norm_num at h'

end Verif.Recenter
