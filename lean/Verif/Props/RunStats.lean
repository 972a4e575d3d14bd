import Verif.Model.RunStats
import Verif.Props.TimeLoop
import Verif.Props.LogStats

/-!
# C78: statistics on the time steps
-/

namespace Verif.TimeLoop

open Verif.LogStats

variable {n : ℕ} {ET : Type}

/-- specification: the step from `s` to `s'` solved the linear system with success -/
def SolveOk (cfg : Cfg n ET) (t0 : ℝ) (inp : Input n) (s s' : St n ET) : Prop :=
  Attempt cfg t0 inp s ∧ s'.ctl ≠ .done 1 ∧ inp.sol ≠ none

/-- specification: the step from `s` to `s'` failed to solve the linear system -/
def SolveBad (cfg : Cfg n ET) (t0 : ℝ) (inp : Input n) (s s' : St n ET) : Prop :=
  Attempt cfg t0 inp s ∧ s'.ctl ≠ .done 1 ∧ inp.sol = none

section
variable (cfg : Cfg n ET) (t0 : ℝ) (angle : (Fin n → Node) → ℝ) (nodes : Fin n → Node) (pot : Fin n → ℝ × ℝ)
  (inp : ℕ → Input n)

/-- what one step adds -/
theorem stat_kind (i : Input n) (s : St n ET) (st : RunStats) :
    (SolveOk cfg t0 i s (step cfg t0 i s) →
      (statStep cfg t0 angle i s st).goodDt = st.goodDt.add (.fin (step cfg t0 i s).dt) ∧
      (statStep cfg t0 angle i s st).goodDumax =
        st.goodDumax.add (.fin ((step cfg t0 i s).dt * (step cfg t0 i s).vmax)) ∧
      cfg.DTMIN ≤ (step cfg t0 i s).dt ∧
      ((step cfg t0 i s).nt = s.nt + 1 ∨ (step cfg t0 i s).nt = s.nt ∧ DuRejected i s (step cfg t0 i s))) ∧
    (¬ SolveOk cfg t0 i s (step cfg t0 i s) →
      (statStep cfg t0 angle i s st).goodDt = st.goodDt ∧ (statStep cfg t0 angle i s st).goodDumax = st.goodDumax ∧
      (step cfg t0 i s).nt = s.nt ∧ ¬ DuRejected i s (step cfg t0 i s)) ∧
    (SolveBad cfg t0 i s (step cfg t0 i s) →
      (statStep cfg t0 angle i s st).badDt = st.badDt.add (.fin (step cfg t0 i s).dt) ∧
      cfg.DTMIN ≤ (step cfg t0 i s).dt) ∧
    (¬ SolveBad cfg t0 i s (step cfg t0 i s) → (statStep cfg t0 angle i s st).badDt = st.badDt) ∧
    (Accepted s (step cfg t0 i s) ∧ (step cfg t0 i s).ctl = .running →
      (statStep cfg t0 angle i s st).maxAngle = max st.maxAngle (angle (step cfg t0 i s).nodes)) ∧
    (¬ (Accepted s (step cfg t0 i s) ∧ (step cfg t0 i s).ctl = .running) →
      (statStep cfg t0 angle i s st).maxAngle = st.maxAngle) := by
  generalize hs' : step cfg t0 i s = s'
  have hk := step_kind cfg t0 i s
  rw [hs'] at hk
  have quiet : statStep cfg t0 angle i s st = st → ¬ Attempt cfg t0 i s ∨ s'.ctl = .done 1 → s'.nt = s.nt →
      s'.flag = s.flag → _ := fun e h hnt hf => show
      (SolveOk cfg t0 i s s' → (statStep cfg t0 angle i s st).goodDt = st.goodDt.add (.fin s'.dt) ∧
        (statStep cfg t0 angle i s st).goodDumax = st.goodDumax.add (.fin (s'.dt * s'.vmax)) ∧ cfg.DTMIN ≤ s'.dt ∧
        (s'.nt = s.nt + 1 ∨ s'.nt = s.nt ∧ DuRejected i s s')) ∧
      (¬ SolveOk cfg t0 i s s' → (statStep cfg t0 angle i s st).goodDt = st.goodDt ∧
        (statStep cfg t0 angle i s st).goodDumax = st.goodDumax ∧ s'.nt = s.nt ∧ ¬ DuRejected i s s') ∧
      (SolveBad cfg t0 i s s' → (statStep cfg t0 angle i s st).badDt = st.badDt.add (.fin s'.dt) ∧ cfg.DTMIN ≤ s'.dt) ∧
      (¬ SolveBad cfg t0 i s s' → (statStep cfg t0 angle i s st).badDt = st.badDt) ∧
      (Accepted s s' ∧ s'.ctl = .running →
        (statStep cfg t0 angle i s st).maxAngle = max st.maxAngle (angle s'.nodes)) ∧
      (¬ (Accepted s s' ∧ s'.ctl = .running) → (statStep cfg t0 angle i s st).maxAngle = st.maxAngle) by
    have h1 : ¬ SolveOk cfg t0 i s s' := fun h' => h.elim (fun g => g h'.1) fun g => h'.2.1 g
    have h2 : ¬ SolveBad cfg t0 i s s' := fun h' => h.elim (fun g => g h'.1) fun g => h'.2.1 g
    have h3 : ¬ Accepted s s' := by unfold Accepted; omega
    have h4 : ¬ DuRejected i s s' := by unfold DuRejected Retried; omega
    rw [e]
    exact ⟨fun h => absurd h h1, fun _ => ⟨rfl, rfl, hnt, h4⟩, fun h => absurd h h2, fun _ => rfl,
      fun h => absurd h.1 h3, fun _ => rfl⟩
  have inWhile : s.ctl = .running → s.t < tTarget cfg t0 s.stepNb →
      statStep cfg t0 angle i s st = statBody cfg t0 angle i s st := by
    intro h ht
    simp [statStep, h, ht]
  cases hk with
  | halted h e =>
    refine quiet ?_ (Or.inl fun g => h g.1) (by rw [e]) (by rw [e])
    unfold statStep
    cases hc : s.ctl with
    | running => exact absurd hc h
    | _ => rfl
  | output h ht e =>
    exact quiet (by simp [statStep, h, ht]) (Or.inl fun g => ht g.2.1) (by rw [e, forBody_nt]) (by rw [e, forBody_flag])
  | signal h ht hi e =>
    refine quiet ?_ (Or.inl fun g => by rw [g.2.2] at hi; cases hi) (by rw [e]; rfl) (by rw [e]; rfl)
    rw [inWhile h ht]
    simp [statBody, hi]
  | small h ht hi hd e =>
    refine quiet ?_ (Or.inr (by rw [e])) (by rw [e]) (by rw [e])
    rw [inWhile h ht]
    unfold attDt at hd
    simp [statBody, hi, hd]
  | fail h ht hi hd hs e =>
    have hd' := hd
    unfold attDt at hd'
    have hb : statBody cfg t0 angle i s st = { st with badDt := st.badDt.add (.fin (attDt cfg t0 s)) } := by
      simp [statBody, hi, hd', hs, attDt]
    have h1 : ¬ SolveOk cfg t0 i s s' := fun g => g.2.2 hs
    have h2 : SolveBad cfg t0 i s s' := ⟨⟨h, ht, hi⟩, by rw [e]; simp [h], hs⟩
    rw [inWhile h ht, hb]
    refine ⟨fun g => absurd g h1, fun _ => ⟨rfl, rfl, by rw [e], fun g => g.2 hs⟩, fun _ => ⟨by rw [e], by rw [e]; exact not_lt.mp hd⟩,
      fun g => absurd h2 g, fun g => ?_, fun _ => rfl⟩
    have := g.1
    rw [e] at this
    simp [Accepted] at this
  | reject h ht hi hd X hs hr e =>
    have hd' := hd
    have hr' := hr
    unfold attDt at hd' hr'
    have hb : statBody cfg t0 angle i s st = ⟨st.goodDt.add (.fin (attDt cfg t0 s)),
        st.goodDumax.add (.fin (attDt cfg t0 s * vMax cfg.gamma0 cfg.magNode X)), st.badDt, st.maxAngle⟩ := by
      simp [statBody, hi, hd', hs, hr', attDt]
    have h1 : SolveOk cfg t0 i s s' := ⟨⟨h, ht, hi⟩, by rw [e]; simp [h], by simp [hs]⟩
    have h2 : ¬ SolveBad cfg t0 i s s' := fun g => by have h' := g.2.2; rw [hs] at h'; cases h'
    rw [inWhile h ht, hb]
    refine ⟨fun _ => ⟨by rw [e], by rw [e], by rw [e]; exact not_lt.mp hd, Or.inr ⟨by rw [e], by rw [e]; exact rfl, by simp [hs]⟩⟩,
      fun g => absurd h1 g, fun g => absurd g h2, fun _ => rfl, fun g => ?_, fun _ => rfl⟩
    have := g.1
    rw [e] at this
    simp [Accepted] at this
  | exitRec h ht hi hd X hs hr hrec e =>
    have hd' := hd
    have hr' := hr
    have hrec' := hrec
    unfold attDt at hd' hr'
    have hb : statBody cfg t0 angle i s st = ⟨st.goodDt.add (.fin (attDt cfg t0 s)),
        st.goodDumax.add (.fin (attDt cfg t0 s * vMax cfg.gamma0 cfg.magNode X)), st.badDt, st.maxAngle⟩ := by
      unfold accepted solvedNodes attDt at hrec'
      simp only [statBody, hi, Bool.false_eq_true, if_false, hd', hs, hr', hrec', attDt]
    have h1 : SolveOk cfg t0 i s s' := ⟨⟨h, ht, hi⟩, by rw [e]; simp, by simp [hs]⟩
    have h2 : ¬ SolveBad cfg t0 i s s' := fun g => by have h' := g.2.2; rw [hs] at h'; cases h'
    rw [inWhile h ht, hb]
    refine ⟨fun _ => ⟨by rw [e]; rfl, by rw [e]; rfl, by rw [e]; exact not_lt.mp hd, Or.inl (by rw [e]; rfl)⟩,
      fun g => absurd h1 g, fun g => absurd g h2, fun _ => rfl, fun g => ?_, fun _ => rfl⟩
    have := g.2
    rw [e] at this
    cases this
  | accept h ht hi hd X hs hr nd hrec e =>
    have hd' := hd
    have hr' := hr
    have hrec' := hrec
    unfold attDt at hd' hr'
    have hb : statBody cfg t0 angle i s st = ⟨st.goodDt.add (.fin (attDt cfg t0 s)),
        st.goodDumax.add (.fin (attDt cfg t0 s * vMax cfg.gamma0 cfg.magNode X)), st.badDt, max st.maxAngle (angle nd)⟩ := by
      unfold accepted solvedNodes attDt at hrec'
      simp only [statBody, hi, Bool.false_eq_true, if_false, hd', hs, hr', hrec', attDt]
    have h1 : SolveOk cfg t0 i s s' := ⟨⟨h, ht, hi⟩, by rw [e]; simp [accepted, h], by simp [hs]⟩
    have h2 : ¬ SolveBad cfg t0 i s s' := fun g => by have h' := g.2.2; rw [hs] at h'; cases h'
    have h3 : Accepted s s' ∧ s'.ctl = .running := by
      rw [e]
      exact ⟨rfl, h⟩
    rw [inWhile h ht, hb]
    exact ⟨fun _ => ⟨by rw [e]; rfl, by rw [e]; rfl, by rw [e]; exact not_lt.mp hd, Or.inl (by rw [e]; rfl)⟩,
      fun g => absurd h1 g, fun g => absurd g h2, fun _ => rfl, fun _ => by rw [e], fun g => absurd h3 g⟩

open Classical in
/-- the steps before the `k`-th that solved the linear system with success -/
noncomputable def okSteps (k : ℕ) : List ℕ :=
  (List.range k).filter fun j => SolveOk cfg t0 (inp j) (run cfg t0 nodes pot inp j) (run cfg t0 nodes pot inp (j + 1))

open Classical in
/-- the steps before the `k`-th that failed to -/
noncomputable def badSteps (k : ℕ) : List ℕ :=
  (List.range k).filter fun j => SolveBad cfg t0 (inp j) (run cfg t0 nodes pot inp j) (run cfg t0 nodes pot inp (j + 1))

open Classical in
/-- the steps before the `k`-th rejected because `max(du)` was exceeded -/
noncomputable def duSteps (k : ℕ) : List ℕ :=
  (List.range k).filter fun j => DuRejected (inp j) (run cfg t0 nodes pot inp j) (run cfg t0 nodes pot inp (j + 1))

theorem addAll_snoc (l : List Fl) (a : Fl) : Stats.addAll (l ++ [a]) = (Stats.addAll l).add a := by
  unfold Stats.addAll
  rw [List.foldl_append]
  rfl

/-- **C78** The statistics printed at the end of a run are those of its attempts: "successful" are the attempts whose
linear system was solved, with their `dt` and `dt` times the largest speed; "failed" those whose system was not. The
successful ones are the steps kept plus those rejected because `max(du)` was exceeded. -/
theorem C78_samples (k : ℕ) :
    let R := run cfg t0 nodes pot inp
    let st := stats cfg t0 angle nodes pot inp k
    let ok := okSteps cfg t0 nodes pot inp k
    let bad := badSteps cfg t0 nodes pot inp k
    st.goodDt = Stats.addAll ((ok.map fun j => (R (j + 1)).dt).map .fin) ∧
    st.goodDumax = Stats.addAll ((ok.map fun j => (R (j + 1)).dt * (R (j + 1)).vmax).map .fin) ∧
    st.badDt = Stats.addAll ((bad.map fun j => (R (j + 1)).dt).map .fin) ∧
    (∀ j ∈ ok, cfg.DTMIN ≤ (R (j + 1)).dt) ∧ (∀ j ∈ bad, cfg.DTMIN ≤ (R (j + 1)).dt) ∧
    ok.length = (R k).nt + (duSteps cfg t0 nodes pot inp k).length := by
  induction k with
  | zero =>
    refine ⟨rfl, rfl, rfl, ?_, ?_, rfl⟩ <;> intro j hj <;> cases hj
  | succ k ih =>
    intro R st ok bad
    obtain ⟨h1, h2, h3, h4, h5, h6⟩ := ih
    obtain ⟨k1, k2, k3, k4, _⟩ := stat_kind cfg t0 angle (inp k) (R k) (stats cfg t0 angle nodes pot inp k)
    have hst : st = statStep cfg t0 angle (inp k) (R k) (stats cfg t0 angle nodes pot inp k) := rfl
    have hR : R (k + 1) = step cfg t0 (inp k) (R k) := rfl
    rw [← hR, ← hst] at k1 k2 k3 k4
    have hdu : ∀ b : Prop, (DuRejected (inp k) (R k) (R (k + 1)) ↔ b) → duSteps cfg t0 nodes pot inp (k + 1) =
        duSteps cfg t0 nodes pot inp k ++ (open Classical in if b then [k] else []) := by
      intro b hb
      unfold duSteps
      rw [List.range_succ, List.filter_append]
      congr 1
      by_cases h : b
      · rw [if_pos h, List.filter_cons_of_pos (by simpa using hb.mpr h)]
        rfl
      · rw [if_neg h, List.filter_cons_of_neg (by simpa using fun g => h (hb.mp g))]
        rfl
    have hgood : st.goodDt = Stats.addAll ((ok.map fun j => (R (j + 1)).dt).map .fin) ∧
        st.goodDumax = Stats.addAll ((ok.map fun j => (R (j + 1)).dt * (R (j + 1)).vmax).map .fin) ∧
        (∀ j ∈ ok, cfg.DTMIN ≤ (R (j + 1)).dt) ∧
        ok.length = (R (k + 1)).nt + (duSteps cfg t0 nodes pot inp (k + 1)).length := by
      by_cases hok : SolveOk cfg t0 (inp k) (R k) (R (k + 1))
      · obtain ⟨a1, a2, a3, a4⟩ := k1 hok
        have e : ok = okSteps cfg t0 nodes pot inp k ++ [k] := by
          show okSteps cfg t0 nodes pot inp (k + 1) = _
          unfold okSteps
          rw [List.range_succ, List.filter_append]
          congr 1
          rw [List.filter_cons_of_pos (by simpa using hok)]
          rfl
        rw [e]
        refine ⟨?_, ?_, ?_, ?_⟩
        · rw [a1, h1]
          simp only [List.map_append, List.map_cons, List.map_nil, addAll_snoc]
          rfl
        · rw [a2, h2]
          simp only [List.map_append, List.map_cons, List.map_nil, addAll_snoc]
          rfl
        · intro j hj
          rcases List.mem_append.mp hj with hj | hj
          · exact h4 j hj
          · rw [List.mem_singleton] at hj
            rw [hj]
            exact a3
        · rw [List.length_append, h6]
          rcases a4 with a4 | ⟨a4, a5⟩
          · have : ¬ DuRejected (inp k) (R k) (R (k + 1)) := by
              have hk := step_kind cfg t0 (inp k) (R k)
              rw [← hR] at hk
              rintro ⟨g1, g2⟩
              unfold Retried at g1
              cases hk with
              | halted h e => rw [e] at g1; omega
              | output h ht e => rw [e, forBody_flag] at g1; omega
              | signal h ht hi e => rw [e] at g1; exact absurd g1 (by simp [onSignal])
              | small h ht hi hd e => rw [e] at g1; simp at g1
              | fail h ht hi hd hs e => exact g2 hs
              | reject h ht hi hd X hs hr e => rw [e] at a4; simp at a4
              | exitRec h ht hi hd X hs hr hrec e => rw [e] at g1; simp [accepted] at g1
              | accept h ht hi hd X hs hr nd hrec e => rw [e] at g1; simp [accepted] at g1
            rw [hdu False (by simpa using this), if_neg (by simp), a4]
            simp only [List.length_append, List.length_cons, List.length_nil, R]
            omega
          · rw [hdu True (by simpa using a5), if_pos trivial, a4]
            simp only [List.length_append, List.length_cons, List.length_nil, R]
            omega
      · obtain ⟨a1, a2, a3, a4⟩ := k2 hok
        have e : ok = okSteps cfg t0 nodes pot inp k := by
          show okSteps cfg t0 nodes pot inp (k + 1) = _
          unfold okSteps
          rw [List.range_succ, List.filter_append, List.filter_cons_of_neg (by simpa using hok)]
          simp
        rw [e, a1, a2, h1, h2, a3, hdu False (by simpa using a4), if_neg (by simp), h6]
        exact ⟨rfl, rfl, h4, by simp; rfl⟩
    have hbad : st.badDt = Stats.addAll ((bad.map fun j => (R (j + 1)).dt).map .fin) ∧
        (∀ j ∈ bad, cfg.DTMIN ≤ (R (j + 1)).dt) := by
      by_cases hb : SolveBad cfg t0 (inp k) (R k) (R (k + 1))
      · obtain ⟨a1, a2⟩ := k3 hb
        have e : bad = badSteps cfg t0 nodes pot inp k ++ [k] := by
          show badSteps cfg t0 nodes pot inp (k + 1) = _
          unfold badSteps
          rw [List.range_succ, List.filter_append]
          congr 1
          rw [List.filter_cons_of_pos (by simpa using hb)]
          rfl
        rw [e]
        refine ⟨?_, ?_⟩
        · rw [a1, h3]
          simp only [List.map_append, List.map_cons, List.map_nil, addAll_snoc]
          rfl
        · intro j hj
          rcases List.mem_append.mp hj with hj | hj
          · exact h5 j hj
          · rw [List.mem_singleton] at hj
            rw [hj]
            exact a2
      · have e : bad = badSteps cfg t0 nodes pot inp k := by
          show badSteps cfg t0 nodes pot inp (k + 1) = _
          unfold badSteps
          rw [List.range_succ, List.filter_append, List.filter_cons_of_neg (by simpa using hb)]
          simp
        rw [e, k4 hb, h3]
        exact ⟨rfl, h5⟩
    exact ⟨hgood.1, hgood.2.1, hbad.1, hgood.2.2.1, hbad.2, hgood.2.2.2⟩

/-- **C78** So the line printed for the successful time steps holds their number and their geometric mean. -/
theorem C78_printed (hv : Valid cfg) (k : ℕ) (hne : okSteps cfg t0 nodes pot inp k ≠ []) :
    let dts := (okSteps cfg t0 nodes pot inp k).map fun j => (run cfg t0 nodes pot inp (j + 1)).dt
    let st := (stats cfg t0 angle nodes pot inp k).goodDt
    st.count = (run cfg t0 nodes pot inp k).nt + (duSteps cfg t0 nodes pot inp k).length ∧
    st.mean = .fin (dts.prod ^ (1 / (dts.length : ℝ))) := by
  intro dts st
  obtain ⟨h1, _, _, h4, _, h6⟩ := C78_samples cfg t0 angle nodes pot inp k
  have hpos : ∀ x ∈ dts, 0 < x := by
    intro x hx
    obtain ⟨j, hj, rfl⟩ := List.mem_map.mp hx
    exact lt_of_lt_of_le hv.dtmin (h4 j hj)
  obtain ⟨g1, g2, _⟩ := C53_statistics dts hpos (by simpa [dts] using hne)
  have e : st = Stats.addAll (dts.map .fin) := h1
  rw [e]
  refine ⟨?_, g2⟩
  rw [g1, ← h6]
  simp [dts]

/-- **C78** The angle printed is the largest of the angles of the initial magnetization and of the magnetizations kept. -/
theorem C78_max_angle (k : ℕ) :
    IsGreatest ({a | a = angle (run cfg t0 nodes pot inp 0).nodes} ∪
      {a | ∃ j < k, Accepted (run cfg t0 nodes pot inp j) (run cfg t0 nodes pot inp (j + 1)) ∧
        (run cfg t0 nodes pot inp (j + 1)).ctl = .running ∧ a = angle (run cfg t0 nodes pot inp (j + 1)).nodes})
      (stats cfg t0 angle nodes pot inp k).maxAngle := by
  induction k with
  | zero =>
    refine ⟨Or.inl rfl, ?_⟩
    rintro a (rfl | ⟨j, hj, _⟩)
    · exact le_rfl
    · exact absurd hj (by omega)
  | succ k ih =>
    obtain ⟨m1, m2⟩ := ih
    obtain ⟨_, _, _, _, k5, k6⟩ := stat_kind cfg t0 angle (inp k) (run cfg t0 nodes pot inp k) (stats cfg t0 angle nodes pot inp k)
    change _ → (stats cfg t0 angle nodes pot inp (k + 1)).maxAngle = _ at k5
    change _ → (stats cfg t0 angle nodes pot inp (k + 1)).maxAngle = _ at k6
    change Accepted _ (run cfg t0 nodes pot inp (k + 1)) ∧ (run cfg t0 nodes pot inp (k + 1)).ctl = .running →
      _ = max _ (angle (run cfg t0 nodes pot inp (k + 1)).nodes) at k5
    change ¬ (Accepted _ (run cfg t0 nodes pot inp (k + 1)) ∧ (run cfg t0 nodes pot inp (k + 1)).ctl = .running) → _ at k6
    by_cases h : Accepted (run cfg t0 nodes pot inp k) (run cfg t0 nodes pot inp (k + 1)) ∧
        (run cfg t0 nodes pot inp (k + 1)).ctl = .running
    · rw [k5 h]
      constructor
      · rcases max_choice (stats cfg t0 angle nodes pot inp k).maxAngle (angle (run cfg t0 nodes pot inp (k + 1)).nodes) with e | e
        · rw [e]
          rcases m1 with m1 | ⟨j, hj, m1⟩
          · exact Or.inl m1
          · exact Or.inr ⟨j, by omega, m1⟩
        · rw [e]
          exact Or.inr ⟨k, by omega, h.1, h.2, rfl⟩
      · rintro a (ha | ⟨j, hj, ha⟩)
        · exact le_trans (m2 (Or.inl ha)) (le_max_left _ _)
        · rcases Nat.lt_succ_iff_lt_or_eq.mp hj with hj | rfl
          · exact le_trans (m2 (Or.inr ⟨j, hj, ha⟩)) (le_max_left _ _)
          · rw [ha.2.2]
            exact le_max_right _ _
    · rw [k6 h]
      constructor
      · rcases m1 with m1 | ⟨j, hj, m1⟩
        · exact Or.inl m1
        · exact Or.inr ⟨j, by omega, m1⟩
      · rintro a (ha | ⟨j, hj, ha⟩)
        · exact m2 (Or.inl ha)
        · rcases Nat.lt_succ_iff_lt_or_eq.mp hj with hj | rfl
          · exact m2 (Or.inr ⟨j, hj, ha⟩)
          · exact absurd ⟨ha.1, ha.2.1⟩ h

end

/-- **C78** The number of "successful" steps is not the number of steps kept: here the only one was rejected. -/
theorem C78_negation : ∃ (inp : ℕ → Input 1) (k : ℕ), ∀ angle : (Fin 1 → Node) → ℝ,
    (stats exCfg 0 angle (fun _ => exNode) exPot inp k).goodDt.count = 1 ∧
    (run exCfg 0 (fun _ => exNode) exPot inp k).nt = 0 ∧ (run exCfg 0 (fun _ => exNode) exPot inp k).t = 0 := by
  let inp : ℕ → Input 1 := fun _ => exIn (some (1, 0))
  refine ⟨inp, 2, fun angle => ?_⟩
  have e2 := ex_reject inp rfl
  obtain ⟨c1, c2, c3⟩ := ex_s1 inp
  have a0 := (stat_kind exCfg 0 angle (inp 0) (exRun inp 0) (stats exCfg 0 angle (fun _ => exNode) exPot inp 0)).2.1
    (fun h => by
      have := h.1.2.1
      rw [ex_run0] at this
      simp [init] at this)
  have a1 := (stat_kind exCfg 0 angle (inp 1) (exRun inp 1) (stats exCfg 0 angle (fun _ => exNode) exPot inp 1)).1
    ⟨⟨c1, by rw [c2, c3.1]; norm_num [exCfg], rfl⟩, by
      change (exRun inp 2).ctl ≠ _
      rw [e2, c1]
      simp, by simp [inp, exIn]⟩
  refine ⟨?_, ?_, ?_⟩
  · have e : (stats exCfg 0 angle (fun _ => exNode) exPot inp 2).goodDt = _ := a1.1
    have e' : (stats exCfg 0 angle (fun _ => exNode) exPot inp 1).goodDt = Stats.new := a0.1
    rw [e, e']
    rfl
  · change (exRun inp 2).nt = 0
    rw [e2]
    exact c3.2.2.1
  · change (exRun inp 2).t = 0
    rw [e2]
    exact c2

theorem nan_stays (l : List Fl) (st : Stats) (h : st.s = .nan) : (l.foldl Stats.add st).s = .nan := by
  induction l generalizing st with
  | nil => exact h
  | cons a l ih =>
    refine ih _ ?_
    unfold Stats.add
    dsimp only
    rw [h, Fl.nan_add]

/-- **C78** A step with a velocity exactly zero (as at equilibrium, C76) spoils the statistics on `dumax` for the rest of
the run: its logarithm is infinite, and the width printed is not a number. -/
theorem C78_zero_velocity (l : List ℝ) (h0 : ∀ x ∈ l, 0 ≤ x) (h : 0 ∈ l) : (Stats.addAll (l.map .fin)).stddev = .nan := by
  classical
  -- the samples before the first zero
  obtain ⟨a, b, e, ha⟩ := List.eq_append_cons_of_mem h
  have hpos : ∀ x ∈ a, 0 < x := fun x hx => lt_of_le_of_ne (h0 x (by rw [e]; simp [hx])) fun g => ha (g ▸ hx)
  obtain ⟨h1, h2, h3⟩ := state a hpos
  have hn : (((a.length + 1 : ℕ) : ℝ)) ≠ 0 := by positivity
  have hs : ((Stats.addAll (a.map .fin)).add (.fin 0)).s = .nan := by
    have hlog : log (.fin 0) = .inf true := by
      show (if (0 : ℝ) < 0 then Fl.nan else if (0 : ℝ) = 0 then Fl.inf true else Fl.fin (Real.log 0)) = _
      simp
    unfold Stats.add
    dsimp only
    rw [h1, h2, h3, hlog]
    have d1 : (Fl.inf true - Fl.fin (logMean a) : Fl) = .inf true := rfl
    have d2 : (Fl.inf true / Fl.fin ((a.length + 1 : ℕ) : ℝ) : Fl) = .inf true := by
      show Fl.inf (true != decide ((((a.length + 1 : ℕ) : ℝ)) < 0)) = _
      have : ¬ (((a.length + 1 : ℕ) : ℝ)) < 0 := not_lt.mpr (by positivity)
      rw [decide_eq_false this]
      rfl
    have d3 : (Fl.fin (logMean a) + Fl.inf true : Fl) = .inf true := rfl
    have d4 : (Fl.inf true - Fl.inf true : Fl) = .nan := rfl
    rw [d1, d2, d3, d4, Fl.mul_nan, Fl.add_nan]
  have : (Stats.addAll (l.map .fin)).s = .nan := by
    unfold Stats.addAll
    rw [e, List.map_append, List.map_cons, List.foldl_append, List.foldl_cons]
    exact nan_stays _ _ hs
  unfold Stats.stddev
  rw [this, Fl.nan_div]
  rfl

/-- a run whose first attempt has a velocity zero: the sample 0 is met -/
example (angle : (Fin 1 → Node) → ℝ) :
    (stats exCfg 0 angle (fun _ => exNode) exPot (fun _ => exIn (some (0, 0))) 2).goodDumax.stddev = .nan := by
  let inp : ℕ → Input 1 := fun _ => exIn (some (0, 0))
  have e2 := ex_accept inp rfl
  obtain ⟨c1, c2, c3⟩ := ex_s1 inp
  have hok : SolveOk exCfg 0 (inp 1) (exRun inp 1) (exRun inp 2) :=
    ⟨⟨c1, by rw [c2, c3.1]; norm_num [exCfg], rfl⟩, by
      rw [e2]
      change (exRun inp 1).ctl ≠ _
      rw [c1]
      simp, by simp [inp, exIn]⟩
  rw [(C78_samples exCfg 0 angle (fun _ => exNode) exPot inp 2).2.1]
  have hv : (exRun inp 2).vmax = 0 := by
    rw [e2]
    change vMax exCfg.gamma0 exCfg.magNode (fun _ : Fin 1 => ((0 : ℝ), (0 : ℝ))) = 0
    rw [ex_vMax]
    norm_num
  have hg : (0 : ℝ) ≤ exCfg.gamma0 := by norm_num [exCfg]
  apply C78_zero_velocity
  · intro x hx
    obtain ⟨j, hj, rfl⟩ := List.mem_map.mp hx
    have hj2 : j < 2 := List.mem_range.mp (List.mem_filter.mp hj).1
    obtain rfl | rfl : j = 0 ∨ j = 1 := by omega
    · have : SolveOk exCfg 0 (inp 0) (exRun inp 0) (exRun inp 1) := by simpa using (List.mem_filter.mp hj).2
      have := this.1.2.1
      rw [ex_run0] at this
      simp [init] at this
    · show 0 ≤ (exRun inp 2).dt * (exRun inp 2).vmax
      rw [hv, mul_zero]
  · refine List.mem_map.mpr ⟨1, ?_, ?_⟩
    · unfold okSteps
      exact List.mem_filter.mpr ⟨by simp, by simpa using hok⟩
    · show (exRun inp 2).dt * (exRun inp 2).vmax = 0
      rw [hv, mul_zero]

end Verif.TimeLoop
