import Verif.Model.Progress
import Verif.Proofs.TimeLoopExample

/-! C101: the progress display of a run. -/

namespace Verif.TimeLoop

variable {n : ℕ} {ET : Type} {cfg : Cfg n ET} {t0 : ℝ} {nodes : Fin n → Node} {pot : Fin n → ℝ × ℝ} {inp : ℕ → Input n}
  {clock : ℕ → ℝ}

/-- an update of the display: when, percentage, spinner -/
structure Upd where
  now : ℝ
  pct : ℝ
  spin : Char

/-- the update as it is written -/
def Upd.line (u : Upd) : Line := .update u.now u.pct u.spin

/-- the display shows the updates `us`, and the closing line if `fin` -/
def Shows (out : List Line) (us : List Upd) (fin : Bool) : Prop :=
  out = us.map Upd.line ++ (if fin then [Line.final] else [])

theorem shows_unique {out : List Line} {us us' : List Upd} {f f' : Bool} (h : Shows out us f) (h' : Shows out us' f') :
    us = us' ∧ f = f' := by
  unfold Shows at h h'
  have inj : Function.Injective Upd.line := by
    rintro ⟨a, b, c⟩ ⟨a', b', c'⟩ e
    simpa [Upd.line] using e
  have nf : ∀ l : List Upd, Line.final ∉ l.map Upd.line := by
    intro l hl
    obtain ⟨u, -, e⟩ := List.mem_map.mp hl
    simp [Upd.line] at e
  have e := h.symm.trans h'
  cases f <;> cases f' <;> simp only [if_true, Bool.false_eq_true, if_false, List.append_nil] at e
  · exact ⟨inj.list_map e, rfl⟩
  · exact absurd (e ▸ List.mem_append_right _ (List.mem_singleton_self _)) (nf us)
  · exact absurd (e.symm ▸ List.mem_append_right _ (List.mem_singleton_self _)) (nf us')
  · exact ⟨inj.list_map (List.append_cancel_right e), rfl⟩

/-- time does not go back, and advances in an accepted step -/
theorem step_time (hv : Valid cfg) (i : Input n) (s : St n ET) (hi : Inv cfg t0 s) :
    s.t ≤ (step cfg t0 i s).t ∧ (Accepted s (step cfg t0 i s) → s.t < (step cfg t0 i s).t) := by
  have hmin := hv.dtmin
  have key : ∀ X, ¬ attDt cfg t0 s < cfg.DTMIN → s.t < (accepted cfg t0 i s X).t := by
    intro X hd
    have := (accepted_t cfg hv t0 i s hi X).2.2.1
    linarith [not_lt.mp hd]
  unfold Accepted
  cases step_kind cfg t0 i s with
  | halted _ e => rw [e]; exact ⟨le_rfl, fun h => by omega⟩
  | output _ _ e => rw [e, forBody_t, forBody_nt]; exact ⟨le_rfl, fun h => by omega⟩
  | signal _ _ _ e => rw [e]; exact ⟨le_rfl, fun h => by simp [onSignal] at h⟩
  | small _ _ _ _ e => rw [e]; exact ⟨le_rfl, fun h => by simp at h⟩
  | fail _ _ _ _ _ e => rw [e]; exact ⟨le_rfl, fun h => by simp at h⟩
  | reject _ _ _ _ X _ _ e => rw [e]; exact ⟨le_rfl, fun h => by simp at h⟩
  | exitRec h1 h2 h3 h4 X h5 h6 h7 e => rw [e]; exact ⟨(key X h4).le, fun _ => key X h4⟩
  | accept h1 h2 h3 h4 X h5 h6 nd h7 e => rw [e]; exact ⟨(key X h4).le, fun _ => key X h4⟩

/-- what the display satisfies after `k` transitions -/
structure DispInv (clock : ℕ → ℝ) (cfg : Cfg n ET) (R : ℕ → St n ET) (k : ℕ) (p : Prog) (us : List Upd) : Prop where
  shows_ : Shows p.out us p.done
  apart : us.Pairwise (fun a b => a.now + 0.5 ≤ b.now)
  le_last : ∀ a ∈ us, a.now ≤ p.last
  last_eq : (us = [] ∧ p.last = 0) ∨ ∃ u, us.getLast? = some u ∧ u.now = p.last
  pos : p.pos = us.length % 4
  spin : us.map Upd.spin = (List.range us.length).map (fun i => spinner (i % 4))
  origin : ∀ a ∈ us, ∃ j < k, Accepted (R j) (R (j + 1)) ∧ a.pct = 100 * ((R (j + 1)).t / cfg.tf) ∧ a.now = clock j ∧
    (R (j + 1)).t / cfg.tf ≠ 1
  compl : (R k).ctl = .done 0 → p.done = true
  early : p.done = true → (R k).ctl = .done 0 ∨ ∃ j < k, Accepted (R j) (R (j + 1)) ∧ (R (j + 1)).t / cfg.tf = 1
  incr : Valid cfg → 0 < cfg.tf → us.Pairwise (fun a b => a.pct < b.pct) ∧ ∀ a ∈ us, a.pct ≤ 100 * ((R k).t / cfg.tf)

theorem showProgress_cases (now f : ℝ) (p : Prog) :
    (p.done = true ∧ showProgress now f p = p) ∨
    (p.done = false ∧ f = 1 ∧ showProgress now f p = { p with done := true, out := p.out ++ [.final] }) ∨
    (p.done = false ∧ f ≠ 1 ∧ now - p.last < 0.5 ∧ showProgress now f p = p) ∨
    (p.done = false ∧ f ≠ 1 ∧ 0.5 ≤ now - p.last ∧ showProgress now f p =
      { p with last := now, out := p.out ++ [.update now (100 * f) (spinner p.pos)], pos := (p.pos + 1) % 4 }) := by
  unfold showProgress
  cases hd : p.done
  · by_cases hf : f = 1
    · simp [hf]
    · by_cases hn : now - p.last < 0.5
      · simp [hf, hn]
      · simp only [Bool.false_eq_true, if_false, hf, hn, false_and, false_or, true_and, ne_eq, not_false_eq_true]
        exact ⟨not_lt.mp hn, trivial⟩
  · simp

theorem disp_step {k : ℕ} {p : Prog} {us : List Upd} (h : DispInv clock cfg (run cfg t0 nodes pot inp) k p us) :
    ∃ us', DispInv clock cfg (run cfg t0 nodes pot inp) (k + 1)
      (progStep cfg (clock k) (run cfg t0 nodes pot inp k) (run cfg t0 nodes pot inp (k + 1)) p) us' := by
  set R := run cfg t0 nodes pot inp with hR
  have hor : ∀ a ∈ us, ∃ j < k + 1, Accepted (R j) (R (j + 1)) ∧ a.pct = 100 * ((R (j + 1)).t / cfg.tf) ∧ a.now = clock j ∧
    (R (j + 1)).t / cfg.tf ≠ 1 := fun a ha => by
    obtain ⟨j, hj, h2⟩ := h.origin a ha
    exact ⟨j, by omega, h2⟩
  have htime : Valid cfg → (R k).t ≤ (R (k + 1)).t ∧ (Accepted (R k) (R (k + 1)) → (R k).t < (R (k + 1)).t) :=
    fun hv => step_time hv (inp k) (R k) (inv_run cfg hv t0 nodes pot inp k)
  have hincr : Valid cfg → 0 < cfg.tf → us.Pairwise (fun a b => a.pct < b.pct) ∧
      ∀ a ∈ us, a.pct ≤ 100 * ((R (k + 1)).t / cfg.tf) := fun hv htf => by
    obtain ⟨h1, h2⟩ := h.incr hv htf
    refine ⟨h1, fun a ha => (h2 a ha).trans ?_⟩
    have := div_le_div_of_nonneg_right (htime hv).1 htf.le
    linarith
  have hcd : (R k).ctl = .done 0 → (R (k + 1)).ctl = .done 0 := fun hc => by
    have : R (k + 1) = R k := halted_stays (inp k) (by rw [hc]; simp)
    rw [this, hc]
  have hear : p.done = true → (R (k + 1)).ctl = .done 0 ∨
      ∃ j < k + 1, Accepted (R j) (R (j + 1)) ∧ (R (j + 1)).t / cfg.tf = 1 := fun hd => by
    rcases h.early hd with e | ⟨j, hj, e⟩
    · exact Or.inl (hcd e)
    · exact Or.inr ⟨j, by omega, e⟩
  -- the display unchanged
  have same : ((R (k + 1)).ctl = .done 0 → p.done = true) → DispInv clock cfg R (k + 1) p us := fun hc =>
    ⟨h.shows_, h.apart, h.le_last, h.last_eq, h.pos, h.spin, hor, hc, hear, hincr⟩
  -- the closing line
  have fin : p.done = false → ((R (k + 1)).ctl = .done 0 ∨
      ∃ j < k + 1, Accepted (R j) (R (j + 1)) ∧ (R (j + 1)).t / cfg.tf = 1) →
      DispInv clock cfg R (k + 1) { p with done := true, out := p.out ++ [.final] } us := fun hd he => by
    refine ⟨?_, h.apart, h.le_last, h.last_eq, h.pos, h.spin, hor, fun _ => rfl, fun _ => he, hincr⟩
    have := h.shows_
    unfold Shows at this ⊢
    simp only [hd, Bool.false_eq_true, if_false, List.append_nil, if_true] at this ⊢
    rw [this]
  unfold progStep
  by_cases hacc : (R (k + 1)).nt = (R k).nt + 1 ∧ (R (k + 1)).ctl ≠ .noDomainWall
  · rw [if_pos hacc]
    have hAcc : Accepted (R k) (R (k + 1)) := hacc.1
    have hnd : (R (k + 1)).ctl ≠ .done 0 := by
      obtain ⟨h1, -, -, -, X, -, -, h7 | ⟨nd, -, h7⟩⟩ := accepted_kind (inp := inp k) (s := R k) hAcc
      · have : (R (k + 1)).ctl = .noDomainWall := by
          change (step cfg t0 (inp k) (R k)).ctl = _
          rw [h7.2]
        exact absurd this hacc.2
      · have : (R (k + 1)).ctl = (R k).ctl := by
          change (step cfg t0 (inp k) (R k)).ctl = _
          rw [h7]; rfl
        rw [this, h1]; simp
    rcases showProgress_cases (clock k) ((R (k + 1)).t / cfg.tf) p with ⟨hd, e⟩ | ⟨hd, hf, e⟩ | ⟨hd, hf, hn, e⟩ | ⟨hd, hf, hn, e⟩
    · rw [e]; exact ⟨us, same fun _ => hd⟩
    · rw [e]; exact ⟨us, fin hd (Or.inr ⟨k, by omega, hAcc, hf⟩)⟩
    · rw [e]; exact ⟨us, same fun hc => absurd hc hnd⟩
    · rw [e]
      refine ⟨us ++ [⟨clock k, 100 * ((R (k + 1)).t / cfg.tf), spinner p.pos⟩], ?_, ?_, ?_, ?_, ?_, ?_, ?_, ?_, ?_, ?_⟩
      · have := h.shows_
        unfold Shows at this ⊢
        simp only [hd, Bool.false_eq_true, if_false, List.append_nil] at this ⊢
        rw [this, List.map_append]
        rfl
      · rw [List.pairwise_append]
        refine ⟨h.apart, List.pairwise_singleton _ _, fun a ha b hb => ?_⟩
        rw [List.mem_singleton] at hb
        subst hb
        have := h.le_last a ha
        change a.now + 0.5 ≤ clock k
        linarith
      · intro a ha
        rcases List.mem_append.mp ha with ha | ha
        · have := h.le_last a ha
          change a.now ≤ clock k
          linarith
        · rw [List.mem_singleton] at ha
          subst ha
          exact le_rfl
      · exact Or.inr ⟨_, List.getLast?_concat, rfl⟩
      · simp [h.pos]
      · rw [List.map_append, h.spin, List.length_append, List.length_singleton, List.range_succ, List.map_append, h.pos]
        rfl
      · intro a ha
        rcases List.mem_append.mp ha with ha | ha
        · exact hor a ha
        · rw [List.mem_singleton] at ha
          subst ha
          exact ⟨k, by omega, hAcc, rfl, rfl, hf⟩
      · exact fun hc => absurd hc hnd
      · exact fun hc => by rw [show p.done = true from hc] at hd; cases hd
      · intro hv htf
        obtain ⟨h1, h2⟩ := h.incr hv htf
        have hlt := div_lt_div_of_pos_right ((htime hv).2 hAcc) htf
        refine ⟨?_, ?_⟩
        · rw [List.pairwise_append]
          refine ⟨h1, List.pairwise_singleton _ _, fun a ha b hb => ?_⟩
          rw [List.mem_singleton] at hb
          subst hb
          have := h2 a ha
          change a.pct < 100 * ((R (k + 1)).t / cfg.tf)
          linarith
        · intro a ha
          rcases List.mem_append.mp ha with ha | ha
          · exact (hincr hv htf).2 a ha
          · rw [List.mem_singleton] at ha
            subst ha
            exact le_rfl
  · rw [if_neg hacc]
    by_cases hc : (R k).ctl = .running ∧ (R (k + 1)).ctl = .done 0
    · rw [if_pos hc]
      rcases showProgress_cases (clock k) 1 p with ⟨hd, e⟩ | ⟨hd, hf, e⟩ | ⟨hd, hf, hn, e⟩ | ⟨hd, hf, hn, e⟩
      · rw [e]; exact ⟨us, same fun _ => hd⟩
      · rw [e]; exact ⟨us, fin hd (Or.inl hc.2)⟩
      · exact absurd rfl hf
      · exact absurd rfl hf
    · rw [if_neg hc]
      refine ⟨us, same fun h0 => ?_⟩
      by_cases hr : (R k).ctl = .running
      · exact absurd ⟨hr, h0⟩ hc
      · have : R (k + 1) = R k := halted_stays (inp k) hr
        exact h.compl (this ▸ h0)

theorem disp_run (k : ℕ) : ∃ us, DispInv clock cfg (run cfg t0 nodes pot inp) k (progress false clock cfg t0 nodes pot inp k) us := by
  induction k with
  | zero =>
    refine ⟨[], ?_⟩
    unfold progress
    simp only [Bool.false_eq_true, if_false]
    by_cases hc : (run cfg t0 nodes pot inp 0).ctl = .done 0
    · rw [if_pos hc]
      have e : showProgress 0 1 prog0 = { prog0 with done := true, out := [.final] } := by simp [showProgress, prog0]
      rw [e]
      exact ⟨rfl, .nil, by simp, Or.inl ⟨rfl, rfl⟩, rfl, rfl, by simp, fun _ => rfl, fun _ => Or.inl hc, fun _ _ => ⟨.nil, by simp⟩⟩
    · rw [if_neg hc]
      exact ⟨rfl, .nil, by simp, Or.inl ⟨rfl, rfl⟩, rfl, rfl, by simp, fun h => absurd h hc, fun h => absurd h (by simp [prog0]),
        fun _ _ => ⟨.nil, by simp⟩⟩
  | succ k ih =>
    obtain ⟨us, h⟩ := ih
    have : progress false clock cfg t0 nodes pot inp (k + 1) = progStep cfg (clock k) (run cfg t0 nodes pot inp k)
        (run cfg t0 nodes pot inp (k + 1)) (progress false clock cfg t0 nodes pot inp k) := by
      conv_lhs => unfold progress
      simp
    rw [this]
    exact disp_step h

/-- **C101** At any moment of a run the display consists of updates, at least half a second apart whatever the clock does,
each showing for the time `t` just reached the percentage `100 t / final_time`, with the four characters of the spinner in
turn; and, possibly, the closing line after them, once. -/
theorem C101_lines (clock : ℕ → ℝ) (cfg : Cfg n ET) (t0 : ℝ) (nodes : Fin n → Node) (pot : Fin n → ℝ × ℝ)
    (inp : ℕ → Input n) (k : ℕ) :
    ∃ us fin, Shows (progress false clock cfg t0 nodes pot inp k).out us fin ∧
      us.Pairwise (fun a b => a.now + 0.5 ≤ b.now) ∧
      (∀ i (h : i < us.length), us[i].spin = ['|', '/', '-', '\\'][i % 4]'(Nat.mod_lt _ (by decide))) ∧
      (∀ a ∈ us, ∃ j < k, Accepted (run cfg t0 nodes pot inp j) (run cfg t0 nodes pot inp (j + 1)) ∧ a.now = clock j ∧
        a.pct = 100 * ((run cfg t0 nodes pot inp (j + 1)).t / cfg.tf)) := by
  obtain ⟨us, h⟩ := disp_run (clock := clock) (cfg := cfg) (t0 := t0) (nodes := nodes) (pot := pot) (inp := inp) k
  refine ⟨us, _, h.shows_, h.apart, fun i hi => ?_, fun a ha => ?_⟩
  · have e : (us.map Upd.spin)[i]'(by simpa using hi) = spinner (i % 4) := by
      have := h.spin
      simp only [this, List.getElem_map, List.getElem_range]
    rw [List.getElem_map] at e
    rw [e]
    have : i % 4 < 4 := Nat.mod_lt _ (by decide)
    unfold spinner
    rw [List.getD_eq_getElem?_getD, List.getElem?_eq_getElem (by simpa using this)]
    rfl
  · obtain ⟨j, h1, h2, h3, h4, -⟩ := h.origin a ha
    exact ⟨j, h1, h2, h4, h3⟩

/-- **C101** Once the closing line is shown nothing follows. -/
theorem C101_closed (clock : ℕ → ℝ) (cfg : Cfg n ET) (t0 : ℝ) (nodes : Fin n → Node) (pot : Fin n → ℝ × ℝ)
    (inp : ℕ → Input n) (k m : ℕ) (h : Line.final ∈ (progress false clock cfg t0 nodes pot inp k).out) :
    (progress false clock cfg t0 nodes pot inp (k + m)).out = (progress false clock cfg t0 nodes pot inp k).out := by
  have hd : (progress false clock cfg t0 nodes pot inp k).done = true := by
    obtain ⟨us, hi⟩ := disp_run (clock := clock) (cfg := cfg) (t0 := t0) (nodes := nodes) (pot := pot) (inp := inp) k
    by_contra hc
    have := hi.shows_
    unfold Shows at this
    rw [Bool.not_eq_true] at hc
    simp only [hc, Bool.false_eq_true, if_false, List.append_nil] at this
    rw [this] at h
    obtain ⟨u, -, e⟩ := List.mem_map.mp h
    simp [Upd.line] at e
  have key : ∀ m, progress false clock cfg t0 nodes pot inp (k + m) = progress false clock cfg t0 nodes pot inp k := by
    intro m
    induction m with
    | zero => rfl
    | succ m ih =>
      have : progress false clock cfg t0 nodes pot inp (k + m + 1) = progStep cfg (clock (k + m))
          (run cfg t0 nodes pot inp (k + m)) (run cfg t0 nodes pot inp (k + m + 1))
          (progress false clock cfg t0 nodes pot inp (k + m)) := by
        conv_lhs => unfold progress
        simp
      rw [← Nat.add_assoc, this, ih]
      unfold progStep showProgress
      simp [hd]
  rw [key m]

/-- **C101** The percentages increase. -/
theorem C101_increasing (hv : Valid cfg) (htf : 0 < cfg.tf) (k : ℕ) {us : List Upd} {fin : Bool}
    (h : Shows (progress false clock cfg t0 nodes pot inp k).out us fin) : us.Pairwise (fun a b => a.pct < b.pct) := by
  obtain ⟨us', h'⟩ := disp_run (clock := clock) (cfg := cfg) (t0 := t0) (nodes := nodes) (pot := pot) (inp := inp) k
  rw [(shows_unique h h'.shows_).1]
  exact (h'.incr hv htf).1

/-- **C101** After an accepted step the display shows the time just reached, or is less than half a second old (or it is
closed). -/
theorem C101_fresh (k : ℕ) (hacc : Accepted (run cfg t0 nodes pot inp k) (run cfg t0 nodes pot inp (k + 1)))
    (hw : (run cfg t0 nodes pot inp (k + 1)).ctl ≠ .noDomainWall) {us : List Upd} {fin : Bool}
    (h : Shows (progress false clock cfg t0 nodes pot inp (k + 1)).out us fin) :
    fin = true ∨ (∃ u, us.getLast? = some u ∧ (u.pct = 100 * ((run cfg t0 nodes pot inp (k + 1)).t / cfg.tf) ∨
      clock k - u.now < 0.5)) ∨ (us = [] ∧ clock k < 0.5) := by
  obtain ⟨us', h'⟩ := disp_run (clock := clock) (cfg := cfg) (t0 := t0) (nodes := nodes) (pot := pot) (inp := inp) k
  obtain ⟨us'', h''⟩ := disp_run (clock := clock) (cfg := cfg) (t0 := t0) (nodes := nodes) (pot := pot) (inp := inp) (k + 1)
  obtain ⟨rfl, rfl⟩ := shows_unique h h''.shows_
  have e : progress false clock cfg t0 nodes pot inp (k + 1) = showProgress (clock k)
      ((run cfg t0 nodes pot inp (k + 1)).t / cfg.tf) (progress false clock cfg t0 nodes pot inp k) := by
    conv_lhs => unfold progress
    rw [if_neg (by simp)]
    unfold progStep
    rw [if_pos ⟨hacc, hw⟩]
  rcases showProgress_cases (clock k) ((run cfg t0 nodes pot inp (k + 1)).t / cfg.tf)
    (progress false clock cfg t0 nodes pot inp k) with ⟨hd, e1⟩ | ⟨hd, hf, e1⟩ | ⟨hd, hf, hn, e1⟩ | ⟨hd, hf, hn, e1⟩
  · left; rw [e, e1, hd]
  · left; rw [e, e1]
  · right
    rw [e, e1] at h''
    rcases h''.last_eq with ⟨h1, h2⟩ | ⟨u, h1, h2⟩
    · right; exact ⟨h1, by rw [h2] at hn; linarith⟩
    · left; exact ⟨u, h1, Or.inr (by rw [h2]; exact hn)⟩
  · right; left
    have hs : Shows (progress false clock cfg t0 nodes pot inp (k + 1)).out
        (us' ++ [⟨clock k, 100 * ((run cfg t0 nodes pot inp (k + 1)).t / cfg.tf),
          spinner (progress false clock cfg t0 nodes pot inp k).pos⟩]) false := by
      have := h'.shows_
      unfold Shows at this ⊢
      rw [e, e1]
      simp only [hd, Bool.false_eq_true, if_false, List.append_nil] at this ⊢
      rw [this, List.map_append]
      rfl
    obtain ⟨rfl, -⟩ := shows_unique h hs
    exact ⟨_, List.getLast?_concat, Or.inl rfl⟩

/-- **C101** A run that went to its end closed the display. -/
theorem C101_complete (k : ℕ) (h : (run cfg t0 nodes pot inp k).ctl = .done 0) :
    (progress false clock cfg t0 nodes pot inp k).out.getLast? = some .final := by
  obtain ⟨us, h'⟩ := disp_run (clock := clock) (cfg := cfg) (t0 := t0) (nodes := nodes) (pot := pot) (inp := inp) k
  have := h'.shows_
  unfold Shows at this
  rw [this, h'.compl h]
  simp

/-- **C101** With `verbose` there is no progress display. -/
theorem C101_verbose (k : ℕ) : (progress true clock cfg t0 nodes pot inp k).out = [] := by
  induction k with
  | zero => simp [progress, prog0]
  | succ k ih => unfold progress; simpa using ih

/-- no time of the run is beyond the last output time -/
theorem t_le_last (hv : Valid cfg) (h0 : 0 ≤ stepCount cfg t0) (k : ℕ) :
    (run cfg t0 nodes pot inp k).t ≤ t0 + stepCount cfg t0 * cfg.timeStep := by
  have hts := hv.tstep
  have hle : ∀ m : ℕ, (m : ℤ) ≤ stepCount cfg t0 → tTarget cfg t0 m ≤ t0 + stepCount cfg t0 * cfg.timeStep := by
    intro m hm
    have : (m : ℝ) ≤ (stepCount cfg t0 : ℝ) := by exact_mod_cast hm
    unfold tTarget
    nlinarith
  induction k with
  | zero =>
    change t0 ≤ _
    have : (0 : ℝ) ≤ (stepCount cfg t0 : ℝ) := by exact_mod_cast h0
    nlinarith
  | succ k ih =>
    have hi := inv_run cfg hv t0 nodes pot inp k
    change (step cfg t0 (inp k) (run cfg t0 nodes pot inp k)).t ≤ _
    cases step_kind cfg t0 (inp k) (run cfg t0 nodes pot inp k) with
    | halted _ e => rw [e]; exact ih
    | output _ _ e => rw [e, forBody_t]; exact ih
    | signal _ _ _ e => rw [e]; exact ih
    | small _ _ _ _ e => rw [e]; exact ih
    | fail _ _ _ _ _ e => rw [e]; exact ih
    | reject _ _ _ _ X _ _ e => rw [e]; exact ih
    | exitRec h1 h2 h3 h4 X h5 h6 h7 e =>
      rw [e]; exact ((accepted_t cfg hv t0 (inp k) _ hi X).1).trans (hle _ (hi.nbLe h1))
    | accept h1 h2 h3 h4 X h5 h6 nd h7 e =>
      rw [e]; exact ((accepted_t cfg hv t0 (inp k) _ hi X).1).trans (hle _ (hi.nbLe h1))

/-- **C101** If the last output time is not after the final time (in particular if the duration is a multiple of the output
period), every percentage shown is below 100, and the closing line is shown only when the final time is reached or the run is
over. -/
theorem C101_below (hv : Valid cfg) (htf : 0 < cfg.tf) (h0 : 0 ≤ stepCount cfg t0)
    (hlast : t0 + stepCount cfg t0 * cfg.timeStep ≤ cfg.tf) (k : ℕ) {us : List Upd} {fin : Bool}
    (h : Shows (progress false clock cfg t0 nodes pot inp k).out us fin) :
    (∀ a ∈ us, a.pct < 100) ∧
      (fin = true → (run cfg t0 nodes pot inp k).ctl = .done 0 ∨ (run cfg t0 nodes pot inp k).t = cfg.tf) := by
  obtain ⟨us', h'⟩ := disp_run (clock := clock) (cfg := cfg) (t0 := t0) (nodes := nodes) (pot := pot) (inp := inp) k
  obtain ⟨rfl, rfl⟩ := shows_unique h h'.shows_
  refine ⟨fun a ha => ?_, fun hf => ?_⟩
  · obtain ⟨j, -, -, h3, -, h5⟩ := h'.origin a ha
    have hj := (t_le_last (nodes := nodes) (pot := pot) (inp := inp) hv h0 (j + 1)).trans hlast
    have : (run cfg t0 nodes pot inp (j + 1)).t / cfg.tf ≤ 1 := (div_le_one htf).mpr hj
    have := lt_of_le_of_ne this h5
    rw [h3]; linarith
  · rcases h'.early hf with e | ⟨j, hj, -, e⟩
    · exact Or.inl e
    · right
      have e2 : (run cfg t0 nodes pot inp (j + 1)).t = cfg.tf := by
        rwa [div_eq_one_iff_eq htf.ne'] at e
      have mono : ∀ m, (run cfg t0 nodes pot inp (j + 1)).t ≤ (run cfg t0 nodes pot inp (j + 1 + m)).t := by
        intro m
        induction m with
        | zero => exact le_rfl
        | succ m ih => exact ih.trans (step_time hv (inp (j + 1 + m)) _ (inv_run cfg hv t0 nodes pot inp _)).1
      have hm := mono (k - (j + 1))
      rw [show j + 1 + (k - (j + 1)) = k by omega, e2] at hm
      exact le_antisymm ((t_le_last (nodes := nodes) (pot := pot) (inp := inp) hv h0 k).trans hlast) hm

/-- **C101** With an initial time `t0 > 0` (a restart) every percentage shown before the end exceeds the fraction of the
work done. The claim "percentage of work done" (time_integration.cpp:70) holds for `t0 = 0` only. -/
theorem C101_restart_negation (hv : Valid cfg) (h00 : 0 < t0) (ht0 : t0 < cfg.tf) (h0 : 0 ≤ stepCount cfg t0)
    (hlast : t0 + stepCount cfg t0 * cfg.timeStep ≤ cfg.tf) (k : ℕ) {us : List Upd} {fin : Bool}
    (h : Shows (progress false clock cfg t0 nodes pot inp k).out us fin) :
    ∀ a ∈ us, ∃ j < k, a.now = clock j ∧
      100 * (((run cfg t0 nodes pot inp (j + 1)).t - t0) / (cfg.tf - t0)) < a.pct := by
  have htf : 0 < cfg.tf := h00.trans ht0
  obtain ⟨us', h'⟩ := disp_run (clock := clock) (cfg := cfg) (t0 := t0) (nodes := nodes) (pot := pot) (inp := inp) k
  obtain ⟨rfl, rfl⟩ := shows_unique h h'.shows_
  intro a ha
  obtain ⟨j, h1, -, h3, h4, h5⟩ := h'.origin a ha
  refine ⟨j, h1, h4, ?_⟩
  have hj := (t_le_last (nodes := nodes) (pot := pot) (inp := inp) hv h0 (j + 1)).trans hlast
  have hlt : (run cfg t0 nodes pot inp (j + 1)).t < cfg.tf :=
    lt_of_le_of_ne hj fun e => h5 (by rw [e, div_self htf.ne'])
  rw [h3]
  refine mul_lt_mul_of_pos_left ?_ (by norm_num)
  rw [div_lt_div_iff₀ (by linarith) htf]
  nlinarith

/-! A run whose final time is not a multiple of the output period: period 10, final time 6, so that the only output after the
initial one is at 10. With `max(dt) = d ^ 2` the first step tried is `d`. -/

noncomputable def lateCfg (d : ℝ) : Cfg 1 ℝ := { exCfg with tf := 6, DTMAX := d ^ 2 }

noncomputable abbrev lateRun (d : ℝ) (inp : ℕ → Input 1) := run (lateCfg d) 0 (fun _ => exNode) exPot inp

theorem late_stepCount (d : ℝ) : stepCount (lateCfg d) 0 = 1 := by
  have : (((lateCfg d).tf - 0) / (lateCfg d).timeStep) = 3 / 5 := by norm_num [lateCfg, exCfg]
  unfold stepCount cRound
  rw [this, if_pos (by norm_num)]
  norm_num [Int.floor_eq_iff]

theorem late_valid {d : ℝ} (hd : 1 ≤ d) : Valid (lateCfg d) := by
  refine ⟨by norm_num [lateCfg, exCfg], ?_, by norm_num [lateCfg, exCfg], by norm_num [lateCfg, exCfg],
    fun t dt => by norm_num [lateCfg, exCfg]⟩
  change (1 : ℝ) ≤ d ^ 2
  nlinarith

theorem late_s1 {d : ℝ} (hd : 1 ≤ d) (inp : ℕ → Input 1) : (lateRun d inp 1).ctl = .running ∧ (lateRun d inp 1).t = 0 ∧
    (lateRun d inp 1).stepNb = 1 ∧ (lateRun d inp 1).nt = 0 ∧
    (lateRun d inp 1).stepper.softMax = d ∧ (lateRun d inp 1).stepper.hardMin = 1 := by
  have h0 : (init (lateCfg d) 0 (fun _ => exNode) exPot).ctl = .running := by
    change (if 0 ≤ stepCount (lateCfg d) 0 then Ctl.running else Ctl.done 0) = _
    rw [late_stepCount]; rfl
  have e : lateRun d inp 1 = { saver (lateCfg d) (init (lateCfg d) 0 (fun _ => exNode) exPot) with stepNb := 1 } := by
    change step (lateCfg d) 0 (inp 0) (init (lateCfg d) 0 (fun _ => exNode) exPot) = _
    have hnot : ¬ (init (lateCfg d) 0 (fun _ => exNode) exPot).t < tTarget (lateCfg d) 0
        (init (lateCfg d) 0 (fun _ => exNode) exPot).stepNb := by
      simp [init, tTarget]
    have hc : ((0 + 1 : ℕ) : ℤ) ≤ stepCount (lateCfg d) 0 := by rw [late_stepCount]; norm_num
    unfold step
    rw [h0]
    simp only
    rw [if_neg hnot]
    exact if_pos hc
  rw [e]
  refine ⟨h0, rfl, rfl, rfl, ?_, rfl⟩
  change Real.sqrt ((1 : ℝ) * d ^ 2) = d
  rw [one_mul, Real.sqrt_sq (by linarith)]

/-- the first step, of length `d` -/
theorem late_s2 {d : ℝ} (hd : 1 ≤ d) (hd8 : d ≤ 8) (inp : ℕ → Input 1) (h : inp 1 = exIn (some (0, 0))) :
    (lateRun d inp 2).ctl = .running ∧ (lateRun d inp 2).t = d ∧ (lateRun d inp 2).nt = 1 ∧ (lateRun d inp 2).stepNb = 1 := by
  obtain ⟨h1, h2, h3, h4, h6, h7⟩ := late_s1 hd inp
  have hs : tTarget (lateCfg d) 0 (lateRun d inp 1).stepNb - (lateRun d inp 1).t = 10 := by
    rw [h2, h3]; norm_num [tTarget, lateCfg, exCfg]
  have hatt : attDt (lateCfg d) 0 (lateRun d inp 1) = d := by
    unfold attDt
    rw [hs]
    unfold TimeStepper.step
    simp only
    rw [h6, h7, min_eq_right (by linarith), if_neg (by rintro ⟨a, -⟩; linarith)]
  have hlt : (lateRun d inp 1).t < tTarget (lateCfg d) 0 (lateRun d inp 1).stepNb := by linarith
  have hv0 : vMax (lateCfg d).gamma0 (lateCfg d).magNode (fun _ : Fin 1 => ((0 : ℝ), (0 : ℝ))) = 0 := by
    change vMax exCfg.gamma0 exCfg.magNode _ = 0
    rw [ex_vMax]
    simp
  have e : lateRun d inp 2 = accepted (lateCfg d) 0 (inp 1) (lateRun d inp 1) (fun _ => (0, 0)) := by
    change step (lateCfg d) 0 (inp 1) (lateRun d inp 1) = _
    unfold step
    rw [h1]
    simp only
    rw [if_pos hlt, whileBody_accept (X := fun _ => (0, 0)) _ _ _ _ (by rw [h]; rfl)
      (by rw [hatt]; change ¬ d < 1; linarith) (by rw [h]; rfl)
      (by rw [hv0, mul_zero]; norm_num [lateCfg, exCfg])]
    rfl
  rw [e]
  refine ⟨h1, ?_, ?_, h3⟩
  · unfold accepted
    simp only
    rw [hatt, if_neg (by rw [hs]; linarith), h2]
    norm_num [lateCfg, exCfg]
  · change (lateRun d inp 1).nt + 1 = 1
    rw [h4]

/-- the display after the first step -/
theorem late_display {d : ℝ} (hd : 1 ≤ d) (hd8 : d ≤ 8) (inp : ℕ → Input 1) (h : inp 1 = exIn (some (0, 0)))
    (clock : ℕ → ℝ) : progress false clock (lateCfg d) 0 (fun _ => exNode) exPot inp 2 =
      showProgress (clock 1) (d / 6) prog0 := by
  obtain ⟨h1, h2, h3, h4, -⟩ := late_s1 hd inp
  obtain ⟨h1', h2', h3', -⟩ := late_s2 hd hd8 inp h
  have h00 : (lateRun d inp 0).ctl = .running := by
    change (if 0 ≤ stepCount (lateCfg d) 0 then Ctl.running else Ctl.done 0) = _
    rw [late_stepCount]; rfl
  have e0 : progress false clock (lateCfg d) 0 (fun _ => exNode) exPot inp 0 = prog0 := by
    unfold progress
    rw [if_neg (by simp), if_neg (by rw [h00]; simp)]
  have e1 : progress false clock (lateCfg d) 0 (fun _ => exNode) exPot inp 1 = prog0 := by
    unfold progress
    rw [if_neg (by simp), e0]
    unfold progStep
    rw [if_neg, if_neg]
    · rintro ⟨-, a⟩
      rw [h1] at a; simp at a
    · rintro ⟨a, -⟩
      rw [h4] at a
      exact absurd a (by omega)
  conv_lhs => unfold progress
  rw [if_neg (by simp), e1]
  unfold progStep
  rw [if_pos ⟨by rw [h3', h4], by rw [h1']; simp⟩, h2']
  rfl

/-- **C101, what fails**: the percentage is not bounded by 100, and "100.00%" does not mean that the run is at its end. Output
period 10, final time 6: the run goes on until 10. With a first step of 8 the display shows 133 %; with a first step of 6 it
shows the closing line, and if the run is then interrupted it ends without having written its last output. -/
theorem C101_negation : ∃ (c c' : Cfg 1 ℝ) (inp inp' : ℕ → Input 1) (clock : ℕ → ℝ), Valid c ∧ Valid c' ∧
    (progress false clock c 0 (fun _ => exNode) exPot inp 2).out = [.update 1 (400 / 3) '|'] ∧
    (progress false clock c' 0 (fun _ => exNode) exPot inp' 2).out = [.final] ∧
    (run c' 0 (fun _ => exNode) exPot inp' 2).ctl = .running ∧
    (run c' 0 (fun _ => exNode) exPot inp' 3).ctl = .signalled := by
  refine ⟨lateCfg 8, lateCfg 6, fun _ => exIn (some (0, 0)), fun k => if k = 2 then exIn none true else exIn (some (0, 0)),
    fun _ => 1, late_valid (by norm_num), late_valid (by norm_num), ?_, ?_, ?_, ?_⟩
  · rw [late_display (by norm_num) (by norm_num) _ rfl]
    norm_num [showProgress, prog0, spinner]
  · rw [late_display (by norm_num) (by norm_num) _ rfl]
    norm_num [showProgress, prog0]
  · exact (late_s2 (by norm_num) (by norm_num) _ rfl).1
  · obtain ⟨h1, h2, -, h4⟩ := late_s2 (d := 6) (by norm_num) (by norm_num)
      (fun k => if k = 2 then exIn none true else exIn (some (0, 0))) rfl
    change (step (lateCfg 6) 0 _ (lateRun 6 _ 2)).ctl = _
    unfold step
    rw [h1]
    simp only
    rw [if_pos (by rw [h2, h4]; norm_num [tTarget, lateCfg, exCfg]), whileBody_sig _ _ _ _ rfl]
    rfl

/-- the hypotheses of `C101_increasing`, `C101_below` and `C101_fresh` are met by the run of `Proofs/TimeLoopExample` -/
example : Valid exCfg ∧ 0 < exCfg.tf ∧ 0 ≤ stepCount exCfg 0 ∧ 0 + stepCount exCfg 0 * exCfg.timeStep ≤ exCfg.tf ∧
    ∀ inp : ℕ → Input 1, inp 1 = exIn (some (0, 0)) → Accepted (exRun inp 1) (exRun inp 2) := by
  refine ⟨exValid, by norm_num [exCfg], by rw [ex_stepCount]; norm_num, by rw [ex_stepCount]; norm_num [exCfg], fun inp h => ?_⟩
  unfold Accepted
  rw [ex_accept inp h]
  rfl

/-- those of `C101_restart_negation`: from 10 to 20 -/
example : 0 < (10 : ℝ) ∧ (10 : ℝ) < exCfg.tf ∧ 0 ≤ stepCount exCfg 10 ∧ 10 + stepCount exCfg 10 * exCfg.timeStep ≤ exCfg.tf := by
  have e : stepCount exCfg 10 = 1 := by
    have : ((exCfg.tf - 10) / exCfg.timeStep) = 1 := by norm_num [exCfg]
    unfold stepCount cRound
    rw [this, if_pos (by norm_num)]
    norm_num [Int.floor_eq_iff]
  rw [e]
  norm_num [exCfg]

end Verif.TimeLoop
