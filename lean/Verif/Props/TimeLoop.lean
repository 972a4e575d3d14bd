import Verif.Proofs.TimeLoopExample

/-! Properties C01-C11: the time integration loop.

`run cfg t0 nodes pot inp k` is the state of the program after `k` transitions of
`Fem::time_integration`, for any settings `cfg`, any start time, any initial nodes and potentials and
any infinite sequence `inp` of environment behaviours. -/

namespace Verif.TimeLoop

variable {n : ℕ} {ET : Type}

/-! ## C01 -/

/-- `cRound x` is a nearest integer, ties away from zero. -/
theorem C01_round_nearest (x : ℝ) :
    |(cRound x : ℝ) - x| ≤ 1 / 2 ∧ (|(cRound x : ℝ) - x| = 1 / 2 → |x| ≤ |(cRound x : ℝ)|) := by
  unfold cRound
  split_ifs with h
  · have h1 := Int.floor_le (x + 1 / 2)
    have h2 := Int.lt_floor_add_one (x + 1 / 2)
    have h3 : (0 : ℝ) ≤ (⌊x + 1 / 2⌋ : ℝ) := by
      exact_mod_cast Int.floor_nonneg.mpr (by linarith)
    refine ⟨abs_le.mpr ⟨by linarith, by linarith⟩, fun he => ?_⟩
    rw [abs_of_nonneg h, abs_of_nonneg h3]
    rcases abs_eq (by norm_num : (0 : ℝ) ≤ 1 / 2) |>.mp he with he | he <;> linarith
  · push Not at h
    have h1 := Int.floor_le (-x + 1 / 2)
    have h2 := Int.lt_floor_add_one (-x + 1 / 2)
    have h3 : (0 : ℝ) ≤ (⌊-x + 1 / 2⌋ : ℝ) := by
      exact_mod_cast Int.floor_nonneg.mpr (by linarith)
    push_cast
    refine ⟨abs_le.mpr ⟨by linarith, by linarith⟩, fun he => ?_⟩
    rw [abs_of_neg h, abs_neg, abs_of_nonneg h3]
    rcases abs_eq (by norm_num : (0 : ℝ) ≤ 1 / 2) |>.mp he with he | he <;> linarith

example : |(cRound (5 / 2) : ℝ) - 5 / 2| ≤ 1 / 2 := (C01_round_nearest _).1

/-- At any moment the rows written are the beginning of the requested grid; on completion they are the
whole grid, of `step_count + 1` rows. Row `i` carries the iteration number `i`. -/
theorem C01_output_grid (cfg : Cfg n ET) (hv : Valid cfg) (t0 : ℝ) (nodes : Fin n → Node)
    (pot : Fin n → ℝ × ℝ) (inp : ℕ → Input n) (k : ℕ) :
    let s := run cfg t0 nodes pot inp k
    let total := (cRound ((cfg.tf - t0) / cfg.timeStep) + 1).toNat
    s.rows.map (·.t) <+: gridTimes t0 cfg.timeStep total ∧
    s.rows.map (·.nt) = List.range s.rows.length ∧
    (s.ctl = .done 0 → s.rows.map (·.t) = gridTimes t0 cfg.timeStep total) := by
  intro s total
  have hi := inv_run cfg hv t0 nodes pot inp k
  have hlen : s.rows.length ≤ total := by
    have := hi.rowsLe
    change (s.rows.length : ℤ) ≤ max 0 (cRound ((cfg.tf - t0) / cfg.timeStep) + 1) at this
    omega
  have e1 : s.rows.map (·.t) = gridTimes t0 cfg.timeStep s.rows.length := by
    unfold gridTimes
    apply List.ext_getElem
    · simp
    · intro i h1 h2
      simp only [List.getElem_map, List.getElem_range]
      exact (hi.rowT i (by simpa using h1)).1
  have e2 : s.rows.map (·.nt) = List.range s.rows.length := by
    apply List.ext_getElem
    · simp
    · intro i h1 h2
      simp only [List.getElem_map, List.getElem_range]
      exact (hi.rowT i (by simpa using h1)).2
  refine ⟨?_, e2, ?_⟩
  · rw [e1]
    unfold gridTimes
    obtain ⟨d, hd⟩ := Nat.exists_eq_add_of_le hlen
    rw [hd, List.range_add, List.map_append]
    exact List.prefix_append _ _
  · intro hd
    have := hi.done hd
    rw [e1]
    congr 1
    change (s.rows.length : ℤ) = max 0 (cRound ((cfg.tf - t0) / cfg.timeStep) + 1) at this
    omega

/-- rows already written are never modified or removed -/
theorem C01_rows_append_only (cfg : Cfg n ET) (t0 : ℝ) (nodes : Fin n → Node)
    (pot : Fin n → ℝ × ℝ) (inp : ℕ → Input n) (k j : ℕ) :
    (run cfg t0 nodes pot inp k).rows <+: (run cfg t0 nodes pot inp (k + j)).rows := by
  induction j with
  | zero => exact List.prefix_refl _
  | succ j ih =>
    refine ih.trans ?_
    change _ <+: (step cfg t0 (inp (k + j)) (run cfg t0 nodes pot inp (k + j))).rows
    cases step_kind cfg t0 (inp (k + j)) (run cfg t0 nodes pot inp (k + j)) with
    | halted _ e => rw [e]
    | output _ _ e => rw [e, forBody_rows]; exact List.prefix_append _ _
    | signal _ _ _ e => rw [e]; exact List.prefix_refl _
    | small _ _ _ _ e => rw [e]
    | fail _ _ _ _ _ e => rw [e]
    | reject _ _ _ _ X _ _ e => rw [e]
    | exitRec _ _ _ _ X _ _ _ e => rw [e]; exact List.prefix_refl _
    | accept _ _ _ _ X _ _ nd _ e => rw [e]; exact List.prefix_refl _

/-- the hypotheses are met by a run which writes rows -/
example : Valid exCfg ∧ (exRun (fun _ => exIn (some (0, 0))) 3).rows.map (·.t) = [0, 10] := by
  refine ⟨exValid, ?_⟩
  have h := (C01_output_grid exCfg exValid 0 (fun _ => exNode) exPot (fun _ => exIn (some (0, 0))) 3).1
  obtain ⟨h1, -⟩ := ex_s1 (fun _ => exIn (some (0, 0)))
  have hl : (exRun (fun _ => exIn (some (0, 0))) 3).rows.length = 2 := by
    rw [ex_row1 _ rfl]
    simp only [saver]
    rw [ex_accept _ rfl]
    simp [accepted, ex_run1, saver, init]
  have h' := List.prefix_iff_eq_take.mp h
  rw [List.length_map, hl] at h'
  rw [h']
  have : (cRound ((exCfg.tf - 0) / exCfg.timeStep) + 1).toNat = 3 := by
    have := ex_stepCount; unfold stepCount at this; rw [this]; rfl
  rw [this]
  simp [gridTimes, List.range_succ, exCfg]

/-! ## C02 -/

/-- Every accepted step has `min(dt) ≤ dt ≤ max(dt)(1 + 2^-23)`, advances the time by `dt` (as computed, or exactly if it reaches
the current output time) and does not pass the current output time. -/
theorem C02_dt_limits (cfg : Cfg n ET) (hv : Valid cfg) (t0 : ℝ) (nodes : Fin n → Node)
    (pot : Fin n → ℝ × ℝ) (inp : ℕ → Input n) (k : ℕ)
    (h : Accepted (run cfg t0 nodes pot inp k) (run cfg t0 nodes pot inp (k + 1))) :
    let s := run cfg t0 nodes pot inp k
    let s' := run cfg t0 nodes pot inp (k + 1)
    cfg.DTMIN ≤ s'.dt ∧ s'.dt ≤ cfg.DTMAX * (1 + 1 / 2 ^ 23) ∧ s.t < s'.t ∧
    (s'.t = cfg.add s.t s'.dt ∨ s'.t = t0 + s.stepNb * cfg.timeStep ∧ s'.t = s.t + s'.dt) ∧
    s'.t ≤ t0 + s.stepNb * cfg.timeStep ∧ s.stepNb = s.rows.length := by
  intro s s'
  have hi := inv_run cfg hv t0 nodes pot inp k
  obtain ⟨-, -, -, h4, X, -, -, h7⟩ := accepted_kind (inp := inp k) h
  obtain ⟨a1, -, a3, a4, a5⟩ := accepted_t cfg hv t0 (inp k) s hi X
  have h8 : s'.dt = attDt cfg t0 s ∧ s'.t = (accepted cfg t0 (inp k) s X).t := by
    rcases h7 with ⟨-, e⟩ | ⟨nd, -, e⟩
    · exact ⟨by change (step cfg t0 (inp k) s).dt = _; rw [e]; rfl,
        by change (step cfg t0 (inp k) s).t = _; rw [e]⟩
    · exact ⟨by change (step cfg t0 (inp k) s).dt = _; rw [e]; rfl,
        by change (step cfg t0 (inp k) s).t = _; rw [e]⟩
  rw [h8.1, h8.2]
  have hmin := hv.dtmin
  refine ⟨h4, (attDt_le_soft cfg t0 s).trans hi.soft, by linarith, ?_, a1, hi.nb⟩
  rcases a4 with e | e
  · exact Or.inl e
  · exact Or.inr ⟨e, a5 e⟩

/-- a run with an accepted step (of length 10) -/
example : Accepted (exRun (fun _ => exIn (some (0, 0))) 1) (exRun (fun _ => exIn (some (0, 0))) (1 + 1)) := by
  rw [show 1 + 1 = 2 from rfl, ex_accept _ rfl]; rfl

/-! ## C03 -/

/-- There is a number of transitions, depending only on the settings and the initial state, after which
the program has stopped whatever the environment does (in particular if every solve fails). -/
theorem C03_termination (cfg : Cfg n ET) (hv : Valid cfg) (t0 : ℝ) (nodes : Fin n → Node)
    (pot : Fin n → ℝ × ℝ) :
    ∃ M, ∀ inp : ℕ → Input n, ∀ k, M ≤ k → ¬ Running (run cfg t0 nodes pot inp k) := by
  obtain ⟨R, hR⟩ := exists_retryBound hv
  refine ⟨measure cfg t0 R (init cfg t0 nodes pot) + 1, fun inp k hk => ?_⟩
  rcases measure_run hv t0 hR nodes pot inp k with h | h
  · exact h
  · omega

/-- the statement is not about an empty set of runs: this one is running after one transition -/
example : Valid exCfg ∧ Running (exRun (fun _ => exIn none) 1) := ⟨exValid, (ex_s1 _).1⟩

/-- the addition of times may be rounded: here to a multiple of 1/8 -/
noncomputable def exCfgRounded : Cfg 1 ℝ := { exCfg with add := fun t dt => (⌊8 * (t + dt)⌋ : ℝ) / 8 }

example : Valid exCfgRounded := by
  refine ⟨exValid.dtmin, exValid.dtmax, exValid.tstep, exValid.dumax, fun t dt => ?_⟩
  have h1 := Int.floor_le (8 * (t + dt))
  have h2 := Int.lt_floor_add_one (8 * (t + dt))
  change |(⌊8 * (t + dt)⌋ : ℝ) / 8 - (t + dt)| ≤ 1 / 2
  rw [abs_le]
  constructor <;> linarith

/-- no node, a time that does not change when a step is added to it -/
noncomputable def exCfgStuck : Cfg 0 ℝ :=
  { tf := 1000, DTMIN := 1, DTMAX := 4, DUMAX := 1, timeStep := 1000, savePeriod := 0, gamma0 := 1, add := fun t _ => t
    magNode := fun _ => true, energy := fun _ t => t, recenter := some }

/-- The resolution of the time matters: when adding a step does not change the time (`min(dt)` and `max(dt)` below the rounding
error of the sum), every attempt is accepted and the program never stops, even though every solve succeeds. -/
theorem C03_negation_resolution (nodes : Fin 0 → Node) (pot : Fin 0 → ℝ × ℝ) (inp : ℕ → Input 0)
    (hsig : ∀ k, (inp k).sig = false) (hsol : ∀ k, (inp k).sol ≠ none) (k : ℕ) :
    Running (run exCfgStuck 0 nodes pot inp k) := by
  have hcount : stepCount exCfgStuck 0 = 1 := by
    have : ((exCfgStuck.tf - 0) / exCfgStuck.timeStep) = 1 := by norm_num [exCfgStuck]
    unfold stepCount cRound
    rw [this, if_pos (by norm_num)]
    norm_num [Int.floor_eq_iff]
  have hctl0 : (init exCfgStuck 0 nodes pot).ctl = .running := by
    change (if 0 ≤ stepCount exCfgStuck 0 then Ctl.running else Ctl.done 0) = _
    rw [hcount]; rfl
  have main : ∀ k, (run exCfgStuck 0 nodes pot inp (k + 1)).ctl = .running ∧
      (run exCfgStuck 0 nodes pot inp (k + 1)).t = 0 ∧ (run exCfgStuck 0 nodes pot inp (k + 1)).stepNb = 1 ∧
      (run exCfgStuck 0 nodes pot inp (k + 1)).stepper.hardMin = 1 ∧
      (run exCfgStuck 0 nodes pot inp (k + 1)).stepper.hardMax ≤ 8 ∧
      1 ≤ (run exCfgStuck 0 nodes pot inp (k + 1)).stepper.softMax ∧
      (run exCfgStuck 0 nodes pot inp (k + 1)).stepper.softMax ≤ 8 := by
    intro k
    induction k with
    | zero =>
      have e : run exCfgStuck 0 nodes pot inp 1 = { saver exCfgStuck (init exCfgStuck 0 nodes pot) with stepNb := 1 } := by
        change step exCfgStuck 0 (inp 0) (init exCfgStuck 0 nodes pot) = _
        have hnot : ¬ (init exCfgStuck 0 nodes pot).t < tTarget exCfgStuck 0 (init exCfgStuck 0 nodes pot).stepNb := by
          simp [init, tTarget]
        have hc : ((0 + 1 : ℕ) : ℤ) ≤ stepCount exCfgStuck 0 := by rw [hcount]; norm_num
        unfold step
        rw [hctl0]
        simp only
        rw [if_neg hnot]
        exact if_pos hc
      have hs : Real.sqrt ((1 : ℝ) * 4) = 2 := by
        rw [show (1 : ℝ) * 4 = 2 ^ 2 by norm_num, Real.sqrt_sq (by norm_num)]
      rw [e]
      refine ⟨hctl0, rfl, rfl, rfl, ?_, ?_, ?_⟩
      · change (4 : ℝ) * (1 + fltEpsilon) ≤ 8
        norm_num [fltEpsilon]
      · change 1 ≤ Real.sqrt ((1 : ℝ) * 4)
        rw [hs]; norm_num
      · change Real.sqrt ((1 : ℝ) * 4) ≤ 8
        rw [hs]; norm_num
    | succ k ih =>
      generalize hs : run exCfgStuck 0 nodes pot inp (k + 1) = s at ih
      obtain ⟨h1, h2, h3, h4, h5, h6, h7⟩ := ih
      have htar : tTarget exCfgStuck 0 s.stepNb = 1000 := by rw [h3]; norm_num [tTarget, exCfgStuck]
      have hlt : s.t < tTarget exCfgStuck 0 s.stepNb := by rw [h2, htar]; norm_num
      have hatt : attDt exCfgStuck 0 s = s.stepper.softMax := by
        unfold attDt TimeStepper.step
        simp only
        rw [htar, h2, h4, min_eq_right (by linarith), if_neg (by rintro ⟨q, -⟩; linarith)]
      obtain ⟨X, hX⟩ := Option.ne_none_iff_exists'.mp (hsol (k + 1))
      have hv0 : vMax exCfgStuck.gamma0 exCfgStuck.magNode X = 0 := by simp [vMax, v2max]
      have e : run exCfgStuck 0 nodes pot inp (k + 1 + 1) = accepted exCfgStuck 0 (inp (k + 1)) s X := by
        change step exCfgStuck 0 (inp (k + 1)) (run exCfgStuck 0 nodes pot inp (k + 1)) = _
        rw [hs]
        unfold step
        rw [h1]
        simp only
        rw [if_pos hlt, whileBody_accept _ _ _ _ (hsig _) (by rw [hatt]; change ¬ _ < (1 : ℝ); linarith) hX
          (by rw [hv0, mul_zero]; change ¬ (1 : ℝ) < 0; norm_num)]
        rfl
      rw [e]
      refine ⟨h1, ?_, h3, ?_⟩
      · unfold accepted
        simp only
        rw [hatt, htar, h2, if_neg (by intro q; linarith)]
        rfl
      · have hst : (accepted exCfgStuck 0 (inp (k + 1)) s X).stepper = s.stepper.next (1000 - 0) := by
          unfold accepted
          simp only
          rw [hv0, softLimitDu, if_pos rfl, attStepper, htar, h2]
        rw [hst]
        exact ⟨h4, h5, h6.trans (TimeStepper.next_ge _ _), TimeStepper.next_le _ _ _ h7 h5⟩
  cases k with
  | zero => exact hctl0
  | succ k => exact (main k).1

example : ∃ inp : ℕ → Input 0, (∀ k, (inp k).sig = false) ∧ ∀ k, (inp k).sol ≠ none :=
  ⟨fun _ => { sig := false, r := 0, sol := some (fun _ => (0, 0)), pot := fun _ => (0, 0) }, fun _ => rfl, fun _ => by simp⟩

/-! ## C04 -/

theorem displacement (cfg : Cfg n ET) (hv : Valid cfg) (hg : 0 ≤ cfg.gamma0) (t0 : ℝ) (inp : Input n)
    (s : St n ET) (X : Fin n → ℝ × ℝ)
    (hd : cfg.DTMIN ≤ attDt cfg t0 s) (hX : attDt cfg t0 s * vMax cfg.gamma0 cfg.magNode X ≤ cfg.DUMAX)
    (i : Fin n) (hm : cfg.magNode i = true) (hu : IsUnit3 (s.nodes i).cur.u) :
    let nd := solvedNodes cfg inp X (attDt cfg t0 s) s i
    edist nd.next.u (s.nodes i).cur.u ≤ attDt cfg t0 s * Real.sqrt nd.next.v.nsq ∧
    attDt cfg t0 s * Real.sqrt nd.next.v.nsq ≤ cfg.DUMAX := by
  intro nd
  have hs := solved_node (cfg := cfg) (inp := inp) (X := X) (dt := attDt cfg t0 s) hm hu
  simp only at hs
  obtain ⟨-, -, h3, h4⟩ := hs
  have hdt : 0 ≤ attDt cfg t0 s := hv.dtmin.le.trans hd
  have hE : edist nd.next.u (s.nodes i).cur.u = Real.sqrt (nd.next.u - (s.nodes i).cur.u).nsq := by
    unfold edist V3.nsq
    congr 1
    simp only [V3.sub_x, V3.sub_y, V3.sub_z]; ring
  refine ⟨?_, ?_⟩
  · rw [hE]
    calc Real.sqrt (nd.next.u - (s.nodes i).cur.u).nsq
        ≤ Real.sqrt (attDt cfg t0 s ^ 2 * nd.next.v.nsq) := Real.sqrt_le_sqrt h3
      _ = attDt cfg t0 s * Real.sqrt nd.next.v.nsq := by
        rw [Real.sqrt_mul (sq_nonneg _), Real.sqrt_sq hdt]
  · refine le_trans ?_ hX
    apply mul_le_mul_of_nonneg_left _ hdt
    change Real.sqrt (solvedNodes cfg inp X (attDt cfg t0 s) s i).next.v.nsq ≤ _
    rw [h4, Real.sqrt_mul (sq_nonneg _), Real.sqrt_sq hg]
    unfold vMax
    exact mul_le_mul_of_nonneg_left (Real.sqrt_le_sqrt (v2max_ge _ _ i hm)) hg

/-- In every accepted step no magnetic node's magnetization moves by more than `max(du)`; without
recentering the new start-of-step magnetization is that result, and it moved by at most `dt |v|`. -/
theorem C04_du_bound (cfg : Cfg n ET) (hv : Valid cfg) (hg : 0 ≤ cfg.gamma0)
    (hK : RecenterKeepsNext cfg) (hU : RecenterKeepsUnit cfg) (t0 : ℝ) (nodes : Fin n → Node)
    (pot : Fin n → ℝ × ℝ) (inp : ℕ → Input n)
    (h0 : ∀ i, cfg.magNode i = true → IsUnit3 (nodes i).next.u) (k : ℕ)
    (h : Accepted (run cfg t0 nodes pot inp k) (run cfg t0 nodes pot inp (k + 1)))
    (i : Fin n) (hm : cfg.magNode i = true) :
    let s := run cfg t0 nodes pot inp k
    let s' := run cfg t0 nodes pot inp (k + 1)
    edist (s'.nodes i).next.u (s.nodes i).cur.u ≤ cfg.DUMAX ∧
    (NoRecenter cfg → (s'.nodes i).cur.u = (s'.nodes i).next.u ∧
      edist (s'.nodes i).cur.u (s.nodes i).cur.u ≤ s'.dt * Real.sqrt (s'.nodes i).next.v.nsq) := by
  intro s s'
  have hu := (allUnit_run hU t0 nodes pot inp h0 k i hm).1
  obtain ⟨-, -, -, h4, X, -, h6, h7⟩ := accepted_kind (inp := inp k) h
  have hd := displacement cfg hv hg t0 (inp k) s X h4 h6 i hm hu
  simp only at hd
  obtain ⟨e1, e2, -, e4, -⟩ := computeAll_next_u cfg.magNode (inp k).pot
    (solvedNodes cfg (inp k) X (attDt cfg t0 s) s) i
  change ((accepted cfg t0 (inp k) s X).nodes i).next.u = _ at e1
  change ((accepted cfg t0 (inp k) s X).nodes i).next.v = _ at e2
  change ((accepted cfg t0 (inp k) s X).nodes i).cur = ((accepted cfg t0 (inp k) s X).nodes i).next at e4
  have hs' : s' = step cfg t0 (inp k) s := rfl
  have hdt : s'.dt = attDt cfg t0 s := by
    rw [hs']; rcases h7 with ⟨-, e⟩ | ⟨nd, -, e⟩ <;> rw [e] <;> rfl
  have key : (s'.nodes i).next.u = ((accepted cfg t0 (inp k) s X).nodes i).next.u := by
    rcases h7 with ⟨-, e⟩ | ⟨nd, hnd, e⟩
    · rw [hs', e]
    · rw [hs', e]; exact (hK _ _ hnd i).2.1
  refine ⟨by rw [key, e1]; exact hd.1.trans hd.2, fun hno => ?_⟩
  have key2 : s'.nodes i = (accepted cfg t0 (inp k) s X).nodes i := by
    rcases h7 with ⟨-, e⟩ | ⟨nd, hnd, e⟩
    · rw [hs', e]
    · rw [hno] at hnd
      cases hnd
      rw [hs', e]
  rw [key2]
  refine ⟨by rw [e4], ?_⟩
  rw [e4, e1, e2, hdt]
  exact hd.1

theorem exNoRecenter : NoRecenter exCfg := fun _ => rfl
theorem exKeepsNext : RecenterKeepsNext exCfg := by
  intro nd nd' h i; cases h; exact ⟨rfl, rfl, rfl⟩
theorem exKeepsUnit : RecenterKeepsUnit exCfg := by
  intro nd nd' h hu; cases h; exact hu
theorem exUnit : ∀ i : Fin 1, exCfg.magNode i = true → IsUnit3 ((fun _ : Fin 1 => exNode) i).next.u := by
  intro i _; simp [exNode, IsUnit3]

/-- the hypotheses hold together for a run with an accepted step -/
example : Valid exCfg ∧ 0 ≤ exCfg.gamma0 ∧ RecenterKeepsNext exCfg ∧ RecenterKeepsUnit exCfg ∧
    (∀ i : Fin 1, exCfg.magNode i = true → IsUnit3 exNode.next.u) ∧
    Accepted (exRun (fun _ => exIn (some (0, 0))) 1) (exRun (fun _ => exIn (some (0, 0))) 2) :=
  ⟨exValid, by norm_num [exCfg], exKeepsNext, exKeepsUnit, exUnit, by rw [ex_accept _ rfl]; rfl⟩

/-! ## C05 -/

/-- Unit magnetization at the start implies unit magnetization at every node of every later state and
of every row and `.sol` file written. -/
theorem C05_unit_norm (cfg : Cfg n ET) (hU : RecenterKeepsUnit cfg) (t0 : ℝ) (nodes : Fin n → Node)
    (pot : Fin n → ℝ × ℝ) (inp : ℕ → Input n)
    (h0 : ∀ i, cfg.magNode i = true → IsUnit3 (nodes i).next.u) (k : ℕ) :
    let s := run cfg t0 nodes pot inp k
    (∀ i, cfg.magNode i = true → IsUnit3 (s.nodes i).cur.u ∧ IsUnit3 (s.nodes i).next.u) ∧
    (∀ r ∈ s.rows, ∀ i, cfg.magNode i = true → IsUnit3 (r.nodes i).next.u) ∧
    (∀ f ∈ s.sols, ∀ i, cfg.magNode i = true → IsUnit3 (f.u i)) := by
  refine ⟨allUnit_run hU t0 nodes pot inp h0 k, ?_⟩
  induction k with
  | zero => exact ⟨fun r hr => by simp [run, init] at hr, fun f hf => by simp [run, init] at hf⟩
  | succ k ih =>
    have hu := allUnit_run hU t0 nodes pot inp h0 k
    change (∀ r ∈ (step cfg t0 (inp k) (run cfg t0 nodes pot inp k)).rows, _) ∧
      (∀ f ∈ (step cfg t0 (inp k) (run cfg t0 nodes pot inp k)).sols, _)
    cases step_kind cfg t0 (inp k) (run cfg t0 nodes pot inp k) with
    | halted _ e => rw [e]; exact ih
    | output _ _ e =>
      rw [e, forBody_rows, forBody_sols]
      refine ⟨fun r hr i hi => ?_, fun f hf i hi => ?_⟩
      · simp only [saver, List.mem_append, List.mem_singleton] at hr
        rcases hr with hr | rfl
        · exact ih.1 r hr i hi
        · exact (hu i hi).2
      · simp only [saver] at hf
        split_ifs at hf
        · simp only [List.mem_append, List.mem_singleton] at hf
          rcases hf with hf | rfl
          · exact ih.2 f hf i hi
          · exact (hu i hi).2
        · exact ih.2 f hf i hi
    | signal _ _ _ e =>
      rw [e]
      refine ⟨ih.1, fun f hf i hi => ?_⟩
      simp only [onSignal] at hf
      split_ifs at hf
      · simp only [List.mem_append, List.mem_singleton] at hf
        rcases hf with hf | rfl
        · exact ih.2 f hf i hi
        · exact (hu i hi).2
      · exact ih.2 f hf i hi
    | small _ _ _ _ e => rw [e]; exact ih
    | fail _ _ _ _ _ e => rw [e]; exact ih
    | reject _ _ _ _ X _ _ e => rw [e]; exact ih
    | exitRec _ _ _ _ X _ _ _ e => rw [e]; exact ih
    | accept _ _ _ _ X _ _ nd _ e => rw [e]; exact ih

/-- hypotheses met, and the run does rotate the magnetization: the rejected attempt has `NEXT.u ≠ CURRENT.u` -/
example : RecenterKeepsUnit exCfg ∧ (∀ i : Fin 1, exCfg.magNode i = true → IsUnit3 exNode.next.u) :=
  ⟨exKeepsUnit, exUnit⟩

/-! ## C06 -/

/-- After an attempt that is not kept: time, grid position and start-of-step data are those of before
the attempt; and the next attempted step is at most 0.95 times the previous one, at most half of it
if the linear solver had failed. -/
theorem C06_retry_smaller (cfg : Cfg n ET) (hv : Valid cfg) (t0 : ℝ) (nodes : Fin n → Node)
    (pot : Fin n → ℝ × ℝ) (inp : ℕ → Input n) (k : ℕ)
    (h : Retried (run cfg t0 nodes pot inp k) (run cfg t0 nodes pot inp (k + 1))) :
    let s := run cfg t0 nodes pot inp k
    let s' := run cfg t0 nodes pot inp (k + 1)
    let s'' := run cfg t0 nodes pot inp (k + 2)
    s'.t = s.t ∧ s'.stepNb = s.stepNb ∧ s'.rows = s.rows ∧ (∀ i, (s'.nodes i).cur = (s.nodes i).cur) ∧
    Running s' ∧ 0 < s'.dt ∧
    ((inp (k + 1)).sig = false →
      s''.dt ≤ 0.95 * s'.dt ∧ ((inp k).sol = none → s''.dt ≤ s'.dt / 2)) := by
  intro s s' s''
  have hpos := hv.dtmin
  obtain ⟨h1, h2, h3, h4, h5⟩ := retried_kind (inp := inp k) h
  have hs' : s' = step cfg t0 (inp k) s := rfl
  have hsoft : s'.stepper.softMax ≤ 0.95 * s'.dt ∧ ((inp k).sol = none → s'.stepper.softMax ≤ s'.dt / 2) := by
    rcases h5 with ⟨h6, e⟩ | ⟨X, hX, h6, e⟩
    · have hle : s'.stepper.softMax ≤ s'.dt / 2 := by
        rw [hs', e]; exact TimeStepper.setSoft_le _ _
      have hdt : s'.dt = attDt cfg t0 s := by rw [hs', e]
      exact ⟨by rw [hdt] at hle ⊢; change cfg.DTMIN ≤ attDt cfg t0 s at h4; linarith, fun _ => hle⟩
    · refine ⟨?_, fun hn => by rw [hX] at hn; cases hn⟩
      rw [hs', e]
      exact softLimitDu_reject hv.dumax (lt_of_lt_of_le hpos h4) h6
  have hrest : s'.t = s.t ∧ s'.stepNb = s.stepNb ∧ s'.rows = s.rows ∧
      (∀ i, (s'.nodes i).cur = (s.nodes i).cur) ∧ Running s' ∧ s'.dt = attDt cfg t0 s := by
    rcases h5 with ⟨h6, e⟩ | ⟨X, hX, h6, e⟩
    · rw [hs', e]; exact ⟨rfl, rfl, rfl, fun i => rfl, h1, rfl⟩
    · rw [hs', e]
      refine ⟨rfl, rfl, rfl, fun i => ?_, h1, rfl⟩
      change (solvedNodes cfg (inp k) X (attDt cfg t0 s) s i).cur = _
      unfold solvedNodes updateNodes
      split_ifs <;> rfl
  obtain ⟨r1, r2, r3, r4, r5, r6⟩ := hrest
  refine ⟨r1, r2, r3, r4, r5, by rw [r6]; exact lt_of_lt_of_le hpos h4, fun hsig => ?_⟩
  have hatt : s''.dt = attDt cfg t0 s' := by
    apply attempt_dt
    refine ⟨r5, ?_, hsig⟩
    rw [r1, r2]; exact h2
  have hle := attDt_le_soft cfg t0 s'
  rw [hatt]
  exact ⟨hle.trans hsoft.1, fun hn => hle.trans (hsoft.2 hn)⟩

/-- both kinds of retries occur -/
example : Retried (exRun (fun _ => exIn none) 1) (exRun (fun _ => exIn none) 2) ∧
    Retried (exRun (fun _ => exIn (some (1, 0))) 1) (exRun (fun _ => exIn (some (1, 0))) 2) := by
  constructor
  · rw [ex_fail _ rfl]; unfold Retried; rw [(ex_s1 _).2.2.2.1]
  · rw [ex_reject _ rfl]; unfold Retried; rw [(ex_s1 _).2.2.2.1]

/-! ## C07 -/

/-- A running program stops with status 1 exactly when it makes an attempt with `dt < min(dt)`. -/
theorem C07_abort_iff (cfg : Cfg n ET) (t0 : ℝ) (nodes : Fin n → Node)
    (pot : Fin n → ℝ × ℝ) (inp : ℕ → Input n) (k : ℕ) (h : Running (run cfg t0 nodes pot inp k)) :
    (run cfg t0 nodes pot inp (k + 1)).ctl = .done 1 ↔
    Attempt cfg t0 (inp k) (run cfg t0 nodes pot inp k) ∧ (run cfg t0 nodes pot inp (k + 1)).dt < cfg.DTMIN := by
  set s := run cfg t0 nodes pot inp k with hs
  have hs' : run cfg t0 nodes pot inp (k + 1) = step cfg t0 (inp k) s := rfl
  rw [hs']
  have hr : s.ctl = .running := h
  cases step_kind cfg t0 (inp k) s with
  | halted h' e => exact absurd h h'
  | output _ ht e =>
    rw [e]
    constructor
    · intro hd
      rcases forBody_or cfg t0 s with e' | e' <;> rw [e'] at hd
      · change s.ctl = _ at hd; rw [hr] at hd; cases hd
      · simp at hd
    · rintro ⟨⟨-, h2, -⟩, -⟩; exact absurd h2 ht
  | signal _ _ hi e =>
    rw [e]
    refine ⟨fun hd => by simp [onSignal] at hd, ?_⟩
    rintro ⟨⟨-, -, h2⟩, -⟩; rw [hi] at h2; cases h2
  | small _ ht hi hd e =>
    rw [e]
    exact ⟨fun _ => ⟨⟨hr, ht, hi⟩, hd⟩, fun _ => rfl⟩
  | fail _ _ _ hd _ e =>
    rw [e]
    exact ⟨fun hc => by simp [hr] at hc, fun hc => absurd hc.2 hd⟩
  | reject _ _ _ hd X _ _ e =>
    rw [e]
    exact ⟨fun hc => by simp [hr] at hc, fun hc => absurd hc.2 hd⟩
  | exitRec _ _ _ hd X _ _ _ e =>
    rw [e]
    exact ⟨fun hc => by simp at hc, fun hc => absurd hc.2 hd⟩
  | accept _ _ _ hd X _ _ nd _ e =>
    rw [e]
    refine ⟨fun hc => ?_, fun hc => absurd hc.2 hd⟩
    change s.ctl = _ at hc; rw [hr] at hc; cases hc

example : Running (exRun (fun _ => exIn none) 1) := (ex_s1 _).1

noncomputable def exCfg7 : Cfg 0 ℝ :=
  { tf := 10, DTMIN := 1, DTMAX := 4, DUMAX := 1, timeStep := 5 / 2, savePeriod := 0, gamma0 := 1, add := (· + ·)
    magNode := fun _ => true, energy := fun _ t => t, recenter := some }

/-- C07 fails as stated: with `min(dt) = 1`, `max(dt) = 4`, output period 2.5, the very first attempt
is aborted with `dt = 0.5 < min(dt)`, although no attempt was ever rejected and the step 2.5 was
admissible. -/
theorem C07_negation :
    Valid exCfg7 ∧ exCfg7.DTMIN ≤ exCfg7.timeStep ∧ exCfg7.timeStep ≤ exCfg7.DTMAX ∧
    ∀ (nodes : Fin 0 → Node) (pot : Fin 0 → ℝ × ℝ) (inp : ℕ → Input 0), (inp 1).sig = false →
      (run exCfg7 0 nodes pot inp 2).ctl = .done 1 ∧ (run exCfg7 0 nodes pot inp 2).nt = 0 ∧
      (run exCfg7 0 nodes pot inp 2).flag = 0 := by
  refine ⟨⟨by norm_num [exCfg7], by norm_num [exCfg7], by norm_num [exCfg7], by norm_num [exCfg7],
    fun t dt => by norm_num [exCfg7]⟩,
    by norm_num [exCfg7], by norm_num [exCfg7], ?_⟩
  intro nodes pot inp hsig
  have hcount : stepCount exCfg7 0 = 4 := by
    have : ((exCfg7.tf - 0) / exCfg7.timeStep) = 4 := by norm_num [exCfg7]
    unfold stepCount cRound
    rw [this, if_pos (by norm_num)]
    norm_num [Int.floor_eq_iff]
  have hctl0 : (init exCfg7 0 nodes pot).ctl = .running := by
    change (if 0 ≤ stepCount exCfg7 0 then Ctl.running else Ctl.done 0) = _
    rw [hcount]; rfl
  have e1 : run exCfg7 0 nodes pot inp 1 = { saver exCfg7 (init exCfg7 0 nodes pot) with stepNb := 1 } := by
    change step exCfg7 0 (inp 0) (init exCfg7 0 nodes pot) = _
    have hnot : ¬ (init exCfg7 0 nodes pot).t < tTarget exCfg7 0 (init exCfg7 0 nodes pot).stepNb := by
      simp [init, tTarget]
    have hc : ((0 + 1 : ℕ) : ℤ) ≤ stepCount exCfg7 0 := by rw [hcount]; norm_num
    unfold step
    rw [hctl0]
    simp only
    rw [if_neg hnot]
    exact if_pos hc
  have hsoft : (run exCfg7 0 nodes pot inp 1).stepper.softMax = 2 := by
    rw [e1]
    change Real.sqrt ((1 : ℝ) * 4) = 2
    rw [show (1 : ℝ) * 4 = 2 ^ 2 by norm_num, Real.sqrt_sq (by norm_num)]
  have hmin : (run exCfg7 0 nodes pot inp 1).stepper.hardMin = 1 := by rw [e1]; rfl
  have hst : tTarget exCfg7 0 (run exCfg7 0 nodes pot inp 1).stepNb - (run exCfg7 0 nodes pot inp 1).t = 5 / 2 := by
    rw [e1]; change tTarget exCfg7 0 1 - 0 = 5 / 2; norm_num [tTarget, exCfg7]
  have hatt : attDt exCfg7 0 (run exCfg7 0 nodes pot inp 1) = 1 / 2 := by
    unfold attDt
    rw [hst]
    unfold TimeStepper.step
    simp only
    rw [hsoft, hmin]
    norm_num
  have hctl1 : (run exCfg7 0 nodes pot inp 1).ctl = .running := by rw [e1]; exact hctl0
  have hlt : (run exCfg7 0 nodes pot inp 1).t < tTarget exCfg7 0 (run exCfg7 0 nodes pot inp 1).stepNb := by
    linarith
  have e2 : run exCfg7 0 nodes pot inp 2 = whileBody exCfg7 0 (inp 1) (run exCfg7 0 nodes pot inp 1) := by
    change step exCfg7 0 (inp 1) (run exCfg7 0 nodes pot inp 1) = _
    unfold step
    rw [hctl1]
    simp only
    rw [if_pos hlt]
  rw [e2, whileBody_small _ _ _ _ hsig (by rw [hatt]; norm_num [exCfg7])]
  refine ⟨rfl, ?_, ?_⟩
  · change (run exCfg7 0 nodes pot inp 1).nt = 0; rw [e1]; rfl
  · change (run exCfg7 0 nodes pot inp 1).flag = 0; rw [e1]; rfl

/-- What holds (the full statement would be: an abort implies that an attempt since the last accepted
step was rejected): with an output period of at least `min(dt)` and `max(dt) ≥ 9 min(dt)`, an abort
implies that some earlier attempt gave a reason, i.e. a solver failure at `dt < 6 min(dt)` or a node so
fast that `0.95 max(du)/|v| < 3 min(dt)`. Missing: the reason need not be a rejection, nor be recent. -/
theorem C07_abort_reason_partial (cfg : Cfg n ET) (hv : Valid cfg) (hg : 0 ≤ cfg.gamma0)
    (h9 : 9 * cfg.DTMIN ≤ cfg.DTMAX) (hts : cfg.DTMIN ≤ cfg.timeStep) (t0 : ℝ) (nodes : Fin n → Node)
    (pot : Fin n → ℝ × ℝ) (inp : ℕ → Input n) (k : ℕ)
    (h : (run cfg t0 nodes pot inp k).ctl = .done 1) :
    ∃ j < k, AbortReason cfg (inp j) (run cfg t0 nodes pot inp j) (run cfg t0 nodes pot inp (j + 1)) := by
  obtain ⟨j, hj, hr⟩ := abort_reason hv hg h9 hts t0 nodes pot inp k h
  exact ⟨j, hj, abortReason_of hr⟩

/-- settings satisfying the hypotheses -/
example : Valid exCfg ∧ 0 ≤ exCfg.gamma0 ∧ 9 * exCfg.DTMIN ≤ exCfg.DTMAX ∧ exCfg.DTMIN ≤ exCfg.timeStep :=
  ⟨exValid, by norm_num [exCfg], by norm_num [exCfg], by norm_num [exCfg]⟩

/-- The only ways of not completing: if no signal arrives, recentering never ends the program and no attempt gives a reason to
abort, the run ends normally with the whole grid of rows written, after finitely many transitions. -/
theorem C03_completes (cfg : Cfg n ET) (hv : Valid cfg) (hg : 0 ≤ cfg.gamma0) (h9 : 9 * cfg.DTMIN ≤ cfg.DTMAX)
    (hts : cfg.DTMIN ≤ cfg.timeStep) (hR : ∀ nd, cfg.recenter nd ≠ none) (t0 : ℝ) (nodes : Fin n → Node)
    (pot : Fin n → ℝ × ℝ) (inp : ℕ → Input n) (hsig : ∀ k, (inp k).sig = false)
    (hno : ∀ k, ¬ AbortReason cfg (inp k) (run cfg t0 nodes pot inp k) (run cfg t0 nodes pot inp (k + 1))) :
    ∃ M, ∀ k, M ≤ k → (run cfg t0 nodes pot inp k).ctl = .done 0 ∧
      (run cfg t0 nodes pot inp k).rows.map (·.t) =
        gridTimes t0 cfg.timeStep (cRound ((cfg.tf - t0) / cfg.timeStep) + 1).toNat := by
  obtain ⟨M, hM⟩ := C03_termination cfg hv t0 nodes pot
  have hne : ∀ k, (run cfg t0 nodes pot inp k).ctl ≠ .signalled ∧ (run cfg t0 nodes pot inp k).ctl ≠ .noDomainWall ∧
      ∀ st, (run cfg t0 nodes pot inp k).ctl = .done st → st = 0 ∨ st = 1 := by
    intro k
    induction k with
    | zero =>
      change (if 0 ≤ stepCount cfg t0 then Ctl.running else Ctl.done 0) ≠ _ ∧ (if 0 ≤ stepCount cfg t0 then Ctl.running else Ctl.done 0) ≠ _ ∧
        ∀ st, (if 0 ≤ stepCount cfg t0 then Ctl.running else Ctl.done 0) = _ → _
      split_ifs <;> simp
    | succ k ih =>
      change (step cfg t0 (inp k) (run cfg t0 nodes pot inp k)).ctl ≠ _ ∧ (step cfg t0 (inp k) (run cfg t0 nodes pot inp k)).ctl ≠ _ ∧
        ∀ st, (step cfg t0 (inp k) (run cfg t0 nodes pot inp k)).ctl = _ → _
      cases step_kind cfg t0 (inp k) (run cfg t0 nodes pot inp k) with
      | halted _ e => rw [e]; exact ih
      | output h _ e =>
        rw [e]
        rcases forBody_or cfg t0 (run cfg t0 nodes pot inp k) with e' | e' <;> rw [e']
        · exact ih
        · simp
      | signal _ _ hi e => rw [hsig k] at hi; cases hi
      | small _ _ _ _ e => rw [e]; simp
      | fail _ _ _ _ _ e => rw [e]; exact ih
      | reject _ _ _ _ X _ _ e => rw [e]; exact ih
      | exitRec _ _ _ _ X _ _ hrec e => exact absurd hrec (hR _)
      | accept _ _ _ _ X _ _ nd hr e => rw [e]; exact ih
  refine ⟨M, fun k hk => ?_⟩
  have hnr := hM inp k hk
  obtain ⟨n1, n2, n3⟩ := hne k
  have hd : (run cfg t0 nodes pot inp k).ctl = .done 0 := by
    cases hc : (run cfg t0 nodes pot inp k).ctl with
    | running => exact absurd hc hnr
    | signalled => exact absurd hc n1
    | noDomainWall => exact absurd hc n2
    | done st =>
      rcases n3 st hc with rfl | rfl
      · rfl
      · obtain ⟨j, -, hj⟩ := C07_abort_reason_partial cfg hv hg h9 hts t0 nodes pot inp k hc
        exact absurd hj (hno j)
  exact ⟨hd, (C01_output_grid cfg hv t0 nodes pot inp k).2.2 hd⟩

/-- a velocity that is zero is never a reason to abort -/
theorem no_abort_zero (cfg : Cfg n ET) (hv : Valid cfg) (inp : Input n) (h : inp.sol = some fun _ => (0, 0)) (s s' : St n ET) :
    ¬ AbortReason cfg inp s s' := by
  rintro (⟨-, h', -⟩ | ⟨X, hX, i, -, hi⟩)
  · rw [h] at h'; cases h'
  · rw [h] at hX
    cases hX
    have := hv.dumax
    simp only [ne_eq, OfNat.ofNat_ne_zero, not_false_eq_true, zero_pow, add_zero, Real.sqrt_zero, mul_zero] at hi
    linarith

/-- the hypotheses are met -/
example : ∀ k, ¬ AbortReason exCfg (exIn (some (0, 0))) (exRun (fun _ => exIn (some (0, 0))) k)
    (exRun (fun _ => exIn (some (0, 0))) (k + 1)) := fun _ => no_abort_zero exCfg exValid _ rfl _ _

/-! ## C08 -/

/-- C08 fails as stated: an attempt rejected because of `max(du)` leaves its result in `NEXT`; a
signal arriving then saves the rejected magnetization under the time of the start of the step. -/
theorem C08_negation :
    ∃ inp : ℕ → Input 1, let s := exRun inp 2
      let s' := exRun inp 3
      Running s ∧ s'.ctl = .signalled ∧
      ∃ f ∈ s'.sols, f.nt = none ∧ f.t = s.t ∧ f.t = 0 ∧ (s.nodes 0).cur.u = exNode.next.u ∧
        f.u 0 ≠ (s.nodes 0).cur.u := by
  let inp : ℕ → Input 1 := fun k => if k = 1 then exIn (some (1, 0)) else exIn none true
  refine ⟨inp, ?_⟩
  intro s s'
  have e2 : s = _ := ex_reject inp rfl
  obtain ⟨h1, h2, h3, h4, h5, h6, h7, h8⟩ := ex_s1 inp
  have hrun : s.ctl = .running := by rw [e2]; exact h1
  have ht : s.t = 0 := by rw [e2]; exact h2
  have hnb : s.stepNb = 1 := by rw [e2]; exact h3
  have hlt : s.t < tTarget exCfg 0 s.stepNb := by
    rw [ht, hnb]; norm_num [tTarget, exCfg]
  have e3 : s' = onSignal exCfg s := by
    change step exCfg 0 (inp 2) s = _
    unfold step
    rw [hrun]
    simp only
    rw [if_pos hlt]
    exact whileBody_sig _ _ _ _ rfl
  refine ⟨hrun, by rw [e3]; rfl, { nt := none, t := s.t, u := fun i => (s.nodes i).next.u }, ?_, rfl, rfl, ht, ?_, ?_⟩
  · rw [e3]
    simp only [onSignal]
    rw [if_pos (by norm_num [exCfg])]
    simp
  · rw [e2]
    simp [solvedNodes, updateNodes, baseProjection, h8, exCfg, Node.makeEvol, Node.setBasis, exNode]
  · intro hcon
    have hy : (s.nodes 0).next.u.y = (s.nodes 0).cur.u.y := by rw [← hcon]
    rw [e2] at hy
    have hep : Node.basisEp ⟨1, 0, 0⟩ = ⟨0, 1, 0⟩ := by
      have hidx : Node.minIdx ⟨1, 0, 0⟩ = 1 := by
        unfold Node.minIdx; norm_num
      unfold Node.basisEp
      rw [hidx]
      have : (V3.unit 1 - ((V3.unit 1).dot ⟨1, 0, 0⟩) * (⟨1, 0, 0⟩ : V3)) = ⟨0, 1, 0⟩ := by
        ext <;> simp [V3.unit, V3.dot]
      simp only
      rw [this]
      have hn : V3.nsq ⟨0, 1, 0⟩ = 1 := by simp [V3.nsq]
      rw [V3.normalize_of_pos (by rw [hn]; norm_num), hn]
      ext <;> simp
    have hin : (inp 1).r = 0 := rfl
    have hnode : (solvedNodes exCfg (inp 1) (fun _ => (1, 0)) 10 (exRun inp 1) 0).next.u =
        V3.normalize ⟨1, 10, 0⟩ := by
      simp only [solvedNodes, updateNodes, baseProjection, h8, exCfg, Node.makeEvol, Node.setBasis,
        exNode, hin, mul_zero, Real.cos_zero, Real.sin_zero, hep, if_true]
      congr 1
      ext <;> simp
    have hcur : (solvedNodes exCfg (inp 1) (fun _ => (1, 0)) 10 (exRun inp 1) 0).cur.u = ⟨1, 0, 0⟩ := by
      simp [solvedNodes, updateNodes, baseProjection, h8, exCfg, Node.makeEvol, Node.setBasis, exNode]
    simp only at hy
    rw [hnode, hcur] at hy
    have hn : V3.nsq ⟨1, 10, 0⟩ = 101 := by simp [V3.nsq]; norm_num
    rw [V3.normalize_of_pos (by rw [hn]; norm_num), hn] at hy
    simp at hy

/-- What holds (the full statement has no condition on past rejections): without recentering, if every
`max(du)` rejection before the signal was followed by an accepted step, the file saved on a signal
holds the current time and the start-of-step magnetization. -/
theorem C08_signal_state_partial (cfg : Cfg n ET) (hr : NoRecenter cfg) (hsave : 0 < cfg.savePeriod)
    (t0 : ℝ) (nodes : Fin n → Node) (pot : Fin n → ℝ × ℝ) (inp : ℕ → Input n) (k : ℕ)
    (h : Running (run cfg t0 nodes pot inp k)) (hs : (run cfg t0 nodes pot inp (k + 1)).ctl = .signalled)
    (hdu : ∀ j < k, DuRejected (inp j) (run cfg t0 nodes pot inp j) (run cfg t0 nodes pot inp (j + 1)) →
      ∃ j', j < j' ∧ j' < k ∧
        Accepted (run cfg t0 nodes pot inp j') (run cfg t0 nodes pot inp (j' + 1))) :
    let s := run cfg t0 nodes pot inp k
    ∃ f : SolFile n, (run cfg t0 nodes pot inp (k + 1)).sols = s.sols ++ [f] ∧ f.nt = none ∧ f.t = s.t ∧
      ∀ i, f.u i = (s.nodes i).cur.u := by
  intro s
  have hc := clean_run hr t0 nodes pot inp k hdu
  change (step cfg t0 (inp k) s).ctl = _ at hs
  have hrun : s.ctl = .running := h
  cases step_kind cfg t0 (inp k) s with
  | halted h' e => exact absurd h h'
  | output _ ht e =>
    rw [e] at hs
    rcases forBody_or cfg t0 s with e' | e' <;> rw [e'] at hs
    · change s.ctl = _ at hs; rw [hrun] at hs; cases hs
    · cases hs
  | signal _ _ hi e =>
    refine ⟨{ nt := none, t := s.t, u := fun i => (s.nodes i).next.u }, ?_, rfl, rfl, hc⟩
    change (step cfg t0 (inp k) s).sols = _
    rw [e]
    simp only [onSignal]
    rw [if_pos hsave]
  | small _ ht hi hd e => rw [e] at hs; cases hs
  | fail _ _ _ hd _ e => rw [e] at hs; simp [hrun] at hs
  | reject _ _ _ hd X _ _ e => rw [e] at hs; simp [hrun] at hs
  | exitRec _ _ _ hd X _ _ _ e => rw [e] at hs; cases hs
  | accept _ _ _ hd X _ _ nd _ e => rw [e] at hs; change s.ctl = _ at hs; rw [hrun] at hs; cases hs

/-- a signal arriving at the first attempt, with saving enabled and no rejection before -/
example : NoRecenter exCfg ∧ 0 < exCfg.savePeriod ∧ Running (exRun (fun _ => exIn none true) 1) ∧
    (exRun (fun _ => exIn none true) 2).ctl = .signalled ∧
    (∀ j < 1, DuRejected (exIn none true) (exRun (fun _ => exIn none true) j) (exRun (fun _ => exIn none true) (j + 1)) →
      ∃ j', j < j' ∧ j' < 1 ∧ Accepted (exRun (fun _ => exIn none true) j') (exRun (fun _ => exIn none true) (j' + 1))) := by
  refine ⟨exNoRecenter, by norm_num [exCfg], (ex_s1 _).1, ?_, ?_⟩
  · rw [ex_while, whileBody_sig _ _ _ _ rfl]; rfl
  · rintro j - ⟨-, h⟩; exact absurd rfl h

/-! ## C09 -/

/-- The numbered `.sol` files are, in order, those of the rows whose rank is a multiple of the (positive)
period; each holds the time and the magnetization of its row. -/
theorem C09_sol_cadence (cfg : Cfg n ET) (hv : Valid cfg) (t0 : ℝ) (nodes : Fin n → Node)
    (pot : Fin n → ℝ × ℝ) (inp : ℕ → Input n) (k : ℕ) :
    let s := run cfg t0 nodes pot inp k
    s.sols.filterMap (·.nt) =
      (List.range s.rows.length).filter (fun i => decide (0 < cfg.savePeriod ∧ cfg.savePeriod ∣ i)) ∧
    (∀ f ∈ s.sols, ∀ m, f.nt = some m → ∃ h : m < s.rows.length,
      f.t = (s.rows[m]).t ∧ ∀ i, f.u i = ((s.rows[m]).nodes i).next.u) ∧
    ((s.sols.filter (fun f => f.nt.isNone)) ≠ [] → s.ctl = .signalled) := by
  intro s
  have hS := solInv_run cfg t0 nodes pot inp k
  have hi := inv_run cfg hv t0 nodes pot inp k
  have hrt : s.rows.map (·.nt) = List.range s.rows.length := (C01_output_grid cfg hv t0 nodes pot inp k).2.1
  have hpred : ∀ i : ℕ, decide (cfg.savePeriod ≠ 0 ∧ i % cfg.savePeriod = 0) =
      decide (0 < cfg.savePeriod ∧ cfg.savePeriod ∣ i) := by
    intro i
    congr 1
    rw [Nat.pos_iff_ne_zero, Nat.dvd_iff_mod_eq_zero]
  refine ⟨?_, ?_, hS.exit⟩
  · have e1 : s.sols.filterMap (·.nt) = (s.sols.filter (fun f => f.nt.isSome)).filterMap (·.nt) := by
      rw [List.filterMap_filter]
      apply List.filterMap_congr
      intro f _
      cases f.nt <;> rfl
    rw [e1, hS.sols, List.filterMap_map]
    have e2 : ((fun f : SolFile n => f.nt) ∘ solOfRow (ET := ET)) = fun r => some r.nt := rfl
    rw [e2]
    have e3 : ∀ l : List (Row n ET), l.filterMap (fun r => some r.nt) = l.map (·.nt) := by
      intro l; induction l with
      | nil => rfl
      | cons a l ih => simp
    rw [e3, ← hrt, List.filter_map]
    congr 1
    apply List.filter_congr
    intro r _
    exact hpred r.nt
  · intro f hf m hm
    have : f ∈ s.sols.filter (fun f => f.nt.isSome) := by
      rw [List.mem_filter]; exact ⟨hf, by rw [hm]; rfl⟩
    rw [hS.sols, List.mem_map] at this
    obtain ⟨r, hr, rfl⟩ := this
    have hr' := List.mem_of_mem_filter hr
    obtain ⟨j, hj, hje⟩ := List.mem_iff_getElem.mp hr'
    have hnt := (hi.rowT j hj).2
    have hjm : j = m := by
      rw [← hnt]
      simp only [solOfRow, Option.some.injEq] at hm
      rw [← hm]
      exact congrArg Row.nt hje
    subst hjm
    refine ⟨hj, ?_, ?_⟩
    · exact (congrArg Row.t hje).symm
    · intro i; exact congrArg (fun r : Row n ET => (r.nodes i).next.u) hje.symm

/-- with period 2, the run above has written the files of rows 0 after two rows -/
example : (exRun (fun _ => exIn (some (0, 0))) 3).sols.filterMap (·.nt) = [0] := by
  have hl : (exRun (fun _ => exIn (some (0, 0))) 3).rows.length = 2 := by
    rw [ex_row1 _ rfl]
    simp only [saver]
    rw [ex_accept _ rfl]
    simp [accepted, ex_run1, saver, init]
  have := (C09_sol_cadence exCfg exValid 0 (fun _ => exNode) exPot (fun _ => exIn (some (0, 0))) 3).1
  rw [hl] at this
  rw [this]
  rfl

/-! ## C10 -/

/-- Exact characterisation: the energies of row 0 are evaluated at the time of the row; those of every
later row are evaluated at the time of the row minus the last time step. -/
theorem C10_energy_time (cfg : Cfg n ET) (hv : Valid cfg) (hE : EnergyOfNext cfg)
    (hR : RecenterKeepsNext cfg) (t0 : ℝ) (nodes : Fin n → Node) (pot : Fin n → ℝ × ℝ)
    (inp : ℕ → Input n) (k : ℕ) :
    ∀ r ∈ (run cfg t0 nodes pot inp k).rows,
      r.E = cfg.energy r.nodes (if r.nt = 0 then r.t else r.t - r.dt) :=
  (eInv_run hv hE hR t0 nodes pot inp k).rows

theorem exEnergyOfNext : EnergyOfNext exCfg := fun _ _ _ _ => rfl

example : Valid exCfg ∧ EnergyOfNext exCfg ∧ RecenterKeepsNext exCfg := ⟨exValid, exEnergyOfNext, exKeepsNext⟩

/-- C10 fails as stated: with an energy equal to the field at the time of evaluation, here `t` itself,
the row stamped 10 holds 0. -/
theorem C10_negation :
    ∃ inp : ℕ → Input 1, ∃ r ∈ (exRun inp 3).rows, r.t = 10 ∧ r.E = 0 ∧ r.E ≠ exCfg.energy r.nodes r.t := by
  refine ⟨fun _ => exIn (some (0, 0)), ?_⟩
  have e3 := ex_row1 (fun _ => exIn (some (0, 0))) rfl
  have e2 := ex_accept (fun _ => exIn (some (0, 0))) rfl
  obtain ⟨h1, h2, h3, -⟩ := ex_s1 (fun _ => exIn (some (0, 0)))
  have ht : (exRun (fun _ => exIn (some (0, 0))) 2).t = 10 := by
    rw [e2]
    unfold accepted
    simp only
    rw [h2, h3, ex_att, if_pos (by norm_num [tTarget, exCfg])]
    norm_num [tTarget, exCfg]
  have hE : (exRun (fun _ => exIn (some (0, 0))) 2).E = 0 := by
    rw [e2]; exact h2
  refine ⟨{ nt := (exRun (fun _ => exIn (some (0, 0))) 2).rows.length
            t := (exRun (fun _ => exIn (some (0, 0))) 2).t
            dt := (exRun (fun _ => exIn (some (0, 0))) 2).dt, E := (exRun (fun _ => exIn (some (0, 0))) 2).E
            nodes := (exRun (fun _ => exIn (some (0, 0))) 2).nodes }, ?_, ht, hE, ?_⟩
  · rw [e3]; simp [saver]
  · simp only
    rw [hE]
    change (0 : ℝ) ≠ (exRun (fun _ => exIn (some (0, 0))) 2).t
    rw [ht]; norm_num

/-- What holds (the full statement is for every time-dependent field): with a field constant in time the
energies of a row are those of the row's magnetization at the row's time. -/
theorem C10_energy_time_partial (cfg : Cfg n ET) (hv : Valid cfg) (hE : EnergyOfNext cfg)
    (hR : RecenterKeepsNext cfg) (hconst : ∀ nd t t', cfg.energy nd t = cfg.energy nd t')
    (t0 : ℝ) (nodes : Fin n → Node) (pot : Fin n → ℝ × ℝ) (inp : ℕ → Input n) (k : ℕ) :
    ∀ r ∈ (run cfg t0 nodes pot inp k).rows, r.E = cfg.energy r.nodes r.t := by
  intro r hr
  rw [C10_energy_time cfg hv hE hR t0 nodes pot inp k r hr]
  exact hconst _ _ _

/-- a non-trivial energy satisfying the hypotheses -/
example : ∃ cfg : Cfg 1 ℝ, Valid cfg ∧ EnergyOfNext cfg ∧ RecenterKeepsNext cfg ∧
    (∀ nd t t', cfg.energy nd t = cfg.energy nd t') ∧ (∃ nd, cfg.energy nd 0 ≠ 0) := by
  refine ⟨{ exCfg with energy := fun nd _ => (nd 0).next.u.x },
    ⟨exValid.dtmin, exValid.dtmax, exValid.tstep, exValid.dumax, exValid.addErr⟩, ?_, exKeepsNext, fun _ _ _ => rfl,
    ⟨fun _ => exNode, by simp [exNode]⟩⟩
  intro nd nd' t h
  change (nd' 0).next.u.x = (nd 0).next.u.x
  rw [(h 0).2.1]

/-! ## C11 -/

/-- A failed solve leaves every node's position, start-of-step data and end-of-step data
(magnetization, velocity, potentials) as they were. -/
theorem C11_failed_solve (cfg : Cfg n ET) (t0 : ℝ) (nodes : Fin n → Node)
    (pot : Fin n → ℝ × ℝ) (inp : ℕ → Input n) (k : ℕ) (h : (inp k).sol = none) (i : Fin n) :
    let s := run cfg t0 nodes pot inp k
    let s' := run cfg t0 nodes pot inp (k + 1)
    (s'.nodes i).p = (s.nodes i).p ∧ (s'.nodes i).cur = (s.nodes i).cur ∧
    (s'.nodes i).next = (s.nodes i).next := by
  intro s s'
  change ((step cfg t0 (inp k) s).nodes i).p = _ ∧ ((step cfg t0 (inp k) s).nodes i).cur = _ ∧
    ((step cfg t0 (inp k) s).nodes i).next = _
  cases step_kind cfg t0 (inp k) s with
  | halted _ e => rw [e]; exact ⟨rfl, rfl, rfl⟩
  | output _ ht e => rw [e, forBody_nodes]; exact ⟨rfl, rfl, rfl⟩
  | signal _ _ hi e => rw [e]; exact ⟨rfl, rfl, rfl⟩
  | small _ ht hi hd e => rw [e]; exact ⟨rfl, rfl, rfl⟩
  | fail _ _ _ hd _ e => rw [e]; exact ⟨rfl, rfl, rfl⟩
  | reject _ _ _ hd X hX _ e => rw [h] at hX; cases hX
  | exitRec _ _ _ hd X hX _ _ e => rw [h] at hX; cases hX
  | accept _ _ _ hd X hX _ nd _ e => rw [h] at hX; cases hX

/-- an attempt with a failed solve -/
example : Retried (exRun (fun _ => exIn none) 1) (exRun (fun _ => exIn none) 2) ∧ (exIn none).sol = none := by
  refine ⟨?_, rfl⟩
  rw [ex_fail _ rfl]; unfold Retried; rw [(ex_s1 _).2.2.2.1]

end Verif.TimeLoop
