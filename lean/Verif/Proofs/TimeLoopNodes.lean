import Verif.Proofs.TimeLoopInv

/-! Invariants about nodes, energies, saved files, and the termination measure. -/

namespace Verif.TimeLoop

variable {n : ℕ} {ET : Type}

theorem isUnit3_iff (a : V3) : IsUnit3 a ↔ a.nsq = 1 := by
  unfold IsUnit3 V3.nsq; constructor <;> intro h <;> nlinarith

theorem forBody_or (cfg : Cfg n ET) (t0 : ℝ) (s : St n ET) :
    forBody cfg t0 s = { saver cfg s with stepNb := s.stepNb + 1 } ∨
    forBody cfg t0 s = { saver cfg s with stepNb := s.stepNb + 1, ctl := .done 0 } := by
  by_cases hc : ((s.stepNb + 1 : ℕ) : ℤ) ≤ stepCount cfg t0
  · exact Or.inl (if_pos hc)
  · exact Or.inr (if_neg hc)
theorem forBody_nt (cfg : Cfg n ET) (t0 : ℝ) (s : St n ET) : (forBody cfg t0 s).nt = s.nt := by
  rcases forBody_or cfg t0 s with e | e <;> rw [e] <;> rfl
theorem forBody_flag (cfg : Cfg n ET) (t0 : ℝ) (s : St n ET) : (forBody cfg t0 s).flag = s.flag := by
  rcases forBody_or cfg t0 s with e | e <;> rw [e] <;> rfl
theorem forBody_nodes (cfg : Cfg n ET) (t0 : ℝ) (s : St n ET) : (forBody cfg t0 s).nodes = s.nodes := by
  rcases forBody_or cfg t0 s with e | e <;> rw [e] <;> rfl
theorem forBody_t (cfg : Cfg n ET) (t0 : ℝ) (s : St n ET) : (forBody cfg t0 s).t = s.t := by
  rcases forBody_or cfg t0 s with e | e <;> rw [e] <;> rfl
theorem forBody_dt (cfg : Cfg n ET) (t0 : ℝ) (s : St n ET) : (forBody cfg t0 s).dt = s.dt := by
  rcases forBody_or cfg t0 s with e | e <;> rw [e] <;> rfl
theorem forBody_E (cfg : Cfg n ET) (t0 : ℝ) (s : St n ET) : (forBody cfg t0 s).E = s.E := by
  rcases forBody_or cfg t0 s with e | e <;> rw [e] <;> rfl
theorem forBody_rows (cfg : Cfg n ET) (t0 : ℝ) (s : St n ET) :
    (forBody cfg t0 s).rows = (saver cfg s).rows := by
  rcases forBody_or cfg t0 s with e | e <;> rw [e]
theorem forBody_sols (cfg : Cfg n ET) (t0 : ℝ) (s : St n ET) :
    (forBody cfg t0 s).sols = (saver cfg s).sols := by
  rcases forBody_or cfg t0 s with e | e <;> rw [e]
theorem forBody_stepNb (cfg : Cfg n ET) (t0 : ℝ) (s : St n ET) :
    (forBody cfg t0 s).stepNb = s.stepNb + 1 := by
  rcases forBody_or cfg t0 s with e | e <;> rw [e]
theorem forBody_stepper (cfg : Cfg n ET) (t0 : ℝ) (s : St n ET) :
    (forBody cfg t0 s).stepper = s.stepper := by
  rcases forBody_or cfg t0 s with e | e <;> rw [e] <;> rfl


/-! ### unit norm -/

theorem AllUnit.baseProjection {cfg : Cfg n ET} {nd : Fin n → Node} (h : AllUnit cfg nd) (r : ℝ) :
    AllUnit cfg (baseProjection r nd) := fun i hi => h i hi

/-- one node of a successful solve -/
theorem solved_node {cfg : Cfg n ET} {inp : Input n} {X : Fin n → ℝ × ℝ} {dt : ℝ}
    {s : St n ET} {i : Fin n} (hm : cfg.magNode i = true) (hu : IsUnit3 (s.nodes i).cur.u) :
    let nd := solvedNodes cfg inp X dt s i
    nd.cur = (s.nodes i).cur ∧ IsUnit3 nd.next.u ∧
    (nd.next.u - (s.nodes i).cur.u).nsq ≤ dt ^ 2 * nd.next.v.nsq ∧
    nd.next.v.nsq = cfg.gamma0 ^ 2 * ((X i).1 * (X i).1 + (X i).2 * (X i).2) := by
  rw [isUnit3_iff] at hu
  have hs := Node.setBasis_spec (2 / Real.pi * inp.r) (s.nodes i) hu
  simp only at hs
  obtain ⟨h1, h2, h3, h4, h5, -⟩ := hs
  have e : solvedNodes cfg inp X dt s i =
      ((s.nodes i).setBasis (2 / Real.pi * inp.r)).makeEvol ((X i).1 * cfg.gamma0)
        ((X i).2 * cfg.gamma0) dt := by
    simp [solvedNodes, updateNodes, hm, baseProjection]
  set m := (s.nodes i).setBasis (2 / Real.pi * inp.r) with hm'
  have hcur : m.cur = (s.nodes i).cur := rfl
  have hv : ((X i).1 * cfg.gamma0 * m.ep + (X i).2 * cfg.gamma0 * m.eq).nsq =
      cfg.gamma0 ^ 2 * ((X i).1 * (X i).1 + (X i).2 * (X i).2) := by
    rw [Node.nsq_tangent h1 h2 h4]; ring
  have hw : (s.nodes i).cur.u.dot
      (dt * ((X i).1 * cfg.gamma0 * m.ep + (X i).2 * cfg.gamma0 * m.eq)) = 0 := by
    rw [V3.dot_smul_right, V3.dot_add_right, V3.dot_smul_right, V3.dot_smul_right, h3,
      V3.dot_comm, h5]; ring
  have hn := Node.normalize_step hu hw
  simp only
  rw [e]
  refine ⟨rfl, ?_, ?_, hv⟩
  · rw [isUnit3_iff]; exact hn.1
  · refine hn.2.trans ?_
    rw [V3.nsq_smul]
    exact le_rfl

theorem AllUnit.solved {cfg : Cfg n ET} {s : St n ET} (h : AllUnit cfg s.nodes) (inp : Input n)
    (X : Fin n → ℝ × ℝ) (dt : ℝ) : AllUnit cfg (solvedNodes cfg inp X dt s) := by
  intro i hi
  have := solved_node (inp := inp) (X := X) (dt := dt) hi (h i hi).1
  simp only at this
  exact ⟨by rw [this.1]; exact (h i hi).1, this.2.1⟩

theorem computeAll_next_u (mag : Fin n → Bool) (pot : Fin n → ℝ × ℝ) (nd : Fin n → Node) (i : Fin n) :
    (computeAllNodes mag pot nd i).next.u = (nd i).next.u ∧
    (computeAllNodes mag pot nd i).next.v = (nd i).next.v ∧
    (computeAllNodes mag pot nd i).p = (nd i).p ∧
    (computeAllNodes mag pot nd i).cur = (computeAllNodes mag pot nd i).next ∧
    (computeAllNodes mag pot nd i).next = (setPot mag pot nd i).next := by
  unfold computeAllNodes setPot Node.evolution
  split_ifs <;> simp

theorem AllUnit.computeAll {cfg : Cfg n ET} {nd : Fin n → Node}
    (h : ∀ i, cfg.magNode i = true → IsUnit3 (nd i).next.u) (pot : Fin n → ℝ × ℝ) :
    AllUnit cfg (computeAllNodes cfg.magNode pot nd) := by
  intro i hi
  obtain ⟨e1, -, -, e2, -⟩ := computeAll_next_u cfg.magNode pot nd i
  rw [e2, e1]
  exact ⟨h i hi, h i hi⟩

theorem allUnit_step {cfg : Cfg n ET} (hrec : RecenterKeepsUnit cfg) (t0 : ℝ) (inp : Input n)
    {s : St n ET} (h : AllUnit cfg s.nodes) : AllUnit cfg (step cfg t0 inp s).nodes := by
  have hacc : ∀ X, AllUnit cfg (accepted cfg t0 inp s X).nodes := fun X =>
    AllUnit.computeAll (fun i hi => (h.solved inp X _ i hi).2) _
  cases step_kind cfg t0 inp s with
  | halted _ e => rw [e]; exact h
  | output _ _ e =>
    rw [e, forBody_nodes]; exact h
  | signal _ _ _ e => rw [e]; exact h
  | small _ _ _ _ e => rw [e]; exact h
  | fail _ _ _ _ _ e => rw [e]; exact h.baseProjection _
  | reject _ _ _ _ X _ _ e => rw [e]; exact h.solved _ _ _
  | exitRec _ _ _ _ X _ _ _ e => rw [e]; exact hacc X
  | accept _ _ _ _ X _ _ nd hr e => rw [e]; exact hrec _ _ hr (hacc X)

theorem allUnit_run {cfg : Cfg n ET} (hrec : RecenterKeepsUnit cfg) (t0 : ℝ) (nodes : Fin n → Node)
    (pot : Fin n → ℝ × ℝ) (inp : ℕ → Input n)
    (h : ∀ i, cfg.magNode i = true → IsUnit3 (nodes i).next.u) (k : ℕ) :
    AllUnit cfg (run cfg t0 nodes pot inp k).nodes := by
  induction k with
  | zero => exact AllUnit.computeAll h pot
  | succ k ih => exact allUnit_step hrec t0 (inp k) ih

/-! ### what a transition that increments the counters is -/

/-- an accepting transition -/
theorem accepted_kind {cfg : Cfg n ET} {t0 : ℝ} {inp : Input n} {s : St n ET}
    (h : Accepted s (step cfg t0 inp s)) :
    s.ctl = .running ∧ s.t < tTarget cfg t0 s.stepNb ∧ inp.sig = false ∧
    cfg.DTMIN ≤ attDt cfg t0 s ∧ ∃ X, inp.sol = some X ∧
      attDt cfg t0 s * vMax cfg.gamma0 cfg.magNode X ≤ cfg.DUMAX ∧
      ((cfg.recenter (accepted cfg t0 inp s X).nodes = none ∧
        step cfg t0 inp s = { accepted cfg t0 inp s X with ctl := .noDomainWall }) ∨
       (∃ nd, cfg.recenter (accepted cfg t0 inp s X).nodes = some nd ∧
        step cfg t0 inp s = { accepted cfg t0 inp s X with nodes := nd })) := by
  unfold Accepted at h
  cases step_kind cfg t0 inp s with
  | halted _ e => rw [e] at h; omega
  | output _ _ e => rw [e, forBody_nt] at h; omega
  | signal _ _ _ e => rw [e] at h; simp [onSignal] at h
  | small _ _ _ _ e => rw [e] at h; simp at h
  | fail _ _ _ _ _ e => rw [e] at h; simp at h
  | reject _ _ _ _ X _ _ e => rw [e] at h; simp at h
  | exitRec h1 h2 h3 h4 X h5 h6 h7 e =>
    exact ⟨h1, h2, h3, not_lt.mp h4, X, h5, not_lt.mp h6, Or.inl ⟨h7, e⟩⟩
  | accept h1 h2 h3 h4 X h5 h6 nd h7 e =>
    exact ⟨h1, h2, h3, not_lt.mp h4, X, h5, not_lt.mp h6, Or.inr ⟨nd, h7, e⟩⟩

/-- a retried transition -/
theorem retried_kind {cfg : Cfg n ET} {t0 : ℝ} {inp : Input n} {s : St n ET}
    (h : Retried s (step cfg t0 inp s)) :
    s.ctl = .running ∧ s.t < tTarget cfg t0 s.stepNb ∧ inp.sig = false ∧
    cfg.DTMIN ≤ attDt cfg t0 s ∧
    ((inp.sol = none ∧ step cfg t0 inp s = { s with
        dt := attDt cfg t0 s, nodes := baseProjection inp.r s.nodes
        flag := s.flag + 1
        stepper := (attStepper cfg t0 s).setSoftLimit (attDt cfg t0 s / 2) }) ∨
     (∃ X, inp.sol = some X ∧ cfg.DUMAX < attDt cfg t0 s * vMax cfg.gamma0 cfg.magNode X ∧
        step cfg t0 inp s = { s with
                                     dt := attDt cfg t0 s
                                     nodes := solvedNodes cfg inp X (attDt cfg t0 s) s
                                     vmax := vMax cfg.gamma0 cfg.magNode X
                                     flag := s.flag + 1
                                     stepper := softLimitDu (attStepper cfg t0 s) cfg.DUMAX
                                       (vMax cfg.gamma0 cfg.magNode X) })) := by
  unfold Retried at h
  cases step_kind cfg t0 inp s with
  | halted _ e => rw [e] at h; omega
  | output _ _ e => rw [e, forBody_flag] at h; omega
  | signal _ _ _ e => rw [e] at h; simp [onSignal] at h
  | small _ _ _ _ e => rw [e] at h; simp at h
  | fail h1 h2 h3 h4 h5 e => exact ⟨h1, h2, h3, not_lt.mp h4, Or.inl ⟨h5, e⟩⟩
  | reject h1 h2 h3 h4 X h5 h6 e => exact ⟨h1, h2, h3, not_lt.mp h4, Or.inr ⟨X, h5, h6, e⟩⟩
  | exitRec h1 h2 h3 h4 X h5 h6 h7 e => rw [e] at h; simp [accepted] at h
  | accept h1 h2 h3 h4 X h5 h6 nd h7 e => rw [e] at h; simp [accepted] at h

/-- the attempted step is the recorded dt, whatever happens next -/
theorem attempt_dt {cfg : Cfg n ET} {t0 : ℝ} {inp : Input n} {s : St n ET}
    (h : Attempt cfg t0 inp s) : (step cfg t0 inp s).dt = attDt cfg t0 s := by
  obtain ⟨h1, h2, h3⟩ := h
  cases step_kind cfg t0 inp s with
  | halted h e => exact absurd h1 h
  | output _ h e => exact absurd h2 h
  | signal _ _ h e => rw [h3] at h; cases h
  | small _ _ _ _ e => rw [e]
  | fail h1 h2 h3 h4 h5 e => rw [e]
  | reject h1 h2 h3 h4 X h5 h6 e => rw [e]
  | exitRec h1 h2 h3 h4 X h5 h6 h7 e => rw [e]; rfl
  | accept h1 h2 h3 h4 X h5 h6 nd h7 e => rw [e]; rfl

/-! ### `.sol` files -/

/-- the `.sol` file of a row -/
def solOfRow (r : Row n ET) : SolFile n := { nt := some r.nt, t := r.t, u := fun i => (r.nodes i).next.u }

structure SolInv (cfg : Cfg n ET) (s : St n ET) : Prop where
  sols : s.sols.filter (fun f => f.nt.isSome) =
    (s.rows.filter (fun r => decide (cfg.savePeriod ≠ 0 ∧ r.nt % cfg.savePeriod = 0))).map solOfRow
  exit : s.sols.filter (fun f => f.nt.isNone) ≠ [] → s.ctl = .signalled

theorem solInv_step {cfg : Cfg n ET} {t0 : ℝ} (inp : Input n) {s : St n ET} (h : SolInv cfg s) :
    SolInv cfg (step cfg t0 inp s) := by
  cases step_kind cfg t0 inp s with
  | halted _ e => rw [e]; exact h
  | output hr _ e =>
    rw [e]
    have hno : s.sols.filter (fun f => f.nt.isNone) = [] := by
      by_contra hc
      have := h.exit hc
      rw [hr] at this; cases this
    refine ⟨?_, ?_⟩
    · rw [forBody_sols, forBody_rows]
      simp only [saver, List.filter_append, List.map_append]
      rw [← h.sols]
      split_ifs with hc
      · rw [List.filter_append]
        simp [hc, solOfRow]
      · simp only [List.filter_cons, decide_eq_true_eq, if_neg hc]
        simp
    · intro hh
      exfalso; apply hh
      rw [forBody_sols]
      simp only [saver]
      split_ifs with hc
      · rw [List.filter_append, hno]; simp
      · exact hno
  | signal _ _ _ e =>
    rw [e]
    refine ⟨?_, fun _ => rfl⟩
    simp only [onSignal]
    split_ifs
    · rw [List.filter_append]; simpa using h.sols
    · exact h.sols
  | small hr _ _ _ e =>
    rw [e]
    exact ⟨h.sols, fun hh => by have := h.exit hh; rw [hr] at this; cases this⟩
  | fail _ _ _ _ _ e => rw [e]; exact ⟨h.sols, h.exit⟩
  | reject _ _ _ _ X _ _ e => rw [e]; exact ⟨h.sols, h.exit⟩
  | exitRec hr _ _ _ X _ _ _ e =>
    rw [e]
    exact ⟨h.sols, fun hh => by have := h.exit hh; rw [hr] at this; cases this⟩
  | accept _ _ _ _ X _ _ nd hr e => rw [e]; exact ⟨h.sols, h.exit⟩

theorem solInv_run (cfg : Cfg n ET) (t0 : ℝ) (nodes : Fin n → Node) (pot : Fin n → ℝ × ℝ)
    (inp : ℕ → Input n) (k : ℕ) : SolInv cfg (run cfg t0 nodes pot inp k) := by
  induction k with
  | zero => exact ⟨rfl, fun h => absurd rfl h⟩
  | succ k ih => exact solInv_step (inp k) ih

/-! ### energies -/

/-- the time at which the energies held in the state were evaluated -/
structure EInv (cfg : Cfg n ET) (t0 : ℝ) (s : St n ET) : Prop where
  now : s.ctl = .running → s.flag = 0 → ¬ s.t < tTarget cfg t0 s.stepNb → s.E = cfg.energy s.nodes (if s.nt = 0 then s.t else s.t - s.dt)
  nt0 : s.nt = 0 → s.t = t0
  ntPos : s.nt ≠ 0 → t0 < s.t
  rows : ∀ r ∈ s.rows, r.E = cfg.energy r.nodes (if r.nt = 0 then r.t else r.t - r.dt)

theorem eInv_step {cfg : Cfg n ET} (hv : Valid cfg) (hE : EnergyOfNext cfg) (hR : RecenterKeepsNext cfg)
    {t0 : ℝ} (inp : Input n) {s : St n ET} (hi : Inv cfg t0 s) (h : EInv cfg t0 s) :
    EInv cfg t0 (step cfg t0 inp s) := by
  have hacc : ∀ X, ¬ (accepted cfg t0 inp s X).t < tTarget cfg t0 s.stepNb → (accepted cfg t0 inp s X).E =
      cfg.energy (accepted cfg t0 inp s X).nodes ((accepted cfg t0 inp s X).t - (accepted cfg t0 inp s X).dt) := by
    intro X hX
    have ha := accepted_t cfg hv t0 inp s hi X
    have ht : (accepted cfg t0 inp s X).t = s.t + attDt cfg t0 s := ha.2.2.2.2 (le_antisymm ha.1 (not_lt.mp hX))
    have : (accepted cfg t0 inp s X).t - (accepted cfg t0 inp s X).dt = s.t := by
      rw [ht]; change s.t + attDt cfg t0 s - attDt cfg t0 s = s.t; ring
    rw [this]
    change cfg.energy _ s.t = cfg.energy _ s.t
    symm
    apply hE
    intro i
    obtain ⟨-, -, h3, -, h5⟩ := computeAll_next_u cfg.magNode inp.pot (solvedNodes cfg inp X (attDt cfg t0 s) s) i
    refine ⟨?_, by change (computeAllNodes _ _ _ i).next.u = _; rw [h5],
      by change (computeAllNodes _ _ _ i).next.phi = _; rw [h5]⟩
    change (computeAllNodes _ _ _ i).p = _
    rw [h3]
    unfold setPot; split_ifs <;> rfl
  have hpos : ∀ X, ¬ attDt cfg t0 s < cfg.DTMIN → t0 < (accepted cfg t0 inp s X).t := by
    intro X hd
    have ha := (accepted_t cfg hv t0 inp s hi X).2.2.1
    have h1 := hv.dtmin
    have h2 : t0 ≤ s.t := by
      by_cases h0 : s.nt = 0
      · exact (h.nt0 h0).ge
      · exact (h.ntPos h0).le
    push Not at hd
    linarith
  cases step_kind cfg t0 inp s with
  | halted _ e => rw [e]; exact h
  | output hr ht e =>
    rw [e]
    have hflag : s.flag = 0 := by
      by_contra hc; exact ht (hi.flagT hr hc)
    have hteq : s.t = tTarget cfg t0 s.stepNb := le_antisymm (hi.tle hr) (not_lt.mp ht)
    have hnow := h.now hr hflag ht
    refine ⟨fun _ _ hc => ?_, ?_, ?_, ?_⟩
    · exfalso
      apply hc
      rw [forBody_t, forBody_stepNb, tTarget_succ, hteq]
      have := hv.tstep
      linarith
    · rw [forBody_nt, forBody_t]; exact h.nt0
    · rw [forBody_nt, forBody_t]; exact h.ntPos
    · rw [forBody_rows]
      intro r hr'
      simp only [saver, List.mem_append, List.mem_singleton] at hr'
      rcases hr' with hr' | rfl
      · exact h.rows r hr'
      · simp only
        rw [hnow]
        by_cases h0 : s.rows.length = 0
        · rw [if_pos h0]
          by_cases h1 : s.nt = 0
          · rw [if_pos h1]
          · exfalso
            have h2 := h.ntPos h1
            rw [hteq, hi.nb, h0] at h2
            simp [tTarget] at h2
        · rw [if_neg h0]
          have : s.nt ≠ 0 := by
            intro h1
            have := h.nt0 h1
            rw [hteq] at this
            unfold tTarget at this
            have h2 : (s.stepNb : ℝ) * cfg.timeStep = 0 := by linarith
            rcases mul_eq_zero.mp h2 with h3 | h3
            · apply h0; rw [← hi.nb]; exact_mod_cast h3
            · exact absurd h3 hv.tstep.ne'
          rw [if_neg this]
  | signal hr _ _ e =>
    rw [e]; exact ⟨fun hc => (by cases hc), h.nt0, h.ntPos, h.rows⟩
  | small hr _ _ _ e =>
    rw [e]; exact ⟨fun hc => (by cases hc), h.nt0, h.ntPos, h.rows⟩
  | fail _ _ _ _ _ e => rw [e]; exact ⟨fun _ hc => (by simp at hc), h.nt0, h.ntPos, h.rows⟩
  | reject _ _ _ _ X _ _ e => rw [e]; exact ⟨fun _ hc => (by simp at hc), h.nt0, h.ntPos, h.rows⟩
  | exitRec hr _ _ _ X _ _ _ e =>
    rw [e]; exact ⟨fun hc => (by cases hc), fun hc => (by simp [accepted] at hc), fun _ => hpos X (by assumption), h.rows⟩
  | accept _ _ _ _ X _ _ nd hr e =>
    rw [e]
    refine ⟨fun _ _ hX => ?_, fun hc => (by simp [accepted] at hc), fun _ => hpos X (by assumption), h.rows⟩
    have : ¬ (s.nt + 1 = 0) := by omega
    change (accepted cfg t0 inp s X).E = cfg.energy nd (if s.nt + 1 = 0 then _ else _)
    rw [if_neg this, hacc X hX]
    exact (hE _ _ _ (hR _ _ hr)).symm

theorem eInv_run {cfg : Cfg n ET} (hv : Valid cfg) (hE : EnergyOfNext cfg) (hR : RecenterKeepsNext cfg)
    (t0 : ℝ) (nodes : Fin n → Node) (pot : Fin n → ℝ × ℝ) (inp : ℕ → Input n) (k : ℕ) :
    EInv cfg t0 (run cfg t0 nodes pot inp k) := by
  induction k with
  | zero =>
    refine ⟨fun _ _ _ => ?_, fun _ => rfl, fun h => absurd rfl h, fun r hr => by simp [run, init] at hr⟩
    have h0 : (run cfg t0 nodes pot inp 0).nt = 0 := rfl
    rw [if_pos h0]
    change cfg.energy _ t0 = cfg.energy _ t0
    symm
    apply hE
    intro i
    obtain ⟨-, -, h3, -, h5⟩ := computeAll_next_u cfg.magNode pot nodes i
    refine ⟨?_, by change (computeAllNodes _ _ _ i).next.u = _; rw [h5],
      by change (computeAllNodes _ _ _ i).next.phi = _; rw [h5]⟩
    change (computeAllNodes _ _ _ i).p = _
    rw [h3]
    unfold setPot; split_ifs <;> rfl
  | succ k ih => exact eInv_step hv hE hR (inp k) (inv_run cfg hv t0 nodes pot inp k) ih

/-! ### termination measure -/

/-- upper bound on consecutive retries -/
def RetryBound (cfg : Cfg n ET) (R : ℕ) : Prop := 0.95 ^ R * dtBound cfg < cfg.DTMIN

theorem exists_retryBound {cfg : Cfg n ET} (hv : Valid cfg) : ∃ R, RetryBound cfg R := by
  have hb := dtBound_pos hv
  obtain ⟨R, hR⟩ := exists_pow_lt_of_lt_one (div_pos hv.dtmin hb) (by norm_num : (0.95 : ℝ) < 1)
  exact ⟨R, by unfold RetryBound; rwa [lt_div_iff₀ hb] at hR⟩

noncomputable def measure (cfg : Cfg n ET) (t0 : ℝ) (R : ℕ) (s : St n ET) : ℕ :=
  ((stepCount cfg t0 + 1 - s.stepNb).toNat +
    ⌈(tTarget cfg t0 (stepCount cfg t0).toNat - s.t) / (cfg.DTMIN / 2)⌉₊) * (R + 1) + (R - s.flag)

theorem flag_lt {cfg : Cfg n ET} {t0 : ℝ} {s : St n ET} {R : ℕ} (hR : RetryBound cfg R)
    (hi : Inv cfg t0 s) (hv : Valid cfg) (h : s.ctl = .running) (hd : cfg.DTMIN ≤ attDt cfg t0 s) : s.flag < R := by
  by_contra hc
  push Not at hc
  have h1 := attDt_le_soft cfg t0 s
  have h2 : s.stepper.softMax ≤ 0.95 ^ s.flag * dtBound cfg := by
    by_cases hf : s.flag = 0
    · rw [hf]; simpa using hi.soft
    · exact hi.flagSoft h hf
  have h3 : (0.95 : ℝ) ^ s.flag ≤ 0.95 ^ R := pow_le_pow_of_le_one (by norm_num) (by norm_num) hc
  have hb := dtBound_pos hv
  unfold RetryBound at hR
  nlinarith

theorem measure_step {cfg : Cfg n ET} (hv : Valid cfg) {t0 : ℝ} (inp : Input n) {s : St n ET} {R : ℕ}
    (hR : RetryBound cfg R) (hi : Inv cfg t0 s) (h : s.ctl = .running) :
    (step cfg t0 inp s).ctl ≠ .running ∨ measure cfg t0 R (step cfg t0 inp s) < measure cfg t0 R s := by
  have hle := hi.nbLe h
  cases step_kind cfg t0 inp s with
  | halted h' e => exact absurd h h'
  | output _ ht e =>
    right
    have hflag : s.flag = 0 := by
      by_contra hc; exact ht (hi.flagT h hc)
    rw [e]
    unfold measure
    rw [forBody_stepNb, forBody_t, forBody_flag, hflag]
    have : (stepCount cfg t0 + 1 - (s.stepNb + 1 : ℕ)).toNat + 1 = (stepCount cfg t0 + 1 - s.stepNb).toNat := by
      push_cast; omega
    rw [← this]
    nlinarith
  | signal _ _ _ e => left; rw [e]; simp [onSignal]
  | small _ _ _ _ e => left; rw [e]; simp
  | fail _ _ _ hd _ e =>
    right
    have hf := flag_lt hR hi hv h (not_lt.mp hd)
    rw [e]; unfold measure; simp only
    omega
  | reject _ _ _ hd X _ _ e =>
    right
    have hf := flag_lt hR hi hv h (not_lt.mp hd)
    rw [e]; unfold measure; simp only
    omega
  | exitRec _ _ _ _ X _ _ _ e => left; rw [e]; simp
  | accept _ ht _ hd X _ _ nd _ e =>
    right
    have hf := flag_lt hR hi hv h (not_lt.mp hd)
    obtain ⟨ht1, -, ht2, -⟩ := accepted_t cfg hv t0 inp s hi X
    have hmin := hv.dtmin
    have hdt : 0 < cfg.DTMIN / 2 := by linarith
    have hend : tTarget cfg t0 s.stepNb ≤ tTarget cfg t0 (stepCount cfg t0).toNat := by
      unfold tTarget
      have h1 : (s.stepNb : ℝ) ≤ ((stepCount cfg t0).toNat : ℝ) := by
        exact_mod_cast (by omega : s.stepNb ≤ (stepCount cfg t0).toNat)
      have := hv.tstep
      nlinarith
    have hceil : ⌈(tTarget cfg t0 (stepCount cfg t0).toNat - (accepted cfg t0 inp s X).t) / (cfg.DTMIN / 2)⌉₊ + 1 ≤
        ⌈(tTarget cfg t0 (stepCount cfg t0).toNat - s.t) / (cfg.DTMIN / 2)⌉₊ := by
      rw [← Nat.ceil_add_one]
      · apply Nat.ceil_le_ceil
        rw [div_add_one hdt.ne']
        apply div_le_div_of_nonneg_right _ hdt.le
        push Not at hd
        linarith
      · apply div_nonneg _ hdt.le
        linarith
    rw [e]
    unfold measure
    change ((stepCount cfg t0 + 1 - s.stepNb).toNat + ⌈_⌉₊) * (R + 1) + (R - 0) < _
    simp only
    set A := (stepCount cfg t0 + 1 - (s.stepNb : ℤ)).toNat
    set W' := ⌈(tTarget cfg t0 (stepCount cfg t0).toNat - (accepted cfg t0 inp s X).t) / (cfg.DTMIN / 2)⌉₊
    set W := ⌈(tTarget cfg t0 (stepCount cfg t0).toNat - s.t) / (cfg.DTMIN / 2)⌉₊
    have h1 : (A + W' + 1) * (R + 1) ≤ (A + W) * (R + 1) := Nat.mul_le_mul_right _ (by omega)
    have h2 : (A + W' + 1) * (R + 1) = (A + W') * (R + 1) + (R + 1) := by ring
    omega

theorem halted_stays {cfg : Cfg n ET} {t0 : ℝ} (inp : Input n) {s : St n ET} (h : s.ctl ≠ .running) :
    step cfg t0 inp s = s := by
  cases step_kind cfg t0 inp s with
  | halted _ e => exact e
  | output h' => exact absurd h' h
  | signal h' => exact absurd h' h
  | small h' => exact absurd h' h
  | fail h' => exact absurd h' h
  | reject h' => exact absurd h' h
  | exitRec h' => exact absurd h' h
  | accept h' => exact absurd h' h

theorem measure_run {cfg : Cfg n ET} (hv : Valid cfg) (t0 : ℝ) {R : ℕ} (hR : RetryBound cfg R)
    (nodes : Fin n → Node) (pot : Fin n → ℝ × ℝ) (inp : ℕ → Input n) (k : ℕ) :
    (run cfg t0 nodes pot inp k).ctl ≠ .running ∨
    measure cfg t0 R (run cfg t0 nodes pot inp k) + k ≤ measure cfg t0 R (init cfg t0 nodes pot) := by
  induction k with
  | zero => right; exact le_rfl
  | succ k ih =>
    by_cases hc : (run cfg t0 nodes pot inp k).ctl = .running
    · rcases measure_step hv (inp k) hR (inv_run cfg hv t0 nodes pot inp k) hc with h | h
      · exact Or.inl h
      · right
        rcases ih with ih | ih
        · exact absurd hc ih
        · change measure cfg t0 R (step cfg t0 (inp k) (run cfg t0 nodes pot inp k)) + _ ≤ _
          omega
    · left
      change (step cfg t0 (inp k) (run cfg t0 nodes pot inp k)).ctl ≠ _
      rw [halted_stays _ hc]; exact hc

end Verif.TimeLoop
