import Verif.Proofs.TimeLoopExample

/-! Properties C62 and C63: recentering is applied to every accepted step; an attempt is rejected exactly when it moves some
node too far. -/

namespace Verif.TimeLoop

variable {n : ℕ} {ET : Type}

/-! ## C62 -/

/-- `P` holds of the state between two attempts and of the rows already written, except at the start time -/
structure PInv (P : (Fin n → Node) → Prop) (t0 : ℝ) (s : St n ET) : Prop where
  now : s.ctl = .running → s.flag = 0 → s.t ≠ t0 → P s.nodes
  rows : ∀ r ∈ s.rows, r.t ≠ t0 → P r.nodes

theorem pInv_step {P : (Fin n → Node) → Prop} {cfg : Cfg n ET}
    (hP : ∀ nd nd', cfg.recenter nd = some nd' → P nd') {t0 : ℝ} (inp : Input n) {s : St n ET} (hi : Inv cfg t0 s)
    (h : PInv P t0 s) : PInv P t0 (step cfg t0 inp s) := by
  cases step_kind cfg t0 inp s with
  | halted _ e => rw [e]; exact h
  | output hr ht e =>
    rw [e]
    have hflag : s.flag = 0 := by
      by_contra hc; exact ht (hi.flagT hr hc)
    refine ⟨fun _ _ hc => ?_, ?_⟩
    · rw [forBody_nodes]; rw [forBody_t] at hc; exact h.now hr hflag hc
    · rw [forBody_rows]
      intro r hr'
      simp only [saver, List.mem_append, List.mem_singleton] at hr'
      rcases hr' with hr' | rfl
      · exact h.rows r hr'
      · exact h.now hr hflag
  | signal hr _ _ e => rw [e]; exact ⟨fun hc => (by cases hc), h.rows⟩
  | small hr _ _ _ e => rw [e]; exact ⟨fun hc => (by cases hc), h.rows⟩
  | fail _ _ _ _ _ e => rw [e]; exact ⟨fun _ hc => (by simp at hc), h.rows⟩
  | reject _ _ _ _ X _ _ e => rw [e]; exact ⟨fun _ hc => (by simp at hc), h.rows⟩
  | exitRec hr _ _ _ X _ _ _ e => rw [e]; exact ⟨fun hc => (by cases hc), h.rows⟩
  | accept _ _ _ _ X _ _ nd hr e => rw [e]; exact ⟨fun _ _ _ => hP _ _ hr, h.rows⟩

/-- Whatever the recentering guarantees of the state it returns holds of the state at every output but the first, and of
the state from which the integration goes on after any accepted step; once the recentering has given up nothing changes any
more. -/
theorem C62_recentered (cfg : Cfg n ET) (hv : Valid cfg) (P : (Fin n → Node) → Prop)
    (hP : ∀ nd nd', cfg.recenter nd = some nd' → P nd') (t0 : ℝ) (nodes : Fin n → Node) (pot : Fin n → ℝ × ℝ)
    (inp : ℕ → Input n) (k : ℕ) :
    let s := run cfg t0 nodes pot inp k
    let s' := run cfg t0 nodes pot inp (k + 1)
    (∀ r ∈ s.rows, r.t ≠ t0 → P r.nodes) ∧ (Accepted s s' → s'.ctl = .running → P s'.nodes) ∧
    (s.ctl = .noDomainWall → ∀ j, run cfg t0 nodes pot inp (k + j) = s) := by
  intro s s'
  have hinv : ∀ j, PInv P t0 (run cfg t0 nodes pot inp j) := by
    intro j
    induction j with
    | zero => exact ⟨fun _ _ h => absurd rfl h, fun r hr => by simp [run, init] at hr⟩
    | succ j ih => exact pInv_step hP (inp j) (inv_run cfg hv t0 nodes pot inp j) ih
  refine ⟨(hinv k).rows, fun ha hr => ?_, fun hw j => ?_⟩
  rotate_left
  · induction j with
    | zero => rfl
    | succ j ih =>
      change step cfg t0 (inp (k + j)) (run cfg t0 nodes pot inp (k + j)) = s
      rw [ih]
      unfold step
      rw [hw]
  have hk : Kind cfg t0 (inp k) s s' := step_kind cfg t0 (inp k) s
  unfold Accepted at ha
  cases hk with
  | halted _ e => rw [e] at ha; omega
  | output _ _ e => rw [e, forBody_nt] at ha; omega
  | signal _ _ _ e => rw [e] at ha; change s.nt = _ at ha; omega
  | small _ _ _ _ e => rw [e] at ha; change s.nt = _ at ha; omega
  | fail _ _ _ _ _ e => rw [e] at ha; change s.nt = _ at ha; omega
  | reject _ _ _ _ X _ _ e => rw [e] at ha; change s.nt = _ at ha; omega
  | exitRec _ _ _ _ X _ _ _ e => rw [e] at hr; cases hr
  | accept _ _ _ _ X _ _ nd hrec e => rw [e]; exact hP _ _ hrec

/-- a recentering that stops when the magnetization at node 0 does not point along +x, and a run with a row after the first -/
example : ∃ (cfg : Cfg 1 ℝ) (P : (Fin 1 → Node) → Prop), Valid cfg ∧ (∀ nd nd', cfg.recenter nd = some nd' → P nd') ∧
    ¬ (∀ nd, P nd) := by
  classical
  refine ⟨{ exCfg with recenter := fun nd => if (nd 0).cur.u.x = 1 then some nd else none }, fun nd => (nd 0).cur.u.x = 1,
    ⟨exValid.dtmin, exValid.dtmax, exValid.tstep, exValid.dumax, exValid.addErr⟩, ?_, ?_⟩
  · intro nd nd' h
    simp only at h
    split_ifs at h with hc
    · cases h; exact hc
  · intro h
    have := h (fun _ => { exNode with cur := ⟨⟨0, 0, 0⟩, 0, 0, 0⟩ })
    norm_num at this

/-! ## C63 -/

theorem vMax_le_iff (g : ℝ) (hg : 0 ≤ g) (mag : Fin n → Bool) (X : Fin n → ℝ × ℝ) (dt B : ℝ) (hdt : 0 ≤ dt) (hB : 0 ≤ B) :
    dt * vMax g mag X ≤ B ↔
      ∀ i, mag i = true → dt * (g * Real.sqrt ((X i).1 * (X i).1 + (X i).2 * (X i).2)) ≤ B := by
  unfold vMax
  constructor
  · intro h i hi
    refine le_trans ?_ h
    exact mul_le_mul_of_nonneg_left (mul_le_mul_of_nonneg_left (Real.sqrt_le_sqrt (v2max_ge mag X i hi)) hg) hdt
  · intro h
    rcases v2max_attained mag X with h0 | ⟨i, hi, he⟩
    · rw [h0]; simpa using hB
    · rw [he]; exact h i hi

/-- An attempt for which the solver returned velocities is kept if and only if no magnetic node moves by more than `max(du)`
(time step times speed), and otherwise tried again; there is no third outcome, except that a kept step may end the program when
the domain wall is lost. -/
theorem C63_reject_iff (cfg : Cfg n ET) (hv : Valid cfg) (hg : 0 ≤ cfg.gamma0) (t0 : ℝ) (nodes : Fin n → Node)
    (pot : Fin n → ℝ × ℝ) (inp : ℕ → Input n) (k : ℕ) (X : Fin n → ℝ × ℝ) :
    let s := run cfg t0 nodes pot inp k
    let s' := run cfg t0 nodes pot inp (k + 1)
    Attempt cfg t0 (inp k) s → (inp k).sol = some X → s'.ctl ≠ .done 1 →
    (Accepted s s' ↔ ∀ i, cfg.magNode i = true → s'.dt * (cfg.gamma0 * Real.sqrt ((X i).1 ^ 2 + (X i).2 ^ 2)) ≤ cfg.DUMAX) ∧
    (Retried s s' ↔ ∃ i, cfg.magNode i = true ∧ cfg.DUMAX < s'.dt * (cfg.gamma0 * Real.sqrt ((X i).1 ^ 2 + (X i).2 ^ 2))) := by
  intro s s' ⟨hr, ht, hsig⟩ hX hd1
  simp only [pow_two]
  have hk : Kind cfg t0 (inp k) s s' := step_kind cfg t0 (inp k) s
  have key : ∀ Y, (inp k).sol = some Y → Y = X := fun Y h => by rw [hX] at h; exact (Option.some.inj h).symm
  have hmin := hv.dtmin
  unfold Accepted Retried
  cases hk with
  | halted h e => exact absurd hr h
  | output _ h e => exact absurd ht h
  | signal _ _ h e => rw [hsig] at h; cases h
  | small _ _ _ _ e => rw [e] at hd1; exact absurd rfl hd1
  | fail _ _ _ _ h e => rw [hX] at h; cases h
  | reject _ _ _ hd Y hY hrej e =>
    obtain rfl := key Y hY
    have hi := vMax_le_iff cfg.gamma0 hg cfg.magNode Y (attDt cfg t0 s) cfg.DUMAX (by linarith) hv.dumax
    have e1 : s'.nt = s.nt := by rw [e]
    have e2 : s'.flag = s.flag + 1 := by rw [e]
    have e3 : s'.dt = attDt cfg t0 s := by rw [e]
    rw [e1, e2, e3]
    refine ⟨⟨fun h => by omega, fun h => absurd (hi.mpr h) (not_le.mpr hrej)⟩, ⟨fun _ => ?_, fun _ => rfl⟩⟩
    by_contra hc
    push Not at hc
    exact absurd (hi.mpr hc) (not_le.mpr hrej)
  | exitRec _ _ _ hd Y hY hacc hrec e =>
    obtain rfl := key Y hY
    have hi := vMax_le_iff cfg.gamma0 hg cfg.magNode Y (attDt cfg t0 s) cfg.DUMAX (by linarith) hv.dumax
    have e1 : s'.nt = s.nt + 1 := by rw [e]; rfl
    have e2 : s'.flag = 0 := by rw [e]; rfl
    have e3 : s'.dt = attDt cfg t0 s := by rw [e]; rfl
    rw [e1, e2, e3]
    refine ⟨⟨fun _ => hi.mp (not_lt.mp hacc), fun _ => rfl⟩, ⟨fun h => by omega, fun ⟨i, h1, h2⟩ => ?_⟩⟩
    exact absurd (hi.mp (not_lt.mp hacc) i h1) (not_le.mpr h2)
  | accept _ _ _ hd Y hY hacc nd hrec e =>
    obtain rfl := key Y hY
    have hi := vMax_le_iff cfg.gamma0 hg cfg.magNode Y (attDt cfg t0 s) cfg.DUMAX (by linarith) hv.dumax
    have e1 : s'.nt = s.nt + 1 := by rw [e]; rfl
    have e2 : s'.flag = 0 := by rw [e]; rfl
    have e3 : s'.dt = attDt cfg t0 s := by rw [e]; rfl
    rw [e1, e2, e3]
    refine ⟨⟨fun _ => hi.mp (not_lt.mp hacc), fun _ => rfl⟩, ⟨fun h => by omega, fun ⟨i, h1, h2⟩ => ?_⟩⟩
    exact absurd (hi.mp (not_lt.mp hacc) i h1) (not_le.mpr h2)

/-- both outcomes occur -/
example : Accepted (exRun (fun _ => exIn (some (0, 0))) 1) (exRun (fun _ => exIn (some (0, 0))) 2) ∧
    Retried (exRun (fun _ => exIn (some (1, 0))) 1) (exRun (fun _ => exIn (some (1, 0))) 2) := by
  constructor
  · rw [ex_accept _ rfl]; rfl
  · rw [ex_reject _ rfl]
    unfold Retried
    simp only
    rw [(ex_s1 _).2.2.2.1]

end Verif.TimeLoop
