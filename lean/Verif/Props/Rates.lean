import Verif.Spec.Rates
import Verif.Proofs.TimeLoopAbort
import Verif.Props.TimeLoop
import Verif.Props.MeshElem
import Verif.Props.RecenterRun

/-! # C104: the columns about the last time step -/

namespace Verif.TimeLoop

variable {n : ℕ} {ET : Type}

/-- normalizing after a tangent step moves by half the square of the step -/
theorem normalize_curv {u w : V3} (hu : u.nsq = 1) (hw : u.dot w = 0) : ((u + w).normalize - (u + w)).nsq ≤ (w.nsq / 2) ^ 2 := by
  have e : (u + w).nsq = 1 + w.nsq := by rw [V3.nsq_add, hu, hw]; ring
  have hp : 0 < (u + w).nsq := by rw [e]; linarith [V3.nsq_nonneg w]
  set q := Real.sqrt (u + w).nsq with hq
  have hq2 : q ^ 2 = 1 + w.nsq := by rw [hq, Real.sq_sqrt hp.le, e]
  have hq1 : 1 ≤ q := by
    rw [hq, e]
    exact Real.one_le_sqrt.mpr (by linarith [V3.nsq_nonneg w])
  have hd : (u + w).normalize - (u + w) = (1 / q - 1) * (u + w) := by
    rw [V3.normalize_of_pos hp, ← hq]
    ext <;> simp <;> ring
  rw [hd, V3.nsq_smul, e, ← hq2]
  have hq0 : q ≠ 0 := by linarith
  have e2 : (1 / q - 1) ^ 2 * q ^ 2 = (q - 1) ^ 2 := by field_simp; ring
  rw [e2]
  have h3 : w.nsq / 2 = (q - 1) * (q + 1) / 2 := by linarith [show (q - 1) * (q + 1) = q ^ 2 - 1 by ring]
  rw [h3]
  have h4 : q - 1 ≤ (q - 1) * (q + 1) / 2 := by nlinarith
  nlinarith

/-- one node of a kept step -/
theorem solved_curv {cfg : Cfg n ET} {inp : Input n} {X : Fin n → ℝ × ℝ} {dt : ℝ} {s : St n ET} {i : Fin n}
    (hm : cfg.magNode i = true) (hu : IsUnit3 (s.nodes i).cur.u) :
    let nd := solvedNodes cfg inp X dt s i
    (nd.next.u - ((s.nodes i).cur.u + dt * nd.next.v)).nsq ≤ (dt ^ 2 * nd.next.v.nsq / 2) ^ 2 := by
  rw [isUnit3_iff] at hu
  have hs := Node.setBasis_spec (2 / Real.pi * inp.r) (s.nodes i) hu
  simp only at hs
  obtain ⟨h1, h2, h3, h4, h5, -⟩ := hs
  have e : solvedNodes cfg inp X dt s i =
      ((s.nodes i).setBasis (2 / Real.pi * inp.r)).makeEvol ((X i).1 * cfg.gamma0) ((X i).2 * cfg.gamma0) dt := by
    simp [solvedNodes, updateNodes, hm, baseProjection]
  set m := (s.nodes i).setBasis (2 / Real.pi * inp.r) with hm'
  have hw : (s.nodes i).cur.u.dot (dt * ((X i).1 * cfg.gamma0 * m.ep + (X i).2 * cfg.gamma0 * m.eq)) = 0 := by
    rw [V3.dot_smul_right, V3.dot_add_right, V3.dot_smul_right, V3.dot_smul_right, h3, V3.dot_comm, h5]; ring
  have hn := normalize_curv hu hw
  simp only
  rw [e]
  rw [V3.nsq_smul] at hn
  exact hn

/-- what is known between the last kept step and the next output -/
def SinceStep (σ : ℕ → St n ET) (t0 : ℝ) (dt0 : ℝ) (k : ℕ) : Prop :=
  (σ k).ctl = .running → (σ k).flag = 0 →
    ((σ k).nt = 0 ∧ (σ k).t = t0 ∧ (σ k).dt = dt0 ∧ (σ k).vmax = 0) ∨
    ∃ j, LastStep σ j k ∧ (σ (j + 1)).ctl = .running ∧ (σ k).dt = (σ (j + 1)).dt ∧ (σ k).vmax = (σ (j + 1)).vmax ∧
      (σ k).t = (σ (j + 1)).t ∧ (σ k).nodes = (σ (j + 1)).nodes

theorem not_accepted_of_nt {s s' : St n ET} (h : s'.nt = s.nt) : ¬ Accepted s s' := by
  unfold Accepted
  omega

theorem sinceStep (cfg : Cfg n ET) (t0 : ℝ) (nodes : Fin n → Node) (pot : Fin n → ℝ × ℝ) (inp : ℕ → Input n) (k : ℕ) :
    SinceStep (run cfg t0 nodes pot inp) t0 (Real.sqrt (cfg.DTMIN * cfg.DTMAX)) k := by
  induction k with
  | zero => exact fun _ _ => Or.inl ⟨rfl, rfl, rfl, rfl⟩
  | succ k ih =>
    intro hc hf
    have e0 : run cfg t0 nodes pot inp (k + 1) = step cfg t0 (inp k) (run cfg t0 nodes pot inp k) := rfl
    cases step_kind cfg t0 (inp k) (run cfg t0 nodes pot inp k) with
    | halted h e => rw [e0, e] at hc; exact absurd hc h
    | signal _ _ _ e => rw [e0, e] at hc; cases hc
    | small _ _ _ _ e => rw [e0, e] at hc; cases hc
    | exitRec _ _ _ _ _ _ _ _ e => rw [e0, e] at hc; cases hc
    | fail _ _ _ _ _ e => rw [e0, e] at hf; cases hf
    | reject _ _ _ _ _ _ _ e => rw [e0, e] at hf; cases hf
    | output h ht e =>
      rw [e] at e0
      have hf' : (run cfg t0 nodes pot inp k).flag = 0 := by rw [e0, forBody_flag] at hf; exact hf
      have hv : (forBody cfg t0 (run cfg t0 nodes pot inp k)).vmax = (run cfg t0 nodes pot inp k).vmax := by
        rcases forBody_or cfg t0 (run cfg t0 nodes pot inp k) with e | e <;> rw [e] <;> rfl
      have hnt : (run cfg t0 nodes pot inp (k + 1)).nt = (run cfg t0 nodes pot inp k).nt := by rw [e0, forBody_nt]
      rcases ih h hf' with ⟨h1, h2, h3, h4⟩ | ⟨j, hj, h0, h1, h2, h3, h4⟩
      · refine Or.inl ⟨by rw [hnt]; exact h1, ?_, ?_, ?_⟩
        · rw [e0, forBody_t]; exact h2
        · rw [e0, forBody_dt]; exact h3
        · rw [e0, hv]; exact h4
      · refine Or.inr ⟨j, ⟨hj.before.trans (Nat.lt_succ_self k), hj.kept, ?_⟩, h0, ?_, ?_, ?_, ?_⟩
        · intro i hi hik
          rcases Nat.lt_or_ge i k with hlt | hge
          · exact hj.last i hi hlt
          · have : i = k := by omega
            subst this
            exact not_accepted_of_nt hnt
        · rw [e0, forBody_dt]; exact h1
        · rw [e0, hv]; exact h2
        · rw [e0, forBody_t]; exact h3
        · rw [e0, forBody_nodes]; exact h4
    | accept h ht hi hd X hs hr nd hrec e =>
      refine Or.inr ⟨k, ⟨Nat.lt_succ_self k, ?_, fun i h1 h2 => by omega⟩, hc, rfl, rfl, rfl, rfl⟩
      unfold Accepted
      rw [e0, e]
      rfl

/-- a row is written by an output of a running program -/
theorem writes_output {cfg : Cfg n ET} {t0 : ℝ} {nodes : Fin n → Node} {pot : Fin n → ℝ × ℝ} {inp : ℕ → Input n} {k : ℕ} {r : Row n ET}
    (h : Writes (run cfg t0 nodes pot inp) k r) :
    let s := run cfg t0 nodes pot inp k
    s.ctl = .running ∧ ¬ s.t < tTarget cfg t0 s.stepNb ∧ r = { nt := s.rows.length, t := s.t, dt := s.dt, E := s.E, nodes := s.nodes } := by
  intro s
  unfold Writes at h
  have e0 : run cfg t0 nodes pot inp (k + 1) = step cfg t0 (inp k) s := rfl
  have no : ∀ l : List (Row n ET), l ≠ l ++ [r] := fun l e => by simp at e
  rw [e0] at h
  cases step_kind cfg t0 (inp k) s with
  | halted _ e => rw [e] at h; exact absurd h (no _)
  | signal _ _ _ e => rw [e] at h; exact absurd h (no _)
  | small _ _ _ _ e => rw [e] at h; exact absurd h (no _)
  | exitRec _ _ _ _ _ _ _ _ e => rw [e] at h; exact absurd h (no _)
  | fail _ _ _ _ _ e => rw [e] at h; exact absurd h (no _)
  | reject _ _ _ _ _ _ _ e => rw [e] at h; exact absurd h (no _)
  | accept _ _ _ _ _ _ _ _ _ e => rw [e] at h; exact absurd h (no _)
  | output hc ht e =>
    rw [e, forBody_rows] at h
    have h' : s.rows ++ [({ nt := s.rows.length, t := s.t, dt := s.dt, E := s.E, nodes := s.nodes } : Row n ET)] = s.rows ++ [r] := h
    have := List.append_cancel_left h'
    injection this with h1
    exact ⟨hc, ht, h1.symm⟩

/-- the first row comes before any step, the others after the step that reaches their time -/
theorem row_last {cfg : Cfg n ET} (hv : Valid cfg) {t0 : ℝ} {nodes : Fin n → Node} {pot : Fin n → ℝ × ℝ} {inp : ℕ → Input n} {k : ℕ} {r : Row n ET}
    (h : Writes (run cfg t0 nodes pot inp) k r) (h0 : r.nt ≠ 0) : ∃ j, LastStep (run cfg t0 nodes pot inp) j k ∧
      (run cfg t0 nodes pot inp (j + 1)).ctl = .running ∧ (run cfg t0 nodes pot inp k).dt = (run cfg t0 nodes pot inp (j + 1)).dt ∧
      (run cfg t0 nodes pot inp k).vmax = (run cfg t0 nodes pot inp (j + 1)).vmax ∧
      (run cfg t0 nodes pot inp k).t = (run cfg t0 nodes pot inp (j + 1)).t ∧
      (run cfg t0 nodes pot inp k).nodes = (run cfg t0 nodes pot inp (j + 1)).nodes := by
  obtain ⟨hc, ht, e⟩ := writes_output h
  have hI := inv_run cfg hv t0 nodes pot inp k
  have hf : (run cfg t0 nodes pot inp k).flag = 0 := by
    by_contra hf
    exact ht (hI.flagT hc hf)
  rcases sinceStep cfg t0 nodes pot inp k hc hf with ⟨-, h2, -, -⟩ | hj
  · exfalso
    rw [h2] at ht
    apply ht
    have hl : (run cfg t0 nodes pot inp k).stepNb ≠ 0 := by
      rw [hI.nb]
      intro e1
      rw [e] at h0
      exact h0 e1
    unfold tTarget
    have : (1 : ℝ) ≤ ((run cfg t0 nodes pot inp k).stepNb : ℝ) := by exact_mod_cast Nat.one_le_iff_ne_zero.mpr hl
    nlinarith [hv.tstep]
  · exact hj

/-- **C104** In every row but the first, `dt` is the length of the last kept time step, which ended at the time of the row, and `max_dm` is the largest
distance `dt |v|` of that step: with the velocities `v` of the step, no magnetic node moved further than `dt |v|`, and the new magnetization is that of
the straight motion up to half the square. Without recentering these velocities are the ones that `<dMx/dt>`, `<dMy/dt>`, `<dMz/dt>` average. -/
theorem C104_step (cfg : Cfg n ET) (hv : Valid cfg) (hg : 0 ≤ cfg.gamma0) (hN : RecenterKeepsNext cfg) (hU : RecenterKeepsUnit cfg) (t0 : ℝ)
    (nodes : Fin n → Node) (pot : Fin n → ℝ × ℝ) (inp : ℕ → Input n) (hu0 : ∀ i, cfg.magNode i = true → IsUnit3 (nodes i).next.u) (k : ℕ)
    (r : Row n ET) (h : Writes (run cfg t0 nodes pot inp) k r) (h0 : r.nt ≠ 0) :
    let σ := run cfg t0 nodes pot inp
    let dm := maxDmColumn (σ k)
    ∃ j, LastStep σ j k ∧ dtColumn (σ k) = r.dt ∧ r.t = (σ (j + 1)).t ∧ cfg.DTMIN ≤ r.dt ∧
      (r.t = (σ j).t + r.dt ∨ r.t = cfg.add (σ j).t r.dt) ∧
      ∃ v : Fin n → V3,
        (∀ i, cfg.magNode i = true → r.dt * Real.sqrt (v i).nsq ≤ dm) ∧
        (dm = 0 ∨ ∃ i, cfg.magNode i = true ∧ r.dt * Real.sqrt (v i).nsq = dm) ∧
        (∀ i, cfg.magNode i = true → edist (r.nodes i).next.u (startU σ j i) ≤ r.dt * Real.sqrt (v i).nsq ∧
          edist (r.nodes i).next.u (startU σ j i + r.dt * v i) ≤ (r.dt * Real.sqrt (v i).nsq) ^ 2 / 2) ∧
        (NoRecenter cfg → ∀ i, (r.nodes i).next.v = v i) := by
  intro σ dm
  obtain ⟨hc, ht, er⟩ := writes_output h
  obtain ⟨j, hj, hcj, h1, h2, h3, h4⟩ := row_last hv h h0
  obtain ⟨-, -, -, k4, X, -, k6, k7⟩ := accepted_kind (inp := inp j) hj.kept
  have hstep : ∃ nd, cfg.recenter (accepted cfg t0 (inp j) (σ j) X).nodes = some nd ∧
      σ (j + 1) = { accepted cfg t0 (inp j) (σ j) X with nodes := nd } := by
    rcases k7 with ⟨-, e⟩ | hh
    · exfalso
      have : (run cfg t0 nodes pot inp (j + 1)).ctl = .noDomainWall := by
        show (step cfg t0 (inp j) (run cfg t0 nodes pot inp j)).ctl = _
        rw [e]
      rw [this] at hcj
      cases hcj
    · exact hh
  obtain ⟨nd, hrec, es⟩ := hstep
  have hdt : (σ (j + 1)).dt = attDt cfg t0 (σ j) := by rw [es]; rfl
  have hvm : (σ (j + 1)).vmax = vMax cfg.gamma0 cfg.magNode X := by rw [es]; rfl
  have hnd : (σ (j + 1)).nodes = nd := by rw [es]
  have rdt : r.dt = attDt cfg t0 (σ j) := by rw [er]; exact h1.trans hdt
  have rnodes : r.nodes = nd := by rw [er]; exact h4.trans hnd
  have rt : r.t = (σ (j + 1)).t := by rw [er]; exact h3
  have hdm : dm = vMax cfg.gamma0 cfg.magNode X * r.dt := by
    show (σ k).vmax * (σ k).dt = _
    rw [rdt]
    show (run cfg t0 nodes pot inp k).vmax * (run cfg t0 nodes pot inp k).dt = _
    rw [h2, h1]
    show (σ (j + 1)).vmax * (σ (j + 1)).dt = _
    rw [hvm, hdt]
  have hdt0 : 0 ≤ r.dt := by rw [rdt]; exact hv.dtmin.le.trans k4
  have hunit := allUnit_run hU t0 nodes pot inp hu0 j
  have hkeep := hN _ _ hrec
  have hs := fun (i : Fin n) (hm : cfg.magNode i = true) =>
    solved_node (cfg := cfg) (inp := inp j) (X := X) (dt := attDt cfg t0 (σ j)) hm (hunit i hm).1
  have hsc := fun (i : Fin n) (hm : cfg.magNode i = true) =>
    solved_curv (cfg := cfg) (inp := inp j) (X := X) (dt := attDt cfg t0 (σ j)) hm (hunit i hm).1
  have hnext : ∀ i, (r.nodes i).next.u = (solvedNodes cfg (inp j) X (attDt cfg t0 (σ j)) (σ j) i).next.u := by
    intro i
    rw [rnodes, (hkeep i).2.1]
    exact (computeAll_next_u cfg.magNode (inp j).pot _ i).1
  refine ⟨j, hj, by rw [er]; rfl, rt, by rw [rdt]; exact k4, ?_, fun i => (solvedNodes cfg (inp j) X (attDt cfg t0 (σ j)) (σ j) i).next.v, ?_, ?_, ?_, ?_⟩
  · rw [rt, es]
    show (if attDt cfg t0 (σ j) = tTarget cfg t0 (σ j).stepNb - (σ j).t then tTarget cfg t0 (σ j).stepNb else cfg.add (σ j).t (attDt cfg t0 (σ j))) = _ ∨
      (if attDt cfg t0 (σ j) = tTarget cfg t0 (σ j).stepNb - (σ j).t then tTarget cfg t0 (σ j).stepNb else cfg.add (σ j).t (attDt cfg t0 (σ j))) = _
    rw [rdt]
    by_cases hl : attDt cfg t0 (σ j) = tTarget cfg t0 (σ j).stepNb - (σ j).t
    · rw [if_pos hl]
      exact Or.inl (by linarith)
    · rw [if_neg hl]
      exact Or.inr rfl
  · intro i hm
    have h4' := (hs i hm).2.2.2
    rw [hdm, mul_comm]
    refine mul_le_mul_of_nonneg_right ?_ hdt0
    show Real.sqrt (solvedNodes cfg (inp j) X (attDt cfg t0 (σ j)) (σ j) i).next.v.nsq ≤ _
    rw [h4', Real.sqrt_mul (sq_nonneg _), Real.sqrt_sq hg]
    exact mul_le_mul_of_nonneg_left (Real.sqrt_le_sqrt (v2max_ge _ _ _ hm)) hg
  · rcases v2max_attained cfg.magNode X with e | ⟨i, hm, e⟩
    · left
      rw [hdm]
      unfold vMax
      rw [e, Real.sqrt_zero, mul_zero, zero_mul]
    · right
      refine ⟨i, hm, ?_⟩
      have h4' := (hs i hm).2.2.2
      rw [hdm, mul_comm]
      congr 1
      show Real.sqrt (solvedNodes cfg (inp j) X (attDt cfg t0 (σ j)) (σ j) i).next.v.nsq = _
      rw [h4', Real.sqrt_mul (sq_nonneg _), Real.sqrt_sq hg]
      unfold vMax
      rw [e]
  · intro i hm
    have ed : ∀ a b : V3, edist a b = Real.sqrt (a - b).nsq := by
      intro a b
      unfold edist V3.nsq
      congr 1
      simp only [V3.sub_x, V3.sub_y, V3.sub_z]
      ring
    constructor
    · rw [ed, hnext]
      have h3' := (hs i hm).2.2.1
      refine (Real.sqrt_le_sqrt h3').trans (le_of_eq ?_)
      rw [Real.sqrt_mul (sq_nonneg _), ← rdt, Real.sqrt_sq hdt0]
    · rw [ed, hnext]
      refine Real.sqrt_le_iff.mpr ⟨by positivity, ?_⟩
      have h5 := hsc i hm
      rw [← rdt] at h5 ⊢
      refine h5.trans (le_of_eq ?_)
      rw [mul_pow, Real.sq_sqrt (V3.nsq_nonneg _)]
  · intro hR i
    rw [hR] at hrec
    injection hrec with hrec
    rw [rnodes, ← hrec]
    exact (computeAll_next_u cfg.magNode (inp j).pot _ i).2.1


/-! ## the first row -/

theorem rows_ne {cfg : Cfg n ET} {t0 : ℝ} {nodes : Fin n → Node} {pot : Fin n → ℝ × ℝ} {inp : ℕ → Input n} (k : ℕ)
    (h : (run cfg t0 nodes pot inp (k + 1)).ctl = .running) : (run cfg t0 nodes pot inp (k + 1)).rows ≠ [] := by
  induction k with
  | zero =>
    have e0 : run cfg t0 nodes pot inp 1 = step cfg t0 (inp 0) (run cfg t0 nodes pot inp 0) := rfl
    have hn : ¬ (run cfg t0 nodes pot inp 0).t < tTarget cfg t0 (run cfg t0 nodes pot inp 0).stepNb := by
      simp [run, init, tTarget]
    cases step_kind cfg t0 (inp 0) (run cfg t0 nodes pot inp 0) with
    | halted hc e => rw [e0, e] at h; exact absurd h hc
    | output _ _ e =>
      rw [e0, e, forBody_rows]
      simp [saver]
    | signal _ ht _ _ => exact absurd ht hn
    | small _ ht _ _ _ => exact absurd ht hn
    | exitRec _ ht _ _ _ _ _ _ _ => exact absurd ht hn
    | fail _ ht _ _ _ _ => exact absurd ht hn
    | reject _ ht _ _ _ _ _ _ => exact absurd ht hn
    | accept _ ht _ _ _ _ _ _ _ _ => exact absurd ht hn
  | succ k ih =>
    have e0 : run cfg t0 nodes pot inp (k + 1 + 1) = step cfg t0 (inp (k + 1)) (run cfg t0 nodes pot inp (k + 1)) := rfl
    cases step_kind cfg t0 (inp (k + 1)) (run cfg t0 nodes pot inp (k + 1)) with
    | halted hc e => rw [e0, e] at h; exact absurd h hc
    | output _ _ e =>
      rw [e0, e, forBody_rows]
      simp [saver]
    | signal hc _ _ e => rw [e0, e]; exact ih hc
    | small hc _ _ _ e => rw [e0, e]; exact ih hc
    | exitRec hc _ _ _ _ _ _ _ e => rw [e0, e]; exact ih hc
    | fail hc _ _ _ _ e => rw [e0, e]; exact ih hc
    | reject hc _ _ _ _ _ _ e => rw [e0, e]; exact ih hc
    | accept hc _ _ _ _ _ _ _ _ e => rw [e0, e]; exact ih hc

/-- **C104** The first row is written before any time step. Its `dt` is the length the program would like for the first step, the geometric mean of
`min(dt)` and `max(dt)`, its `max_dm` is 0. -/
theorem C104_first (cfg : Cfg n ET) (t0 : ℝ) (nodes : Fin n → Node) (pot : Fin n → ℝ × ℝ) (inp : ℕ → Input n) (k : ℕ)
    (r : Row n ET) (h : Writes (run cfg t0 nodes pot inp) k r) (h0 : r.nt = 0) :
    let σ := run cfg t0 nodes pot inp
    (∀ j < k, ¬ Accepted (σ j) (σ (j + 1))) ∧ r.t = t0 ∧ r.dt = Real.sqrt (cfg.DTMIN * cfg.DTMAX) ∧
      dtColumn (σ k) = r.dt ∧ maxDmColumn (σ k) = 0 := by
  intro σ
  obtain ⟨hc, -, e⟩ := writes_output h
  have hk : k = 0 := by
    rcases k with - | k
    · rfl
    · exfalso
      have := rows_ne k hc
      rw [e] at h0
      exact this (List.eq_nil_of_length_eq_zero h0)
  subst hk
  rw [e]
  refine ⟨fun j hj => by omega, rfl, rfl, rfl, ?_⟩
  show (0 : ℝ) * _ = 0
  rw [zero_mul]

/-! ## averages -/

theorem sum_map_lin (l : List Mesh.Tet) (w : Mesh.Tet → ℝ) (f g h : ℕ → ℝ) (c : ℝ) :
    (l.map fun t => w t * ((∑ i, (f (t.ind i) - g (t.ind i) - c * h (t.ind i))) / 4)).sum =
      (l.map fun t => w t * ((∑ i, f (t.ind i)) / 4)).sum - (l.map fun t => w t * ((∑ i, g (t.ind i)) / 4)).sum -
        c * (l.map fun t => w t * ((∑ i, h (t.ind i)) / 4)).sum := by
  induction l with
  | nil => simp
  | cons t l ih =>
    simp only [List.map_cons, List.sum_cons]
    rw [ih, Finset.sum_sub_distrib, Finset.sum_sub_distrib, ← Finset.mul_sum]
    ring

theorem avg_lin (G : Tetra.Rule) (hG : Tetra.Compiled G) (p : ℕ → V3) (mag : ℕ → Bool) (nreg : ℕ) (tets : List Mesh.Tet)
    (region : Option ℕ) (hreg : ∀ r, region = some r → r < nreg ∧ mag r = true) (f g h : ℕ → ℝ) (c : ℝ) :
    MeshElem.avg G p mag nreg tets (fun i => f i - g i - c * h i) region =
      MeshElem.avg G p mag nreg tets f region - MeshElem.avg G p mag nreg tets g region - c * MeshElem.avg G p mag nreg tets h region := by
  rw [MeshElem.avg_eq G hG _ _ _ _ _ _ hreg, MeshElem.avg_eq G hG _ _ _ _ _ _ hreg, MeshElem.avg_eq G hG _ _ _ _ _ _ hreg,
    MeshElem.avg_eq G hG _ _ _ _ _ _ hreg, sum_map_lin]
  ring

theorem comp_le_edist (a b : V3) (d : Fin 3) : |a.comp d - b.comp d| ≤ edist a b := by
  unfold edist
  rw [← Real.sqrt_sq_eq_abs]
  apply Real.sqrt_le_sqrt
  fin_cases d <;> simp only [V3.comp] <;> nlinarith [sq_nonneg (a.x - b.x), sq_nonneg (a.y - b.y), sq_nonneg (a.z - b.z)]

/-- **C104** Without recentering, the change of an average `<Mx>` over the last time step is `dt <dMx/dt>`, up to `max_dm² / 2`, for the average over
the whole magnet and over each magnetic region. -/
theorem C104_average (cfg : Cfg n ET) (hv : Valid cfg) (hg : 0 ≤ cfg.gamma0) (hR : NoRecenter cfg) (t0 : ℝ)
    (nodes : Fin n → Node) (pot : Fin n → ℝ × ℝ) (inp : ℕ → Input n) (hu0 : ∀ i, cfg.magNode i = true → IsUnit3 (nodes i).next.u) (k : ℕ)
    (r : Row n ET) (h : Writes (run cfg t0 nodes pot inp) k r) (h0 : r.nt ≠ 0)
    (G : Tetra.Rule) (hG : Tetra.Compiled G) (p : ℕ → V3) (mag : ℕ → Bool) (nreg : ℕ) (tets : List Mesh.Tet) (region : Option ℕ)
    (hreg : ∀ q, region = some q → q < nreg ∧ mag q = true) (hpos : ∀ t ∈ tets, 0 < Tetra.detJ (MeshElem.nod4 p t))
    (hne : ∃ t ∈ tets, mag t.reg = true ∧ (region = none ∨ region = some t.reg))
    (hnod : ∀ t ∈ tets, mag t.reg = true → ∀ i, ∃ hi : t.ind i < n, cfg.magNode ⟨t.ind i, hi⟩ = true) (d : Fin 3) :
    let σ := run cfg t0 nodes pot inp
    ∃ j, LastStep σ j k ∧ (σ j).t < r.t ∧
      |mColumn G p mag nreg tets region d r.nodes - MeshElem.avg G p mag nreg tets (onNodes fun i => (startU σ j i).comp d) region -
        dtColumn (σ k) * rateColumn G p mag nreg tets region d r.nodes| ≤ maxDmColumn (σ k) ^ 2 / 2 := by
  intro σ
  have hN : RecenterKeepsNext cfg := fun nd nd' e i => by
    rw [hR] at e
    injection e with e
    rw [e]
    exact ⟨rfl, rfl, rfl⟩
  have hU : RecenterKeepsUnit cfg := fun nd nd' e hu => by
    rw [hR] at e
    injection e with e
    rw [← e]
    exact hu
  obtain ⟨j, hj, h1, h2, hmin, h3, v, h4, -, h6, h7⟩ := C104_step cfg hv hg hN hU t0 nodes pot inp hu0 k r h h0
  have hdt : 0 ≤ r.dt := hv.dtmin.le.trans hmin
  refine ⟨j, hj, ?_, ?_⟩
  · rcases h3 with e | e
    · rw [e]
      have := hv.dtmin
      show (run cfg t0 nodes pot inp j).t < _
      linarith
    · rw [e]
      have h5 := abs_le.mp (hv.addErr (run cfg t0 nodes pot inp j).t r.dt)
      have := hv.dtmin
      show (run cfg t0 nodes pot inp j).t < _
      linarith [h5.1]
  · unfold mColumn rateColumn
    rw [h1, ← avg_lin G hG p mag nreg tets region hreg]
    rw [abs_le]
    refine MeshElem.C33_between G hG p mag nreg tets _ region hreg hpos _ _ hne ?_
    intro t ht hm _ i
    obtain ⟨hi, hmi⟩ := hnod t ht hm i
    rw [← abs_le]
    have e : ∀ f : Fin n → ℝ, onNodes f (t.ind i) = f ⟨t.ind i, hi⟩ := fun f => by
      unfold onNodes
      rw [dif_pos hi]
    rw [e, e, e, h7 hR]
    have a := comp_le_edist (r.nodes ⟨t.ind i, hi⟩).next.u (startU (run cfg t0 nodes pot inp) j ⟨t.ind i, hi⟩ + r.dt * v ⟨t.ind i, hi⟩) d
    have b := (h6 ⟨t.ind i, hi⟩ hmi).2
    have c := h4 ⟨t.ind i, hi⟩ hmi
    have c0 : 0 ≤ r.dt * Real.sqrt (v ⟨t.ind i, hi⟩).nsq := mul_nonneg hdt (Real.sqrt_nonneg _)
    have e2 : ∀ (a w : V3), (a + r.dt * w).comp d = a.comp d + r.dt * w.comp d := by
      intro a w
      fin_cases d <;> simp [V3.comp]
    rw [e2] at a
    rw [sub_sub]
    refine a.trans (b.trans ?_)
    have := pow_le_pow_left₀ c0 c 2
    linarith

/-! ## recentering -/

/-- **C104** With recentering: if the average magnetization along the axis, as shown in the row itself, is not below the threshold in absolute value, the
last step was followed by a shift, and the columns `<dMx/dt>`, `<dMy/dt>`, `<dMz/dt>` of the row are all 0, whatever the velocities were. -/
theorem C104_recentered (cfg : Cfg n ET) (hv : Valid cfg) (g : Recenter.Geo n) (thres : ℝ) (ch : ℤ)
    (hR : cfg.recenter = Recenter.loopRecenter g thres ch) (t0 : ℝ) (nodes : Fin n → Node) (pot : Fin n → ℝ × ℝ) (inp : ℕ → Input n) (k : ℕ)
    (r : Row n ET) (h : Writes (run cfg t0 nodes pot inp) k r) (h0 : r.nt ≠ 0)
    (hth : |thres| ≤ |Recenter.avg g r.nodes (Recenter.switchDir ch)|)
    (G : Tetra.Rule) (p : ℕ → V3) (mag : ℕ → Bool) (nreg : ℕ) (tets : List Mesh.Tet) (region : Option ℕ) (d : Fin 3) :
    rateColumn G p mag nreg tets region d r.nodes = 0 := by
  obtain ⟨hc, ht, er⟩ := writes_output h
  obtain ⟨j, hj, hcj, h1, h2, h3, h4⟩ := row_last hv h h0
  obtain ⟨-, -, -, k4, X, -, k6, k7⟩ := accepted_kind (inp := inp j) hj.kept
  have hstep : ∃ nd, cfg.recenter (accepted cfg t0 (inp j) (run cfg t0 nodes pot inp j) X).nodes = some nd ∧
      run cfg t0 nodes pot inp (j + 1) = { accepted cfg t0 (inp j) (run cfg t0 nodes pot inp j) X with nodes := nd } := by
    rcases k7 with ⟨-, e⟩ | hh
    · exfalso
      have : (run cfg t0 nodes pot inp (j + 1)).ctl = .noDomainWall := by
        show (step cfg t0 (inp j) (run cfg t0 nodes pot inp j)).ctl = _
        rw [e]
      rw [this] at hcj
      cases hcj
    · exact hh
  obtain ⟨nd, hrec, es⟩ := hstep
  have rnodes : r.nodes = nd := by rw [er]; exact h4.trans (by rw [es])
  have hkeep := Recenter.C46_keeps_next cfg g thres ch hR _ _ hrec
  have havg : Recenter.avg g r.nodes (Recenter.switchDir ch) =
      Recenter.avg g (accepted cfg t0 (inp j) (run cfg t0 nodes pot inp j) X).nodes (Recenter.switchDir ch) := by
    unfold Recenter.avg
    rw [rnodes]
    exact Finset.sum_congr rfl fun i _ => by rw [(hkeep i).2.1]
  have hz : ∀ i, (r.nodes i).next.v = 0 := by
    intro i
    rw [hR] at hrec
    unfold Recenter.loopRecenter Recenter.recenter at hrec
    dsimp only at hrec
    rw [if_neg (by rw [← havg]; exact not_lt.mpr hth)] at hrec
    split at hrec
    · rename_i hh
      split at hh <;> cases hh
    · cases hrec
    · rename_i nd2 hh
      injection hrec with hrec
      subst hrec
      split at hh
      · cases hh
      · injection hh with hh
        rw [rnodes, ← hh]
        rfl
  have hf : onNodes (fun i => (r.nodes i).next.v.comp d) = fun _ => 0 := by
    funext i
    unfold onNodes
    split
    · dsimp only
      rw [hz]
      fin_cases d <;> rfl
    · rfl
  unfold rateColumn MeshElem.avg
  rw [hf]
  dsimp only
  have : ((Mesh.magTet mag tets).map fun t => if region ≠ some t.reg ∧ region ≠ none then 0
    else ∑ j, Tetra.weight G (MeshElem.nod4 p t) j * Tetra.interpS G (MeshElem.nod4 (fun _ => (0 : ℝ)) t) j).sum = 0 := by
    apply List.sum_eq_zero
    intro x hx
    obtain ⟨t, -, rfl⟩ := List.mem_map.mp hx
    split
    · rfl
    · apply Finset.sum_eq_zero
      intro q _
      simp [Tetra.interpS, MeshElem.nod4]
  rw [this, zero_div]

/-! ## runs of one time step, of length 10, before row 1 -/

noncomputable def rateCfg (R : (Fin n → Node) → Option (Fin n → Node)) : Cfg n ℝ :=
  { tf := 20, DTMIN := 1, DTMAX := 100, DUMAX := 1, timeStep := 10, savePeriod := 2, gamma0 := 1, add := (· + ·)
    magNode := fun _ => true, energy := fun _ t => t, recenter := R }

noncomputable def rateIn (X : Fin n → ℝ × ℝ) : ℕ → Input n := fun _ => { sig := false, r := 0, sol := some X, pot := fun _ => (0, 0) }

noncomputable abbrev rateRun (R : (Fin n → Node) → Option (Fin n → Node)) (nodes : Fin n → Node) (X : Fin n → ℝ × ℝ) : ℕ → St n ℝ :=
  run (rateCfg R) 0 nodes (fun _ => (0, 0)) (rateIn X)

section rate
variable (R : (Fin n → Node) → Option (Fin n → Node)) (nodes : Fin n → Node) (X : Fin n → ℝ × ℝ)

theorem rateValid : Valid (rateCfg R) :=
  ⟨by norm_num [rateCfg], by norm_num [rateCfg], by norm_num [rateCfg], by norm_num [rateCfg], fun t dt => by norm_num [rateCfg]⟩

theorem rate_stepCount : stepCount (rateCfg R) 0 = 2 := by
  have : (((rateCfg R).tf - 0) / (rateCfg R).timeStep) = 2 := by norm_num [rateCfg]
  unfold stepCount cRound
  rw [this, if_pos (by norm_num)]
  norm_num [Int.floor_eq_iff]

theorem rate_run1 :
    rateRun R nodes X 1 = { saver (rateCfg R) (init (rateCfg R) 0 nodes (fun _ => (0, 0))) with stepNb := 1 } := by
  change step (rateCfg R) 0 (rateIn X 0) (init (rateCfg R) 0 nodes (fun _ => (0, 0))) = _
  have hnot : ¬ (init (rateCfg R) 0 nodes (fun _ => (0, 0))).t < tTarget (rateCfg R) 0
      (init (rateCfg R) 0 nodes (fun _ => (0, 0))).stepNb := by
    simp [init, tTarget]
  have hc : ((0 + 1 : ℕ) : ℤ) ≤ stepCount (rateCfg R) 0 := by rw [rate_stepCount]; norm_num
  have hi : (init (rateCfg R) 0 nodes (fun _ => (0, 0))).ctl = .running := by
    change (if 0 ≤ stepCount (rateCfg R) 0 then Ctl.running else Ctl.done 0) = _
    rw [rate_stepCount]; rfl
  unfold step
  rw [hi]
  simp only
  rw [if_neg hnot]
  exact if_pos hc

theorem rate_s1 : (rateRun R nodes X 1).ctl = .running ∧ (rateRun R nodes X 1).t = 0 ∧
    (rateRun R nodes X 1).stepNb = 1 ∧ (rateRun R nodes X 1).stepper.softMax = 10 ∧ (rateRun R nodes X 1).stepper.hardMin = 1 ∧
    (rateRun R nodes X 1).rows.length = 1 := by
  rw [rate_run1]
  refine ⟨?_, rfl, rfl, ?_, rfl, rfl⟩
  · change (if 0 ≤ stepCount (rateCfg R) 0 then Ctl.running else Ctl.done 0) = _
    rw [rate_stepCount]; rfl
  · change Real.sqrt ((1 : ℝ) * 100) = 10
    rw [show (1 : ℝ) * 100 = 10 ^ 2 by norm_num, Real.sqrt_sq (by norm_num)]

theorem rate_att : attDt (rateCfg R) 0 (rateRun R nodes X 1) = 10 := by
  obtain ⟨-, h2, h3, h6, -, -⟩ := rate_s1 R nodes X
  have hs : tTarget (rateCfg R) 0 (rateRun R nodes X 1).stepNb - (rateRun R nodes X 1).t = 10 := by
    rw [h2, h3]; norm_num [tTarget, rateCfg]
  unfold attDt
  rw [hs]
  unfold TimeStepper.step
  simp only
  rw [h6]
  norm_num

/-- row 1 is written after this step -/
theorem rate_row {v : ℝ} (hX : vMax 1 (fun _ => true) X = v) (hv : v ≤ 1 / 10) {nd : Fin n → Node}
    (h : R (accepted (rateCfg R) 0 (rateIn X 1) (rateRun R nodes X 1) X).nodes = some nd) :
    Writes (rateRun R nodes X) 2 { nt := 1, t := 10, dt := 10, E := 0, nodes := nd } ∧ maxDmColumn (rateRun R nodes X 2) = v * 10 := by
  obtain ⟨h1, h2, h3, -, -, h6⟩ := rate_s1 R nodes X
  have hX' : vMax (rateCfg R).gamma0 (rateCfg R).magNode X = v := hX
  have e2 : rateRun R nodes X 2 = { accepted (rateCfg R) 0 (rateIn X 1) (rateRun R nodes X 1) X with nodes := nd } := by
    change step (rateCfg R) 0 (rateIn X 1) (rateRun R nodes X 1) = _
    have hlt : (rateRun R nodes X 1).t < tTarget (rateCfg R) 0 (rateRun R nodes X 1).stepNb := by
      rw [h2, h3]; norm_num [tTarget, rateCfg]
    have e : step (rateCfg R) 0 (rateIn X 1) (rateRun R nodes X 1) = whileBody (rateCfg R) 0 (rateIn X 1) (rateRun R nodes X 1) := by
      unfold step
      rw [h1]
      simp only
      rw [if_pos hlt]
    rw [e, whileBody_accept (X := X) _ _ _ _ rfl (by rw [rate_att]; norm_num [rateCfg]) rfl
      (by rw [hX', rate_att]; show ¬ (1 : ℝ) < 10 * v; linarith)]
    have h' : (rateCfg R).recenter (accepted (rateCfg R) 0 (rateIn X 1) (rateRun R nodes X 1) X).nodes = some nd := h
    rw [h']
  have ht : (rateRun R nodes X 2).t = 10 := by
    rw [e2]
    unfold accepted
    simp only
    rw [h2, h3, rate_att, if_pos (by norm_num [tTarget, rateCfg])]
    norm_num [tTarget, rateCfg]
  have hdt : (rateRun R nodes X 2).dt = 10 := by rw [e2]; exact rate_att R nodes X
  have hE : (rateRun R nodes X 2).E = 0 := by rw [e2]; exact h2
  have hr : (rateRun R nodes X 2).rows.length = 1 := by rw [e2]; exact h6
  have hn : (rateRun R nodes X 2).nodes = nd := by rw [e2]
  have hc : (rateRun R nodes X 2).ctl = .running := by rw [e2]; exact h1
  have hnb : (rateRun R nodes X 2).stepNb = 1 := by rw [e2]; exact h3
  constructor
  · unfold Writes
    have e3 : rateRun R nodes X 3 = forBody (rateCfg R) 0 (rateRun R nodes X 2) := by
      change step (rateCfg R) 0 (rateIn X 2) (rateRun R nodes X 2) = _
      unfold step
      rw [hc]
      simp only
      rw [if_neg (by rw [hnb, ht]; norm_num [tTarget, rateCfg])]
    show (rateRun R nodes X 3).rows = _
    rw [e3, forBody_rows]
    show (rateRun R nodes X 2).rows ++ [_] = _
    rw [hr, ht, hdt, hE, hn]
  · show (rateRun R nodes X 2).vmax * (rateRun R nodes X 2).dt = _
    rw [hdt, e2]
    show vMax (rateCfg R).gamma0 (rateCfg R).magNode X * 10 = _
    rw [hX']

end rate

/-- velocity 1/20 at node 1 -/
noncomputable def rateX : Fin n → ℝ × ℝ := fun i => if i.val = 1 then (1 / 20, 0) else (0, 0)

theorem rateX_vMax3 : vMax 1 (fun _ => true) (rateX (n := 3)) = 1 / 20 := by
  unfold vMax v2max
  have : (List.finRange 3) = [0, 1, 2] := rfl
  rw [this]
  simp [rateX]
  norm_num
  rw [show (400 : ℝ) = 20 ^ 2 by norm_num, Real.sqrt_sq (by norm_num)]
  norm_num

theorem rateX_vMax4 : vMax 1 (fun _ => true) (rateX (n := 4)) = 1 / 20 := by
  unfold vMax v2max
  have : (List.finRange 4) = [0, 1, 2, 3] := rfl
  rw [this]
  simp [rateX]
  norm_num
  rw [show (400 : ℝ) = 20 ^ 2 by norm_num, Real.sqrt_sq (by norm_num)]
  norm_num

/-- a tetrahedron -/
def ratePos : ℕ → V3
  | 1 => ⟨1, 0, 0⟩
  | 2 => ⟨0, 1, 0⟩
  | 3 => ⟨0, 0, 1⟩
  | _ => ⟨0, 0, 0⟩

def rateNodes (i : Fin 4) : Node := ⟨ratePos i, 0, 0, ⟨⟨1, 0, 0⟩, 0, 0, 0⟩, ⟨⟨1, 0, 0⟩, 0, 0, 0⟩⟩

/-- the hypotheses of `C104_step` and `C104_average` are met by a tetrahedron where the magnetization of one node turns -/
example : ∃ (r : Row 4 ℝ) (G : Tetra.Rule) (t : Mesh.Tet), Writes (rateRun some rateNodes rateX) 2 r ∧ r.nt ≠ 0 ∧
    Valid (rateCfg (n := 4) some) ∧ NoRecenter (rateCfg (n := 4) some) ∧ 0 ≤ (rateCfg (n := 4) some).gamma0 ∧
    (∀ i, IsUnit3 (rateNodes i).next.u) ∧ maxDmColumn (rateRun some rateNodes rateX 2) = 1 / 2 ∧
    Tetra.Compiled G ∧ t.reg = 0 ∧ 0 < Tetra.detJ (MeshElem.nod4 ratePos t) ∧ ∀ i, t.ind i < 4 := by
  have h := rate_row some rateNodes rateX rateX_vMax4 (by norm_num) rfl
  refine ⟨_, _, ⟨fun i => i, 0⟩, h.1, by norm_num, rateValid _, fun _ => rfl, by norm_num [rateCfg], fun i => ?_, by rw [h.2]; norm_num,
    Or.inr rfl, rfl, ?_, fun i => i.2⟩
  · simp only [rateNodes]
    unfold IsUnit3
    norm_num
  · unfold Tetra.detJ Tetra.jac MeshElem.nod4
    rw [Matrix.det_fin_three]
    simp [ratePos]

theorem wall_unit (i : Fin 3) : IsUnit3 (Recenter.wallNodes 1 i).next.u := by
  fin_cases i <;> unfold IsUnit3 <;> norm_num [Recenter.wallNodes]

/-- **C104** Negation with recentering: a run where the last step moved the magnetization by 1/2 and the row after it shows a rate of change 0, for any
mesh. -/
theorem C104_negation_recenter : ∃ (cfg : Cfg 3 ℝ) (g : Recenter.Geo 3) (nodes : Fin 3 → Node) (inp : ℕ → Input 3) (r : Row 3 ℝ) (k : ℕ),
    Valid cfg ∧ Recenter.NearestOk g nodes ∧ cfg.recenter = Recenter.loopRecenter g (1 / 10) 2 ∧
    (∀ i, cfg.magNode i = true ∧ IsUnit3 (nodes i).next.u) ∧
    Writes (run cfg 0 nodes (fun _ => (0, 0)) inp) k r ∧ r.nt = 1 ∧ maxDmColumn (run cfg 0 nodes (fun _ => (0, 0)) inp k) = 1 / 2 ∧
    ∀ (G : Tetra.Rule) (p : ℕ → V3) (mag : ℕ → Bool) (nreg : ℕ) (tets : List Mesh.Tet) (region : Option ℕ) (d : Fin 3),
      rateColumn G p mag nreg tets region d r.nodes = 0 := by
  set R := Recenter.loopRecenter (Recenter.wallGeo 1) (1 / 10) 2 with hR
  set a := (accepted (rateCfg R) 0 (rateIn rateX 1) (rateRun R (Recenter.wallNodes 1) rateX 1) rateX).nodes with ha
  have hU : RecenterKeepsUnit (rateCfg R) := Recenter.C46_keeps_unit _ _ _ _ rfl fun _ => rfl
  have hunit := allUnit_run hU 0 (Recenter.wallNodes 1) (fun _ => (0, 0)) (rateIn rateX) (fun i _ => wall_unit i) 1
  have hcur : ∀ i, ((rateRun R (Recenter.wallNodes 1) rateX 1).nodes i).cur.u = (Recenter.wallNodes 1 i).next.u := by
    intro i
    rw [rate_run1]
    simp [saver, init, computeAllNodes, setPot, rateCfg, Node.evolution]
  have hnext : ∀ i, (a i).next.u = (solvedNodes (rateCfg R) (rateIn rateX 1) rateX 10 (rateRun R (Recenter.wallNodes 1) rateX 1) i).next.u := by
    intro i
    rw [ha, ← rate_att R (Recenter.wallNodes 1) rateX]
    exact (computeAll_next_u (rateCfg R).magNode _ _ i).1
  have hs := fun (i : Fin 3) => solved_node (cfg := rateCfg R) (inp := rateIn rateX 1) (X := rateX) (dt := 10) (s := rateRun R (Recenter.wallNodes 1) rateX 1) (i := i) rfl (hunit i rfl).1
  have hdist : ∀ i, ((a i).next.u - (Recenter.wallNodes 1 i).next.u).nsq ≤ 100 * ((rateX i).1 * (rateX i).1 + (rateX i).2 * (rateX i).2) := by
    intro i
    have h3 := (hs i).2.2.1
    have h4 := (hs i).2.2.2
    rw [← hcur i, hnext i]
    refine h3.trans (le_of_eq ?_)
    rw [h4]
    show (10 : ℝ) ^ 2 * ((1 : ℝ) ^ 2 * _) = _
    ring
  have hfix : ∀ i, i ≠ 1 → (a i).next.u.z = (Recenter.wallNodes 1 i).next.u.z := by
    intro i hi
    have := hdist i
    have e : rateX i = (0, 0) := if_neg fun h => hi (Fin.ext h)
    rw [e] at this
    unfold V3.nsq at this
    simp only [V3.sub_x, V3.sub_y, V3.sub_z] at this
    have h2 : ((a i).next.u.z - (Recenter.wallNodes 1 i).next.u.z) ^ 2 = 0 := by
      nlinarith [sq_nonneg ((a i).next.u.x - (Recenter.wallNodes 1 i).next.u.x), sq_nonneg ((a i).next.u.y - (Recenter.wallNodes 1 i).next.u.y),
        sq_nonneg ((a i).next.u.z - (Recenter.wallNodes 1 i).next.u.z)]
    have := pow_eq_zero_iff (two_ne_zero) |>.mp h2
    linarith
  have hmid : (a 1).next.u.z ≤ 0 := by
    have := hdist 1
    have e : rateX (n := 3) 1 = (1 / 20, 0) := by simp [rateX]
    rw [e] at this
    unfold V3.nsq at this
    simp only [V3.sub_x, V3.sub_y, V3.sub_z] at this
    have e1 : (Recenter.wallNodes 1 1).next.u.z = -1 := rfl
    rw [e1] at this
    nlinarith [sq_nonneg ((a 1).next.u.x - (Recenter.wallNodes 1 1).next.u.x), sq_nonneg ((a 1).next.u.y - (Recenter.wallNodes 1 1).next.u.y)]
  have h0 : (a 0).next.u.z = 5 / 13 := hfix 0 (by decide)
  have h2 : (a 2).next.u.z = -1 := hfix 2 (by decide)
  have havg : (1 / 10 : ℝ) ≤ |Recenter.avg (Recenter.wallGeo 1) a 2| := by
    have : Recenter.avg (Recenter.wallGeo 1) a 2 ≤ -(1 / 10) := by
      unfold Recenter.avg
      rw [Fin.sum_univ_three]
      show 1 / 3 * (a 0).next.u.z + 1 / 3 * (a 1).next.u.z + 1 / 3 * (a 2).next.u.z ≤ _
      rw [h0, h2]
      linarith
    rw [abs_of_neg (by linarith)]
    linarith
  have hk : Recenter.switchDir 2 = 2 := rfl
  have hsome : ∃ nd, R a = some nd := by
    rw [hR]
    unfold Recenter.loopRecenter Recenter.recenter
    dsimp only
    rw [hk, if_neg (by rw [abs_of_pos (by norm_num : (0 : ℝ) < 1 / 10)]; exact not_lt.mpr havg),
      Recenter.wall_left 1 (Or.inl rfl), Recenter.wall_right 1 (Or.inl rfl), if_pos rfl, if_pos rfl, if_neg]
    · exact ⟨_, rfl⟩
    · show ¬ (a 0).next.u.z * (a 2).next.u.z > 0
      rw [h0, h2]
      norm_num
  obtain ⟨nd, hnd⟩ := hsome
  obtain ⟨hw, hdm⟩ := rate_row R (Recenter.wallNodes 1) rateX rateX_vMax3 (by norm_num) hnd
  refine ⟨rateCfg R, Recenter.wallGeo 1, Recenter.wallNodes 1, rateIn rateX, _, 2, rateValid R, Recenter.wall_nearest (by norm_num), rfl,
    fun i => ⟨rfl, wall_unit i⟩, hw, rfl, by rw [hdm]; norm_num, ?_⟩
  intro G p mag nreg tets region d
  refine C104_recentered (rateCfg R) (rateValid R) (Recenter.wallGeo 1) (1 / 10) 2 rfl 0 _ _ _ 2 _ hw (by norm_num) ?_ G p mag nreg tets region d
  have hkeep := Recenter.C46_keeps_next (rateCfg R) (Recenter.wallGeo 1) (1 / 10) 2 rfl a nd hnd
  have e : Recenter.avg (Recenter.wallGeo 1) nd 2 = Recenter.avg (Recenter.wallGeo 1) a 2 := by
    unfold Recenter.avg
    exact Finset.sum_congr rfl fun i _ => by rw [(hkeep i).2.1]
  rw [hk, abs_of_pos (by norm_num : (0 : ℝ) < 1 / 10)]
  show (1 / 10 : ℝ) ≤ |Recenter.avg (Recenter.wallGeo 1) nd 2|
  rw [e]
  exact havg

end Verif.TimeLoop
