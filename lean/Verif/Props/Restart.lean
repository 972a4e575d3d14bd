import Verif.Model.Restart
import Verif.Props.SolFile
import Verif.Props.TimeLoop
import Mathlib.Data.Int.Log

/-!
# C80: starting from a saved configuration
-/

namespace Verif.Restart

open Verif.SolFile Verif.TimeLoop Verif.Text Verif.Metadata

variable {n : ℕ} {ET : Type}

/-- a vector with the digits of the file -/
def roundV (f : Format) (u : V3) : V3 := ⟨f.row u.x, f.row u.y, f.row u.z⟩

/-- **C80** A file written by a run without spin accumulation is accepted as initial magnetization: every node gets the
magnetization and the potential that were saved for it, with the digits of the file, and the run starts at `initial_time` if it is given, else at
the time of the file. Nothing else is restored: the velocities are those of a mesh just read. -/
theorem C80_restore (f : Format) (m : Info) (hm : Clean m) (hs : m.spinAcc = false) (ht : TimeReadable f m) (t t' : ℝ)
    (hn : '\n' ∉ f.time t) (hp : f.stod (' ' :: f.time t) = some t') (header : Str)
    (hh : Metadata.sol m (f.time t) = some header) (old new distrib : Fin n → Node) (idx : List ℕ) (h : Numbering n idx)
    (initialTime : Option ℝ) :
    ∃ file nodes, savesol f header (savedNodes old) idx none = some file ∧
      start f new distrib idx (some file) initialTime = .ok (initialTime.getD t') nodes ∧
      ∀ i, (nodes i).next.u = roundV f (old i).next.u ∧ (nodes i).next.phi = f.row (old i).next.phi ∧ (nodes i).p = (new i).p ∧
        (nodes i).next.v = (new i).next.v ∧ (nodes i).next.phiv = (new i).next.phiv ∧ (nodes i).cur = (new i).cur := by
  have hl : (savedNodes old).length = n := by simp [savedNodes]
  have hl' : (savedNodes new).length = n := by simp [savedNodes]
  obtain ⟨file, res, h1, h2, h3, h4⟩ := C29_round_trip_partial f m hm hs ht t t' hn hp header hh (savedNodes old) (savedNodes new)
    (by rw [hl, hl']) idx idx (by rw [hl]; exact h) (by rw [hl]; exact h) (by
      intro d hd
      obtain ⟨i, rfl⟩ := (List.mem_ofFn' _ _).mp hd
      simp [saved, ND.Finite, Fl.IsFin])
  refine ⟨file, restored new res, h1, ?_, ?_⟩
  · unfold start
    simp only [h2]
  · intro i
    -- the rank of the node in the file
    obtain ⟨r, hr, er⟩ : ∃ r, ∃ hr : r < idx.length, idx[r] = (i : ℕ) :=
      List.mem_iff_getElem.mp (h.mem_iff.mpr (List.mem_range.mpr i.2))
    have hrn : r < n := by
      have := h.length_eq
      rw [List.length_range] at this
      omega
    obtain ⟨j, j', d, e1, e2, e3, e4⟩ := h4 r (by rw [hl]; exact hrn)
    rw [List.getElem?_eq_getElem hr, er] at e1 e2
    cases e1
    cases e2
    have ed : d = saved (old i).next := by
      have : (savedNodes old)[(i : ℕ)]? = some (saved (old i).next) := by
        unfold savedNodes
        rw [List.getElem?_ofFn]
        simp [i.2]
      rw [this] at e3
      exact (Option.some.inj e3).symm
    unfold restored
    rw [e4, ed]
    exact ⟨rfl, rfl, rfl, rfl, rfl, rfl⟩

/-- **C80** Without a file the run starts from the magnetization given by the settings, at `initial_time` if it is given, else
at time zero; and a file that is refused starts no run at all, whatever the settings. -/
theorem C80_fresh (f : Format) (nodes distrib : Fin n → Node) (idx : List ℕ) :
    start f nodes distrib idx none none = .ok 0 distrib ∧
    (∀ t, start f nodes distrib idx none (some t) = .ok t distrib) ∧
    ∀ file, (∀ t l, readSol f (savedNodes nodes) idx file ≠ .ok t l) → ∀ initialTime t nd,
      start f nodes distrib idx (some file) initialTime ≠ .ok t nd := by
  refine ⟨rfl, fun _ => rfl, fun file h initialTime t nd he => ?_⟩
  unfold start at he
  cases e : readSol f (savedNodes nodes) idx file with
  | ok t l => exact h t l e
  | exit => simp only [e] at he; cases he
  | exception => simp only [e] at he; cases he
  | undefined => simp only [e] at he; cases he

/-- **C80** The first row of a run is the state it starts from, at the time it starts: number 0, the initial magnetization, and
the energies at that time for the potentials just computed; the time step is the default one. -/
theorem C80_first_row (cfg : Cfg n ET) (hE : EnergyOfNext cfg) (t0 : ℝ) (nodes : Fin n → Node) (pot : Fin n → ℝ × ℝ) (inp : ℕ → Input n)
    (h0 : 0 ≤ stepCount cfg t0) :
    ∃ r, (run cfg t0 nodes pot inp 1).rows = [r] ∧ r.nt = 0 ∧ r.t = t0 ∧ r.dt = Real.sqrt (cfg.DTMIN * cfg.DTMAX) ∧
      (∀ i, (r.nodes i).next.u = (nodes i).next.u ∧ (r.nodes i).p = (nodes i).p) ∧
      ∀ old : Fin n → Node, (∀ i, (old i).p = (nodes i).p ∧ (old i).next.u = (nodes i).next.u ∧
        (old i).next.phi = if cfg.magNode i then (pot i).1 else (nodes i).next.phi) → r.E = cfg.energy old t0 := by
  have hctl : (init cfg t0 nodes pot).ctl = .running := by
    change (if 0 ≤ stepCount cfg t0 then Ctl.running else Ctl.done 0) = _
    rw [if_pos h0]
  have hnot : ¬ (init cfg t0 nodes pot).t < tTarget cfg t0 (init cfg t0 nodes pot).stepNb := by simp [init, tTarget]
  have e : (run cfg t0 nodes pot inp 1).rows = (saver cfg (init cfg t0 nodes pot)).rows := by
    change (TimeLoop.step cfg t0 (inp 0) (init cfg t0 nodes pot)).rows = _
    unfold TimeLoop.step
    rw [hctl]
    simp only
    rw [if_neg hnot, forBody_rows]
  refine ⟨_, e.trans (List.nil_append _), rfl, rfl, rfl, fun i => ?_, fun old ho => ?_⟩
  · obtain ⟨e1, -, e2, -⟩ := computeAll_next_u cfg.magNode pot nodes i
    exact ⟨e1, e2⟩
  · change cfg.energy (setPot cfg.magNode pot nodes) t0 = _
    refine hE _ _ _ fun i => ?_
    obtain ⟨o1, o2, o3⟩ := ho i
    rw [o1, o2, o3]
    unfold setPot
    split_ifs <;> exact ⟨rfl, rfl, rfl⟩

theorem cRound_sub_nat (x : ℝ) (m : ℕ) (h : (m : ℝ) ≤ x) : cRound (x - m) = cRound x - m := by
  have h0 : (0 : ℝ) ≤ x := (Nat.cast_nonneg m).trans h
  unfold cRound
  rw [if_pos (by linarith), if_pos h0, show x - m + 1 / 2 = x + 1 / 2 - (m : ℕ) by ring, Int.floor_sub_natCast]

theorem gridTimes_drop (t0 p : ℝ) (m k : ℕ) : (gridTimes t0 p k).drop m = gridTimes (t0 + m * p) p (k - m) := by
  unfold gridTimes
  apply List.ext_getElem
  · simp
  · intro i h1 h2
    simp only [List.getElem_drop, List.getElem_map, List.getElem_range]
    push_cast
    ring

/-- **C80** Restarted from the time of a row not after the final time, a run writes the rows that the first run had still to
write, at the same times. -/
theorem C80_grid (cfg : Cfg n ET) (hv : Valid cfg) (t0 : ℝ) (nodes nodes' : Fin n → Node) (pot pot' : Fin n → ℝ × ℝ)
    (inp inp' : ℕ → Input n) (k k' m : ℕ) (hm : m < (run cfg t0 nodes pot inp k).rows.length)
    (hdone : (run cfg t0 nodes pot inp k).ctl = .done 0) :
    let t1 := ((run cfg t0 nodes pot inp k).rows[m]).t
    t1 ≤ cfg.tf → (run cfg t1 nodes' pot' inp' k').ctl = .done 0 →
    (run cfg t1 nodes' pot' inp' k').rows.map (·.t) = ((run cfg t0 nodes pot inp k).rows.map (·.t)).drop m := by
  intro t1 ht1 hd'
  have e1 := (C01_output_grid cfg hv t0 nodes pot inp k).2.2 hdone
  have e2 := (C01_output_grid cfg hv t1 nodes' pot' inp' k').2.2 hd'
  have et : t1 = t0 + m * cfg.timeStep := by
    have h1 : ((run cfg t0 nodes pot inp k).rows.map (·.t))[m]'(by simpa using hm) = t1 := by
      rw [List.getElem_map]
    rw [← h1]
    simp only [e1]
    simp [gridTimes]
  rw [e2, e1, gridTimes_drop, ← et]
  congr 1
  have hp := hv.tstep
  have : (cfg.tf - t1) / cfg.timeStep = (cfg.tf - t0) / cfg.timeStep - m := by
    rw [et]
    field_simp
    ring
  rw [this, cRound_sub_nat]
  · omega
  · rw [le_div_iff₀ hp]
    linarith

/-- **C80** With the time of the header rounded, all the times of the restarted run are shifted by the error of the header (for
a final time on the grid and an error below half a period). -/
theorem C80_shift (cfg : Cfg n ET) (hv : Valid cfg) (t0 : ℝ) (nodes nodes' : Fin n → Node) (pot pot' : Fin n → ℝ × ℝ)
    (inp inp' : ℕ → Input n) (k k' m M : ℕ) (htf : cfg.tf = t0 + M * cfg.timeStep)
    (hm : m < (run cfg t0 nodes pot inp k).rows.length) (hdone : (run cfg t0 nodes pot inp k).ctl = .done 0) (t' : ℝ) :
    let t1 := ((run cfg t0 nodes pot inp k).rows[m]).t
    |t' - t1| < cfg.timeStep / 2 → (run cfg t' nodes' pot' inp' k').ctl = .done 0 →
    (run cfg t' nodes' pot' inp' k').rows.map (·.t) =
      (((run cfg t0 nodes pot inp k).rows.map (·.t)).drop m).map (· + (t' - t1)) := by
  intro t1 herr hd'
  have e1 := (C01_output_grid cfg hv t0 nodes pot inp k).2.2 hdone
  have e2 := (C01_output_grid cfg hv t' nodes' pot' inp' k').2.2 hd'
  have hp := hv.tstep
  have hM : (cRound ((cfg.tf - t0) / cfg.timeStep) + 1).toNat = M + 1 := by
    have : (cfg.tf - t0) / cfg.timeStep = (M : ℝ) := by
      rw [htf]
      field_simp
      ring
    rw [this]
    unfold cRound
    rw [if_pos (Nat.cast_nonneg M)]
    have : ⌊(M : ℝ) + 1 / 2⌋ = (M : ℤ) := by
      rw [Int.floor_eq_iff]
      constructor <;> push_cast <;> linarith
    rw [this]
    omega
  have hlen : (run cfg t0 nodes pot inp k).rows.length = M + 1 := by
    have := congrArg List.length e1
    rw [hM] at this
    simpa [gridTimes] using this
  have hmM : m ≤ M := by omega
  have et : t1 = t0 + m * cfg.timeStep := by
    have h1 : ((run cfg t0 nodes pot inp k).rows.map (·.t))[m]'(by simpa using hm) = t1 := by
      rw [List.getElem_map]
    rw [← h1]
    simp only [e1]
    simp [gridTimes]
  rw [e2, e1, hM, gridTimes_drop, ← et]
  obtain ⟨d, rfl⟩ := Nat.exists_eq_add_of_le hmM
  have hcount : (cRound ((cfg.tf - t') / cfg.timeStep) + 1).toNat = d + 1 := by
    have hx : (cfg.tf - t') / cfg.timeStep = d - (t' - t1) / cfg.timeStep := by
      rw [htf, et]
      push_cast
      field_simp
      ring
    rw [hx]
    have hb : |(t' - t1) / cfg.timeStep| < 1 / 2 := by
      rw [abs_div, abs_of_pos hp, div_lt_iff₀ hp]
      linarith
    obtain ⟨b1, b2⟩ := abs_lt.mp hb
    have hr : cRound ((d : ℝ) - (t' - t1) / cfg.timeStep) = (d : ℤ) := by
      have := (C01_round_nearest ((d : ℝ) - (t' - t1) / cfg.timeStep)).1
      obtain ⟨c1, c2⟩ := abs_le.mp this
      have l1 : ((cRound ((d : ℝ) - (t' - t1) / cfg.timeStep) : ℤ) : ℝ) < ((d : ℤ) : ℝ) + 1 := by
        push_cast; linarith
      have l2 : ((d : ℤ) : ℝ) - 1 < ((cRound ((d : ℝ) - (t' - t1) / cfg.timeStep) : ℤ) : ℝ) := by
        push_cast; linarith
      have l1' : cRound ((d : ℝ) - (t' - t1) / cfg.timeStep) < (d : ℤ) + 1 := by exact_mod_cast l1
      have l2' : (d : ℤ) - 1 < cRound ((d : ℝ) - (t' - t1) / cfg.timeStep) := by exact_mod_cast l2
      omega
    rw [hr]
    omega
  rw [hcount, show m + d + 1 - m = d + 1 by omega]
  unfold gridTimes
  rw [List.map_map]
  refine List.map_congr_left fun i _ => ?_
  simp only [Function.comp]
  ring

/-- numbers with at most seven significant decimal digits: what `std::scientific` prints with the default precision of six
digits after the point, settings.cpp:306 -/
def SevenDigits (x : ℝ) : Prop := ∃ (m : ℤ) (e : ℤ), |m| < 10 ^ 7 ∧ x = m * (10 : ℝ) ^ e

theorem not_sevenDigits : ¬ SevenDigits 1.2345678 := by
  rintro ⟨m, e, hm, h⟩
  have h10 : (10 : ℝ) ≠ 0 := by norm_num
  have h1 : (12345678 : ℝ) = m * (10 : ℝ) ^ (e + 7) := by
    rw [zpow_add₀ h10]
    have : (10 : ℝ) ^ (7 : ℤ) = 10000000 := by norm_num
    rw [this]
    linarith
  rcases le_total 0 (e + 7) with he | he
  · obtain ⟨k, hk⟩ := Int.eq_ofNat_of_zero_le he
    rw [hk, zpow_natCast] at h1
    have h2 : (12345678 : ℤ) = m * 10 ^ k := by exact_mod_cast h1
    cases k with
    | zero =>
      rw [pow_zero, mul_one] at h2
      rw [← h2] at hm
      norm_num at hm
    | succ k =>
      rw [pow_succ] at h2
      have : (10 : ℤ) ∣ 12345678 := ⟨m * 10 ^ k, by rw [h2]; ring⟩
      norm_num at this
  · obtain ⟨k, hk⟩ := Int.eq_ofNat_of_zero_le (neg_nonneg.mpr he)
    have hk' : e + 7 = -(k : ℤ) := by omega
    rw [hk', zpow_neg, zpow_natCast] at h1
    have h2 : (12345678 : ℝ) * 10 ^ k = m := by
      rw [h1]
      field_simp
    have h3 : (12345678 : ℤ) * 10 ^ k = m := by exact_mod_cast h2
    have h4 : (1 : ℤ) ≤ 10 ^ k := one_le_pow₀ (by norm_num)
    have h5 : (10 : ℤ) ^ 7 ≤ m := by rw [← h3]; nlinarith
    have := (le_abs_self m).trans_lt hm
    omega

/-- **C80, negation** The header keeps seven digits of the time. Whatever the way it rounds, a configuration saved at a time
with more digits is restarted at another time, and none of the times of the restarted run is a time of the first run (period
1.2345678, final time 3.7037034, restart from row 1). -/
theorem C80_negation_time (f : Format) (hf : ∀ t, ∃ t', f.stod (' ' :: f.time t) = some t' ∧ SevenDigits t')
    (hnear : ∀ t t', f.stod (' ' :: f.time t) = some t' → |t' - t| ≤ |t| / 10 ^ 6) (cfg : Cfg n ET) (hv : Valid cfg)
    (hp : cfg.timeStep = 1.2345678) (htf : cfg.tf = 3 * 1.2345678) (nodes nodes' : Fin n → Node) (pot pot' : Fin n → ℝ × ℝ)
    (inp inp' : ℕ → Input n) (k k' : ℕ) (hdone : (run cfg 0 nodes pot inp k).ctl = .done 0) :
    ∃ (hm : 1 < (run cfg 0 nodes pot inp k).rows.length) (t' : ℝ),
      f.stod (' ' :: f.time ((run cfg 0 nodes pot inp k).rows[1]).t) = some t' ∧
      ((run cfg t' nodes' pot' inp' k').ctl = .done 0 →
        ∀ r' ∈ (run cfg t' nodes' pot' inp' k').rows, ∀ r ∈ (run cfg 0 nodes pot inp k).rows, r'.t ≠ r.t) := by
  have e1 := (C01_output_grid cfg hv 0 nodes pot inp k).2.2 hdone
  have hM : (cRound ((cfg.tf - 0) / cfg.timeStep) + 1).toNat = 4 := by
    have : (cfg.tf - 0) / cfg.timeStep = 3 := by rw [hp, htf]; norm_num
    rw [this]
    unfold cRound
    rw [if_pos (by norm_num)]
    have : ⌊(3 : ℝ) + 1 / 2⌋ = 3 := by rw [Int.floor_eq_iff]; constructor <;> norm_num
    rw [this]
    rfl
  rw [hM] at e1
  have hlen : (run cfg 0 nodes pot inp k).rows.length = 4 := by
    have := congrArg List.length e1
    simpa [gridTimes] using this
  have h1 : 1 < (run cfg 0 nodes pot inp k).rows.length := by omega
  have ht : ((run cfg 0 nodes pot inp k).rows[1]).t = 1.2345678 := by
    have h1' : ((run cfg 0 nodes pot inp k).rows.map (·.t))[1]'(by simpa using h1) = ((run cfg 0 nodes pot inp k).rows[1]).t := by
      rw [List.getElem_map]
    rw [← h1']
    simp only [e1]
    simp [gridTimes, hp]
  obtain ⟨t', hs, h7⟩ := hf ((run cfg 0 nodes pot inp k).rows[1]).t
  refine ⟨h1, t', hs, fun hd' r' hr' r hr heq => ?_⟩
  have hn := hnear _ _ hs
  have hne : t' ≠ 1.2345678 := fun h => not_sevenDigits (h ▸ h7)
  have hsh := C80_shift cfg hv 0 nodes nodes' pot pot' inp inp' k k' 1 3 (by rw [htf, hp]; norm_num) h1 hdone t'
    (by rw [ht] at hn ⊢; rw [hp]; refine hn.trans_lt ?_; rw [abs_of_pos (by norm_num)]; norm_num) hd'
  have m1 : r'.t ∈ (run cfg t' nodes' pot' inp' k').rows.map (·.t) := List.mem_map_of_mem hr'
  have m2 : r.t ∈ (run cfg 0 nodes pot inp k).rows.map (·.t) := List.mem_map_of_mem hr
  rw [hsh, e1, ht, gridTimes_drop] at m1
  rw [e1] at m2
  rw [ht, abs_of_pos (by norm_num : (0 : ℝ) < 1.2345678)] at hn
  obtain ⟨n1, n2⟩ := abs_le.mp hn
  rw [heq] at m1
  simp only [gridTimes, hp, List.map_map, List.mem_map, List.mem_range, Function.comp] at m1 m2
  obtain ⟨a, ha, ea⟩ := m1
  obtain ⟨b, hb, eb⟩ := m2
  -- the difference is a multiple of the period, but small and not zero
  have hd : t' - 1.2345678 = ((b : ℤ) - (a : ℤ) - 1 : ℤ) * (1.2345678 : ℝ) := by
    push_cast
    linarith
  rcases lt_trichotomy ((b : ℤ) - (a : ℤ) - 1) 0 with hz | hz | hz
  · have : (((b : ℤ) - (a : ℤ) - 1 : ℤ) : ℝ) ≤ -1 := by exact_mod_cast (by omega : (b : ℤ) - (a : ℤ) - 1 ≤ -1)
    nlinarith
  · rw [hz] at hd
    push_cast at hd
    exact hne (by linarith)
  · have : (1 : ℝ) ≤ (((b : ℤ) - (a : ℤ) - 1 : ℤ) : ℝ) := by exact_mod_cast (by omega : (1 : ℤ) ≤ (b : ℤ) - (a : ℤ) - 1)
    nlinarith

/-- **C80, negation** The numbers of the files start again from zero: if files are saved and both runs wrote a row, both wrote a
file with the number 0, so that the restarted run replaces the first file of the first run by the configuration it starts
from. -/
theorem C80_negation_names (cfg : Cfg n ET) (hv : Valid cfg) (hsave : 0 < cfg.savePeriod) (t0 t1 : ℝ) (nodes nodes' : Fin n → Node)
    (pot pot' : Fin n → ℝ × ℝ) (inp inp' : ℕ → Input n) (k k' : ℕ) (h : 0 < (run cfg t0 nodes pot inp k).rows.length)
    (h' : 0 < (run cfg t1 nodes' pot' inp' k').rows.length) :
    (∃ s ∈ (run cfg t0 nodes pot inp k).sols, s.nt = some 0 ∧ s.t = t0) ∧
    ∃ s ∈ (run cfg t1 nodes' pot' inp' k').sols, s.nt = some 0 ∧ s.t = t1 := by
  have key : ∀ (t0 : ℝ) (nodes : Fin n → Node) (pot : Fin n → ℝ × ℝ) (inp : ℕ → Input n) (k : ℕ),
      0 < (run cfg t0 nodes pot inp k).rows.length → ∃ s ∈ (run cfg t0 nodes pot inp k).sols, s.nt = some 0 ∧ s.t = t0 := by
    intro t0 nodes pot inp k h
    obtain ⟨c1, c2, -⟩ := C09_sol_cadence cfg hv t0 nodes pot inp k
    have : 0 ∈ (run cfg t0 nodes pot inp k).sols.filterMap (·.nt) := by
      rw [c1, List.mem_filter]
      exact ⟨List.mem_range.mpr h, by simp [hsave]⟩
    obtain ⟨s, hs, es⟩ := List.mem_filterMap.mp this
    refine ⟨s, hs, es, ?_⟩
    obtain ⟨h0, et, -⟩ := c2 s hs 0 es
    rw [et]
    have e1 := (C01_output_grid cfg hv t0 nodes pot inp k).1
    have e2 := ((inv_run cfg hv t0 nodes pot inp k).rowT 0 h0).1
    simpa using e2
  exact ⟨key t0 nodes pot inp k h, key t1 nodes' pot' inp' k' h'⟩

/-! ## The saved digits are not a unit vector -/

theorem unit_not_parallel {u : V3} (hu : 0 < u.nsq) : 0 < (u.cross (V3.unit (Node.minIdx u))).nsq := by
  rw [V3.nsq_cross, Node.unit_nsq, V3.dot_comm]
  have := Node.minIdx_sq_le u
  nlinarith

theorem basisEp_cross {u : V3} (hu : 0 < u.nsq) : 0 < (u.cross (Node.basisEp u)).nsq := by
  have h1 := unit_not_parallel hu
  set e := V3.unit (Node.minIdx u) with he
  have hc : u.cross (e - (e.dot u) * u) = u.cross e := by
    ext <;> simp only [V3.cross, V3.sub_x, V3.sub_y, V3.sub_z, V3.smul_x, V3.smul_y, V3.smul_z] <;> ring
  have hpos : 0 < (e - (e.dot u) * u).nsq := by
    rcases (V3.nsq_nonneg (e - (e.dot u) * u)).lt_or_eq with h | h
    · exact h
    · have := V3.nsq_cross u (e - (e.dot u) * u)
      rw [← h, hc] at this
      nlinarith [sq_nonneg (u.dot (e - (e.dot u) * u))]
  have hb : Node.basisEp u = (1 / Real.sqrt (e - (e.dot u) * u).nsq) * (e - (e.dot u) * u) := V3.normalize_of_pos hpos
  have hx : u.cross (Node.basisEp u) = (1 / Real.sqrt (e - (e.dot u) * u).nsq) * u.cross e := by
    rw [hb, ← hc]
    ext <;> simp only [V3.cross, V3.smul_x, V3.smul_y, V3.smul_z] <;> ring
  rw [hx, V3.nsq_smul]
  have : 0 < Real.sqrt (e - (e.dot u) * u).nsq := Real.sqrt_pos.mpr hpos
  positivity

/-- a step from a vector that is not zero ends on the unit sphere, although the basis is not orthogonal to it -/
theorem step_unit (u : V3) (hu : 0 < u.nsq) (a b : ℝ) : 0 < (u + (a * Node.basisEp u + b * u.cross (Node.basisEp u))).nsq := by
  set e := Node.basisEp u
  have hx := basisEp_cross hu
  rcases (V3.nsq_nonneg (u + (a * e + b * u.cross e))).lt_or_eq with h | h
  · exact h
  exfalso
  set w := u + (a * e + b * u.cross e) with hw
  -- w = 0
  have hz : w.x = 0 ∧ w.y = 0 ∧ w.z = 0 := by
    simp only [V3.nsq] at h
    refine ⟨?_, ?_, ?_⟩ <;> nlinarith [mul_self_nonneg w.x, mul_self_nonneg w.y, mul_self_nonneg w.z]
  obtain ⟨zx, zy, zz⟩ := hz
  simp only [hw, V3.add_x, V3.add_y, V3.add_z, V3.smul_x, V3.smul_y, V3.smul_z] at zx zy zz
  have hb : b = 0 := by
    have : b * (u.cross e).nsq = 0 := by
      have e1 : u.x * (u.cross e).x + u.y * (u.cross e).y + u.z * (u.cross e).z = 0 := by simp only [V3.cross]; ring
      have e2 : e.x * (u.cross e).x + e.y * (u.cross e).y + e.z * (u.cross e).z = 0 := by simp only [V3.cross]; ring
      simp only [V3.nsq]
      linear_combination (u.cross e).x * zx + (u.cross e).y * zy + (u.cross e).z * zz - e1 - a * e2
    rcases mul_eq_zero.mp this with h | h
    · exact h
    · exact absurd h hx.ne'
  rw [hb] at zx zy zz
  have : (u.cross e).nsq = 0 := by
    have h1 : u.x = -a * e.x := by linarith
    have h2 : u.y = -a * e.y := by linarith
    have h3 : u.z = -a * e.z := by linarith
    simp only [V3.nsq, V3.cross]
    rw [h1, h2, h3]
    ring
  exact absurd this hx.ne'

/-- **C80** The digits of the file need not be a unit vector. As long as no magnetization read from the file is zero, every step
that is kept still ends with unit magnetizations: the error of the digits does not last. -/
theorem C80_unit (cfg : Cfg n ET) (hU : RecenterKeepsUnit cfg) (t0 : ℝ) (nodes : Fin n → Node) (pot : Fin n → ℝ × ℝ)
    (inp : ℕ → Input n) (h0 : ∀ i, cfg.magNode i = true → 0 < (nodes i).next.u.nsq) (k : ℕ)
    (hk : 0 < (run cfg t0 nodes pot inp k).nt) :
    ∀ i, cfg.magNode i = true → IsUnit3 ((run cfg t0 nodes pot inp k).nodes i).cur.u ∧
      IsUnit3 ((run cfg t0 nodes pot inp k).nodes i).next.u := by
  -- before the first step that is kept the magnetization at the start of the step is not zero, afterwards it is a unit vector
  suffices H : ((run cfg t0 nodes pot inp k).nt = 0 → ∀ i, cfg.magNode i = true → 0 < ((run cfg t0 nodes pot inp k).nodes i).cur.u.nsq) ∧
      (0 < (run cfg t0 nodes pot inp k).nt → AllUnit cfg (run cfg t0 nodes pot inp k).nodes) from H.2 hk
  clear hk
  induction k with
  | zero =>
    refine ⟨fun _ i hi => ?_, fun h => by simp [run, init] at h⟩
    obtain ⟨e1, -, -, e2, -⟩ := computeAll_next_u cfg.magNode pot nodes i
    change 0 < (computeAllNodes cfg.magNode pot nodes i).cur.u.nsq
    rw [e2, e1]
    exact h0 i hi
  | succ k ih =>
    set s := run cfg t0 nodes pot inp k with hs
    change ((TimeLoop.step cfg t0 (inp k) s).nt = 0 → _) ∧ (0 < (TimeLoop.step cfg t0 (inp k) s).nt → _)
    have hpos : ∀ i, cfg.magNode i = true → 0 < (s.nodes i).cur.u.nsq := by
      intro i hi
      rcases Nat.eq_zero_or_pos s.nt with h | h
      · exact ih.1 h i hi
      · have := (ih.2 h i hi).1
        rw [isUnit3_iff] at this
        rw [this]
        exact one_pos
    have hcur : ∀ X i, (solvedNodes cfg (inp k) X (attDt cfg t0 s) s i).cur = (s.nodes i).cur := by
      intro X i
      unfold solvedNodes updateNodes
      split_ifs <;> rfl
    have hacc : ∀ X, AllUnit cfg (accepted cfg t0 (inp k) s X).nodes := by
      intro X
      refine AllUnit.computeAll (fun i hi => ?_) _
      rw [isUnit3_iff]
      have e : solvedNodes cfg (inp k) X (attDt cfg t0 s) s i =
          ((s.nodes i).setBasis (2 / Real.pi * (inp k).r)).makeEvol ((X i).1 * cfg.gamma0) ((X i).2 * cfg.gamma0)
            (attDt cfg t0 s) := by
        simp [solvedNodes, updateNodes, hi, baseProjection]
      rw [e]
      unfold Node.makeEvol Node.setBasis
      dsimp only
      apply V3.nsq_normalize
      have := step_unit (s.nodes i).cur.u (hpos i hi)
        (attDt cfg t0 s * ((X i).1 * cfg.gamma0 * Real.cos (2 / Real.pi * (inp k).r) + (X i).2 * cfg.gamma0 * Real.sin (2 / Real.pi * (inp k).r)))
        (attDt cfg t0 s * (-((X i).1 * cfg.gamma0 * Real.sin (2 / Real.pi * (inp k).r)) + (X i).2 * cfg.gamma0 * Real.cos (2 / Real.pi * (inp k).r)))
      refine lt_of_lt_of_eq this (congrArg V3.nsq ?_)
      ext <;> simp only [V3.add_x, V3.add_y, V3.add_z, V3.sub_x, V3.sub_y, V3.sub_z, V3.smul_x, V3.smul_y, V3.smul_z] <;> ring
    cases step_kind cfg t0 (inp k) s with
    | halted _ e => change (_ → ∀ i, _ → 0 < ((TimeLoop.step cfg t0 (inp k) s).nodes i).cur.u.nsq) ∧ (_ → AllUnit cfg (TimeLoop.step cfg t0 (inp k) s).nodes); rw [e]; exact ih
    | output _ _ e =>
      change (_ → ∀ i, _ → 0 < ((TimeLoop.step cfg t0 (inp k) s).nodes i).cur.u.nsq) ∧ (_ → AllUnit cfg (TimeLoop.step cfg t0 (inp k) s).nodes)
      rw [e, forBody_nt, forBody_nodes]; exact ih
    | signal _ _ _ e =>
      change (_ → ∀ i, _ → 0 < ((TimeLoop.step cfg t0 (inp k) s).nodes i).cur.u.nsq) ∧ (_ → AllUnit cfg (TimeLoop.step cfg t0 (inp k) s).nodes)
      rw [e]; exact ih
    | small _ _ _ _ e =>
      change (_ → ∀ i, _ → 0 < ((TimeLoop.step cfg t0 (inp k) s).nodes i).cur.u.nsq) ∧ (_ → AllUnit cfg (TimeLoop.step cfg t0 (inp k) s).nodes)
      rw [e]; exact ih
    | fail _ _ _ _ _ e =>
      change (_ → ∀ i, _ → 0 < ((TimeLoop.step cfg t0 (inp k) s).nodes i).cur.u.nsq) ∧ (_ → AllUnit cfg (TimeLoop.step cfg t0 (inp k) s).nodes)
      rw [e]; exact ⟨ih.1, fun h => (ih.2 h).baseProjection _⟩
    | reject _ _ _ _ X _ _ e =>
      change (_ → ∀ i, _ → 0 < ((TimeLoop.step cfg t0 (inp k) s).nodes i).cur.u.nsq) ∧ (_ → AllUnit cfg (TimeLoop.step cfg t0 (inp k) s).nodes)
      rw [e]
      exact ⟨fun h i hi => by dsimp only; rw [hcur X i]; exact ih.1 h i hi, fun h => (ih.2 h).solved _ _ _⟩
    | exitRec _ _ _ _ X _ _ _ e =>
      change (_ → ∀ i, _ → 0 < ((TimeLoop.step cfg t0 (inp k) s).nodes i).cur.u.nsq) ∧ (_ → AllUnit cfg (TimeLoop.step cfg t0 (inp k) s).nodes)
      rw [e]
      exact ⟨fun h => by simp [accepted] at h, fun _ => hacc X⟩
    | accept _ _ _ _ X _ _ nd hr e =>
      change (_ → ∀ i, _ → 0 < ((TimeLoop.step cfg t0 (inp k) s).nodes i).cur.u.nsq) ∧ (_ → AllUnit cfg (TimeLoop.step cfg t0 (inp k) s).nodes)
      rw [e]
      exact ⟨fun h => by simp [accepted] at h, fun _ => hU _ _ hr (hacc X)⟩

/-! ## Runs and a format that meet the hypotheses -/

/-- a complete run of three rows, and a complete run restarted from its second row -/
example : ∃ k k', (exRun (fun _ => exIn (some (0, 0))) k).ctl = .done 0 ∧ (exRun (fun _ => exIn (some (0, 0))) k).rows.map (·.t) = [0, 10, 20] ∧
    (run exCfg 10 (fun _ => exNode) exPot (fun _ => exIn (some (0, 0))) k').ctl = .done 0 ∧
    (run exCfg 10 (fun _ => exNode) exPot (fun _ => exIn (some (0, 0))) k').rows.map (·.t) = [10, 20] := by
  have hc := fun t0 => C03_completes exCfg exValid (by norm_num [exCfg]) (by norm_num [exCfg]) (by norm_num [exCfg])
    (fun nd => by simp [exCfg]) t0 (fun _ => exNode) exPot (fun _ => exIn (some (0, 0))) (fun _ => rfl)
    (fun k => no_abort_zero exCfg exValid _ rfl _ _)
  obtain ⟨k, hk⟩ := hc 0
  obtain ⟨k', hk'⟩ := hc 10
  have c1 : (cRound ((exCfg.tf - 0) / exCfg.timeStep) + 1).toNat = 3 := by
    have : cRound ((exCfg.tf - 0) / exCfg.timeStep) = 2 := ex_stepCount
    rw [this]; rfl
  have c2 : (cRound ((exCfg.tf - 10) / exCfg.timeStep) + 1).toNat = 2 := by
    have : (exCfg.tf - 10) / exCfg.timeStep = 1 := by norm_num [exCfg]
    rw [this]
    unfold cRound
    rw [if_pos (by norm_num), show ⌊(1 : ℝ) + 1 / 2⌋ = 1 by rw [Int.floor_eq_iff]; constructor <;> norm_num]
    rfl
  refine ⟨k, k', (hk k le_rfl).1, ?_, (hk' k' le_rfl).1, ?_⟩
  · rw [(hk k le_rfl).2, c1]
    norm_num [gridTimes, List.range_succ, exCfg]
  · rw [(hk' k' le_rfl).2, c2]
    norm_num [gridTimes, List.range_succ, exCfg]

/-- the settings of `C80_negation_time`, and a complete run with them -/
example : ∃ cfg : Cfg 1 ℝ, Valid cfg ∧ cfg.timeStep = 1.2345678 ∧ cfg.tf = 3 * 1.2345678 ∧
    ∃ k, (run cfg 0 (fun _ => exNode) exPot (fun _ => exIn (some (0, 0))) k).ctl = .done 0 := by
  let cfg : Cfg 1 ℝ := { exCfg with timeStep := 1.2345678, tf := 3 * 1.2345678 }
  have hv : Valid cfg := ⟨by norm_num [cfg, exCfg], by norm_num [cfg, exCfg], by norm_num [cfg], by norm_num [cfg, exCfg],
    fun t dt => by norm_num [cfg, exCfg]⟩
  obtain ⟨k, hk⟩ := C03_completes cfg hv (by norm_num [cfg, exCfg]) (by norm_num [cfg, exCfg]) (by norm_num [cfg, exCfg])
    (fun nd => by simp [cfg, exCfg]) 0 (fun _ => exNode) exPot (fun _ => exIn (some (0, 0))) (fun _ => rfl)
    (fun k => no_abort_zero cfg hv _ rfl _ _)
  exact ⟨cfg, hv, rfl, rfl, k, (hk k le_rfl).1⟩

theorem exists_sevenDigits (t : ℝ) : ∃ me : ℤ × ℤ, |me.1| < 10 ^ 7 ∧ |me.1 * (10 : ℝ) ^ me.2 - t| ≤ |t| / 10 ^ 6 := by
  have key : ∀ t : ℝ, 0 < t → ∃ me : ℤ × ℤ, |me.1| < 10 ^ 7 ∧ |me.1 * (10 : ℝ) ^ me.2 - t| ≤ t / 10 ^ 6 := by
    intro t ht
    have l1 := Int.zpow_log_le_self (b := 10) (by norm_num) ht
    have l2 := Int.lt_zpow_succ_log_self (b := 10) (by norm_num) t
    set e := Int.log 10 t
    push_cast at l1 l2
    have h10 : (10 : ℝ) ≠ 0 := by norm_num
    have hq : (0 : ℝ) < 10 ^ (e - 6) := zpow_pos (by norm_num) _
    have e6 : (10 : ℝ) ^ e = 10 ^ (e - 6) * 10 ^ 6 := by
      rw [zpow_sub₀ h10]
      field_simp
    have e7 : (10 : ℝ) ^ (e + 1) = 10 ^ (e - 6) * 10 ^ 7 := by
      rw [zpow_add₀ h10, e6]
      norm_num
      ring
    have f1 := Int.floor_le (t / 10 ^ (e - 6))
    have f2 := Int.lt_floor_add_one (t / 10 ^ (e - 6))
    refine ⟨(⌊t / 10 ^ (e - 6)⌋, e - 6), ?_, ?_⟩
    · have n0 : 0 ≤ ⌊t / (10 : ℝ) ^ (e - 6)⌋ := Int.floor_nonneg.mpr (by positivity)
      rw [abs_of_nonneg n0]
      have : t / (10 : ℝ) ^ (e - 6) < ((10 ^ 7 : ℤ) : ℝ) := by
        rw [div_lt_iff₀ hq]
        rw [e7] at l2
        push_cast
        linarith
      exact Int.floor_lt.mpr this
    · simp only
      rw [le_div_iff₀ hq] at f1
      rw [div_lt_iff₀ hq] at f2
      have : t / 10 ^ 6 ≥ (10 : ℝ) ^ (e - 6) := by
        rw [ge_iff_le, le_div_iff₀ (by norm_num), ← e6]
        exact l1
      rw [abs_le]
      constructor <;> linarith
  rcases lt_trichotomy t 0 with h | h | h
  · obtain ⟨⟨m, e⟩, h1, h2⟩ := key (-t) (by linarith)
    refine ⟨(-m, e), by simpa using h1, ?_⟩
    rw [abs_of_neg h]
    have : (((-m : ℤ) : ℝ) * (10 : ℝ) ^ e - t) = -(m * (10 : ℝ) ^ e - -t) := by push_cast; ring
    simp only
    rw [this, abs_neg]
    exact h2
  · exact ⟨(0, 0), by norm_num, by simp [h]⟩
  · rw [abs_of_pos h]
    exact key t h

/-- a way of writing times with seven digits: as many marks as the code of the digits and of the exponent -/
noncomputable def exFormat : Format where
  row := id
  time t := List.replicate (Encodable.encode (exists_sevenDigits t).choose) '1'
  stod s := (Encodable.decode (α := ℤ × ℤ) (s.length - 1)).map fun me => me.1 * (10 : ℝ) ^ me.2
  lead _ := 0

theorem exFormat_stod (t : ℝ) : exFormat.stod (' ' :: exFormat.time t) =
    some ((exists_sevenDigits t).choose.1 * (10 : ℝ) ^ (exists_sevenDigits t).choose.2) := by
  change ((Encodable.decode (α := ℤ × ℤ) ((' ' :: List.replicate (Encodable.encode (exists_sevenDigits t).choose) '1').length - 1)).map
    fun me => me.1 * (10 : ℝ) ^ me.2) = _
  rw [List.length_cons, List.length_replicate, Nat.add_sub_cancel, Encodable.encodek]
  rfl

/-- the hypotheses on the format in `C80_negation_time` can be met -/
example : (∀ t, ∃ t', exFormat.stod (' ' :: exFormat.time t) = some t' ∧ SevenDigits t') ∧
    ∀ t t', exFormat.stod (' ' :: exFormat.time t) = some t' → |t' - t| ≤ |t| / 10 ^ 6 := by
  refine ⟨fun t => ⟨_, exFormat_stod t, _, _, (exists_sevenDigits t).choose_spec.1, rfl⟩, fun t t' h => ?_⟩
  rw [exFormat_stod] at h
  cases h
  exact (exists_sevenDigits t).choose_spec.2

end Verif.Restart
