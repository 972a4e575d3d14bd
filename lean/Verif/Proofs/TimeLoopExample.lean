import Verif.Proofs.TimeLoopAbort

/-! A concrete simulation, used to show that the hypotheses of the theorems are satisfiable and to
build counterexamples: one node, `min(dt) = 1`, `max(dt) = 100`, output period 10, final time 20,
`max(du) = 1`, energy equal to the time at which it is evaluated. -/

namespace Verif.TimeLoop

def exNode : Node :=
  { p := ⟨0, 0, 0⟩, ep := ⟨0, 0, 0⟩, eq := ⟨0, 0, 0⟩
    cur := ⟨⟨1, 0, 0⟩, 0, 0, 0⟩, next := ⟨⟨1, 0, 0⟩, 0, 0, 0⟩ }

noncomputable def exCfg : Cfg 1 ℝ :=
  { tf := 20, DTMIN := 1, DTMAX := 100, DUMAX := 1, timeStep := 10, savePeriod := 2, gamma0 := 1, add := (· + ·)
    magNode := fun _ => true, energy := fun _ t => t, recenter := some }

def exPot : Fin 1 → ℝ × ℝ := fun _ => (0, 0)

/-- an attempt where the solver returns this velocity -/
def exIn (v : Option (ℝ × ℝ)) (sig : Bool := false) : Input 1 :=
  { sig := sig, r := 0, sol := v.map fun x _ => x, pot := exPot }

theorem exValid : Valid exCfg := ⟨by norm_num [exCfg], by norm_num [exCfg], by norm_num [exCfg], by norm_num [exCfg],
  fun t dt => by norm_num [exCfg]⟩

theorem ex_stepCount : stepCount exCfg 0 = 2 := by
  have : ((exCfg.tf - 0) / exCfg.timeStep) = 2 := by norm_num [exCfg]
  unfold stepCount cRound
  rw [this, if_pos (by norm_num)]
  norm_num [Int.floor_eq_iff]

noncomputable abbrev exRun (inp : ℕ → Input 1) := run exCfg 0 (fun _ => exNode) exPot inp

theorem ex_run0 (inp : ℕ → Input 1) : exRun inp 0 = init exCfg 0 (fun _ => exNode) exPot := rfl

theorem ex_init_ctl : (init exCfg 0 (fun _ => exNode) exPot).ctl = .running := by
  change (if 0 ≤ stepCount exCfg 0 then Ctl.running else Ctl.done 0) = _
  rw [ex_stepCount]; rfl

/-- the first transition writes row 0 -/
theorem ex_run1 (inp : ℕ → Input 1) :
    exRun inp 1 = { saver exCfg (init exCfg 0 (fun _ => exNode) exPot) with stepNb := 1 } := by
  change step exCfg 0 (inp 0) (init exCfg 0 (fun _ => exNode) exPot) = _
  have hnot : ¬ (init exCfg 0 (fun _ => exNode) exPot).t < tTarget exCfg 0
      (init exCfg 0 (fun _ => exNode) exPot).stepNb := by
    simp [init, tTarget]
  have hc : ((0 + 1 : ℕ) : ℤ) ≤ stepCount exCfg 0 := by rw [ex_stepCount]; norm_num
  unfold step
  rw [ex_init_ctl]
  simp only
  rw [if_neg hnot]
  exact if_pos hc

theorem ex_s1 (inp : ℕ → Input 1) : (exRun inp 1).ctl = .running ∧ (exRun inp 1).t = 0 ∧
    (exRun inp 1).stepNb = 1 ∧ (exRun inp 1).flag = 0 ∧ (exRun inp 1).nt = 0 ∧
    (exRun inp 1).stepper.softMax = 10 ∧ (exRun inp 1).stepper.hardMin = 1 ∧
    (exRun inp 1).nodes = (fun _ => exNode) := by
  rw [ex_run1]
  refine ⟨ex_init_ctl, rfl, rfl, rfl, rfl, ?_, rfl, ?_⟩
  · change Real.sqrt ((1 : ℝ) * 100) = 10
    rw [show (1 : ℝ) * 100 = 10 ^ 2 by norm_num, Real.sqrt_sq (by norm_num)]
  · funext i
    simp [saver, init, computeAllNodes, setPot, exCfg, exNode, exPot, Node.evolution]

theorem ex_att (inp : ℕ → Input 1) : attDt exCfg 0 (exRun inp 1) = 10 := by
  obtain ⟨-, h2, h3, -, -, h6, h7, -⟩ := ex_s1 inp
  have hs : tTarget exCfg 0 (exRun inp 1).stepNb - (exRun inp 1).t = 10 := by
    rw [h2, h3]; norm_num [tTarget, exCfg]
  unfold attDt
  rw [hs]
  unfold TimeStepper.step
  simp only
  rw [h6]
  norm_num

theorem ex_while (inp : ℕ → Input 1) :
    exRun inp 2 = whileBody exCfg 0 (inp 1) (exRun inp 1) := by
  obtain ⟨h1, h2, h3, -⟩ := ex_s1 inp
  change step exCfg 0 (inp 1) (exRun inp 1) = _
  have hlt : (exRun inp 1).t < tTarget exCfg 0 (exRun inp 1).stepNb := by
    rw [h2, h3]; norm_num [tTarget, exCfg]
  unfold step
  rw [h1]
  simp only
  rw [if_pos hlt]

theorem ex_vMax (x : ℝ × ℝ) : vMax exCfg.gamma0 exCfg.magNode (fun _ : Fin 1 => x) =
    Real.sqrt (x.1 * x.1 + x.2 * x.2) := by
  have h0 : 0 ≤ x.1 * x.1 + x.2 * x.2 := by nlinarith [mul_self_nonneg x.1, mul_self_nonneg x.2]
  unfold vMax v2max
  have : (List.finRange 1) = [0] := rfl
  rw [this]
  simp only [exCfg, List.foldl_cons, List.foldl_nil, if_true, one_mul]
  congr 1
  split_ifs with h
  · rfl
  · linarith

/-- zero velocity: accepted -/
theorem ex_accept (inp : ℕ → Input 1) (h : inp 1 = exIn (some (0, 0))) :
    exRun inp 2 = accepted exCfg 0 (inp 1) (exRun inp 1) (fun _ => (0, 0)) := by
  rw [ex_while, whileBody_accept (X := fun _ => (0, 0)) _ _ _ _ (by rw [h]; rfl)
    (by rw [ex_att]; norm_num [exCfg]) (by rw [h]; rfl)
    (by rw [ex_vMax, ex_att]; norm_num [exCfg])]
  rfl

/-- velocity (1, 0): `dt |v| = 10 > 1`, rejected -/
theorem ex_reject (inp : ℕ → Input 1) (h : inp 1 = exIn (some (1, 0))) :
    exRun inp 2 = { exRun inp 1 with
               dt := 10
               nodes := solvedNodes exCfg (inp 1) (fun _ => (1, 0)) 10 (exRun inp 1)
               vmax := 1
               flag := 1
               stepper := softLimitDu (attStepper exCfg 0 (exRun inp 1)) exCfg.DUMAX 1 } := by
  have hv : vMax exCfg.gamma0 exCfg.magNode (fun _ : Fin 1 => ((1 : ℝ), (0 : ℝ))) = 1 := by
    rw [ex_vMax]; norm_num
  rw [ex_while, whileBody_reject (X := fun _ => (1, 0)) _ _ _ _ (by rw [h]; rfl)
    (by rw [ex_att]; norm_num [exCfg]) (by rw [h]; rfl)
    (by rw [hv, ex_att]; norm_num [exCfg])]
  rw [hv, ex_att, (ex_s1 inp).2.2.2.1]

/-- solver failure -/
theorem ex_fail (inp : ℕ → Input 1) (h : inp 1 = exIn none) :
    exRun inp 2 = { exRun inp 1 with
               dt := 10
               nodes := baseProjection 0 (exRun inp 1).nodes
               flag := 1
               stepper := (attStepper exCfg 0 (exRun inp 1)).setSoftLimit (10 / 2) } := by
  rw [ex_while, whileBody_fail _ _ _ _ (by rw [h]; rfl)
    (by rw [ex_att]; norm_num [exCfg]) (by rw [h]; rfl), ex_att, (ex_s1 inp).2.2.2.1, h]
  rfl

/-- after the accepted step of length 10, the next transition writes row 1 -/
theorem ex_row1 (inp : ℕ → Input 1) (h : inp 1 = exIn (some (0, 0))) :
    exRun inp 3 = { saver exCfg (exRun inp 2) with stepNb := 2 } := by
  have hs2 := ex_accept inp h
  obtain ⟨h1, h2, h3, -, -, -, -, -⟩ := ex_s1 inp
  have hctl : (exRun inp 2).ctl = .running := by rw [hs2]; exact h1
  have hnb : (exRun inp 2).stepNb = 1 := by rw [hs2]; exact h3
  have ht : (exRun inp 2).t = 10 := by
    rw [hs2]
    unfold accepted
    simp only
    rw [h2, h3, ex_att, if_pos (by norm_num [tTarget, exCfg])]
    norm_num [tTarget, exCfg]
  have hnot : ¬ (exRun inp 2).t < tTarget exCfg 0 (exRun inp 2).stepNb := by
    rw [hnb, ht]; norm_num [tTarget, exCfg]
  have hc : (((exRun inp 2).stepNb + 1 : ℕ) : ℤ) ≤ stepCount exCfg 0 := by
    rw [ex_stepCount, hnb]; norm_num
  have e : exRun inp 3 = forBody exCfg 0 (exRun inp 2) := by
    change step exCfg 0 (inp 2) (exRun inp 2) = _
    unfold step
    rw [hctl]
    simp only
    rw [if_neg hnot]
  have e2 : forBody exCfg 0 (exRun inp 2) =
      { saver exCfg (exRun inp 2) with stepNb := (exRun inp 2).stepNb + 1 } := if_pos hc
  rw [e, e2, hnb]

end Verif.TimeLoop
