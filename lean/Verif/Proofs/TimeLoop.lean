import Verif.Model.TimeLoop
import Verif.Proofs.TimeStepper
import Verif.Proofs.Node

/-! Helper lemmas on the time loop machine. -/

namespace Verif.TimeLoop

variable {n : ℕ} {ET : Type}

/-- The nodes after a successful linear solve in an attempt. -/
noncomputable def solvedNodes (cfg : Cfg n ET) (inp : Input n) (X : Fin n → ℝ × ℝ) (dt : ℝ)
    (s : St n ET) : Fin n → Node :=
  updateNodes cfg X dt (baseProjection inp.r s.nodes)

/-- attempted step of a state -/
noncomputable def attDt (cfg : Cfg n ET) (t0 : ℝ) (s : St n ET) : ℝ :=
  s.stepper.step (tTarget cfg t0 s.stepNb - s.t)

noncomputable def attStepper (cfg : Cfg n ET) (t0 : ℝ) (s : St n ET) : TimeStepper :=
  s.stepper.next (tTarget cfg t0 s.stepNb - s.t)

section cases
variable (cfg : Cfg n ET) (t0 : ℝ) (inp : Input n) (s : St n ET)

theorem whileBody_sig (h : inp.sig = true) : whileBody cfg t0 inp s = onSignal cfg s := by
  simp [whileBody, h]

theorem whileBody_small (h : inp.sig = false) (hd : attDt cfg t0 s < cfg.DTMIN) :
    whileBody cfg t0 inp s =
      { s with dt := attDt cfg t0 s, stepper := attStepper cfg t0 s, ctl := .done 1 } := by
  unfold attDt at hd
  simp [whileBody, h, hd, attDt, attStepper]

theorem whileBody_fail (h : inp.sig = false) (hd : ¬ attDt cfg t0 s < cfg.DTMIN)
    (hs : inp.sol = none) :
    whileBody cfg t0 inp s =
      { s with dt := attDt cfg t0 s, nodes := baseProjection inp.r s.nodes, flag := s.flag + 1
               stepper := (attStepper cfg t0 s).setSoftLimit (attDt cfg t0 s / 2) } := by
  unfold attDt at hd
  simp [whileBody, h, hd, hs, attDt, attStepper]

theorem whileBody_reject (h : inp.sig = false) (hd : ¬ attDt cfg t0 s < cfg.DTMIN)
    {X : Fin n → ℝ × ℝ} (hs : inp.sol = some X)
    (hr : cfg.DUMAX < attDt cfg t0 s * vMax cfg.gamma0 cfg.magNode X) :
    whileBody cfg t0 inp s =
      { s with dt := attDt cfg t0 s
               nodes := solvedNodes cfg inp X (attDt cfg t0 s) s
               vmax := vMax cfg.gamma0 cfg.magNode X
               flag := s.flag + 1
               stepper := softLimitDu (attStepper cfg t0 s) cfg.DUMAX (vMax cfg.gamma0 cfg.magNode X) } := by
  unfold attDt at hd hr
  simp [whileBody, h, hd, hs, hr, attDt, attStepper, solvedNodes]

open Classical in
/-- the accepted state before recentering -/
noncomputable def accepted (X : Fin n → ℝ × ℝ) : St n ET :=
  { s with dt := attDt cfg t0 s
           vmax := vMax cfg.gamma0 cfg.magNode X
           stepper := softLimitDu (attStepper cfg t0 s) cfg.DUMAX (vMax cfg.gamma0 cfg.magNode X)
           E := computeAllE cfg inp.pot (solvedNodes cfg inp X (attDt cfg t0 s) s) s.t
           nodes := computeAllNodes cfg.magNode inp.pot (solvedNodes cfg inp X (attDt cfg t0 s) s)
           nt := s.nt + 1
           flag := 0
           t := if attDt cfg t0 s = tTarget cfg t0 s.stepNb - s.t then tTarget cfg t0 s.stepNb
                else cfg.add s.t (attDt cfg t0 s) }

theorem whileBody_accept (h : inp.sig = false) (hd : ¬ attDt cfg t0 s < cfg.DTMIN)
    {X : Fin n → ℝ × ℝ} (hs : inp.sol = some X)
    (hr : ¬ cfg.DUMAX < attDt cfg t0 s * vMax cfg.gamma0 cfg.magNode X) :
    whileBody cfg t0 inp s =
      match cfg.recenter (accepted cfg t0 inp s X).nodes with
      | none => { accepted cfg t0 inp s X with ctl := .noDomainWall }
      | some nodes => { accepted cfg t0 inp s X with nodes := nodes } := by
  unfold attDt at hd hr
  simp [whileBody, h, hd, hs, hr, attDt, attStepper, solvedNodes, accepted]
  rfl

end cases

/-- the ways one step can go -/
inductive Kind (cfg : Cfg n ET) (t0 : ℝ) (inp : Input n) (s s' : St n ET) : Prop
  | halted (h : s.ctl ≠ .running) (e : s' = s)
  | output (h : s.ctl = .running) (ht : ¬ s.t < tTarget cfg t0 s.stepNb) (e : s' = forBody cfg t0 s)
  | signal (h : s.ctl = .running) (ht : s.t < tTarget cfg t0 s.stepNb) (hi : inp.sig = true)
      (e : s' = onSignal cfg s)
  | small (h : s.ctl = .running) (ht : s.t < tTarget cfg t0 s.stepNb) (hi : inp.sig = false)
      (hd : attDt cfg t0 s < cfg.DTMIN)
      (e : s' = { s with dt := attDt cfg t0 s, stepper := attStepper cfg t0 s, ctl := .done 1 })
  | fail (h : s.ctl = .running) (ht : s.t < tTarget cfg t0 s.stepNb) (hi : inp.sig = false)
      (hd : ¬ attDt cfg t0 s < cfg.DTMIN) (hs : inp.sol = none)
      (e : s' = { s with dt := attDt cfg t0 s, nodes := baseProjection inp.r s.nodes
                         flag := s.flag + 1
                         stepper := (attStepper cfg t0 s).setSoftLimit (attDt cfg t0 s / 2) })
  | reject (h : s.ctl = .running) (ht : s.t < tTarget cfg t0 s.stepNb) (hi : inp.sig = false)
      (hd : ¬ attDt cfg t0 s < cfg.DTMIN) (X : Fin n → ℝ × ℝ) (hs : inp.sol = some X)
      (hr : cfg.DUMAX < attDt cfg t0 s * vMax cfg.gamma0 cfg.magNode X)
      (e : s' = { s with dt := attDt cfg t0 s
                         nodes := solvedNodes cfg inp X (attDt cfg t0 s) s
                         vmax := vMax cfg.gamma0 cfg.magNode X
                         flag := s.flag + 1
                         stepper := softLimitDu (attStepper cfg t0 s) cfg.DUMAX
                           (vMax cfg.gamma0 cfg.magNode X) })
  | exitRec (h : s.ctl = .running) (ht : s.t < tTarget cfg t0 s.stepNb) (hi : inp.sig = false)
      (hd : ¬ attDt cfg t0 s < cfg.DTMIN) (X : Fin n → ℝ × ℝ) (hs : inp.sol = some X)
      (hr : ¬ cfg.DUMAX < attDt cfg t0 s * vMax cfg.gamma0 cfg.magNode X)
      (hrec : cfg.recenter (accepted cfg t0 inp s X).nodes = none)
      (e : s' = { accepted cfg t0 inp s X with ctl := .noDomainWall })
  | accept (h : s.ctl = .running) (ht : s.t < tTarget cfg t0 s.stepNb) (hi : inp.sig = false)
      (hd : ¬ attDt cfg t0 s < cfg.DTMIN) (X : Fin n → ℝ × ℝ) (hs : inp.sol = some X)
      (hr : ¬ cfg.DUMAX < attDt cfg t0 s * vMax cfg.gamma0 cfg.magNode X)
      (nodes : Fin n → Node)
      (hrec : cfg.recenter (accepted cfg t0 inp s X).nodes = some nodes)
      (e : s' = { accepted cfg t0 inp s X with nodes := nodes })

theorem step_kind (cfg : Cfg n ET) (t0 : ℝ) (inp : Input n) (s : St n ET) :
    Kind cfg t0 inp s (step cfg t0 inp s) := by
  by_cases hc : s.ctl = .running
  · by_cases ht : s.t < tTarget cfg t0 s.stepNb
    · have e0 : step cfg t0 inp s = whileBody cfg t0 inp s := by simp [step, hc, ht]
      rw [e0]
      cases hi : inp.sig with
      | true => exact .signal hc ht hi (whileBody_sig _ _ _ _ hi)
      | false =>
        by_cases hd : attDt cfg t0 s < cfg.DTMIN
        · exact .small hc ht hi hd (whileBody_small _ _ _ _ hi hd)
        · cases hs : inp.sol with
          | none => exact .fail hc ht hi hd hs (whileBody_fail _ _ _ _ hi hd hs)
          | some X =>
            by_cases hr : cfg.DUMAX < attDt cfg t0 s * vMax cfg.gamma0 cfg.magNode X
            · exact .reject hc ht hi hd X hs hr (whileBody_reject _ _ _ _ hi hd hs hr)
            · have e := whileBody_accept cfg t0 inp s hi hd hs hr
              cases hrec : cfg.recenter (accepted cfg t0 inp s X).nodes with
              | none => rw [hrec] at e; exact .exitRec hc ht hi hd X hs hr hrec e
              | some nd => rw [hrec] at e; exact .accept hc ht hi hd X hs hr nd hrec e
    · exact .output hc ht (by simp [step, hc, ht])
  · refine .halted hc ?_
    unfold step
    cases h : s.ctl with
    | running => exact absurd h hc
    | _ => rfl

end Verif.TimeLoop
