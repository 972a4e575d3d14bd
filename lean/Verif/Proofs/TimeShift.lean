import Verif.Spec.TimeShift
import Verif.Proofs.TimeLoop

/-!
# The time loop with all times later
-/

namespace Verif.TimeShift

open Verif.TimeLoop

variable {n : ℕ} {ET : Type} {τ : ℝ} {cfg cfg' : Cfg n ET}

theorem Later.tTarget (h : Later τ cfg cfg') (t0 : ℝ) (k : ℕ) : TimeLoop.tTarget cfg' (t0 + τ) k = TimeLoop.tTarget cfg t0 k + τ := by
  unfold TimeLoop.tTarget
  rw [h.timeStep]
  ring

theorem Later.stride (h : Later τ cfg cfg') (t0 t : ℝ) (k : ℕ) :
    TimeLoop.tTarget cfg' (t0 + τ) k - (t + τ) = TimeLoop.tTarget cfg t0 k - t := by
  rw [h.tTarget]
  ring

theorem Later.attDt (h : Later τ cfg cfg') (t0 : ℝ) (s : St n ET) : TimeLoop.attDt cfg' (t0 + τ) (state τ s) = TimeLoop.attDt cfg t0 s := by
  unfold TimeLoop.attDt
  rw [show (state τ s).stepper = s.stepper from rfl, show (state τ s).stepNb = s.stepNb from rfl,
    show (state τ s).t = s.t + τ from rfl, h.stride]

theorem Later.stepCount (h : Later τ cfg cfg') (t0 : ℝ) : TimeLoop.stepCount cfg' (t0 + τ) = TimeLoop.stepCount cfg t0 := by
  unfold TimeLoop.stepCount
  rw [h.tf, h.timeStep, add_sub_add_right_eq_sub]

theorem Later.updateNodes (h : Later τ cfg cfg') (X : Fin n → ℝ × ℝ) (dt : ℝ) (nd : Fin n → Node) :
    TimeLoop.updateNodes cfg' X dt nd = TimeLoop.updateNodes cfg X dt nd := by
  unfold TimeLoop.updateNodes
  rw [h.magNode, h.gamma0]

theorem Later.solvedNodes (h : Later τ cfg cfg') (inp : Input n) (X : Fin n → ℝ × ℝ) (dt : ℝ) (s : St n ET) :
    TimeLoop.solvedNodes cfg' inp X dt (state τ s) = TimeLoop.solvedNodes cfg inp X dt s := h.updateNodes X dt _

theorem Later.whileBody (h : Later τ cfg cfg') (t0 : ℝ) (inp : Input n) (s : St n ET) :
    TimeLoop.whileBody cfg' (t0 + τ) inp (state τ s) = state τ (TimeLoop.whileBody cfg t0 inp s) := by
  unfold TimeLoop.whileBody
  by_cases hs : inp.sig = true
  · rw [if_pos hs, if_pos hs]
    unfold onSignal
    rw [h.savePeriod]
    unfold state
    dsimp only
    congr 1
    split_ifs
    · simp [sol]
    · rfl
  rw [if_neg hs, if_neg hs]
  dsimp only [state]
  simp only [h.stride]
  rw [h.DTMIN]
  set dt := s.stepper.step (TimeLoop.tTarget cfg t0 s.stepNb - s.t) with hdt
  by_cases hd : dt < cfg.DTMIN
  · rw [if_pos hd, if_pos hd]
  rw [if_neg hd, if_neg hd]
  cases inp.sol with
  | none => rfl
  | some X =>
    dsimp only
    rw [h.gamma0, h.magNode, h.DUMAX, h.updateNodes]
    by_cases hD : cfg.DUMAX < dt * vMax cfg.gamma0 cfg.magNode X
    · rw [if_pos hD, if_pos hD]
    rw [if_neg hD, if_neg hD]
    have e5 : ∀ nd, computeAllE cfg' inp.pot nd (s.t + τ) = computeAllE cfg inp.pot nd s.t := fun nd => by
      unfold computeAllE
      rw [h.magNode, h.energy]
    rw [e5, h.recenter]
    have e6 : (if dt = TimeLoop.tTarget cfg t0 s.stepNb - s.t then TimeLoop.tTarget cfg' (t0 + τ) s.stepNb else cfg'.add (s.t + τ) dt)
        = (if dt = TimeLoop.tTarget cfg t0 s.stepNb - s.t then TimeLoop.tTarget cfg t0 s.stepNb else cfg.add s.t dt) + τ := by
      rw [h.add, h.tTarget]
      split_ifs <;> rfl
    rw [e6]
    cases cfg.recenter (computeAllNodes cfg.magNode inp.pot (TimeLoop.updateNodes cfg X dt (baseProjection inp.r s.nodes))) with
    | none => rfl
    | some nd => rfl

theorem Later.forBody (h : Later τ cfg cfg') (t0 : ℝ) (s : St n ET) :
    TimeLoop.forBody cfg' (t0 + τ) (state τ s) = state τ (TimeLoop.forBody cfg t0 s) := by
  have hsave : saver cfg' (state τ s) = state τ (saver cfg s) := by
    unfold saver
    rw [h.savePeriod]
    unfold state
    simp only [List.length_map, List.map_append, List.map_cons, List.map_nil]
    congr 1
    split_ifs
    · simp [sol]
    · rfl
  unfold TimeLoop.forBody
  rw [hsave, h.stepCount]
  dsimp only
  by_cases hk : (((saver cfg s).stepNb + 1 : ℕ) : ℤ) ≤ TimeLoop.stepCount cfg t0
  · rw [if_pos hk]
    exact if_pos hk
  · rw [if_neg hk]
    exact if_neg hk

theorem Later.step (h : Later τ cfg cfg') (t0 : ℝ) (inp : Input n) (s : St n ET) :
    TimeLoop.step cfg' (t0 + τ) inp (state τ s) = state τ (TimeLoop.step cfg t0 inp s) := by
  unfold TimeLoop.step
  rw [show (state τ s).ctl = s.ctl from rfl]
  cases s.ctl with
  | running =>
    dsimp only
    rw [show (state τ s).stepNb = s.stepNb from rfl, show (state τ s).t = s.t + τ from rfl, h.tTarget, h.whileBody, h.forBody]
    by_cases hl : s.t < TimeLoop.tTarget cfg t0 s.stepNb
    · rw [if_pos hl, if_pos (by linarith)]
    · rw [if_neg hl, if_neg fun h' => hl (by linarith)]
  | done k => rfl
  | signalled => rfl
  | noDomainWall => rfl

theorem Later.run (h : Later τ cfg cfg') (t0 : ℝ) (nd : Fin n → Node) (p : Fin n → ℝ × ℝ) (inp : ℕ → Input n) (k : ℕ) :
    TimeLoop.run cfg' (t0 + τ) nd p inp k = state τ (TimeLoop.run cfg t0 nd p inp k) := by
  induction k with
  | zero =>
    change TimeLoop.init cfg' (t0 + τ) nd p = state τ (TimeLoop.init cfg t0 nd p)
    unfold TimeLoop.init
    rw [h.stepCount, h.DTMIN, h.DTMAX, h.magNode]
    have e5 : computeAllE cfg' p nd (t0 + τ) = computeAllE cfg p nd t0 := by
      unfold computeAllE
      rw [h.magNode, h.energy]
    rw [e5]
    rfl
  | succ k ih =>
    change TimeLoop.step cfg' (t0 + τ) (inp k) (TimeLoop.run cfg' (t0 + τ) nd p inp k) = _
    rw [ih, h.step]
    rfl

end Verif.TimeShift
