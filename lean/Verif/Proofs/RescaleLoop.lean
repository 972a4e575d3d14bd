import Verif.Spec.Rescale
import Verif.Proofs.TimeLoop

/-!
# The time loop with all times divided by a number
-/

namespace Verif.Rescale

open Verif.TimeLoop

variable {n : ℕ} {ET ET' : Type} {c : ℝ}

theorem div_lt_iff' (hc : 0 < c) {a b : ℝ} : a / c < b / c ↔ a < b := div_lt_div_iff_of_pos_right hc

theorem min_div' (hc : 0 < c) (a b : ℝ) : min (a / c) (b / c) = min a b / c := by
  rcases le_total a b with h | h
  · rw [min_eq_left h, min_eq_left ((div_le_div_iff_of_pos_right hc).mpr h)]
  · rw [min_eq_right h, min_eq_right ((div_le_div_iff_of_pos_right hc).mpr h)]

theorem max_div' (hc : 0 < c) (a b : ℝ) : max (a / c) (b / c) = max a b / c := by
  rcases le_total a b with h | h
  · rw [max_eq_right h, max_eq_right ((div_le_div_iff_of_pos_right hc).mpr h)]
  · rw [max_eq_left h, max_eq_left ((div_le_div_iff_of_pos_right hc).mpr h)]

theorem step_stepper (hc : 0 < c) (s : TimeStepper) (x : ℝ) : (stepper c s).step (x / c) = s.step x / c := by
  unfold TimeStepper.step stepper
  dsimp only
  rw [min_div' hc]
  have e : x / c - 2 * (s.hardMin / c) = (x - 2 * s.hardMin) / c := by ring
  rw [e]
  by_cases h : x - 2 * s.hardMin < min x s.softMax ∧ min x s.softMax < x
  · rw [if_pos h, if_pos ⟨(div_lt_iff' hc).mpr h.1, (div_lt_iff' hc).mpr h.2⟩]
  · rw [if_neg h, if_neg fun h' => h ⟨(div_lt_iff' hc).mp h'.1, (div_lt_iff' hc).mp h'.2⟩]

theorem next_stepper (hc : 0 < c) (s : TimeStepper) (x : ℝ) : (stepper c s).next (x / c) = stepper c (s.next x) := by
  unfold TimeStepper.next
  rw [step_stepper hc]
  unfold stepper
  dsimp only
  congr 1
  rw [← max_div' hc, ← min_div' hc]
  congr 2
  ring

theorem soft_stepper (hc : 0 < c) (s : TimeStepper) (m : ℝ) :
    (stepper c s).setSoftLimit (m / c) = stepper c (s.setSoftLimit m) := by
  unfold TimeStepper.setSoftLimit stepper
  dsimp only
  rw [min_div' hc]

theorem softDu_stepper (hc : 0 < c) (s : TimeStepper) (D v : ℝ) :
    softLimitDu (stepper c s) D (c * v) = stepper c (softLimitDu s D v) := by
  unfold softLimitDu
  by_cases h : v = 0
  · rw [if_pos h, if_pos (by rw [h, mul_zero])]
  · rw [if_neg h, if_neg (mul_ne_zero hc.ne' h), ← soft_stepper hc]
    congr 1
    field_simp

theorem v2max_vel (c : ℝ) (mag : Fin n → Bool) (X : Fin n → ℝ × ℝ) : v2max mag (vel c X) = c ^ 2 * v2max mag X := by
  unfold v2max
  have : ∀ (l : List (Fin n)) (m : ℝ), l.foldl (fun m i => if mag i then
        (let v2 := (vel c X i).1 * (vel c X i).1 + (vel c X i).2 * (vel c X i).2
         if m < v2 then v2 else m) else m) (c ^ 2 * m) =
      c ^ 2 * l.foldl (fun m i => if mag i then
        (let v2 := (X i).1 * (X i).1 + (X i).2 * (X i).2
         if m < v2 then v2 else m) else m) m := by
    intro l
    induction l with
    | nil => intro m; rfl
    | cons i l ih =>
      intro m
      rw [List.foldl_cons, List.foldl_cons, ← ih]
      congr 1
      cases mag i with
      | false => rfl
      | true =>
        have e : (vel c X i).1 * (vel c X i).1 + (vel c X i).2 * (vel c X i).2 = c ^ 2 * ((X i).1 * (X i).1 + (X i).2 * (X i).2) := by
          simp only [vel]
          ring
        simp only [if_true]
        generalize (vel c X i).1 * (vel c X i).1 + (vel c X i).2 * (vel c X i).2 = w at e ⊢
        subst e
        rcases eq_or_ne c 0 with h0 | h0
        · subst h0
          simp
        · have hp : 0 < c ^ 2 := by positivity
          by_cases h : m < (X i).1 * (X i).1 + (X i).2 * (X i).2
          · rw [if_pos h, if_pos ((mul_lt_mul_iff_right₀ hp).mpr h)]
          · rw [if_neg h, if_neg fun h' => h ((mul_lt_mul_iff_right₀ hp).mp h')]
  have h0 := this (List.finRange n) 0
  rw [mul_zero] at h0
  exact h0

theorem vMax_vel (hc : 0 < c) (g : ℝ) (mag : Fin n → Bool) (X : Fin n → ℝ × ℝ) : vMax g mag (vel c X) = c * vMax g mag X := by
  unfold vMax
  rw [v2max_vel, Real.sqrt_mul (sq_nonneg _), Real.sqrt_sq hc.le]
  ring

theorem baseProjection_nodes (c r : ℝ) (nd : Fin n → Node) : baseProjection r (nodes c nd) = nodes c (baseProjection r nd) := rfl

theorem setPot_nodes (c : ℝ) (mag : Fin n → Bool) (p : Fin n → ℝ × ℝ) (nd : Fin n → Node) :
    setPot mag (pot c p) (nodes c nd) = nodes c (setPot mag p nd) := by
  funext i
  unfold setPot nodes
  dsimp only
  split_ifs
  · rfl
  · rfl

theorem computeAll_nodes (c : ℝ) (mag : Fin n → Bool) (p : Fin n → ℝ × ℝ) (nd : Fin n → Node) :
    computeAllNodes mag (pot c p) (nodes c nd) = nodes c (computeAllNodes mag p nd) := by
  funext i
  unfold computeAllNodes
  rw [setPot_nodes]
  rfl

theorem makeEvol_node (hc : 0 < c) (x y dt : ℝ) (nd : Node) :
    (node c nd).makeEvol (c * x) (c * y) (dt / c) = node c (nd.makeEvol x y dt) := by
  have e : ((c * x) * nd.ep + (c * y) * nd.eq : V3) = c * (x * nd.ep + y * nd.eq) := by
    ext <;> simp only [V3.add_x, V3.add_y, V3.add_z, V3.smul_x, V3.smul_y, V3.smul_z] <;> ring
  have e2 : ((dt / c) * (c * (x * nd.ep + y * nd.eq)) : V3) = dt * (x * nd.ep + y * nd.eq) := by
    ext <;> simp only [V3.smul_x, V3.smul_y, V3.smul_z] <;> field_simp
  unfold Node.makeEvol node data
  simp only [e, e2]

theorem updateNodes_nodes (hc : 0 < c) {cfg : Cfg n ET} {cfg' : Cfg n ET'} (hm : cfg'.magNode = cfg.magNode)
    (hg : cfg'.gamma0 = cfg.gamma0) (X : Fin n → ℝ × ℝ) (dt : ℝ) (nd : Fin n → Node) :
    updateNodes cfg' (vel c X) (dt / c) (nodes c nd) = nodes c (updateNodes cfg X dt nd) := by
  funext i
  unfold updateNodes nodes
  dsimp only
  rw [hm, hg]
  split_ifs
  · rw [← makeEvol_node hc]
    simp only [vel, mul_assoc]
  · rfl

section
variable {e : ET → ET'} {cfg : Cfg n ET} {cfg' : Cfg n ET'} (hc : 0 < c) (h : Settings c e cfg cfg')
include hc h

omit hc in
theorem Settings.tTarget (t0 : ℝ) (k : ℕ) : TimeLoop.tTarget cfg' (t0 / c) k = TimeLoop.tTarget cfg t0 k / c := by
  unfold TimeLoop.tTarget
  rw [h.timeStep]
  ring

theorem Settings.attDt (t0 : ℝ) (s : St n ET) : TimeLoop.attDt cfg' (t0 / c) (state c e s) = TimeLoop.attDt cfg t0 s / c := by
  unfold TimeLoop.attDt
  rw [show (state c e s).stepper = stepper c s.stepper from rfl, show (state c e s).stepNb = s.stepNb from rfl,
    show (state c e s).t = s.t / c from rfl, h.tTarget, ← sub_div, step_stepper hc]

theorem Settings.stepCount (t0 : ℝ) : TimeLoop.stepCount cfg' (t0 / c) = TimeLoop.stepCount cfg t0 := by
  unfold TimeLoop.stepCount
  rw [h.tf, h.timeStep, ← sub_div, div_div_div_cancel_right₀ hc.ne']

theorem Settings.solvedNodes (inp : Input n) (X : Fin n → ℝ × ℝ) (dt : ℝ) (s : St n ET) :
    TimeLoop.solvedNodes cfg' (input c inp) (vel c X) (dt / c) (state c e s) = nodes c (TimeLoop.solvedNodes cfg inp X dt s) := by
  unfold TimeLoop.solvedNodes
  rw [← updateNodes_nodes hc h.magNode h.gamma0]
  rfl

theorem Settings.whileBody (t0 : ℝ) (inp : Input n) (s : St n ET) :
    TimeLoop.whileBody cfg' (t0 / c) (input c inp) (state c e s) = state c e (TimeLoop.whileBody cfg t0 inp s) := by
  have hT := h.tTarget t0 s.stepNb
  unfold TimeLoop.whileBody
  by_cases hs : inp.sig = true
  · rw [if_pos hs, if_pos (show (input c inp).sig = true from hs)]
    unfold onSignal
    rw [h.savePeriod]
    unfold state
    dsimp only
    congr 1
    split_ifs
    · simp [sol, nodes, node, data]
    · rfl
  rw [if_neg hs, if_neg (show ¬ (input c inp).sig = true from hs)]
  dsimp only [state]
  simp only [hT]
  rw [← sub_div, step_stepper hc, next_stepper hc, h.DTMIN]
  set dt := s.stepper.step (TimeLoop.tTarget cfg t0 s.stepNb - s.t) with hdt
  simp only [div_lt_iff' hc]
  by_cases hd : dt < cfg.DTMIN
  · rw [if_pos hd, if_pos hd]
  rw [if_neg hd, if_neg hd]
  cases hX : inp.sol with
  | none =>
    have e1 : (input c inp).sol = none := by simp [input, hX]
    rw [e1]
    dsimp only
    have e2 : dt / c / 2 = dt / 2 / c := by ring
    rw [e2, soft_stepper hc]
    rfl
  | some X =>
    have e1 : (input c inp).sol = some (vel c X) := by simp [input, hX]
    rw [e1]
    dsimp only
    rw [h.gamma0, h.magNode, vMax_vel hc, h.DUMAX, softDu_stepper hc]
    have e2 : dt / c * (c * vMax cfg.gamma0 cfg.magNode X) = dt * vMax cfg.gamma0 cfg.magNode X := by field_simp
    rw [e2]
    have e3 : updateNodes cfg' (vel c X) (dt / c) (baseProjection (input c inp).r (nodes c s.nodes)) =
        nodes c (updateNodes cfg X dt (baseProjection inp.r s.nodes)) := by
      rw [← updateNodes_nodes hc h.magNode h.gamma0]
      rfl
    rw [e3]
    by_cases hD : cfg.DUMAX < dt * vMax cfg.gamma0 cfg.magNode X
    · rw [if_pos hD, if_pos hD]
    rw [if_neg hD, if_neg hD]
    have e4 : computeAllNodes cfg.magNode (input c inp).pot (nodes c (updateNodes cfg X dt (baseProjection inp.r s.nodes))) =
        nodes c (computeAllNodes cfg.magNode inp.pot (updateNodes cfg X dt (baseProjection inp.r s.nodes))) :=
      computeAll_nodes c _ _ _
    have e5 : computeAllE cfg' (input c inp).pot (nodes c (updateNodes cfg X dt (baseProjection inp.r s.nodes))) (s.t / c) =
        e (computeAllE cfg inp.pot (updateNodes cfg X dt (baseProjection inp.r s.nodes)) s.t) := by
      unfold computeAllE
      rw [h.magNode, show (input c inp).pot = pot c inp.pot from rfl, setPot_nodes, h.energy]
    rw [e4, e5, h.recenter]
    have e6 : (if dt / c = (TimeLoop.tTarget cfg t0 s.stepNb - s.t) / c then TimeLoop.tTarget cfg t0 s.stepNb / c else cfg'.add (s.t / c) (dt / c))
        = (if dt = TimeLoop.tTarget cfg t0 s.stepNb - s.t then TimeLoop.tTarget cfg t0 s.stepNb else cfg.add s.t dt) / c := by
      rw [h.add]
      by_cases hl : dt = TimeLoop.tTarget cfg t0 s.stepNb - s.t
      · rw [if_pos hl, if_pos (by rw [hl])]
      · rw [if_neg hl, if_neg fun h' => hl ((div_left_inj' hc.ne').mp h')]
    rw [e6]
    cases cfg.recenter (computeAllNodes cfg.magNode inp.pot (updateNodes cfg X dt (baseProjection inp.r s.nodes))) with
    | none => rfl
    | some nd => rfl

theorem Settings.forBody (t0 : ℝ) (s : St n ET) : TimeLoop.forBody cfg' (t0 / c) (state c e s) = state c e (TimeLoop.forBody cfg t0 s) := by
  have hsave : saver cfg' (state c e s) = state c e (saver cfg s) := by
    unfold saver
    rw [h.savePeriod]
    unfold state
    simp only [List.length_map, List.map_append, List.map_cons, List.map_nil]
    congr 1
    split_ifs
    · simp [sol, nodes, node, data]
    · rfl
  unfold TimeLoop.forBody
  rw [hsave, h.stepCount hc]
  dsimp only
  by_cases hk : (((saver cfg s).stepNb + 1 : ℕ) : ℤ) ≤ TimeLoop.stepCount cfg t0
  · rw [if_pos hk]
    exact if_pos hk
  · rw [if_neg hk]
    exact if_neg hk

theorem Settings.step (t0 : ℝ) (inp : Input n) (s : St n ET) :
    TimeLoop.step cfg' (t0 / c) (input c inp) (state c e s) = state c e (TimeLoop.step cfg t0 inp s) := by
  unfold TimeLoop.step
  rw [show (state c e s).ctl = s.ctl from rfl]
  cases s.ctl with
  | running =>
    dsimp only
    rw [show (state c e s).stepNb = s.stepNb from rfl, show (state c e s).t = s.t / c from rfl, h.tTarget,
      h.whileBody hc, h.forBody hc]
    by_cases hl : s.t < TimeLoop.tTarget cfg t0 s.stepNb
    · rw [if_pos hl, if_pos ((div_lt_iff' hc).mpr hl)]
    · rw [if_neg hl, if_neg fun h' => hl ((div_lt_iff' hc).mp h')]
  | done k => rfl
  | signalled => rfl
  | noDomainWall => rfl

theorem Settings.run (t0 : ℝ) (nd : Fin n → Node) (p : Fin n → ℝ × ℝ) (inp : ℕ → Input n) (k : ℕ) :
    TimeLoop.run cfg' (t0 / c) (nodes c nd) (pot c p) (fun k => input c (inp k)) k = state c e (TimeLoop.run cfg t0 nd p inp k) := by
  induction k with
  | zero =>
    have hq : Real.sqrt (cfg.DTMIN / c * (cfg.DTMAX / c)) = Real.sqrt (cfg.DTMIN * cfg.DTMAX) / c := by
      rw [show cfg.DTMIN / c * (cfg.DTMAX / c) = cfg.DTMIN * cfg.DTMAX / c ^ 2 by field_simp, Real.sqrt_div' _ (sq_nonneg _),
        Real.sqrt_sq hc.le]
    change TimeLoop.init cfg' (t0 / c) (nodes c nd) (pot c p) = state c e (TimeLoop.init cfg t0 nd p)
    unfold TimeLoop.init
    rw [h.stepCount hc, h.DTMIN, h.DTMAX, h.magNode, hq]
    unfold state
    dsimp only
    rw [computeAll_nodes]
    have e5 : computeAllE cfg' (pot c p) (nodes c nd) (t0 / c) = e (computeAllE cfg p nd t0) := by
      unfold computeAllE
      rw [h.magNode, setPot_nodes, h.energy]
    rw [e5]
    simp only [mul_zero, List.map_nil]
    congr 1
    unfold TimeStepper.mk' stepper
    dsimp only
    congr 1
    ring
  | succ k ih =>
    change TimeLoop.step cfg' (t0 / c) (input c (inp k)) (TimeLoop.run cfg' (t0 / c) (nodes c nd) (pot c p) _ k) = _
    rw [ih, h.step hc]
    rfl

end

end Verif.Rescale
