import Verif.Spec.Similar
import Verif.Props.Reproducible

/-!
# Two runs of the time loop that go hand in hand

The two programs have the same settings of the time integration; a relation between their nodes is kept by every
attempt. Then every decision of the loop is the same.
-/

namespace Verif.TimeLoop

open Verif.Run

variable {n n' : ℕ} {ET ET' : Type}

section
variable {cfg : Cfg n ET} {cfg' : Cfg n' ET'} {nodes : Fin n → Node} {nodes' : Fin n' → Node}
  {N : (Fin n → Node) → (Fin n' → Node) → Prop} {U : (Fin n → V3) → (Fin n' → V3) → Prop} {Q : ET → ET' → Prop}

theorem SameSettings.attDt (h : SameSettings cfg cfg') {s : St n ET} {s' : St n' ET'} (hc : Coupled N U Q s s') (t0 : ℝ) :
    TimeLoop.attDt cfg' t0 s' = TimeLoop.attDt cfg t0 s := by
  unfold TimeLoop.attDt tTarget
  rw [hc.stepper, hc.stepNb, hc.t, h.timeStep]

theorem SameSettings.attStepper (h : SameSettings cfg cfg') {s : St n ET} {s' : St n' ET'} (hc : Coupled N U Q s s') (t0 : ℝ) :
    TimeLoop.attStepper cfg' t0 s' = TimeLoop.attStepper cfg t0 s := by
  unfold TimeLoop.attStepper tTarget
  rw [hc.stepper, hc.stepNb, hc.t, h.timeStep]

theorem SameSettings.tTarget (h : SameSettings cfg cfg') {s : St n ET} {s' : St n' ET'} (hc : Coupled N U Q s s') (t0 : ℝ) :
    TimeLoop.tTarget cfg' t0 s'.stepNb = TimeLoop.tTarget cfg t0 s.stepNb := by
  unfold TimeLoop.tTarget
  rw [hc.stepNb, h.timeStep]

/-- what an attempt has to keep -/
def KeepsAttempt (cfg : Cfg n ET) (cfg' : Cfg n' ET') (N : (Fin n → Node) → (Fin n' → Node) → Prop) (Q : ET → ET' → Prop) (t0 : ℝ)
    (inp : Input n) (inp' : Input n') (s : St n ET) (s' : St n' ET') : Prop :=
  ∀ X X', inp.sol = some X → inp'.sol = some X' →
    N (solvedNodes cfg inp X (attDt cfg t0 s) s) (solvedNodes cfg' inp' X' (attDt cfg t0 s) s') ∧
    vMax cfg.gamma0 cfg'.magNode X' = vMax cfg.gamma0 cfg.magNode X ∧
    N (computeAllNodes cfg.magNode inp.pot (solvedNodes cfg inp X (attDt cfg t0 s) s))
      (computeAllNodes cfg'.magNode inp'.pot (solvedNodes cfg' inp' X' (attDt cfg t0 s) s')) ∧
    Q (computeAllE cfg inp.pot (solvedNodes cfg inp X (attDt cfg t0 s) s) s.t)
      (computeAllE cfg' inp'.pot (solvedNodes cfg' inp' X' (attDt cfg t0 s) s') s.t)

/-- the nodes `a` when an attempt is kept, before recentering -/
def KeptNodes (cfg : Cfg n ET) (t0 : ℝ) (inp : Input n) (s : St n ET) (a : Fin n → Node) : Prop :=
  ∃ X, Attempt cfg t0 inp s ∧ cfg.DTMIN ≤ attDt cfg t0 s ∧ inp.sol = some X ∧
    attDt cfg t0 s * vMax cfg.gamma0 cfg.magNode X ≤ cfg.DUMAX ∧ a = (accepted cfg t0 inp s X).nodes

/-- recentering keeps the relation of nodes that satisfy `A` -/
def KeepsRecenter (cfg : Cfg n ET) (cfg' : Cfg n' ET') (N : (Fin n → Node) → (Fin n' → Node) → Prop) (A : (Fin n → Node) → Prop) :
    Prop :=
  ∀ a b, A a → N a b → Option.Rel N (cfg.recenter a) (cfg'.recenter b)

theorem NoRecenter.keepsRecenter (hR : NoRecenter cfg) (hR' : NoRecenter cfg') (A : (Fin n → Node) → Prop) :
    KeepsRecenter cfg cfg' N A := fun a b _ h => by
  rw [hR, hR']
  exact .some h

/-- one step of the two loops -/
theorem coupled_step (h : SameSettings cfg cfg') (hU : ∀ a b, N a b → U (fun i => (a i).next.u) fun i => (b i).next.u)
    (hB : ∀ a b r r', N a b → N (baseProjection r a) (baseProjection r' b))
    {A : (Fin n → Node) → Prop} (hR : KeepsRecenter cfg cfg' N A) (t0 : ℝ) (inp : Input n) (inp' : Input n')
    (hsig : inp.sig = inp'.sig) (hfail : inp.sol = none ↔ inp'.sol = none) (s : St n ET) (s' : St n' ET') (ih : Coupled N U Q s s')
    (hA : ∀ a, KeptNodes cfg t0 inp s a → A a) (hatt : Attempt cfg t0 inp s → Attempt cfg' t0 inp' s' → cfg.DTMIN ≤ attDt cfg t0 s →
      KeepsAttempt cfg cfg' N Q t0 inp inp' s s') :
    Coupled N U Q (TimeLoop.step cfg t0 inp s) (TimeLoop.step cfg' t0 inp' s') := by
  have hdt := h.attDt ih t0
  have hst := h.attStepper ih t0
  have htg := h.tTarget ih t0
  by_cases hc : s.ctl = .running
  swap
  · have hc' : s'.ctl ≠ .running := by rw [ih.ctl]; exact hc
    have e : TimeLoop.step cfg t0 inp s = s := by
      cases step_kind cfg t0 inp s with
      | halted _ e => exact e
      | _ => contradiction
    have e' : TimeLoop.step cfg' t0 inp' s' = s' := by
      cases step_kind cfg' t0 inp' s' with
      | halted _ e => exact e
      | _ => contradiction
    rw [e, e']
    exact ih
  have hc' : s'.ctl = .running := by rw [ih.ctl]; exact hc
  by_cases ht : s.t < TimeLoop.tTarget cfg t0 s.stepNb
  swap
  · have ht' : ¬ s'.t < TimeLoop.tTarget cfg' t0 s'.stepNb := by rw [ih.t, htg]; exact ht
    have e : TimeLoop.step cfg t0 inp s = forBody cfg t0 s := by simp [TimeLoop.step, hc, ht]
    have e' : TimeLoop.step cfg' t0 inp' s' = forBody cfg' t0 s' := by simp [TimeLoop.step, hc', ht']
    rw [e, e']
    have hlen : s.rows.length = s'.rows.length := ih.rows.length_eq
    have hsols : List.Forall₂ (CoupledSol U) (saver cfg s).sols (saver cfg' s').sols := by
      unfold saver
      dsimp only
      rw [hlen, h.savePeriod]
      split_ifs
      · exact List.rel_append ih.sols (List.Forall₂.cons ⟨rfl, ih.t, hU _ _ ih.nodes⟩ List.Forall₂.nil)
      · exact ih.sols
    have hrows : List.Forall₂ (CoupledRow N Q) (saver cfg s).rows (saver cfg' s').rows := by
      unfold saver
      dsimp only
      refine List.rel_append ih.rows (List.Forall₂.cons ?_ List.Forall₂.nil)
      exact ⟨hlen.symm, ih.t, ih.dt, ih.E, ih.nodes⟩
    unfold forBody
    dsimp only
    have hnb : (saver cfg' s').stepNb = (saver cfg s).stepNb := ih.stepNb
    have hct : stepCount cfg' t0 = stepCount cfg t0 := by
      unfold stepCount
      rw [h.tf, h.timeStep]
    rw [hnb, hct]
    split_ifs
    · exact ⟨ih.ctl, rfl, ih.t, ih.dt, ih.stepper, ih.nodes, ih.vmax, ih.E, ih.flag, ih.nt, hrows, hsols⟩
    · exact ⟨rfl, rfl, ih.t, ih.dt, ih.stepper, ih.nodes, ih.vmax, ih.E, ih.flag, ih.nt, hrows, hsols⟩
  have ht' : s'.t < TimeLoop.tTarget cfg' t0 s'.stepNb := by rw [ih.t, htg]; exact ht
  have e : TimeLoop.step cfg t0 inp s = whileBody cfg t0 inp s := by simp [TimeLoop.step, hc, ht]
  have e' : TimeLoop.step cfg' t0 inp' s' = whileBody cfg' t0 inp' s' := by simp [TimeLoop.step, hc', ht']
  rw [e, e']
  cases hi : inp.sig with
  | true =>
    rw [whileBody_sig _ _ _ _ hi, whileBody_sig _ _ _ _ (hsig.symm.trans hi)]
    refine ⟨rfl, ih.stepNb, ih.t, ih.dt, ih.stepper, ih.nodes, ih.vmax, ih.E, ih.flag, ih.nt, ih.rows, ?_⟩
    unfold onSignal
    dsimp only
    rw [h.savePeriod]
    split_ifs
    · exact List.rel_append ih.sols (List.Forall₂.cons ⟨rfl, ih.t, hU _ _ ih.nodes⟩ List.Forall₂.nil)
    · exact ih.sols
  | false =>
    have hi' := hsig.symm.trans hi
    by_cases hdm : TimeLoop.attDt cfg t0 s < cfg.DTMIN
    · rw [whileBody_small _ _ _ _ hi hdm, whileBody_small cfg' _ _ _ hi' (by rw [hdt, h.DTMIN]; exact hdm)]
      exact ⟨rfl, ih.stepNb, ih.t, hdt, hst, ih.nodes, ih.vmax, ih.E, ih.flag, ih.nt, ih.rows, ih.sols⟩
    · have hdm' : ¬ TimeLoop.attDt cfg' t0 s' < cfg'.DTMIN := by rw [hdt, h.DTMIN]; exact hdm
      cases hsol : inp.sol with
      | none =>
        rw [whileBody_fail _ _ _ _ hi hdm hsol, whileBody_fail cfg' _ _ _ hi' hdm' (hfail.mp hsol)]
        refine ⟨ih.ctl, ih.stepNb, ih.t, hdt, ?_, hB _ _ _ _ ih.nodes, ih.vmax, ih.E, ?_, ih.nt, ih.rows, ih.sols⟩
        · dsimp only
          rw [hst, hdt]
        · dsimp only
          rw [ih.flag]
      | some X =>
        cases hsol' : inp'.sol with
        | none => rw [hfail.mpr hsol'] at hsol; cases hsol
        | some X' =>
          have hat : Attempt cfg t0 inp s := ⟨hc, ht, hi⟩
          have hat' : Attempt cfg' t0 inp' s' := ⟨hc', ht', hi'⟩
          obtain ⟨g1, g2, g3, g4⟩ := hatt hat hat' (not_lt.mp hdm) X X' hsol hsol'
          have g2' : vMax cfg'.gamma0 cfg'.magNode X' = vMax cfg.gamma0 cfg.magNode X := by rw [h.gamma0]; exact g2
          by_cases hr : cfg.DUMAX < TimeLoop.attDt cfg t0 s * vMax cfg.gamma0 cfg.magNode X
          · rw [whileBody_reject _ _ _ _ hi hdm hsol hr, whileBody_reject cfg' _ _ _ hi' hdm' hsol'
              (by rw [hdt, h.DUMAX, g2']; exact hr)]
            refine ⟨ih.ctl, ih.stepNb, ih.t, hdt, ?_, ?_, g2', ih.E, ?_, ih.nt, ih.rows, ih.sols⟩
            · dsimp only
              rw [hst, g2', h.DUMAX]
            · dsimp only
              rw [hdt]
              exact g1
            · dsimp only
              rw [ih.flag]
          · have hacc : Coupled N U Q (accepted cfg t0 inp s X) (accepted cfg' t0 inp' s' X') := by
              refine ⟨ih.ctl, ih.stepNb, ?_, hdt, ?_, ?_, g2', ?_, rfl, ?_, ih.rows, ih.sols⟩
              · simp only [accepted]
                rw [hdt, htg, ih.t, h.add]
              · simp only [accepted]
                rw [hst, g2', h.DUMAX]
              · simp only [accepted]
                rw [hdt]
                exact g3
              · simp only [accepted]
                rw [hdt, ih.t]
                exact g4
              · simp only [accepted]
                rw [ih.nt]
            rw [whileBody_accept _ _ _ _ hi hdm hsol hr, whileBody_accept cfg' _ _ _ hi' hdm' hsol'
              (by rw [hdt, h.DUMAX, g2']; exact hr)]
            have hrec := hR _ _ (hA _ ⟨X, hat, not_lt.mp hdm, hsol, not_lt.mp hr, rfl⟩) hacc.nodes
            cases hc1 : cfg.recenter (accepted cfg t0 inp s X).nodes with
            | none =>
              cases hc2 : cfg'.recenter (accepted cfg' t0 inp' s' X').nodes with
              | none =>
                exact ⟨rfl, hacc.stepNb, hacc.t, hacc.dt, hacc.stepper, hacc.nodes, hacc.vmax, hacc.E, hacc.flag, hacc.nt,
                  hacc.rows, hacc.sols⟩
              | some b =>
                rw [hc1, hc2] at hrec
                cases hrec
            | some a =>
              cases hc2 : cfg'.recenter (accepted cfg' t0 inp' s' X').nodes with
              | none =>
                rw [hc1, hc2] at hrec
                cases hrec
              | some b =>
                rw [hc1, hc2] at hrec
                cases hrec with
                | some hrec =>
                  exact ⟨hacc.ctl, hacc.stepNb, hacc.t, hacc.dt, hacc.stepper, hrec, hacc.vmax, hacc.E, hacc.flag, hacc.nt,
                    hacc.rows, hacc.sols⟩

/-- the initial states -/
theorem coupled_init (h : SameSettings cfg cfg') (t0 : ℝ) (pot : Fin n → ℝ × ℝ) (pot' : Fin n' → ℝ × ℝ)
    (h1 : N (computeAllNodes cfg.magNode pot nodes) (computeAllNodes cfg'.magNode pot' nodes'))
    (h2 : Q (computeAllE cfg pot nodes t0) (computeAllE cfg' pot' nodes' t0)) :
    Coupled N U Q (init cfg t0 nodes pot) (init cfg' t0 nodes' pot') := by
  have hct : stepCount cfg' t0 = stepCount cfg t0 := by
    unfold stepCount
    rw [h.tf, h.timeStep]
  refine ⟨?_, rfl, rfl, ?_, ?_, h1, rfl, h2, rfl, rfl, List.Forall₂.nil, List.Forall₂.nil⟩
  · simp only [init]
    rw [hct]
  · simp only [init]
    rw [h.DTMIN, h.DTMAX]
  · simp only [init]
    rw [h.DTMIN, h.DTMAX]

end

end Verif.TimeLoop
