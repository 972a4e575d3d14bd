import Verif.Proofs.TimeShift
import Verif.Props.Rescale

/-!
# C113: the same simulation at another time
-/

namespace Verif.TimeShift

open Verif.Mesh Verif.Assembly Verif.Tetra Verif.SparseMat Verif.Llg Verif.TimeLoop Verif.Krylov

variable {n : ℕ} {ET : Type} {τ : ℝ} {cfg cfg' : Cfg n ET}

/-- **C113** The time loop, with the same solutions of the linear systems and the same potentials: the same decisions and the same
configurations, later by `τ`, after any number of transitions. -/
theorem C113_loop (h : Later τ cfg cfg') (t0 : ℝ) (nd : Fin n → Node) (p : Fin n → ℝ × ℝ) (inp : ℕ → Input n) (k : ℕ) :
    run cfg' (t0 + τ) nd p inp k = state τ (run cfg t0 nd p inp k) := h.run t0 nd p inp k

/-- the world `W'` is `W` later by `τ` -/
structure LaterWorld {P : Run.Problem} (τ : ℝ) (W W' : Run.World n P) : Prop where
  Hext : ∀ t nd, W'.Hext (t + τ) nd = W.Hext t nd
  Hst : ∀ t nd, W'.Hst (t + τ) nd = W.Hst t nd
  pot : W'.pot = W.pot

theorem solved_later {P : Run.Problem} (h : Later τ cfg cfg') {it : Iter} {F : Run.Fields P} {nd : Fin n → Node} {dt : ℝ} {b : List ℝ}
    {sol : Option (Fin n → ℝ × ℝ)} (hs : LlgSolve.Solved P cfg it F nd dt b sol) : LlgSolve.Solved P cfg' it F nd dt b sol := by
  obtain ⟨M, hM, hsol⟩ := hs
  refine ⟨M, ?_, ?_⟩
  · unfold Run.IsSystem at hM ⊢
    have e : P.step cfg' dt = P.step cfg dt := by
      unfold Run.Problem.step
      rw [h.gamma0, h.DTMAX]
    rw [e]
    exact hM
  · rw [h.gamma0]
    exact hsol

/-- **C113** Only differences of times matter. With initial and final time and the applied field later by `τ`, and the same random
angles, the later run is the run: the solver gives the same solutions and fails at the same attempts, and after every number of
transitions the two are in the same state, with the same steps, magnetizations, velocities and energies, all rows and saved
configurations later by `τ`. -/
theorem C113_run (h : Later τ cfg cfg') {P : Run.Problem} {it : Iter} {W W' : Run.World n P} (hW : LaterWorld τ W W') {V : ℕ → ℝ} {t0 : ℝ}
    {nd : Fin n → Node} {inp : ℕ → Input n} {B : ℕ → List ℝ} (hr : Rescale.SolverRun P cfg it W V t0 nd inp B) :
    Rescale.SolverRun P cfg' it W' V (t0 + τ) nd inp B ∧
    ∀ k, let a := run cfg t0 nd (W.pot nd) inp k
      let b := run cfg' (t0 + τ) nd (W'.pot nd) inp k
      b.ctl = a.ctl ∧ b.nt = a.nt ∧ b.t = a.t + τ ∧ b.dt = a.dt ∧ b.vmax = a.vmax ∧ b.E = a.E ∧ b.nodes = a.nodes ∧
      b.rows = a.rows.map (row τ) ∧ b.sols = a.sols.map (sol τ) := by
  have R : ∀ k, run cfg' (t0 + τ) nd (W'.pot nd) inp k = state τ (run cfg t0 nd (W.pot nd) inp k) := fun k => by
    rw [hW.pot]
    exact h.run t0 nd _ inp k
  have A : ∀ k, Attempt cfg' (t0 + τ) (inp k) (state τ (run cfg t0 nd (W.pot nd) inp k)) →
      Attempt cfg t0 (inp k) (run cfg t0 nd (W.pot nd) inp k) := by
    rintro k ⟨a1, a2, a3⟩
    refine ⟨a1, ?_, a3⟩
    rw [h.timeStep] at a2
    change (run cfg t0 nd (W.pot nd) inp k).t + τ < t0 + τ + (run cfg t0 nd (W.pot nd) inp k).stepNb * cfg.timeStep at a2
    linarith
  refine ⟨⟨fun k => ?_, fun k X => ?_⟩, fun k => ?_⟩
  · rw [R k]
    intro s ha hd
    have hd' : cfg.DTMIN ≤ attDt cfg t0 (run cfg t0 nd (W.pot nd) inp k) := by
      rw [h.attDt, h.DTMIN] at hd
      exact hd
    have := solved_later h (hr.solved k (A k ha) hd')
    rw [h.attDt]
    rw [← hW.Hext, ← hW.Hst] at this
    exact this
  · rw [R k]
    intro s ha hX
    rw [hW.pot, h.attDt, h.solvedNodes]
    exact hr.pot k X (A k ha) hX
  · rw [R k]
    exact ⟨rfl, rfl, rfl, rfl, rfl, rfl, rfl, rfl, rfl⟩

/-- **C113** In a steady field, in particular, the initial time does not matter at all. (`energy` is shifted with the rest; a steady
field has energies that do not depend on time, and then this is the same function.) -/
theorem C113_steady {P : Run.Problem} {it : Iter} {W : Run.World n P} (hx : ∀ t t' nd, W.Hext t nd = W.Hext t' nd)
    (hs : ∀ t t' nd, W.Hst t nd = W.Hst t' nd) (hadd : ∀ t dt, cfg.add t dt = t + dt)
    {V : ℕ → ℝ} {t0 : ℝ} (t0' : ℝ) {nd : Fin n → Node} {inp : ℕ → Input n} {B : ℕ → List ℝ} (hr : Rescale.SolverRun P cfg it W V t0 nd inp B) :
    let cfg' := { cfg with tf := cfg.tf + (t0' - t0), energy := fun nd t => cfg.energy nd (t - (t0' - t0)) }
    Rescale.SolverRun P cfg' it W V t0' nd inp B ∧
    ∀ k, (run cfg' t0' nd (W.pot nd) inp k).rows = (run cfg t0 nd (W.pot nd) inp k).rows.map (row (t0' - t0)) := by
  intro cfg'
  have hl : Later (t0' - t0) cfg cfg' :=
    ⟨rfl, rfl, rfl, rfl, rfl, rfl, rfl, rfl, rfl, fun t dt => by
      show cfg.add _ _ = _
      rw [hadd, hadd]
      ring, fun nd t => by
      show cfg.energy nd (t + (t0' - t0) - (t0' - t0)) = _
      rw [add_sub_cancel_right]⟩
  have := C113_run hl (W' := W) ⟨fun t nd => hx _ _ nd, fun t nd => hs _ _ nd, rfl⟩ hr
  rw [add_sub_cancel] at this
  exact ⟨this.1, fun k => (this.2 k).2.2.2.2.2.2.2.1⟩

/-- The hypotheses of `C113_run` are met, with `τ = 3`, and those of `C113_steady`, by a run of two tetrahedrons with a magnetization that is not uniform, in a
field, which makes an attempt. -/
example (H : TriElem.Rule) : ∃ (c0 : ℝ) (it : Iter) (b : List ℝ) (cfg' : Cfg 5 ℝ), 0 < c0 ∧
    Later 3 (Rescale.exCfg' c0 (Run.exCfg 1)) cfg' ∧
    LaterWorld 3 (Rescale.exW c0 (Run.exF H)) (Rescale.exW c0 (Run.exF H)) ∧
    (∀ t t' nd, (Rescale.exW c0 (Run.exF H)).Hext t nd = (Rescale.exW c0 (Run.exF H)).Hext t' nd) ∧
    (∀ t t' nd, (Rescale.exW c0 (Run.exF H)).Hst t nd = (Rescale.exW c0 (Run.exF H)).Hst t' nd) ∧
    (∀ t dt, (Rescale.exCfg' c0 (Run.exCfg 1)).add t dt = t + dt) ∧
    Rescale.SolverRun (Rescale.problem c0 (Run.exP H)) (Rescale.exCfg' c0 (Run.exCfg 1)) it (Rescale.exW c0 (Run.exF H))
      (fun _ => c0 * (Run.exF H).V) (0 / c0) (Rescale.nodes c0 Run.exNd) (fun k => Rescale.input c0 (Rescale.exInp k)) (fun _ => b) ∧
    Attempt (Rescale.exCfg' c0 (Run.exCfg 1)) (0 / c0) (Rescale.input c0 (Rescale.exInp 1))
      (run (Rescale.exCfg' c0 (Run.exCfg 1)) (0 / c0) (Rescale.nodes c0 Run.exNd) (fun _ => (0, 0)) (fun k => Rescale.input c0 (Rescale.exInp k)) 1) := by
  obtain ⟨c0, it, b, c0pos, -, hrun, -⟩ := Rescale.ex_solverRun H
  refine ⟨c0, it, b, { Rescale.exCfg' c0 (Run.exCfg 1) with tf := (Rescale.exCfg' c0 (Run.exCfg 1)).tf + 3, energy := fun _ t => t - 3 }, c0pos,
    ⟨rfl, rfl, rfl, rfl, rfl, rfl, rfl, rfl, rfl, fun t dt => ?_, fun nd t => ?_⟩, ⟨fun _ _ => rfl, fun _ _ => rfl, rfl⟩,
    fun _ _ _ => rfl, fun _ _ _ => rfl, fun _ _ => rfl, hrun,
    Rescale.ex_attempt c0pos⟩
  · show (t + 3) + dt = t + dt + 3
    ring
  · show t + 3 - 3 = t
    ring

end Verif.TimeShift
