import Verif.Proofs.RescaleLoop
import Verif.Proofs.RescaleSystem
import Verif.Proofs.RescaleSolve
import Verif.Proofs.RescaleEnergy
import Verif.Props.LlgSolve
import Verif.Props.SimilarRun

/-!
# C111: stronger fields and shorter times

The magnetizations and the applied fields multiplied by `c > 0`, exchange and anisotropy constants by `c²`, all times divided by `c`.
-/

namespace Verif.Rescale

open Verif.Mesh Verif.Assembly Verif.Tetra Verif.SparseMat Verif.Llg Verif.TimeLoop Verif.Krylov

variable {n : ℕ} {ET ET' : Type} {c : ℝ}

/-! ## The parts -/

/-- **C111** The linear system of an attempt of the rescaled sample, with fields multiplied by `c` and a step divided by `c`: the
same matrix, and the right hand side multiplied by `c`. -/
theorem C111_system (hc : 0 < c) {P : Run.Problem} {cfg : Cfg n ET} {cfg' : Cfg n ET'} (hg : cfg'.gamma0 = cfg.gamma0)
    (hD : cfg'.DTMAX = cfg.DTMAX / c) (F : Run.Fields P) (nd : Fin n → Node) (dt : ℝ) {M : Sp ℝ} {b : List ℝ}
    (h : Run.IsSystem P cfg F nd dt M b) :
    Run.IsSystem (problem c P) cfg' (fields c F) (nodes c nd) (dt / c) M (b.map (c * ·)) := system_scale hc hg hD F nd dt h

/-- **C111** The solver then does the same iterations and gives `c` times the solution, or fails likewise, provided the right hand
sides have a norm of at most 1: the relative tolerance then implies the absolute one that the code also applies. -/
theorem C111_solve_partial (hc : 0 < c) (it : Iter) {tol : ℝ} (ht : it.resmax = .fin tol) (h0 : 0 ≤ tol) (gamma0 : ℝ) (magN : List Bool)
    (nd : Fin n → Node) (K : Sp ℝ) (L : List ℝ) (h1 : rhsNorm n magN L ≤ 1) (h2 : c * rhsNorm n magN L ≤ 1) :
    LlgSolve.solve it gamma0 magN (nodes c nd) K (L.map (c * ·)) = (LlgSolve.solve it gamma0 magN nd K L).map (vsc c) :=
  solve_scale hc it ht h0 gamma0 magN nd K L h1 h2

/-- **C111** When everything is made smaller (`c ≤ 1`) nothing has to be assumed of the norms where the solver succeeds: it succeeds
again, with `c` times the solution. -/
theorem C111_solve_weaker (hc : 0 < c) (hc1 : c ≤ 1) (it : Iter) {tol : ℝ} (ht : it.resmax = .fin tol) (h0 : 0 ≤ tol) (gamma0 : ℝ)
    (magN : List Bool) (nd : Fin n → Node) (K : Sp ℝ) (L : List ℝ) {y : Vec (2 * n)} (h : LlgSolve.solve it gamma0 magN nd K L = some y) :
    LlgSolve.solve it gamma0 magN (nodes c nd) K (L.map (c * ·)) = some (vsc c y) :=
  solve_weaker hc hc1 it ht h0 gamma0 magN nd K L h

/-- **C111** The potentials of the charges (summed directly): those of the magnetization are multiplied by `c`, those of the
velocities, which are themselves multiplied by `c`, by `c²`. -/
theorem C111_potential (hc : 0 < c) (G : Rule) (H : TriElem.Rule) (p : ℕ → V3) (Ms : ℕ → ℝ) (mtets : List Tet) (mtris : List (Tri × ℝ))
    (u v : ℕ → V3) (i : ℕ) :
    Run.directPot G H p (fun r => c * Ms r) mtets (mtris.map (tri c)) u i = c * Run.directPot G H p Ms mtets mtris u i ∧
    Run.directPot G H p (fun r => c * Ms r) mtets (mtris.map (tri c)) (fun i => c * v i) i = c ^ 2 * Run.directPot G H p Ms mtets mtris v i := by
  constructor
  · have := directPot_scale hc.ne' 1 G H p Ms mtets mtris u i
    rw [mul_one] at this
    rw [← this]
    congr 1
    funext i
    ext <;> simp
  · rw [directPot_scale hc.ne']
    ring

/-- **C111** All the energies of the table are multiplied by `c²` (NaN stays NaN). -/
theorem C111_energy (hc : 0 < c) (G : Rule) (H : TriElem.Rule) (mu0 : ℝ) (p : ℕ → V3) (m : ℕ → Prm) (sm : ℕ → SurfPrm)
    (mtets : List Tet) (mtris : List (Tri × ℝ)) (u : ℕ → V3) (phi : ℕ → ℝ) (a : EnergyAll.Applied G.n) :
    EnergyAll.terms G H mu0 p (fun r => prm c (m r)) (fun r => sprm c (sm r)) mtets (mtris.map (tri c)) u (fun i => c * phi i)
      (applied c a) = terms c (EnergyAll.terms G H mu0 p m sm mtets mtris u phi a) := terms_scale hc.ne' G H mu0 p m sm mtets mtris u phi a

/-- **C111** Recentering does the same to the rescaled state. -/
theorem C111_recenter (g : Recenter.Geo n) (thres : ℝ) (d : ℤ) (nd : Fin n → Node) :
    Recenter.loopRecenter g thres d (nodes c nd) = (Recenter.loopRecenter g thres d nd).map (nodes c) := loopRecenter_scale g thres d nd

/-- **C111** The time loop, given solutions of the linear systems multiplied by `c` and potentials accordingly: the same decisions,
the same magnetizations, all times divided by `c`. -/
theorem C111_loop (hc : 0 < c) {e : ET → ET'} {cfg : Cfg n ET} {cfg' : Cfg n ET'} (h : Settings c e cfg cfg') (t0 : ℝ) (nd : Fin n → Node)
    (p : Fin n → ℝ × ℝ) (inp : ℕ → Input n) (k : ℕ) :
    run cfg' (t0 / c) (nodes c nd) (pot c p) (fun k => input c (inp k)) k = state c e (run cfg t0 nd p inp k) := Settings.run hc h t0 nd p inp k

/-! ## Whole runs -/

/-- in this run every attempt is decided by the solver of the code, on the system assembled for it (in some order) with the fields of
`W`; and the potentials are those of `W` -/
structure SolverRun (P : Run.Problem) (cfg : Cfg n ET) (it : Iter) (W : Run.World n P) (V : ℕ → ℝ) (t0 : ℝ) (nd : Fin n → Node)
    (inp : ℕ → Input n) (B : ℕ → List ℝ) : Prop where
  /-- `B k` is the right hand side of attempt `k` -/
  solved : ∀ k, let s := run cfg t0 nd (W.pot nd) inp k
    Attempt cfg t0 (inp k) s → cfg.DTMIN ≤ attDt cfg t0 s →
      LlgSolve.Solved P cfg it ⟨W.Hext s.t s.nodes, W.Hst s.t s.nodes, V k⟩ (baseProjection (inp k).r s.nodes) (attDt cfg t0 s) (B k) (inp k).sol
  pot : ∀ k X, let s := run cfg t0 nd (W.pot nd) inp k
    Attempt cfg t0 (inp k) s → (inp k).sol = some X → (inp k).pot = W.pot (solvedNodes cfg (inp k) X (attDt cfg t0 s) s)

/-- the world `W'` is `W` with fields and potentials multiplied by `c`, at times divided by `c` -/
structure Stronger (c : ℝ) {P : Run.Problem} (W : Run.World n P) (W' : Run.World n (problem c P)) : Prop where
  Hext : ∀ t nd e j, W'.Hext (t / c) (nodes c nd) e j = c * W.Hext t nd e j
  Hst : ∀ t nd e j, W'.Hst (t / c) (nodes c nd) e j = c * W.Hst t nd e j
  pot : ∀ nd, W'.pot (nodes c nd) = pot c (W.pot nd)

theorem unknowns_vel (X : Fin n → ℝ × ℝ) (r : ℕ) : Run.unknowns (vel c X) r = c * Run.unknowns X r := by
  unfold Run.unknowns vel
  split_ifs
  · rfl
  · rfl
  · rw [mul_zero]

/-- the absolute tolerance of the solver does not make a difference for this attempt: the norms of both right hand sides are at most 1,
or the rescaled problem is the smaller one and the first attempt succeeded -/
def Safe (c : ℝ) (n : ℕ) (magN : List Bool) (b : List ℝ) (sol : Option (Fin n → ℝ × ℝ)) : Prop :=
  (rhsNorm n magN b ≤ 1 ∧ c * rhsNorm n magN b ≤ 1) ∨ (c ≤ 1 ∧ sol.isSome)

theorem solved_scale (hc : 0 < c) {P : Run.Problem} {cfg : Cfg n ET} {cfg' : Cfg n ET'} (hg : cfg'.gamma0 = cfg.gamma0)
    (hD : cfg'.DTMAX = cfg.DTMAX / c) (it : Iter) {tol : ℝ} (ht : it.resmax = .fin tol) (h0 : 0 ≤ tol) (F : Run.Fields P)
    (nd : Fin n → Node) (dt : ℝ) {b : List ℝ} {sol : Option (Fin n → ℝ × ℝ)} (hs : Safe c n (magNode P.mag n P.tets) b sol)
    (h : LlgSolve.Solved P cfg it F nd dt b sol) :
    LlgSolve.Solved (problem c P) cfg' it (fields c F) (nodes c nd) (dt / c) (b.map (c * ·)) (sol.map (vel c)) := by
  obtain ⟨M, hM, hsol⟩ := h
  refine ⟨M, system_scale hc hg hD F nd dt hM, ?_⟩
  rw [hg]
  have e : LlgSolve.solve it cfg.gamma0 (magNode P.mag n P.tets) (nodes c nd) M (b.map (c * ·)) =
      (LlgSolve.solve it cfg.gamma0 (magNode P.mag n P.tets) nd M b).map (vsc c) := by
    rcases hs with ⟨h1, h2⟩ | ⟨h1, h2⟩
    · exact solve_scale hc it ht h0 cfg.gamma0 (magNode P.mag n P.tets) nd M b h1 h2
    · obtain ⟨X, rfl⟩ := Option.isSome_iff_exists.mp h2
      rw [Option.map_some] at hsol
      rw [solve_weaker hc h1 it ht h0 cfg.gamma0 (magNode P.mag n P.tets) nd M b hsol, hsol, Option.map_some]
  refine e.trans ?_
  rw [hsol, Option.map_map, Option.map_map]
  congr 1
  funext X r
  show sc c (.fin (Run.unknowns X r)) = .fin (Run.unknowns (vel c X) r)
  rw [unknowns_vel]
  rfl

/-- **C111** Magnetizations and applied fields (and the fields of a spin polarized current) multiplied by `c > 0`, exchange and
anisotropy constants by `c²`, all times of the settings divided by `c`: from the same magnetization, with the same random angles, the
run of the rescaled sample is the rescaled run. Its solver gives `c` times the velocities and succeeds and fails at the same
attempts, and after every number of transitions the loop is in the state of the first run with the same magnetizations, times divided
by `c` and energies mapped by `e` (`C111_energy`: multiplied by `c²`). Missing: because of the absolute tolerance of the solver
(`C111_negation_tolerance`) the norms of the right hand sides have to be at most 1, unless everything is made smaller (`c ≤ 1`) and the
solver does not fail; arithmetic is exact. -/
theorem C111_run_partial (hc : 0 < c) {e : ET → ET'} {P : Run.Problem} {cfg : Cfg n ET} {cfg' : Cfg n ET'} (hset : Settings c e cfg cfg')
    (it : Iter) {tol : ℝ} (ht : it.resmax = .fin tol) (h0 : 0 ≤ tol) (W : Run.World n P) (W' : Run.World n (problem c P))
    (hW : Stronger c W W') (V V' : ℕ → ℝ) (hV : ∀ k, V' k = c * V k) (t0 : ℝ) (nd : Fin n → Node) (inp : ℕ → Input n) (B : ℕ → List ℝ)
    (h : SolverRun P cfg it W V t0 nd inp B)
    (hB : ∀ k, Attempt cfg t0 (inp k) (run cfg t0 nd (W.pot nd) inp k) → Safe c n (magNode P.mag n P.tets) (B k) (inp k).sol) :
    SolverRun (problem c P) cfg' it W' V' (t0 / c) (nodes c nd) (fun k => input c (inp k)) (fun k => (B k).map (c * ·)) ∧
    ∀ k, let a := run cfg t0 nd (W.pot nd) inp k
      let b := run cfg' (t0 / c) (nodes c nd) (W'.pot (nodes c nd)) (fun k => input c (inp k)) k
      b.ctl = a.ctl ∧ b.nt = a.nt ∧ b.t = a.t / c ∧ b.dt = a.dt / c ∧ b.vmax = c * a.vmax ∧ b.E = e a.E ∧
      (∀ i, (b.nodes i).p = (a.nodes i).p ∧ (b.nodes i).cur.u = (a.nodes i).cur.u ∧ (b.nodes i).next.u = (a.nodes i).next.u ∧
        (b.nodes i).next.v = c * (a.nodes i).next.v ∧ (b.nodes i).next.phi = c * (a.nodes i).next.phi) ∧
      b.rows = a.rows.map (row c e) ∧ b.sols = a.sols.map (sol c) := by
  have R : ∀ k, run cfg' (t0 / c) (nodes c nd) (W'.pot (nodes c nd)) (fun k => input c (inp k)) k = state c e (run cfg t0 nd (W.pot nd) inp k) := by
    intro k
    rw [hW.pot]
    exact Settings.run hc hset t0 nd (W.pot nd) inp k
  have A : ∀ k, Attempt cfg' (t0 / c) (input c (inp k)) (state c e (run cfg t0 nd (W.pot nd) inp k)) →
      Attempt cfg t0 (inp k) (run cfg t0 nd (W.pot nd) inp k) := by
    rintro k ⟨a1, a2, a3⟩
    refine ⟨a1, ?_, a3⟩
    rw [hset.timeStep] at a2
    have : (run cfg t0 nd (W.pot nd) inp k).t / c < (t0 + (run cfg t0 nd (W.pot nd) inp k).stepNb * cfg.timeStep) / c := by
      rw [add_div, mul_div_assoc]
      exact a2
    exact (div_lt_div_iff_of_pos_right hc).mp this
  have D : ∀ k, attDt cfg' (t0 / c) (state c e (run cfg t0 nd (W.pot nd) inp k)) = attDt cfg t0 (run cfg t0 nd (W.pot nd) inp k) / c :=
    fun k => Settings.attDt hc hset t0 _
  refine ⟨⟨?_, ?_⟩, ?_⟩
  · intro k
    rw [R k]
    intro s hatt hd
    have hd' : cfg.DTMIN ≤ attDt cfg t0 (run cfg t0 nd (W.pot nd) inp k) := by
      rw [D k, hset.DTMIN] at hd
      exact (div_le_div_iff_of_pos_right hc).mp hd
    have := solved_scale hc hset.gamma0 hset.DTMAX it ht h0 _ _ _ (hB k (A k hatt)) (h.solved k (A k hatt) hd')
    rw [D k]
    have eF : (⟨W'.Hext s.t s.nodes, W'.Hst s.t s.nodes, V' k⟩ : Run.Fields (problem c P)) =
        fields c ⟨W.Hext (run cfg t0 nd (W.pot nd) inp k).t (run cfg t0 nd (W.pot nd) inp k).nodes,
          W.Hst (run cfg t0 nd (W.pot nd) inp k).t (run cfg t0 nd (W.pot nd) inp k).nodes, V k⟩ := by
      unfold fields
      congr 1
      · funext t j
        exact hW.Hext _ _ _ _
      · funext t j
        exact hW.Hst _ _ _ _
      · exact hV k
    rw [eF]
    exact this
  · intro k X
    rw [R k]
    intro s hatt hX
    obtain ⟨Y, hY, rfl⟩ := Option.map_eq_some_iff.mp (show (inp k).sol.map (vel c) = some X from hX)
    show pot c (inp k).pot = _
    rw [h.pot k Y (A k hatt) hY, ← hW.pot]
    congr 1
    have := Settings.solvedNodes hc hset (inp k) Y (attDt cfg t0 (run cfg t0 nd (W.pot nd) inp k)) (run cfg t0 nd (W.pot nd) inp k)
    rw [D k]
    exact this.symm
  · intro k
    dsimp only
    rw [R k]
    exact ⟨rfl, rfl, rfl, rfl, rfl, rfl, fun i => ⟨rfl, rfl, rfl, rfl, rfl⟩, rfl, rfl⟩

/-! ## The absolute tolerance -/

/-- a guess that meets the relative tolerance but not the absolute one is refused -/
theorem guess_refused {N : ℕ} (it : Iter) (tol : ℝ) (ht : it.resmax = .fin tol) (K : Mat N) (A : Matrix (Fin N) (Fin N) ℝ)
    (hK : Represents K A) (guess L : Fin N → ℝ) (ld : List (Fin N)) (h1 : tol < freeNorm ld (Krylov.residual A L guess))
    (h2 : freeNorm ld (Krylov.residual A L guess) ≤ tol * freeNorm ld L) : llgSolve it K (lift guess) (lift L) ld = none := by
  have hb : applyMask ld (lift L) = lift (maskR ld L) := applyMask_lift ld L
  have hr : applyMask ld (Krylov.sub (Krylov.mult K (lift guess)) (lift (maskR ld L))) =
      lift (maskR ld (Krylov.residual A L guess)) := by
    rw [mult_lift hK, sub_lift, applyMask_lift]
    congr 1
    funext i
    unfold maskR Krylov.residual
    split_ifs with hi
    · rfl
    · simp [hi]
  set st := bicgInit it.reset K ld (lift guess) (applyMask ld (lift L)) with hst
  have er : st.r = lift (maskR ld (Krylov.residual A L guess)) := by rw [hst, hb]; exact hr
  have hthr : st.iter.rhsn * st.iter.resmax = .fin (freeNorm ld L * tol) := by
    change Krylov.norm (applyMask ld (lift L)) * it.resmax = _
    rw [hb, norm_lift, ht, Verif.Krylov.freeNorm_eq]
    rfl
  have hn : Krylov.norm st.r = .fin (freeNorm ld (Krylov.residual A L guess)) := by
    rw [er, norm_lift, Verif.Krylov.freeNorm_eq]
  have hfs := finished_spec st.iter (Krylov.norm st.r)
  have habs : (Krylov.norm st.r).abs = .fin (freeNorm ld (Krylov.residual A L guess)) := by rw [norm_abs, hn]
  have hle : (Krylov.norm st.r).abs.le (st.iter.rhsn * st.iter.resmax) := by
    rw [habs, hthr]
    show _ ≤ _
    rw [mul_comm]
    exact h2
  have hc : (st.iter.finished (Krylov.norm st.r)).1 = true := by
    rcases hfs.cases with g | g | g
    · rw [habs] at g; cases g.1
    · exact g.2.1
    · exact absurd hle g.2.1
  have hbody : bicgBody K (applyMask ld (diagPrecond K)) ld st = (true, { st with iter := (st.iter.finished (Krylov.norm st.r)).2 }) := by
    unfold bicgBody
    dsimp only
    rw [if_pos hc]
  have hmask : bicgMask it.reset K (lift guess) (lift L) ld = some { st with iter := (st.iter.finished (Krylov.norm st.r)).2 } := by
    unfold bicgMask
    dsimp only
    rw [← hst]
    obtain ⟨f, hf⟩ : ∃ f, fuel it.reset = f + 1 := ⟨_, rfl⟩
    rw [hf]
    unfold loop
    rw [hbody]
    simp
  unfold llgSolve
  rw [hmask]
  dsimp only
  rw [if_pos]
  refine Or.inr (Or.inr ?_)
  rw [hfs.res, hfs.resmax, habs]
  show Fl.gt _ it.resmax
  rw [ht]
  exact fun h => absurd h (not_le.mpr h1)

/-- the identity matrix as the code stores it -/
def exK : Sp ℝ := ⟨[⟨[0], [1]⟩, ⟨[1], [1]⟩]⟩

theorem exK_represents : Represents (Electro.rowsOf 2 (Electro.liftSp exK)) 1 := by
  have e0 : Electro.rowsOf 2 (Electro.liftSp exK) 0 = [(0, .fin 1)] := rfl
  have e1 : Electro.rowsOf 2 (Electro.liftSp exK) 1 = [(1, .fin 1)] := rfl
  refine ⟨fun i => ?_, fun i j v h => ?_, fun i j h => ?_⟩
  · fin_cases i
    · show ((Electro.rowsOf 2 (Electro.liftSp exK) 0).map Prod.fst).Nodup
      rw [e0]; simp
    · show ((Electro.rowsOf 2 (Electro.liftSp exK) 1).map Prod.fst).Nodup
      rw [e1]; simp
  · fin_cases i
    · change (j, v) ∈ Electro.rowsOf 2 (Electro.liftSp exK) 0 at h
      rw [e0] at h
      simp only [List.mem_singleton, Prod.mk.injEq] at h
      rw [h.1, h.2]; exact congrArg Fl.fin (Matrix.one_apply_eq (0 : Fin 2)).symm
    · change (j, v) ∈ Electro.rowsOf 2 (Electro.liftSp exK) 1 at h
      rw [e1] at h
      simp only [List.mem_singleton, Prod.mk.injEq] at h
      rw [h.1, h.2]; exact congrArg Fl.fin (Matrix.one_apply_eq (1 : Fin 2)).symm
  · fin_cases i
    · change j ∉ (Electro.rowsOf 2 (Electro.liftSp exK) 0).map Prod.fst at h
      rw [e0] at h
      fin_cases j
      · simp at h
      · simp
    · change j ∉ (Electro.rowsOf 2 (Electro.liftSp exK) 1).map Prod.fst at h
      rw [e1] at h
      fin_cases j
      · simp
      · simp at h

/-- a node whose velocity, used as a first guess, is 7.5 % off -/
noncomputable def exNode (_ : Fin 1) : Node := ⟨0, ⟨1, 0, 0⟩, ⟨0, 1, 0⟩, ⟨⟨0, 0, 1⟩, 0, 0, 0⟩, ⟨⟨0, 0, 1⟩, ⟨43 / 40, 0, 0⟩, 0, 0⟩⟩

theorem ex_guess (c : ℝ) : LlgSolve.initGuess 1 [true] (nodes c exNode) = (![c * (43 / 40), 0] : Fin (2 * 1) → ℝ) := by
  rw [initGuess_nodes]
  funext r
  change Fin 2 at r
  fin_cases r
  · show c * LlgSolve.initGuess 1 [true] exNode (0 : Fin 2) = c * (43 / 40)
    norm_num [LlgSolve.initGuess, exNode, Node.projEp, V3.dot]
  · show c * LlgSolve.initGuess 1 [true] exNode (1 : Fin 2) = 0
    norm_num [LlgSolve.initGuess, exNode, Node.projEq, V3.dot]

theorem ex_norm (a : ℝ) (ha : 0 ≤ a) : freeNorm (n := 2) [] ![a, 0] = a := by
  unfold freeNorm
  rw [Fin.sum_univ_two]
  simp [Real.sqrt_sq ha]

theorem ex_norm' (a : ℝ) (ha : 0 ≤ a) : freeNorm (n := 2) [] ![-a, 0] = a := by
  unfold freeNorm
  rw [Fin.sum_univ_two]
  simp [Real.sqrt_sq ha]

/-- **C111** The restriction to small right hand sides is needed: here the solver accepts a guess for a system, and fails for the same
system with guess and right hand side doubled, because the second test, on the residual itself, does not scale. -/
theorem C111_negation_tolerance : ∃ (it : Iter) (tol : ℝ) (nd : Fin 1 → Node) (K : Sp ℝ) (L : List ℝ), it.resmax = .fin tol ∧ 0 ≤ tol ∧
    rhsNorm 1 [true] L ≤ 1 ∧ (∃ X, LlgSolve.solve it 1 [true] nd K L = some X) ∧
    LlgSolve.solve it 1 [true] (nodes 2 nd) K (L.map ((2 : ℝ) * ·)) = none := by
  have hl : ∀ a : ℝ, (fun r : Fin (2 * 1) => [a, 0].getD r 0) = ![a, 0] := fun a => by
    funext r
    change Fin 2 at r
    fin_cases r <;> rfl
  have hres : ∀ a b : ℝ, Krylov.residual (1 : Matrix (Fin 2) (Fin 2) ℝ) ![a, 0] ![b, 0] = ![-(b - a), 0] := fun a b => by
    unfold Krylov.residual
    rw [Matrix.one_mulVec]
    funext r
    fin_cases r
    · show a - b = -(b - a)
      ring
    · show (0 : ℝ) - 0 = 0
      ring
  have hn1 : nodes 1 exNode = exNode := by
    funext i
    unfold nodes node data exNode
    simp only [mul_zero]
    congr 2 <;> ext <;> simp
  refine ⟨Iter.mk' (.fin (1 / 10)) false 100, 1 / 10, exNode, exK, [1, 0], rfl, by norm_num, ?_, ⟨lift ![43 / 40, 0], ?_⟩, ?_⟩
  · unfold rhsNorm
    rw [hl]
    exact (ex_norm 1 zero_le_one).le
  · unfold LlgSolve.solve
    have hg := ex_guess 1
    rw [hn1, one_mul] at hg
    rw [hg, hl]
    refine LlgSolve.C75_guess_kept (N := 2) _ (1 / 10) rfl _ 1 exK_represents ![43 / 40, 0] ![1, 0] [] ?_ ?_
    · rw [hres, ex_norm' _ (by norm_num)]
      norm_num
    · rw [hres, ex_norm' _ (by norm_num), ex_norm _ (by norm_num)]
      norm_num
  · unfold LlgSolve.solve
    rw [ex_guess 2, show ([1, 0] : List ℝ).map ((2 : ℝ) * ·) = [2, 0] by norm_num, hl]
    refine guess_refused (N := 2) _ (1 / 10) rfl _ 1 exK_represents ![2 * (43 / 40), 0] ![2, 0] [] ?_ ?_
    · rw [hres, ex_norm' _ (by norm_num)]
      norm_num
    · rw [hres, ex_norm' _ (by norm_num), ex_norm _ (by norm_num)]
      norm_num

/-! ## Example -/

/-- settings with times divided by `c` -/
noncomputable def exCfg' (c : ℝ) (cfg : Cfg n ET) : Cfg n ET :=
  { cfg with tf := cfg.tf / c, DTMIN := cfg.DTMIN / c, DTMAX := cfg.DTMAX / c, timeStep := cfg.timeStep / c }

theorem ex_settings (cfg : Cfg n ℝ) (h1 : cfg.add = (· + ·)) (h2 : cfg.energy = fun _ t => t) (h3 : cfg.recenter = some) (c : ℝ) :
    Settings c (· / c) cfg (exCfg' c cfg) where
  tf := rfl
  DTMIN := rfl
  DTMAX := rfl
  DUMAX := rfl
  timeStep := rfl
  savePeriod := rfl
  gamma0 := rfl
  magNode := rfl
  add := fun x y => by
    show cfg.add (x / c) (y / c) = cfg.add x y / c
    rw [h1]
    exact (add_div x y c).symm
  energy := fun nd t => by
    show cfg.energy _ _ = cfg.energy _ _ / c
    rw [h2]
  recenter := fun nd => by
    show cfg.recenter _ = (cfg.recenter _).map _
    rw [h3]
    rfl

theorem rhsNorm_scale (hc : 0 < c) (magN : List Bool) (b : List ℝ) : rhsNorm n magN (b.map (c * ·)) = c * rhsNorm n magN b := by
  unfold rhsNorm freeNorm
  have : (∑ i : Fin (2 * n), if i ∈ LlgSolve.lvd n magN then (0 : ℝ) else ((b.map (c * ·)).getD i 0) ^ 2) =
      c ^ 2 * ∑ i : Fin (2 * n), if i ∈ LlgSolve.lvd n magN then (0 : ℝ) else (b.getD i 0) ^ 2 := by
    rw [Finset.mul_sum]
    refine Finset.sum_congr rfl fun i _ => ?_
    have e : (b.map (c * ·)).getD i 0 = c * b.getD i 0 := by
      rw [List.getD_eq_getElem?_getD, List.getElem?_map, List.getD_eq_getElem?_getD]
      cases b[(i : ℕ)]? with
      | none => simp
      | some y => rfl
    rw [e]
    split_ifs
    · rw [mul_zero]
    · ring
  rw [this, Real.sqrt_mul (sq_nonneg c), Real.sqrt_sq hc.le]

/-- with a zero guess, a tolerance of 1 and a small right hand side the solver returns zero -/
theorem ex_solved (hc : 0 < c) {P : Run.Problem} {cfg : Cfg n ET} {cfg' : Cfg n ET'} (hg : cfg'.gamma0 = cfg.gamma0)
    (hD : cfg'.DTMAX = cfg.DTMAX / c) (it : Iter) (ht : it.resmax = .fin 1) (F : Run.Fields P) (nd : Fin n → Node) (dt : ℝ) {M : Sp ℝ}
    {b : List ℝ} (hsys : Run.IsSystem P cfg F nd dt M b) {A : Matrix (Fin (2 * n)) (Fin (2 * n)) ℝ}
    (hrep : Represents (Electro.rowsOf (2 * n) (Electro.liftSp M)) A)
    (hguess : LlgSolve.initGuess cfg.gamma0 (magNode P.mag n P.tets) nd = 0)
    (hb : c * rhsNorm n (magNode P.mag n P.tets) b ≤ 1) :
    LlgSolve.Solved (problem c P) cfg' it (fields c F) (nodes c nd) (dt / c) (b.map (c * ·)) (some (vel c fun _ => (0, 0))) := by
  refine ⟨M, system_scale hc hg hD F nd dt hsys, ?_⟩
  have hg' : LlgSolve.initGuess cfg'.gamma0 (magNode (problem c P).mag n (problem c P).tets) (nodes c nd) = 0 := by
    rw [hg]
    funext r
    refine (congrFun (initGuess_nodes (c := c) cfg.gamma0 (magNode P.mag n P.tets) nd) r).trans ?_
    rw [hguess]
    exact mul_zero c
  unfold LlgSolve.solve
  rw [hg']
  have hb0 := rhsNorm_scale (n := n) hc (magNode P.mag n P.tets) b
  have hres : ∀ (A : Matrix (Fin (2 * n)) (Fin (2 * n)) ℝ) L, Krylov.residual A L 0 = L := fun A L => by simp [Krylov.residual]
  refine (LlgSolve.C75_guess_kept _ 1 ht _ _ hrep 0 _ _ ?_ ?_).trans ?_
  · rw [hres]
    exact hb0.le.trans hb
  · rw [hres, one_mul]
  · show some _ = some _
    congr 1
    funext r
    show Fl.fin 0 = Fl.fin _
    rw [unknowns_vel]
    simp [Run.unknowns]

/-- one attempt, then a signal -/
noncomputable def exInp (k : ℕ) : Input 5 := ⟨decide (1 < k), 0, some fun _ => (0, 0), fun _ => (0, 0)⟩

theorem ex_run {c0 : ℝ} (c0pos : 0 < c0) (k : ℕ) :
    run (exCfg' c0 (Run.exCfg 1)) (0 / c0) (nodes c0 Run.exNd) (fun _ => (0, 0)) (fun k => input c0 (exInp k)) k =
      state c0 (· / c0) (run (Run.exCfg 1) 0 Run.exNd (fun _ => (0, 0)) exInp k) := by
  rw [← Settings.run c0pos (ex_settings (Run.exCfg 1) rfl rfl rfl c0)]
  congr 1
  funext i
  show ((0 : ℝ), (0 : ℝ)) = (c0 * 0, c0 ^ 2 * 0)
  rw [mul_zero, mul_zero]

/-- the attempt -/
theorem ex_attempt {c0 : ℝ} (c0pos : 0 < c0) : Attempt (exCfg' c0 (Run.exCfg 1)) (0 / c0) (input c0 (exInp 1))
    (run (exCfg' c0 (Run.exCfg 1)) (0 / c0) (nodes c0 Run.exNd) (fun _ => (0, 0)) (fun k => input c0 (exInp k)) 1) := by
  rw [ex_run c0pos 1]
  obtain ⟨s1, s2, s3, -, -, -⟩ := Run.ex_run1 1 exInp
  refine ⟨s1, ?_, rfl⟩
  show (run (Run.exCfg 1) 0 Run.exNd (fun _ => (0, 0)) exInp 1).t / c0 < 0 / c0 +
    (run (Run.exCfg 1) 0 Run.exNd (fun _ => (0, 0)) exInp 1).stepNb * ((Run.exCfg 1).timeStep / c0)
  rw [s2, s3, zero_div, zero_add]
  have : (0 : ℝ) < (Run.exCfg 1).timeStep := by norm_num [Run.exCfg]
  have := div_pos this c0pos
  push_cast
  rw [one_mul]
  exact this

theorem ex_only {c0 : ℝ} (k : ℕ) (ha : Attempt (exCfg' c0 (Run.exCfg 1)) (0 / c0) (input c0 (exInp k))
    (run (exCfg' c0 (Run.exCfg 1)) (0 / c0) (nodes c0 Run.exNd) (fun _ => (0, 0)) (fun k => input c0 (exInp k)) k)) : k = 1 := by
  have h1 : ¬ 1 < k := by
    have : decide (1 < k) = false := ha.2.2
    exact of_decide_eq_false this
  rcases Nat.lt_or_ge k 1 with h | h
  · exfalso
    obtain rfl : k = 0 := by omega
    have := ha.2.1
    change (0 : ℝ) / c0 < 0 / c0 + ((0 : ℕ) : ℝ) * _ at this
    simp at this
  · omega

/-- fields multiplied by `c`, no potentials -/
noncomputable def exW {P : Run.Problem} (c : ℝ) (F : Run.Fields P) : Run.World 5 (problem c P) :=
  ⟨fun _ _ => (fields c F).Hext, fun _ _ => (fields c F).Hst, fun _ _ => (0, 0)⟩

/-- the run with small fields is a run of the solver -/
theorem ex_solverRun (H : TriElem.Rule) : ∃ (c0 : ℝ) (it : Iter) (b : List ℝ), 0 < c0 ∧ it.resmax = .fin 1 ∧
    SolverRun (problem c0 (Run.exP H)) (exCfg' c0 (Run.exCfg 1)) it (exW c0 (Run.exF H)) (fun _ => c0 * (Run.exF H).V) (0 / c0)
      (nodes c0 Run.exNd) (fun k => input c0 (exInp k)) (fun _ => b) ∧
    rhsNorm 5 (magNode (Run.exP H).mag 5 (Run.exP H).tets) b ≤ 1 / 2 := by
  have hT := Run.timeStep (Run.ex_start H 1) (Run.ex_valid 1 zero_le_one) (Run.ex_keeps 1).1 (Run.ex_keeps 1).2 0 (fun _ => (0, 0)) exInp 1 0 10
    (by norm_num)
  obtain ⟨⟨M, b, hsys⟩, -⟩ := Run.C72_solvable (Run.ex_start H 1) (Run.ex_valid 1 zero_le_one) (Run.ex_keeps 1).1 (Run.ex_keeps 1).2 0
    (fun _ => (0, 0)) exInp 1 (Run.exF H) 0 10 (by norm_num)
  obtain ⟨hrep, -, -, -, -⟩ := LlgSolve.system_data (Run.exF H) hT (Run.ex_start H 1).triValid hsys
  obtain ⟨-, -, -, -, -, hnodes⟩ := Run.ex_run1 1 exInp
  have hatt := Run.exq_att Run.exNd 1 exInp
  have hguess : LlgSolve.initGuess (Run.exCfg 1).gamma0 (magNode (Run.exP H).mag 5 (Run.exP H).tets)
      (baseProjection 0 (run (Run.exCfg 1) 0 Run.exNd (fun _ => (0, 0)) exInp 1).nodes) = 0 := by
    funext r
    have hz : ∀ (c : V3), (0 : V3).dot c = 0 := fun c => by simp [V3.dot]
    rw [hnodes]
    unfold LlgSolve.initGuess
    simp [baseProjection, Node.setBasis, computeAllNodes, setPot, Node.evolution, Run.exNd, Node.projEp, Node.projEq, hz]
  obtain ⟨R, hR⟩ : ∃ R, R = rhsNorm 5 (magNode (Run.exP H).mag 5 (Run.exP H).tets) b := ⟨_, rfl⟩
  have hR0 : 0 ≤ R := by rw [hR]; exact Real.sqrt_nonneg _
  obtain ⟨c0, hc0⟩ : ∃ c0 : ℝ, c0 = 1 / (2 * (R + 1)) := ⟨_, rfl⟩
  have c0pos : 0 < c0 := by rw [hc0]; positivity
  have c0R : c0 * R ≤ 1 / 2 := by
    rw [hc0, div_mul_eq_mul_div, one_mul, div_le_div_iff₀ (by positivity) (by norm_num)]
    linarith
  have hset : Settings c0 (· / c0) (Run.exCfg 1) (exCfg' c0 (Run.exCfg 1)) := ex_settings _ rfl rfl rfl c0
  obtain ⟨it, hit⟩ : ∃ it : Iter, it.resmax = .fin 1 := ⟨Iter.mk' (.fin 1) false 100, rfl⟩
  have hsol := ex_solved c0pos hset.gamma0 hset.DTMAX it hit (Run.exF H) _ 10 hsys hrep hguess
    (by rw [← hR]; exact c0R.trans (by norm_num))
  refine ⟨c0, it, b.map (c0 * ·), c0pos, hit, ⟨?_, ?_⟩, ?_⟩
  · intro k s ha hd
    have hk : k = 1 := ex_only k ha
    subst hk
    have es : s = state c0 (· / c0) (run (Run.exCfg 1) 0 Run.exNd (fun _ => (0, 0)) exInp 1) := ex_run c0pos 1
    have ed : attDt (exCfg' c0 (Run.exCfg 1)) (0 / c0) s = 10 / c0 := by
      rw [es, Settings.attDt c0pos hset, hatt]
    have en : s.nodes = nodes c0 (run (Run.exCfg 1) 0 Run.exNd (fun _ => (0, 0)) exInp 1).nodes := by rw [es]; rfl
    clear_value s
    rw [ed]
    have eb : baseProjection (input c0 (exInp 1)).r s.nodes =
        nodes c0 (baseProjection 0 (run (Run.exCfg 1) 0 Run.exNd (fun _ => (0, 0)) exInp 1).nodes) := by rw [en]; rfl
    rw [eb]
    exact hsol
  · intro k X s _ _
    funext i
    show (c0 * 0, c0 ^ 2 * 0) = ((0 : ℝ), (0 : ℝ))
    rw [mul_zero, mul_zero]
  · rw [rhsNorm_scale c0pos, ← hR]
    exact c0R

/-- The attempts of the examples all succeed, so with `c = 1 / 2` no condition on the norms is needed. -/
example (magN : List Bool) (b : List ℝ) (c0 : ℝ) (k : ℕ) : Safe (1 / 2) 5 magN b (input c0 (exInp k)).sol := Or.inr ⟨by norm_num, rfl⟩

/-- The hypotheses of `C111_run_partial` are met with `c = 2` by a run of two tetrahedrons with a magnetization that is not uniform, in
a field, which makes an attempt (with fields weak enough for the norms to be at most 1). -/
example (H : TriElem.Rule) : ∃ (c0 : ℝ) (it : Iter) (W : Run.World 5 (problem c0 (Run.exP H)))
    (W' : Run.World 5 (problem 2 (problem c0 (Run.exP H)))) (b : List ℝ), 0 < c0 ∧
    Settings 2 (· / 2) (exCfg' c0 (Run.exCfg 1)) (exCfg' 2 (exCfg' c0 (Run.exCfg 1))) ∧ it.resmax = .fin 1 ∧ Stronger 2 W W' ∧
    SolverRun (problem c0 (Run.exP H)) (exCfg' c0 (Run.exCfg 1)) it W (fun _ => c0 * (Run.exF H).V) (0 / c0) (nodes c0 Run.exNd)
      (fun k => input c0 (exInp k)) (fun _ => b) ∧
    (∀ k, Safe 2 5 (magNode (Run.exP H).mag 5 (Run.exP H).tets) b (input c0 (exInp k)).sol) ∧
    Attempt (exCfg' c0 (Run.exCfg 1)) (0 / c0) (input c0 (exInp 1))
      (run (exCfg' c0 (Run.exCfg 1)) (0 / c0) (nodes c0 Run.exNd) (W.pot (nodes c0 Run.exNd)) (fun k => input c0 (exInp k)) 1) := by
  obtain ⟨c0, it, b, c0pos, hit, hrun, hb⟩ := ex_solverRun H
  refine ⟨c0, it, exW c0 (Run.exF H), exW 2 (fields c0 (Run.exF H)), b, c0pos, ex_settings _ rfl rfl rfl 2, hit,
    ⟨fun _ _ _ _ => rfl, fun _ _ _ _ => rfl, fun _ => ?_⟩, hrun, fun _ => Or.inl ⟨by linarith, by linarith⟩,
    ex_attempt c0pos⟩
  funext i
  show ((0 : ℝ), (0 : ℝ)) = ((2 : ℝ) * 0, (2 : ℝ) ^ 2 * 0)
  rw [mul_zero, mul_zero]

end Verif.Rescale
