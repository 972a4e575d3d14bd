import Verif.Spec.Reproducible
import Verif.Props.Run
import Verif.Props.Recenter

/-!
# C73: the course of a run does not depend on random numbers and threads
-/

namespace Verif.Run

open Verif.Mesh Verif.Assembly Verif.Tetra Verif.SparseMat Verif.Llg Verif.WeakForm Verif.TimeLoop

/-- what the rest of the program supplies to the time loop, as functions of the state: applied field and spin torque of an
attempt, and demagnetizing potentials -/
structure World (n : ℕ) (P : Problem) where
  Hext : ℝ → (Fin n → Node) → Tet → Fin P.G.n → V3
  Hst : ℝ → (Fin n → Node) → Tet → Fin P.G.n → V3
  pot : (Fin n → Node) → Fin n → ℝ × ℝ

/-- these functions do not look at the bases of the tangent planes (settings.h:290-317 reads the time,
fmm_demag.h:155-223 and spinAccumulationSolver.cpp read positions, `u` and `v`) -/
structure World.Blind {n : ℕ} {P : Problem} (W : World n P) : Prop where
  Hext : ∀ a b t, SameNodes a b → W.Hext t a = W.Hext t b
  Hst : ∀ a b t, SameNodes a b → W.Hst t a = W.Hst t b
  pot : ∀ a b, SameNodes a b → W.pot a = W.pot b

/-- in this run each linear system that is reported solved is solved exactly, for the system assembled in some order, with
the fields and the potentials of `W`. `V k` is the value found at attempt `k` in the member `DW_vz` (linear_algebra.h:118), to
which the program never assigns anything. -/
structure ExactRun {n : ℕ} {ET : Type} (P : Problem) (cfg : Cfg n ET) (W : World n P) (V : ℕ → ℝ) (t0 : ℝ)
    (nodes : Fin n → Node) (inp : ℕ → Input n) : Prop where
  exact : ∀ k X, let s := run cfg t0 nodes (W.pot nodes) inp k
    Attempt cfg t0 (inp k) s → cfg.DTMIN ≤ attDt cfg t0 s → (inp k).sol = some X →
      ∃ M b, IsSystem P cfg ⟨W.Hext s.t s.nodes, W.Hst s.t s.nodes, V k⟩ (baseProjection (inp k).r s.nodes) (attDt cfg t0 s) M b ∧
        M.mult (unknowns X) = b
  pot : ∀ k X, let s := run cfg t0 nodes (W.pot nodes) inp k
    Attempt cfg t0 (inp k) s → (inp k).sol = some X →
      (inp k).pot = W.pot (solvedNodes cfg (inp k) X (attDt cfg t0 s) s)

section
variable {n : ℕ} {ET : Type} {P : Problem} {cfg : Cfg n ET} {nodes : Fin n → Node}

theorem moves_same {a b : Fin n → Node} (h : SameNodes a b) (F : Fields P) (dt : ℝ) (v : ℕ → V3) (hm : Moves P cfg F a dt v) :
    Moves P cfg F b dt v := by
  refine ⟨fun i hi => ?_, ?_⟩
  · rw [← (h i).2.1]
    exact hm.1 i hi
  · refine holds_same F dt (ext b) (ext a) (fun i => ?_) (fun i => ?_) v _ hm.2
    · unfold ext
      split_ifs
      · exact (h _).1
      · rfl
    · unfold ext
      split_ifs
      · exact (h _).2.1
      · rfl

theorem v2max_congr {mag : Fin n → Bool} {X Y : Fin n → ℝ × ℝ}
    (h : ∀ i, mag i = true → (X i).1 * (X i).1 + (X i).2 * (X i).2 = (Y i).1 * (Y i).1 + (Y i).2 * (Y i).2) :
    v2max mag X = v2max mag Y := by
  unfold v2max
  have : ∀ (l : List (Fin n)) (m : ℝ), l.foldl (fun m i => if mag i then
        (let v2 := (X i).1 * (X i).1 + (X i).2 * (X i).2
         if m < v2 then v2 else m) else m) m =
      l.foldl (fun m i => if mag i then
        (let v2 := (Y i).1 * (Y i).1 + (Y i).2 * (Y i).2
         if m < v2 then v2 else m) else m) m := by
    intro l
    induction l with
    | nil => intro m; rfl
    | cons i l ih =>
      intro m
      rw [List.foldl_cons, List.foldl_cons, ih]
      congr 1
      cases hi : mag i with
      | false => rfl
      | true =>
        simp only
        rw [h i hi]
  exact this _ _

theorem sameNodes_setPot {a b : Fin n → Node} (h : SameNodes a b) (mag : Fin n → Bool) (pot : Fin n → ℝ × ℝ) :
    SameNodes (setPot mag pot a) (setPot mag pot b) := by
  intro i
  obtain ⟨h1, h2, h3⟩ := h i
  unfold setPot
  split_ifs
  · exact ⟨h1, h2, by dsimp only; rw [h3]⟩
  · exact ⟨h1, h2, h3⟩

theorem sameNodes_computeAll {a b : Fin n → Node} (h : SameNodes a b) (mag : Fin n → Bool) (pot : Fin n → ℝ × ℝ) :
    SameNodes (computeAllNodes mag pot a) (computeAllNodes mag pot b) := by
  intro i
  obtain ⟨h1, h2, h3⟩ := sameNodes_setPot h mag pot i
  exact ⟨h1, h3, h3⟩

theorem sameNodes_refl (a : Fin n → Node) : SameNodes a a := fun _ => ⟨rfl, rfl, rfl⟩

/-- two exact attempts from the same state give the same nodes and the same largest velocity -/
theorem solved_same (hs : Start P cfg nodes) (hv : Valid cfg) (hU : RecenterKeepsUnit cfg) (hN : RecenterKeepsNext cfg)
    (t0 : ℝ) (pot pot' : Fin n → ℝ × ℝ) (inp inp' : ℕ → Input n) (k : ℕ) (F : Fields P)
    (hsame : SameNodes (run cfg t0 nodes pot inp k).nodes (run cfg t0 nodes pot' inp' k).nodes) (dt : ℝ) (hpos : 0 < dt)
    (X X' : Fin n → ℝ × ℝ) (M M' : Sp ℝ) (b b' : List ℝ)
    (h1 : IsSystem P cfg F (baseProjection (inp k).r (run cfg t0 nodes pot inp k).nodes) dt M b) (e1 : M.mult (unknowns X) = b)
    (h2 : IsSystem P cfg F (baseProjection (inp' k).r (run cfg t0 nodes pot' inp' k).nodes) dt M' b')
    (e2 : M'.mult (unknowns X') = b') :
    SameNodes (solvedNodes cfg (inp k) X dt (run cfg t0 nodes pot inp k))
      (solvedNodes cfg (inp' k) X' dt (run cfg t0 nodes pot' inp' k)) ∧
    vMax cfg.gamma0 cfg.magNode X = vMax cfg.gamma0 cfg.magNode X' := by
  obtain ⟨m1, -⟩ := exact_velocity hs hv hU hN t0 pot inp k F (inp k).r dt hpos X M b h1 e1
  obtain ⟨-, m2⟩ := exact_velocity hs hv hU hN t0 pot' inp' k F (inp' k).r dt hpos X' M' b' h2 e2
  have hvel := m2 _ (moves_same hsame F dt _ m1)
  constructor
  · intro i
    obtain ⟨a1, a2, a3⟩ := hsame i
    cases hi : cfg.magNode i with
    | false =>
      simp only [solvedNodes, updateNodes, hi, Bool.false_eq_true, if_false]
      exact ⟨a1, a2, a3⟩
    | true =>
      obtain ⟨b1, b2⟩ := solved_eq t0 pot inp k i X dt hi (nodes := nodes)
      obtain ⟨c1, c2⟩ := solved_eq t0 pot' inp' k i X' dt hi (nodes := nodes)
      have d1 : (solvedNodes cfg (inp k) X dt (run cfg t0 nodes pot inp k) i).next =
          { ((run cfg t0 nodes pot inp k).nodes i).next with
            u := (solvedNodes cfg (inp k) X dt (run cfg t0 nodes pot inp k) i).next.u
            v := (solvedNodes cfg (inp k) X dt (run cfg t0 nodes pot inp k) i).next.v } := by
        simp only [solvedNodes, updateNodes, hi, if_true]
        rfl
      have d2 : (solvedNodes cfg (inp' k) X' dt (run cfg t0 nodes pot' inp' k) i).next =
          { ((run cfg t0 nodes pot' inp' k).nodes i).next with
            u := (solvedNodes cfg (inp' k) X' dt (run cfg t0 nodes pot' inp' k) i).next.u
            v := (solvedNodes cfg (inp' k) X' dt (run cfg t0 nodes pot' inp' k) i).next.v } := by
        simp only [solvedNodes, updateNodes, hi, if_true]
        rfl
      refine ⟨?_, ?_, ?_⟩
      · simp only [solvedNodes, updateNodes, hi, if_true]
        exact a1
      · simp only [solvedNodes, updateNodes, hi, if_true]
        exact a2
      · rw [d1, d2, b1, b2, c1, c2, hvel i hi, a2, a3]
  · unfold vMax
    rw [v2max_congr fun i hi => ?_]
    have hu := (allUnit_run hU t0 nodes pot inp hs.unit k i hi).1
    have hu' := (allUnit_run hU t0 nodes pot' inp' hs.unit k i hi).1
    rw [isUnit3_iff] at hu hu'
    have key : ∀ (r : ℝ) (nd : Fin n → Node) (Y : Fin n → ℝ × ℝ), (nd i).cur.u.nsq = 1 →
        (ofComp (ext (baseProjection r nd)) (unknowns Y) i).nsq = (Y i).1 * (Y i).1 + (Y i).2 * (Y i).2 := by
      intro r nd Y hu
      obtain ⟨c1, c2, -, c4, -⟩ := Node.setBasis_spec (2 / Real.pi * r) (nd i) hu
      unfold ofComp
      rw [unknowns_even, unknowns_odd, ext_fin]
      change ((Y i).1 * ((nd i).setBasis (2 / Real.pi * r)).ep + (Y i).2 * ((nd i).setBasis (2 / Real.pi * r)).eq).nsq = _
      rw [Node.nsq_tangent c1 c2 c4]
      ring
    rw [← key (inp k).r _ X hu, ← key (inp' k).r _ X' hu', hvel i hi]

/-- without recentering the speed of the frame is not used -/
theorem isSystem_speed (hd : P.dir = none) (Hext Hst : Tet → Fin P.G.n → V3) (V V' : ℝ) (nd : Fin n → Node) (dt : ℝ)
    (M : Sp ℝ) (b : List ℝ) (h : IsSystem P cfg ⟨Hext, Hst, V⟩ nd dt M b) : IsSystem P cfg ⟨Hext, Hst, V'⟩ nd dt M b := by
  have e : tetElem P.G P.prm (P.step cfg dt) (ext nd) Hext Hst P.dir V =
      tetElem P.G P.prm (P.step cfg dt) (ext nd) Hext Hst P.dir V' := by
    rw [hd]
    rfl
  obtain ⟨order, orderT, before, h1, h2, h3, h4, h5⟩ := h
  dsimp only at h4 h5
  rw [e] at h4 h5
  exact ⟨order, orderT, before, h1, h2, h3, h4, h5⟩

/-- **C73** Two runs from the same start, with any random angles and any order of assembly, whose linear systems are solved
exactly and fail at the same attempts, and which receive the same signals, are the same in everything that can be
observed, provided recentering is off (or the uninitialised speed of the frame happens to be the same). -/
theorem C73_same_results_partial (hs : Start P cfg nodes) (hv : Valid cfg) (hU : RecenterKeepsUnit cfg) (hN : RecenterKeepsNext cfg)
    (hB : BlindToBases cfg) (W : World n P) (hW : W.Blind) (V V' : ℕ → ℝ) (hV : P.dir = none ∨ V = V') (t0 : ℝ)
    (inp inp' : ℕ → Input n)
    (h : ExactRun P cfg W V t0 nodes inp) (h' : ExactRun P cfg W V' t0 nodes inp') (hsig : ∀ k, (inp k).sig = (inp' k).sig)
    (hfail : ∀ k, (inp k).sol = none ↔ (inp' k).sol = none) (k : ℕ) :
    SameState (run cfg t0 nodes (W.pot nodes) inp k) (run cfg t0 nodes (W.pot nodes) inp' k) := by
  induction k with
  | zero =>
    exact ⟨rfl, rfl, rfl, rfl, rfl, sameNodes_refl _, rfl, rfl, rfl, rfl, List.Forall₂.nil, rfl⟩
  | succ k ih =>
    have hx := h.exact k
    have hx' := h'.exact k
    have hp := h.pot k
    have hp' := h'.pot k
    have hsolved := fun F => solved_same hs hv hU hN t0 (W.pot nodes) (W.pot nodes) inp inp' k F ih.nodes
    change SameState (TimeLoop.step cfg t0 (inp k) _) (TimeLoop.step cfg t0 (inp' k) _)
    generalize run cfg t0 nodes (W.pot nodes) inp k = s at *
    generalize run cfg t0 nodes (W.pot nodes) inp' k = s' at *
    have hdt : attDt cfg t0 s = attDt cfg t0 s' := by unfold attDt; rw [ih.stepper, ih.stepNb, ih.t]
    have hst : attStepper cfg t0 s = attStepper cfg t0 s' := by unfold attStepper; rw [ih.stepper, ih.stepNb, ih.t]
    have htg : tTarget cfg t0 s.stepNb = tTarget cfg t0 s'.stepNb := by rw [ih.stepNb]
    by_cases hc : s.ctl = .running
    swap
    · have hc' : s'.ctl ≠ .running := by rw [← ih.ctl]; exact hc
      have e : TimeLoop.step cfg t0 (inp k) s = s := by
        cases step_kind cfg t0 (inp k) s with
        | halted _ e => exact e
        | _ => contradiction
      have e' : TimeLoop.step cfg t0 (inp' k) s' = s' := by
        cases step_kind cfg t0 (inp' k) s' with
        | halted _ e => exact e
        | _ => contradiction
      rw [e, e']
      exact ih
    have hc' : s'.ctl = .running := by rw [← ih.ctl]; exact hc
    by_cases ht : s.t < tTarget cfg t0 s.stepNb
    swap
    · have ht' : ¬ s'.t < tTarget cfg t0 s'.stepNb := by rw [← ih.t, ← htg]; exact ht
      have e : TimeLoop.step cfg t0 (inp k) s = forBody cfg t0 s := by simp [TimeLoop.step, hc, ht]
      have e' : TimeLoop.step cfg t0 (inp' k) s' = forBody cfg t0 s' := by simp [TimeLoop.step, hc', ht']
      rw [e, e']
      have hlen : s.rows.length = s'.rows.length := ih.rows.length_eq
      have hsols : (saver cfg s).sols = (saver cfg s').sols := by
        unfold saver
        dsimp only
        have hu : (fun i => (s.nodes i).next.u) = fun i => (s'.nodes i).next.u := by
          funext i
          rw [(ih.nodes i).2.2]
        rw [hlen, ih.sols, ih.t, hu]
      have hrows : List.Forall₂ SameRow (saver cfg s).rows (saver cfg s').rows := by
        unfold saver
        dsimp only
        refine List.rel_append ih.rows (List.Forall₂.cons ?_ List.Forall₂.nil)
        exact ⟨hlen, ih.t, ih.dt, ih.E, ih.nodes⟩
      unfold forBody
      dsimp only
      have hnb : (saver cfg s).stepNb = (saver cfg s').stepNb := ih.stepNb
      rw [hnb]
      split_ifs
      · exact ⟨ih.ctl, rfl, ih.t, ih.dt, ih.stepper, ih.nodes, ih.vmax, ih.E, ih.flag, ih.nt, hrows, hsols⟩
      · exact ⟨rfl, rfl, ih.t, ih.dt, ih.stepper, ih.nodes, ih.vmax, ih.E, ih.flag, ih.nt, hrows, hsols⟩
    have ht' : s'.t < tTarget cfg t0 s'.stepNb := by rw [← ih.t, ← htg]; exact ht
    have e : TimeLoop.step cfg t0 (inp k) s = whileBody cfg t0 (inp k) s := by simp [TimeLoop.step, hc, ht]
    have e' : TimeLoop.step cfg t0 (inp' k) s' = whileBody cfg t0 (inp' k) s' := by simp [TimeLoop.step, hc', ht']
    rw [e, e']
    cases hi : (inp k).sig with
    | true =>
      rw [whileBody_sig _ _ _ _ hi, whileBody_sig _ _ _ _ ((hsig k).symm.trans hi)]
      have hu : (fun i => (s.nodes i).next.u) = fun i => (s'.nodes i).next.u := by
        funext i
        rw [(ih.nodes i).2.2]
      refine ⟨rfl, ih.stepNb, ih.t, ih.dt, ih.stepper, ih.nodes, ih.vmax, ih.E, ih.flag, ih.nt, ih.rows, ?_⟩
      unfold onSignal
      dsimp only
      rw [hu, ih.sols, ih.t]
    | false =>
      have hi' := (hsig k).symm.trans hi
      by_cases hd : attDt cfg t0 s < cfg.DTMIN
      · rw [whileBody_small _ _ _ _ hi hd, whileBody_small _ _ _ _ hi' (hdt ▸ hd)]
        exact ⟨rfl, ih.stepNb, ih.t, hdt, hst, ih.nodes, ih.vmax, ih.E, ih.flag, ih.nt, ih.rows, ih.sols⟩
      · have hd' : ¬ attDt cfg t0 s' < cfg.DTMIN := hdt ▸ hd
        cases hsol : (inp k).sol with
        | none =>
          rw [whileBody_fail _ _ _ _ hi hd hsol, whileBody_fail _ _ _ _ hi' hd' ((hfail k).mp hsol)]
          refine ⟨ih.ctl, ih.stepNb, ih.t, hdt, ?_, fun i => ?_, ih.vmax, ih.E, ?_, ih.nt, ih.rows, ih.sols⟩
          · dsimp only
            rw [hst, hdt]
          · exact ih.nodes i
          · dsimp only
            rw [ih.flag]
        | some X =>
          cases hsol' : (inp' k).sol with
          | none => rw [(hfail k).mpr hsol'] at hsol; cases hsol
          | some X' =>
            have hatt : Attempt cfg t0 (inp k) s := ⟨hc, ht, hi⟩
            have hatt' : Attempt cfg t0 (inp' k) s' := ⟨hc', ht', hi'⟩
            obtain ⟨M, b, a1, a2⟩ := hx X hatt (not_lt.mp hd) hsol
            obtain ⟨M', b', a1', a2'⟩ := hx' X' hatt' (not_lt.mp hd') hsol'
            rw [← hdt, ← ih.t, ← hW.Hext s.nodes s'.nodes s.t ih.nodes, ← hW.Hst s.nodes s'.nodes s.t ih.nodes] at a1'
            have a1' : IsSystem P cfg ⟨W.Hext s.t s.nodes, W.Hst s.t s.nodes, V k⟩ (baseProjection (inp' k).r s'.nodes)
                (attDt cfg t0 s) M' b' := by
              rcases hV with hV | rfl
              · exact isSystem_speed hV _ _ _ _ _ _ _ _ a1'
              · exact a1'
            obtain ⟨g1, g2⟩ := hsolved ⟨W.Hext s.t s.nodes, W.Hst s.t s.nodes, V k⟩ (attDt cfg t0 s) (hv.dtmin.trans_le (not_lt.mp hd)) X X' M M'
              b b' a1 a2 a1' a2'
            rw [hdt] at g1
            have hpot : (inp k).pot = (inp' k).pot := by
              rw [hp X hatt hsol, hp' X' hatt' hsol', hdt, hW.pot _ _ g1]
            by_cases hr : cfg.DUMAX < attDt cfg t0 s * vMax cfg.gamma0 cfg.magNode X
            · rw [whileBody_reject _ _ _ _ hi hd hsol hr, whileBody_reject _ _ _ _ hi' hd' hsol' (by rw [← hdt, ← g2]; exact hr)]
              refine ⟨ih.ctl, ih.stepNb, ih.t, hdt, ?_, ?_, g2, ih.E, ?_, ih.nt, ih.rows, ih.sols⟩
              · dsimp only
                rw [hst, g2]
              · dsimp only
                rw [hdt]
                exact g1
              · dsimp only
                rw [ih.flag]
            · have hacc : SameState (accepted cfg t0 (inp k) s X) (accepted cfg t0 (inp' k) s' X') := by
                refine ⟨ih.ctl, ih.stepNb, ?_, hdt, ?_, ?_, g2, ?_, rfl, ?_, ih.rows, ih.sols⟩
                · simp only [accepted]
                  rw [hdt, htg, ih.t]
                · simp only [accepted]
                  rw [hst, g2]
                · simp only [accepted]
                  rw [hpot, hdt]
                  exact sameNodes_computeAll g1 _ _
                · simp only [accepted, computeAllE]
                  rw [hpot, hdt, ih.t]
                  exact hB.energy _ _ _ (sameNodes_setPot g1 _ _)
                · simp only [accepted]
                  rw [ih.nt]
              rw [whileBody_accept _ _ _ _ hi hd hsol hr, whileBody_accept _ _ _ _ hi' hd' hsol' (by rw [← hdt, ← g2]; exact hr)]
              obtain ⟨r1, r2⟩ := hB.recenter _ _ hacc.nodes
              cases hrec : cfg.recenter (accepted cfg t0 (inp k) s X).nodes with
              | none =>
                rw [r1.mp hrec]
                exact { hacc with ctl := rfl }
              | some nd =>
                cases hrec' : cfg.recenter (accepted cfg t0 (inp' k) s' X').nodes with
                | none => rw [r1.mpr hrec'] at hrec; cases hrec
                | some nd' => exact { hacc with nodes := r2 _ _ hrec hrec' }

/-- the test functional of the frame moving at unit speed -/
noncomputable def unitDrift (P : Problem) (s : Step) (nd : ℕ → Node) (w : ℕ → V3) : ℝ :=
  ((magTet P.mag P.tets).map fun t => drift P.G (P.prm t.reg) s (nodalOf nd t) P.dir 1 (fun i => w (t.ind i))).sum

theorem drift_smul (G : Rule) (m : Prm) (s : Step) (nn : Nodal) (dir : Option (Fin 3)) (V : ℝ) (w : Fin 4 → V3) :
    drift G m s nn dir V w = V * drift G m s nn dir 1 w := by
  unfold drift
  cases dir with
  | none => simp
  | some d => simp only [one_mul]

/-- **C73** What the uninitialised speed changes: a velocity solves the equation of motion for two speeds if and only if they
are the same or the derivative of the magnetization along the recentering direction has no effect in any tangent
direction. -/
theorem C73_speed_matters (Hext Hst : Tet → Fin P.G.n → V3) (V V' : ℝ) (nd : Fin n → Node) (dt : ℝ) (v : ℕ → V3)
    (h : Moves P cfg ⟨Hext, Hst, V⟩ nd dt v) :
    Moves P cfg ⟨Hext, Hst, V'⟩ nd dt v ↔ V = V' ∨
      ∀ w : ℕ → V3, (∀ i, (magNode P.mag n P.tets).getD i false = true → (w i).dot (ext nd i).cur.u = 0) →
        unitDrift P (P.step cfg dt) (ext nd) w = 0 := by
  have key : ∀ w : ℕ → V3,
      ((magTet P.mag P.tets).map fun t => WeakForm.residual P.G (P.prm t.reg) (P.step cfg dt) (nodalOf (ext nd) t) (Hext t)
        (Hst t) P.dir V' (fun i => v (t.ind i)) (fun i => w (t.ind i))).sum =
      ((magTet P.mag P.tets).map fun t => WeakForm.residual P.G (P.prm t.reg) (P.step cfg dt) (nodalOf (ext nd) t) (Hext t)
        (Hst t) P.dir V (fun i => v (t.ind i)) (fun i => w (t.ind i))).sum
        - (V' - V) * unitDrift P (P.step cfg dt) (ext nd) w := by
    intro w
    unfold unitDrift
    rw [← List.sum_map_mul_left, ← Energy.list_sum_sub]
    congr 1
    refine List.map_congr_left fun t _ => ?_
    unfold WeakForm.residual
    rw [drift_smul _ _ _ _ _ V', drift_smul _ _ _ _ _ V]
    ring
  constructor
  · intro h'
    by_cases hV : V = V'
    · exact Or.inl hV
    · refine Or.inr fun w hw => ?_
      have e1 := h.2 w hw
      have e2 := h'.2 w hw
      dsimp only at e1 e2
      rw [key w] at e2
      have : (V' - V) * unitDrift P (P.step cfg dt) (ext nd) w = 0 := by linarith
      rcases mul_eq_zero.mp this with h0 | h0
      · exact absurd (by linarith) hV
      · exact h0
  · rintro (rfl | h0)
    · exact h
    · refine ⟨h.1, fun w hw => ?_⟩
      have e1 := h.2 w hw
      dsimp only at e1 ⊢
      rw [key w, h0 w hw, mul_zero, sub_zero]
      exact e1

/-- the new magnetization determines the velocity -/
theorem normalize_inj {u a b : V3} (hu : u.nsq = 1) (ha : a.dot u = 0) (hb : b.dot u = 0)
    (h : (u + a).normalize = (u + b).normalize) : a = b := by
  have na : (u + a).nsq = 1 + a.nsq := by rw [V3.nsq_add, hu, V3.dot_comm, ha]; ring
  have nb : (u + b).nsq = 1 + b.nsq := by rw [V3.nsq_add, hu, V3.dot_comm, hb]; ring
  have pa : 0 < (u + a).nsq := by rw [na]; have := a.nsq_nonneg; linarith
  have pb : 0 < (u + b).nsq := by rw [nb]; have := b.nsq_nonneg; linarith
  have ea := V3.normalize_dot pa u
  have eb := V3.normalize_dot pb u
  rw [h, eb, V3.dot_add_left, V3.dot_add_left, ← V3.nsq_eq_dot, hu, ha, hb] at ea
  have sa := Real.sqrt_pos.mpr pa
  have sb := Real.sqrt_pos.mpr pb
  have es : Real.sqrt (u + a).nsq = Real.sqrt (u + b).nsq := by
    field_simp at ea
    linarith
  rw [V3.normalize_of_pos pa, V3.normalize_of_pos pb, es] at h
  have hz : (1 / Real.sqrt (u + b).nsq) ≠ 0 := by positivity
  have hx := congrArg V3.x h
  have hy := congrArg V3.y h
  have hz' := congrArg V3.z h
  simp only [V3.smul_x, V3.smul_y, V3.smul_z, V3.add_x, V3.add_y, V3.add_z, mul_eq_mul_left_iff, hz, or_false,
    add_right_inj] at hx hy hz'
  exact V3.ext hx hy hz'

end

/-- the recentering of the code does not look at the bases -/
theorem recenter_blind {n : ℕ} (g : Recenter.Geo n) (thres : ℝ) (d : ℤ) (a b : Fin n → Node) (h : SameNodes a b) :
    (Recenter.loopRecenter g thres d a = none ↔ Recenter.loopRecenter g thres d b = none) ∧
    ∀ a' b', Recenter.loopRecenter g thres d a = some a' → Recenter.loopRecenter g thres d b = some b' → SameNodes a' b' := by
  have hu : ∀ i, (a i).next.u = (b i).next.u := fun i => by rw [(h i).2.2]
  have havg : ∀ k, Recenter.avg g a k = Recenter.avg g b k := fun k => by
    unfold Recenter.avg
    exact Finset.sum_congr rfl fun i _ => by rw [hu]
  have hsh : ∀ k, Recenter.shift g a k = Recenter.shift g b k := fun k => by
    unfold Recenter.shift
    rw [havg, hu]
  have hset : SameNodes (fun i => Recenter.setNode (a i) (a (g.nearest (Recenter.source g (Recenter.switchDir d)
        (Recenter.shift g a (Recenter.switchDir d)) (a i).p))).next.u)
      (fun i => Recenter.setNode (b i) (b (g.nearest (Recenter.source g (Recenter.switchDir d)
        (Recenter.shift g b (Recenter.switchDir d)) (b i).p))).next.u) := by
    intro i
    obtain ⟨h1, h2, h3⟩ := h i
    refine ⟨h1, ?_, ?_⟩
    · unfold Recenter.setNode
      dsimp only
      rw [hsh, h1, h2, hu]
    · unfold Recenter.setNode
      dsimp only
      rw [h3]
  unfold Recenter.loopRecenter Recenter.recenter
  simp only
  rw [havg, hu, hu]
  split_ifs
  · exact ⟨by simp, fun a' b' ha hb => by cases ha; cases hb; exact h⟩
  · exact ⟨by simp, fun a' b' ha hb => by cases ha⟩
  · exact ⟨by simp, fun a' b' ha hb => by cases ha; cases hb; exact hset⟩

/-! ## The uninitialised speed -/

/-- the problem of the example of C72, with recentering along z -/
noncomputable def exPz (H : TriElem.Rule) : Problem := { exP H with dir := some 2 }

theorem ex_startZ (H : TriElem.Rule) (D : ℝ) : Start (exPz H) (exCfg D) exNd where
  rule := (ex_start H D).rule
  valid := (ex_start H D).valid
  oriented := (ex_start H D).oriented
  magNode := (ex_start H D).magNode
  unit := (ex_start H D).unit
  triValid := (ex_start H D).triValid
  triMag := (ex_start H D).triMag
  alpha := (ex_start H D).alpha
  exchange := (ex_start H D).exchange
  magnetic := (ex_start H D).magnetic
  gamma0 := (ex_start H D).gamma0
  mu0 := (ex_start H D).mu0
  theta := (ex_start H D).theta

/-- a test field: `y` at node 0 -/
noncomputable def exW : ℕ → V3 := fun i => if i = 0 then ⟨0, 1, 0⟩ else 0

theorem ex_drift (H : TriElem.Rule) (D dt : ℝ) :
    unitDrift (exPz H) ((exPz H).step (exCfg D) dt)
      (ext (computeAllNodes (fun _ => true) (fun _ => (0, 0)) exNd)) exW = -(1 / 24) := by
  set nd := ext (computeAllNodes (fun _ => true) (fun _ => (0, 0)) exNd) with hnd
  have hT : magTet (exPz H).mag (exPz H).tets = MeshElem.exT2 := rfl
  have hu : ∀ i, i < 5 → (nd i).cur.u = if i = 0 ∨ i = 4 then ⟨1, 0, 0⟩ else ⟨0, 0, 1⟩ := by
    intro i hi
    rw [hnd]
    unfold ext
    rw [dif_pos hi]
    simp [computeAllNodes, setPot, Node.evolution, exNd, Fin.ext_iff]
  have hv : ∀ i, (nd i).cur.v = 0 := by
    intro i
    rw [hnd]
    unfold ext
    split_ifs <;> rfl
  have hp : ∀ i, i < 5 → (nd i).p = MeshElem.exP2 i := by
    intro i hi
    rw [hnd]
    unfold ext
    rw [dif_pos hi]
    rfl
  have p0 : (nodalOf nd ⟨![0, 1, 2, 3], 0⟩).p = ![⟨0, 0, 0⟩, ⟨1, 0, 0⟩, ⟨0, 1, 0⟩, ⟨0, 0, 1⟩] := by
    funext k
    fin_cases k <;> simp [nodalOf, hp, MeshElem.exP2]
  have u0 : (nodalOf nd ⟨![0, 1, 2, 3], 0⟩).u = ![⟨1, 0, 0⟩, ⟨0, 0, 1⟩, ⟨0, 0, 1⟩, ⟨0, 0, 1⟩] := by
    funext k
    fin_cases k <;> simp [nodalOf, hu]
  have v0 : (nodalOf nd ⟨![0, 1, 2, 3], 0⟩).v = fun _ => 0 := funext fun k => hv _
  have hdet : detJ (![⟨0, 0, 0⟩, ⟨1, 0, 0⟩, ⟨0, 1, 0⟩, ⟨0, 0, 1⟩] : Fin 4 → V3) = 1 := by
    rw [detJ_eq]
    simp [V3.dot, V3.cross]
  have hder : Tetra.deriv (![⟨0, 0, 0⟩, ⟨1, 0, 0⟩, ⟨0, 1, 0⟩, ⟨0, 0, 1⟩] : Fin 4 → V3) 2
      ![⟨1, 0, 0⟩, ⟨0, 0, 1⟩, ⟨0, 0, 1⟩, ⟨0, 0, 1⟩] = ⟨-1, 0, 1⟩ := by
    have := (C35_affine_vector rule5 (![⟨0, 0, 0⟩, ⟨1, 0, 0⟩, ⟨0, 1, 0⟩, ⟨0, 0, 1⟩] : Fin 4 → V3) (by rw [hdet]; norm_num)
      ⟨1, 0, 0⟩ fun _ => ⟨-1, 0, 1⟩).2 2
    rw [← this]
    congr 1
    funext k
    fin_cases k <;> ext <;> simp
  have hz : ∀ p : Fin 4 → V3, Tetra.deriv p 2 (fun _ => 0) = 0 := by
    intro p
    unfold Tetra.deriv
    rw [Fin.sum_univ_four]
    ext <;> simp
  have hzi : ∀ j, interpV rule5 (fun _ => 0) j = 0 := by
    intro j
    unfold interpV
    rw [Fin.sum_univ_four]
    ext <;> simp
  have w0 : (fun i => exW ((⟨![0, 1, 2, 3], 0⟩ : Tet).ind i)) = ![⟨0, 1, 0⟩, 0, 0, 0] := by
    funext k
    fin_cases k <;> simp [exW]
  have w1 : (fun i => exW ((⟨![4, 1, 3, 2], 1⟩ : Tet).ind i)) = fun _ => 0 := by
    funext k
    fin_cases k <;> simp [exW]
  unfold unitDrift
  rw [hT]
  simp only [MeshElem.exT2, List.map_cons, List.map_nil, List.sum_cons, List.sum_nil]
  have d1 : drift (exPz H).G ((exPz H).prm 1) ((exPz H).step (exCfg D) dt) (nodalOf nd ⟨![4, 1, 3, 2], 1⟩) (exPz H).dir 1
      (fun i => exW ((⟨![4, 1, 3, 2], 1⟩ : Tet).ind i)) = 0 := by
    rw [w1]
    change 1 * ∑ j : Fin 5, _ = _
    rw [one_mul]
    refine Finset.sum_eq_zero fun j _ => ?_
    have := hzi j
    change weight rule5 _ j * V3.dot _ (interpV rule5 (fun _ => 0) j) = 0
    rw [this]
    simp [V3.dot]
  have d0 : drift (exPz H).G ((exPz H).prm 0) ((exPz H).step (exCfg D) dt) (nodalOf nd ⟨![0, 1, 2, 3], 0⟩) (exPz H).dir 1
      (fun i => exW ((⟨![0, 1, 2, 3], 0⟩ : Tet).ind i)) = -(1 / 24) := by
    rw [w0]
    unfold drift
    rw [p0, u0, v0]
    change 1 * ∑ j : Fin 5, weight rule5 _ j * V3.dot _ (interpV rule5 _ j) = _
    rw [one_mul]
    have hterm : ∀ j : Fin 5, weight rule5 ![⟨0, 0, 0⟩, ⟨1, 0, 0⟩, ⟨0, 1, 0⟩, ⟨0, 0, 1⟩] j *
        V3.dot (((exPz H).prm 0).alpha * ((⟨-1, 0, 1⟩ : V3) + sdt ((exPz H).step (exCfg D) dt) * (0 : V3)) +
            (interpV rule5 ![⟨1, 0, 0⟩, ⟨0, 0, 1⟩, ⟨0, 0, 1⟩, ⟨0, 0, 1⟩] j).cross ⟨-1, 0, 1⟩ +
          sdt ((exPz H).step (exCfg D) dt) * ((interpV rule5 ![⟨1, 0, 0⟩, ⟨0, 0, 1⟩, ⟨0, 0, 1⟩, ⟨0, 0, 1⟩] j).cross 0 +
            (interpV rule5 (fun _ => 0) j).cross ⟨-1, 0, 1⟩)) (interpV rule5 ![⟨0, 1, 0⟩, 0, 0, 0] j) =
        -(rule5.pds j * rule5.a 0 j) := by
      intro j
      have ha := rule5.a_sum j
      rw [Fin.sum_univ_four] at ha
      have := hzi j
      rw [this]
      unfold weight interpV
      rw [hdet]
      simp only [Fin.sum_univ_four]
      simp [V3.dot, V3.cross]
      linear_combination (-(rule5.pds j * rule5.a 0 j)) * ha
    have hsum : ∀ f : Fin 5 → ℝ, (∀ j, f j = -(rule5.pds j * rule5.a 0 j)) → ∑ j, f j = ∑ j : Fin 5, -(rule5.pds j * rule5.a 0 j) :=
      fun f hf => Finset.sum_congr rfl fun j _ => hf j
    rw [hsum _ fun j => by
      refine Eq.trans ?_ (hterm j)
      rw [hder, hz]
      rfl]
    rw [Fin.sum_univ_five]
    simp [rule5, Rule.a]
    norm_num
  rw [d0, d1]
  norm_num

/-- the fields of the example -/
noncomputable def exWorld (H : TriElem.Rule) (dir : Option (Fin 3)) : World 5 { exP H with dir := dir } :=
  ⟨fun _ _ => Energy.ex2H, fun _ _ _ _ => 0, fun _ _ => (0, 0)⟩

/-- solution at the first attempt, failures afterwards -/
noncomputable def exInp (r : ℝ) (X : Fin 5 → ℝ × ℝ) (k : ℕ) : Input 5 :=
  ⟨false, r, if k = 1 then some X else none, fun _ => (0, 0)⟩

theorem ex_att (D : ℝ) (inp : ℕ → Input 5) : attDt (exCfg D) 0 (run (exCfg D) 0 exNd (fun _ => (0, 0)) inp 1) = 10 := by
  obtain ⟨-, h2, h3, -, h5, -⟩ := ex_run1 D inp
  have hs : tTarget (exCfg D) 0 (run (exCfg D) 0 exNd (fun _ => (0, 0)) inp 1).stepNb
      - (run (exCfg D) 0 exNd (fun _ => (0, 0)) inp 1).t = 10 := by
    rw [h2, h3]; norm_num [tTarget, exCfg]
  unfold attDt
  rw [hs]
  unfold TimeStepper.step
  simp only
  rw [h5]
  norm_num

theorem ex_exact (H : TriElem.Rule) (dir : Option (Fin 3)) (D V r : ℝ) (X : Fin 5 → ℝ × ℝ) (M : Sp ℝ) (b : List ℝ)
    (h : IsSystem { exP H with dir := dir } (exCfg D) ⟨Energy.ex2H, fun _ _ => 0, V⟩
      (baseProjection r (computeAllNodes (fun _ => true) (fun _ => (0, 0)) exNd)) 10 M b) (hM : M.mult (unknowns X) = b) :
    ExactRun { exP H with dir := dir } (exCfg D) (exWorld H dir) (fun _ => V) 0 exNd (exInp r X) where
  exact := by
    intro k Y s hatt hd hY
    have hk : k = 1 ∧ Y = X := by
      unfold exInp at hY
      dsimp only at hY
      split_ifs at hY with hk
      exact ⟨hk, by injection hY with e; exact e.symm⟩
    obtain ⟨rfl, rfl⟩ := hk
    refine ⟨M, b, ?_, hM⟩
    have e1 : attDt (exCfg D) 0 s = 10 := ex_att D (exInp r Y)
    have e2 : s.nodes = computeAllNodes (fun _ => true) (fun _ => (0, 0)) exNd := (ex_run1 D (exInp r Y)).2.2.2.2.2
    rw [e1, e2]
    exact h
  pot := fun _ _ _ _ => rfl

/-- the state after the attempt with the exact solution, when it is kept -/
theorem ex_run2 (D r : ℝ) (X : Fin 5 → ℝ × ℝ) (hD : 10 * vMax 1 (fun _ => true) X ≤ D) :
    run (exCfg D) 0 exNd (fun _ => (0, 0)) (exInp r X) 2 =
      accepted (exCfg D) 0 (exInp r X 1) (run (exCfg D) 0 exNd (fun _ => (0, 0)) (exInp r X) 1) X := by
  obtain ⟨h1, h2, h3, -⟩ := ex_run1 D (exInp r X)
  have hatt := ex_att D (exInp r X)
  have hlt : (run (exCfg D) 0 exNd (fun _ => (0, 0)) (exInp r X) 1).t < tTarget (exCfg D) 0
      (run (exCfg D) 0 exNd (fun _ => (0, 0)) (exInp r X) 1).stepNb := by
    rw [h2, h3]; norm_num [tTarget, exCfg]
  change TimeLoop.step (exCfg D) 0 (exInp r X 1) (run (exCfg D) 0 exNd (fun _ => (0, 0)) (exInp r X) 1) = _
  unfold TimeLoop.step
  rw [h1]
  simp only
  rw [if_pos hlt, whileBody_accept (X := X) _ _ _ _ rfl (by rw [hatt]; norm_num [exCfg]) rfl
    (by rw [hatt]; exact not_lt.mpr hD)]
  rfl

theorem ex_solution (H : TriElem.Rule) (dir : Option (Fin 3)) (V r : ℝ) :
    ∃ (X : Fin 5 → ℝ × ℝ) (M : Sp ℝ) (b : List ℝ), IsSystem { exP H with dir := dir } (exCfg 0) ⟨Energy.ex2H, fun _ _ => 0, V⟩
      (baseProjection r (computeAllNodes (fun _ => true) (fun _ => (0, 0)) exNd)) 10 M b ∧ M.mult (unknowns X) = b := by
  have hs : Start { exP H with dir := dir } (exCfg 0) exNd := { ex_startZ H 0 with }
  obtain ⟨⟨M, b, hsys⟩, hx⟩ := C72_solvable hs (ex_valid 0 le_rfl) (ex_keeps 0).1 (ex_keeps 0).2 0 (fun _ => (0, 0))
    (fun _ => ⟨false, 0, none, fun _ => (0, 0)⟩) 1 ⟨Energy.ex2H, fun _ _ => 0, V⟩ r 10 (by norm_num)
  obtain ⟨X, hX, -⟩ := hx M b hsys
  rw [(ex_run1 0 _).2.2.2.2.2] at hsys
  exact ⟨X, M, b, hsys, hX⟩

/-- **C73, negation** With recentering the claim fails: whatever two different values are found in the uninitialised
speed, there are two runs of the same problem, with the same random numbers, all systems solved exactly, which keep
different magnetizations after the first step. -/
theorem C73_negation (H : TriElem.Rule) (V V' : ℝ) (hV : V ≠ V') : ∃ D inp inp',
    Start (exPz H) (exCfg D) exNd ∧ Valid (exCfg D) ∧
    ExactRun (exPz H) (exCfg D) (exWorld H (some 2)) (fun _ => V) 0 exNd inp ∧
    ExactRun (exPz H) (exCfg D) (exWorld H (some 2)) (fun _ => V') 0 exNd inp' ∧
    (∀ k, (inp k).sig = (inp' k).sig ∧ (inp k).r = (inp' k).r ∧ ((inp k).sol = none ↔ (inp' k).sol = none)) ∧
    TimeLoop.Accepted (run (exCfg D) 0 exNd (fun _ => (0, 0)) inp 1) (run (exCfg D) 0 exNd (fun _ => (0, 0)) inp 2) ∧
    TimeLoop.Accepted (run (exCfg D) 0 exNd (fun _ => (0, 0)) inp' 1) (run (exCfg D) 0 exNd (fun _ => (0, 0)) inp' 2) ∧
    ∃ i, ((run (exCfg D) 0 exNd (fun _ => (0, 0)) inp 2).nodes i).cur.u ≠
      ((run (exCfg D) 0 exNd (fun _ => (0, 0)) inp' 2).nodes i).cur.u := by
  obtain ⟨X, M, b, hsys, hM⟩ := ex_solution H (some 2) V 0
  obtain ⟨X', M', b', hsys', hM'⟩ := ex_solution H (some 2) V' 0
  set D := max (10 * vMax 1 (fun _ => true) X) (10 * vMax 1 (fun _ => true) X') with hDdef
  have hD0 : 0 ≤ D := le_max_of_le_left (by unfold vMax; positivity)
  have r1 := ex_run2 D 0 X (le_max_left _ _)
  have r2 := ex_run2 D 0 X' (le_max_right _ _)
  refine ⟨D, exInp 0 X, exInp 0 X', ex_startZ H D, ex_valid D hD0, ex_exact H (some 2) D V 0 X M b hsys hM,
    ex_exact H (some 2) D V' 0 X' M' b' hsys' hM', fun k => ⟨rfl, rfl, ?_⟩, by rw [r1]; rfl, by rw [r2]; rfl, ?_⟩
  · unfold exInp
    dsimp only
    split_ifs <;> simp
  by_contra hall
  push Not at hall
  set nd := computeAllNodes (n := 5) (fun _ => true) (fun _ => (0, 0)) exNd with hnd
  have hk := ex_keeps D
  have en := (ex_run1 D (exInp 0 X)).2.2.2.2.2
  have en' := (ex_run1 D (exInp 0 X')).2.2.2.2.2
  rw [← hnd] at en en'
  have m1 := (exact_velocity (ex_startZ H D) (ex_valid D hD0) hk.1 hk.2 0 (fun _ => (0, 0)) (exInp 0 X) 1
    ⟨Energy.ex2H, fun _ _ => 0, V⟩ 0 10 (by norm_num) X M b (by rw [en]; exact hsys) hM).1
  have m2 := (exact_velocity (ex_startZ H D) (ex_valid D hD0) hk.1 hk.2 0 (fun _ => (0, 0)) (exInp 0 X') 1
    ⟨Energy.ex2H, fun _ _ => 0, V'⟩ 0 10 (by norm_num) X' M' b' (by rw [en']; exact hsys') hM').1
  rw [en] at m1
  rw [en'] at m2
  -- the velocities are the same
  have hvel : ∀ i : Fin 5, ofComp (ext (baseProjection 0 nd)) (unknowns X) i = ofComp (ext (baseProjection 0 nd)) (unknowns X') i := by
    intro i
    have e1 := (solved_eq (cfg := exCfg D) (nodes := exNd) 0 (fun _ => (0, 0)) (exInp 0 X) 1 i X 10 rfl).2
    have e2 := (solved_eq (cfg := exCfg D) (nodes := exNd) 0 (fun _ => (0, 0)) (exInp 0 X') 1 i X' 10 rfl).2
    have hu := hall i
    rw [r1, r2] at hu
    have c1 : ((accepted (exCfg D) 0 (exInp 0 X 1) (run (exCfg D) 0 exNd (fun _ => (0, 0)) (exInp 0 X) 1) X).nodes i).cur.u =
        (solvedNodes (exCfg D) (exInp 0 X 1) X 10 (run (exCfg D) 0 exNd (fun _ => (0, 0)) (exInp 0 X) 1) i).next.u := by
      rw [← ex_att D (exInp 0 X)]
      rfl
    have c2 : ((accepted (exCfg D) 0 (exInp 0 X' 1) (run (exCfg D) 0 exNd (fun _ => (0, 0)) (exInp 0 X') 1) X').nodes i).cur.u =
        (solvedNodes (exCfg D) (exInp 0 X' 1) X' 10 (run (exCfg D) 0 exNd (fun _ => (0, 0)) (exInp 0 X') 1) i).next.u := by
      rw [← ex_att D (exInp 0 X')]
      rfl
    rw [c1, c2, e1, e2, en, en'] at hu
    have hunit : (nd i).cur.u.nsq = 1 := by
      have := (allUnit_run hk.1 0 exNd (fun _ => (0, 0)) (exInp 0 X) (ex_startZ H D).unit 1 i rfl).1
      rw [en, isUnit3_iff] at this
      exact this
    have t1 := m1.1 i rfl
    have t2 := m2.1 i rfl
    have h10 : (10 : ℝ) * (exCfg D).gamma0 = 10 := by norm_num [exCfg]
    rw [h10] at hu
    have := normalize_inj hunit (by rw [V3.dot_smul_left, show (exInp 0 X 1).r = 0 from rfl, t1, mul_zero])
      (by rw [V3.dot_smul_left, show (exInp 0 X' 1).r = 0 from rfl, t2, mul_zero]) hu
    have hx := congrArg V3.x this
    have hy := congrArg V3.y this
    have hz := congrArg V3.z this
    simp only [V3.smul_x, V3.smul_y, V3.smul_z, show (exInp 0 X 1).r = 0 from rfl, show (exInp 0 X' 1).r = 0 from rfl] at hx hy hz
    exact V3.ext (by simpa using hx) (by simpa using hy) (by simpa using hz)
  -- the same velocity solves both equations
  have hall5 : ofComp (ext (baseProjection 0 nd)) (unknowns X) = ofComp (ext (baseProjection 0 nd)) (unknowns X') := by
    funext i
    by_cases hi : i < 5
    · exact hvel ⟨i, hi⟩
    · unfold ofComp ext
      rw [dif_neg hi]
      ext <;> simp
  rw [← hall5] at m2
  rcases (C73_speed_matters _ _ V V' nd 10 _ m1).mp m2 with h | h
  · exact hV h
  · have := h exW (by
      intro i _
      unfold exW
      split_ifs with hi
      · subst hi
        simp [hnd, ext, computeAllNodes, setPot, Node.evolution, exNd, V3.dot]
      · simp [V3.dot])
    rw [hnd, ex_drift] at this
    norm_num at this

/-- the hypotheses of C73 are met by two runs with different random angles, which keep a step -/
example (H : TriElem.Rule) : ∃ D inp inp', Start (exP H) (exCfg D) exNd ∧ Valid (exCfg D) ∧ RecenterKeepsUnit (exCfg D) ∧
    RecenterKeepsNext (exCfg D) ∧ BlindToBases (exCfg D) ∧ (exWorld H none).Blind ∧
    ExactRun (exP H) (exCfg D) (exWorld H none) (fun _ => 0) 0 exNd inp ∧
    ExactRun (exP H) (exCfg D) (exWorld H none) (fun _ => 1) 0 exNd inp' ∧ (inp 1).r ≠ (inp' 1).r ∧
    (∀ k, (inp k).sig = (inp' k).sig) ∧ (∀ k, (inp k).sol = none ↔ (inp' k).sol = none) ∧
    TimeLoop.Accepted (run (exCfg D) 0 exNd (fun _ => (0, 0)) inp 1) (run (exCfg D) 0 exNd (fun _ => (0, 0)) inp 2) := by
  obtain ⟨X, M, b, hsys, hM⟩ := ex_solution H none 0 0
  obtain ⟨X', M', b', hsys', hM'⟩ := ex_solution H none 1 1
  set D := 10 * vMax 1 (fun _ => true) X with hDdef
  have hD0 : 0 ≤ D := by rw [hDdef]; unfold vMax; positivity
  refine ⟨D, exInp 0 X, exInp 1 X', ex_start H D, ex_valid D hD0, (ex_keeps D).1, (ex_keeps D).2, ⟨fun _ _ _ _ => rfl, ?_⟩,
    ⟨fun _ _ _ _ => rfl, fun _ _ _ _ => rfl, fun _ _ _ => rfl⟩, ex_exact H none D 0 0 X M b hsys hM,
    ex_exact H none D 1 1 X' M' b' hsys' hM', by simp [exInp], fun _ => rfl, ?_, by rw [ex_run2 D 0 X le_rfl]; rfl⟩
  · intro a b h
    refine ⟨by simp [exCfg], fun a' b' ha hb => ?_⟩
    cases ha
    cases hb
    exact h
  · intro k
    unfold exInp
    dsimp only
    split_ifs <;> simp

end Verif.Run
