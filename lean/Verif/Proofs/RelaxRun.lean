import Verif.Proofs.Relax
import Mathlib.Topology.Connected.PathConnected

/-!
# The energy along a run
-/

namespace Verif.Relax

open Verif.Mesh Verif.Assembly Verif.Tetra Verif.SparseMat Verif.Llg Verif.WeakForm Verif.TimeLoop Verif.Run Verif.Converge Verif.SemiDiscrete Set

section
variable {n : ℕ} {ET : Type} {P : Problem} {cfg : Cfg n ET} {nodes : Fin n → Node}

/-- coordinates of the current magnetization, and of the current velocity -/
abbrev curU (cfg : Cfg n ET) (nd : Fin n → Node) : X n := state cfg.magNode fun i => (nd i).cur.u
abbrev curV (cfg : Cfg n ET) (nd : Fin n → Node) : X n := state cfg.magNode fun i => (nd i).cur.v
abbrev nextU (cfg : Cfg n ET) (nd : Fin n → Node) : X n := state cfg.magNode fun i => (nd i).next.u

/-- unit configurations with energy at most `e` -/
def well (S : Setting n) (E : X n → ℝ) (e : ℝ) : Set (X n) := {c | S.Admissible c ∧ E c ≤ e}

/-- what holds after each transition of the run -/
structure Down (P : Problem) (cfg : Cfg n ET) (D : Media n P) (S : Setting n) (E : X n → ℝ) (t0 : ℝ) (c0 : X n) (s : St n ET) : Prop where
  phi : ∀ i, cfg.magNode i = true → (s.nodes i).cur.phi = D.phi (masked cfg.magNode fun i => (s.nodes i).cur.u) i
  phiv : ∀ i, cfg.magNode i = true → (s.nodes i).cur.phiv =
      D.phiv (masked cfg.magNode fun i => (s.nodes i).cur.u) (masked cfg.magNode fun i => (s.nodes i).cur.v) i
  vel : ‖curV cfg s.nodes‖ ≤ 2 * ‖S.rhs (0, curU cfg s.nodes)‖
  next : (∀ i, (s.nodes i).next.u = (s.nodes i).cur.u) ∨ s.t < tTarget cfg t0 s.stepNb
  first : E (curU cfg s.nodes) ≤ E c0
  path : JoinedIn (well S E (E c0)) c0 (curU cfg s.nodes)
  rows : ∀ r ∈ s.rows, E (curU cfg s.nodes) ≤ E (nextU cfg r.nodes) ∧ E (nextU cfg r.nodes) ≤ E c0 ∧
    JoinedIn (well S E (E c0)) c0 (nextU cfg r.nodes)
  sorted : s.rows.Pairwise fun r r' => E (nextU cfg r'.nodes) ≤ E (nextU cfg r.nodes)

/-- transitions which leave the current state of the nodes -/
theorem Down.keep {D : Media n P} {S : Setting n} {E : X n → ℝ} {t0 : ℝ} {c0 : X n} {s s' : St n ET} (h : Down P cfg D S E t0 c0 s)
    (hc : ∀ i, (s'.nodes i).cur = (s.nodes i).cur)
    (hn : (∀ i, (s'.nodes i).next.u = (s'.nodes i).cur.u) ∨ s'.t < tTarget cfg t0 s'.stepNb)
    (hr : ∀ r ∈ s'.rows, E (curU cfg s.nodes) ≤ E (nextU cfg r.nodes) ∧ E (nextU cfg r.nodes) ≤ E c0 ∧
      JoinedIn (well S E (E c0)) c0 (nextU cfg r.nodes))
    (hp : s'.rows.Pairwise fun r r' => E (nextU cfg r'.nodes) ≤ E (nextU cfg r.nodes)) :
    Down P cfg D S E t0 c0 s' ∧ curU cfg s'.nodes = curU cfg s.nodes := by
  have e1 : (fun i => (s'.nodes i).cur.u) = fun i => (s.nodes i).cur.u := funext fun i => by rw [hc i]
  have e2 : (fun i => (s'.nodes i).cur.v) = fun i => (s.nodes i).cur.v := funext fun i => by rw [hc i]
  have e3 : curU cfg s'.nodes = curU cfg s.nodes := by unfold curU; rw [e1]
  have e4 : curV cfg s'.nodes = curV cfg s.nodes := by unfold curV; rw [e2]
  refine ⟨⟨fun i hi => ?_, fun i hi => ?_, ?_, hn, ?_, ?_, ?_, hp⟩, e3⟩
  · rw [e1, hc i]; exact h.phi i hi
  · rw [e1, e2, hc i]; exact h.phiv i hi
  · rw [e3, e4]; exact h.vel
  · rw [e3]; exact h.first
  · rw [e3]; exact h.path
  · rw [e3]; exact hr

/-- what a transition does -/
structure Drop (cfg : Cfg n ET) (S : Setting n) (E : X n → ℝ) (κ : ℝ) (s s' : St n ET) : Prop where
  le : E (curU cfg s'.nodes) ≤ E (curU cfg s.nodes)
  acc : Accepted s s' → s.t < s'.t ∧ E (curU cfg s'.nodes) ≤ E (curU cfg s.nodes) - κ * (s'.t - s.t) * ‖curV cfg s'.nodes‖ ^ 2 ∧
    ‖S.rhs (0, curU cfg s'.nodes)‖ ≤ 2 * ‖curV cfg s'.nodes‖
  rest : s'.t = s.t ∨ Accepted s s'
  rows : s'.rows = s.rows ∨ ∃ r : Row n ET, s'.rows = s.rows ++ [r] ∧ r.t = s.t ∧ ∀ i, (r.nodes i).next.u = (s.nodes i).cur.u

/-- the statement of `Setting.descent` -/
def Descends (S : Setting n) (E : X n → ℝ) (Q δ κ : ℝ) : Prop :=
  ∀ t c W dt q v, S.Admissible c → ‖W‖ ≤ 2 * ‖S.rhs (0, c)‖ → 0 < dt → dt ≤ δ → 0 ≤ q → q ≤ Q → S.StepEq (t, c) W dt q v →
    (∀ τ, 0 < τ → τ ≤ dt → E (S.next c τ v) ≤ E c - κ * τ * ‖S.nextV v‖ ^ 2) ∧ ‖S.nextV v‖ ≤ 2 * ‖S.rhs (0, S.next c dt v)‖ ∧
      ‖S.rhs (0, S.next c dt v)‖ ≤ 2 * ‖S.nextV v‖

theorem comp_cur (pot : Fin n → ℝ × ℝ) (nd : Fin n → Node) (i : Fin n) : (computeAllNodes cfg.magNode pot nd i).cur =
    if cfg.magNode i = true then { (nd i).next with phi := (pot i).1, phiv := (pot i).2 } else (nd i).next := by
  unfold computeAllNodes setPot Node.evolution
  split_ifs <;> rfl

theorem comp_u (pot : Fin n → ℝ × ℝ) (nd : Fin n → Node) (i : Fin n) : (computeAllNodes cfg.magNode pot nd i).cur.u = (nd i).next.u := by
  rw [comp_cur]
  split_ifs <;> rfl

theorem comp_v (pot : Fin n → ℝ × ℝ) (nd : Fin n → Node) (i : Fin n) : (computeAllNodes cfg.magNode pot nd i).cur.v = (nd i).next.v := by
  rw [comp_cur]
  split_ifs <;> rfl

theorem comp_pot (D : Media n P) (nd : Fin n → Node) (i : Fin n) (hi : cfg.magNode i = true) :
    (computeAllNodes cfg.magNode ((D.world cfg.magNode).pot nd) nd i).cur.phi = D.phi (masked cfg.magNode fun i => (nd i).next.u) i ∧
    (computeAllNodes cfg.magNode ((D.world cfg.magNode).pot nd) nd i).cur.phiv =
      D.phiv (masked cfg.magNode fun i => (nd i).next.u) (masked cfg.magNode fun i => (nd i).next.v) i := by
  rw [comp_cur, if_pos hi]
  exact ⟨rfl, rfl⟩

/-- the magnetization is normalized along a straight line, during a step -/
theorem step_path {S : Setting n} {E : X n → ℝ} {e dt : ℝ} {c : X n} {v : ℕ → V3} (hc : S.Admissible c)
    (ht : ∀ i, S.magN i → (v i).dot (vecs c i) = 0) (h0 : E c ≤ e) (hdt : 0 < dt)
    (hle : ∀ τ, 0 < τ → τ ≤ dt → E (S.next c τ v) ≤ e) : JoinedIn (well S E e) c (S.next c dt v) := by
  classical
  have hpos : ∀ (τ : ℝ) (i : Fin n), S.magN i → 1 ≤ (vecs c i + (τ * S.gamma0) * v i).nsq := by
    intro τ i hi
    have h1 := (hc i i.2).1 hi
    have h2 := ht i hi
    have e : (vecs c i + (τ * S.gamma0) * v i).nsq = (vecs c i).dot (vecs c i) + 2 * (τ * S.gamma0) * (v i).dot (vecs c i)
        + ((τ * S.gamma0) * v i).dot ((τ * S.gamma0) * v i) := by
      simp only [V3.nsq, V3.dot, V3.add_x, V3.add_y, V3.add_z, V3.smul_x, V3.smul_y, V3.smul_z]
      ring
    rw [e, h1, h2]
    have : 0 ≤ ((τ * S.gamma0) * v i).dot ((τ * S.gamma0) * v i) := by
      unfold V3.dot
      nlinarith [mul_self_nonneg ((τ * S.gamma0) * v i).x, mul_self_nonneg ((τ * S.gamma0) * v i).y, mul_self_nonneg ((τ * S.gamma0) * v i).z]
    linarith
  have hcomp : ∀ (τ : ℝ) (i : Fin n), S.next c τ v i = if S.magN i then
      (1 / Real.sqrt (vecs c i + (τ * S.gamma0) * v i).nsq) • co (vecs c i + (τ * S.gamma0) * v i) else 0 := by
    intro τ i
    change co (if S.magN i then _ else _) = _
    split_ifs with hi
    · rw [V3.normalize_of_pos (by linarith [hpos τ i hi])]
      funext k
      fin_cases k <;> simp [co]
    · exact co_zero
  have hcont : Continuous fun τ : ℝ => S.next c (τ * dt) v := by
    refine continuous_pi fun i => ?_
    simp only [hcomp]
    by_cases hi : S.magN i
    · simp only [if_pos hi]
      have h1 : Continuous fun τ : ℝ => (vecs c i + (τ * dt * S.gamma0) * v i).nsq := by
        simp only [V3.nsq, V3.add_x, V3.add_y, V3.add_z, V3.smul_x, V3.smul_y, V3.smul_z]
        fun_prop
      refine Continuous.smul (continuous_const.div h1.sqrt fun τ => ?_) (continuous_pi fun k => ?_)
      · exact (Real.sqrt_pos.mpr (by linarith [hpos (τ * dt) i hi])).ne'
      · fin_cases k <;> simp only [co, V3.add_x, V3.add_y, V3.add_z, V3.smul_x, V3.smul_y, V3.smul_z] <;> fun_prop
    · simp only [if_neg hi]
      exact continuous_const
  have hzero : S.next c 0 v = c := by
    funext i
    rw [hcomp]
    have e1 : vecs c i + (0 * S.gamma0) * v i = vecs c i := by ext <;> simp
    split_ifs with hi
    · have h1 : (vecs c i).nsq = 1 := (hc i i.2).1 hi
      rw [e1, h1, Real.sqrt_one, div_one, one_smul]
      exact Setting.co_vecs c i
    · have := (hc i i.2).2 hi
      rw [← Setting.co_vecs c i, this]
      exact co_zero.symm
  refine JoinedIn.ofLine (f := fun τ => S.next c (τ * dt) v) hcont.continuousOn (by simp only [zero_mul]; exact hzero)
    (by simp only [one_mul]) ?_
  rintro _ ⟨τ, hτ, rfl⟩
  refine ⟨Setting.next_admissible hc ht, ?_⟩
  rcases hτ.1.eq_or_lt with rfl | h1
  · simp only [zero_mul]
    rw [hzero]
    exact h0
  · exact hle _ (mul_pos h1 hdt) (by nlinarith [hτ.2])

theorem init_down {D : Media n P} {S : Setting n} {E : X n → ℝ} {t0 : ℝ} {inp : ℕ → Input n}
    (hv0 : ∀ i, cfg.magNode i = true → (nodes i).next.v = 0) (hadm : S.Admissible (nextU cfg nodes)) :
    Down P cfg D S E t0 (nextU cfg nodes) (run cfg t0 nodes ((D.world cfg.magNode).pot nodes) inp 0) := by
  have eu : curU cfg (run cfg t0 nodes ((D.world cfg.magNode).pot nodes) inp 0).nodes = nextU cfg nodes := by
    change (state cfg.magNode fun i => (computeAllNodes _ _ _ _).cur.u) = _
    simp only [comp_u]
  refine ⟨fun i hi => ?_, fun i hi => ?_, ?_, Or.inl fun i => ?_, ?_, ?_, fun r hr => ?_, ?_⟩
  · change (computeAllNodes _ _ _ _).cur.phi = D.phi (masked _ fun i => (computeAllNodes _ _ _ _).cur.u) i
    simp only [comp_u]
    exact (comp_pot D nodes i hi).1
  · change (computeAllNodes _ _ _ _).cur.phiv =
      D.phiv (masked _ fun i => (computeAllNodes _ _ _ _).cur.u) (masked _ fun i => (computeAllNodes _ _ _ _).cur.v) i
    simp only [comp_u, comp_v]
    exact (comp_pot D nodes i hi).2
  · change ‖state cfg.magNode fun i => (computeAllNodes _ _ _ _).cur.v‖ ≤ _
    simp only [comp_v]
    have e : (state cfg.magNode fun i => (nodes i).next.v) = 0 := by
      funext i
      unfold state masked
      split_ifs with hi
      · dsimp only
        rw [hv0 i hi, co_zero]; rfl
      · rw [co_zero]; rfl
    rw [e, norm_zero]
    positivity
  · exact (congrArg DataNode.u (computeAll_next_u cfg.magNode _ nodes i).2.2.2.1).symm
  · rw [eu]
  · rw [eu]
    exact JoinedIn.refl ⟨hadm, le_rfl⟩
  · exact absurd hr (List.not_mem_nil)
  · exact List.Pairwise.nil

/-- one transition -/
theorem step_down (hs : Start P cfg nodes) (hd : P.dir = none) {D : Media n P} (hv : Valid cfg) (hR : NoRecenter cfg)
    (hadd : ∀ t dt, cfg.add t dt = t + dt) {t0 : ℝ} {V : ℕ → ℝ} {inp : ℕ → Input n}
    (hex : ExactRun P cfg (D.world cfg.magNode) V t0 nodes inp) {E : X n → ℝ} {δ κ : ℝ} (hκ : 0 < κ)
    (hdes : Descends (setting P cfg nodes D) E (2 * (P.theta * cfg.gamma0)) δ κ)
    (hdmax : cfg.DTMAX * (1 + 1 / 2 ^ 23) ≤ δ) {c0 : X n} (k : ℕ)
    (ih : Down P cfg D (setting P cfg nodes D) E t0 c0 (run cfg t0 nodes ((D.world cfg.magNode).pot nodes) inp k)) :
    Down P cfg D (setting P cfg nodes D) E t0 c0 (run cfg t0 nodes ((D.world cfg.magNode).pot nodes) inp (k + 1)) ∧
    Drop cfg (setting P cfg nodes D) E κ (run cfg t0 nodes ((D.world cfg.magNode).pot nodes) inp k)
      (run cfg t0 nodes ((D.world cfg.magNode).pot nodes) inp (k + 1)) := by
  classical
  have hU : RecenterKeepsUnit cfg := fun nd nd' h => by rw [hR] at h; cases h; exact id
  have hN : RecenterKeepsNext cfg := fun nd nd' h => by rw [hR] at h; cases h; exact fun i => ⟨rfl, rfl, rfl⟩
  have hDp : 0 < cfg.DTMAX := hv.dtmin.trans_le hv.dtmax
  have hC02 := C02_dt_limits cfg hv t0 nodes ((D.world cfg.magNode).pot nodes) inp k
  have hunit := allUnit_run hU t0 nodes ((D.world cfg.magNode).pot nodes) inp hs.unit k
  have hpos := run_pos (nodes := nodes) hN t0 ((D.world cfg.magNode).pot nodes) inp k
  have hvel := fun (F : Fields P) X M b hdt hsys hM => exact_velocity hs hv hU hN t0 ((D.world cfg.magNode).pot nodes) inp k F (inp k).r
    (attDt cfg t0 (run cfg t0 nodes ((D.world cfg.magNode).pot nodes) inp k)) hdt X M b hsys hM
  have hsol := fun X dt i hi => solved_eq (cfg := cfg) (nodes := nodes) t0 ((D.world cfg.magNode).pot nodes) inp k i X dt hi
  have hx := hex.exact k
  have hp := hex.pot k
  rw [show run cfg t0 nodes ((D.world cfg.magNode).pot nodes) inp (k + 1) =
    TimeLoop.step cfg t0 (inp k) (run cfg t0 nodes ((D.world cfg.magNode).pot nodes) inp k) from rfl] at hC02 ⊢
  generalize run cfg t0 nodes ((D.world cfg.magNode).pot nodes) inp k = s at *
  have same : ∀ s' : St n ET, Down P cfg D (setting P cfg nodes D) E t0 c0 s' ∧ curU cfg s'.nodes = curU cfg s.nodes → s'.nt = s.nt ∧ s'.t = s.t →
      (s'.rows = s.rows ∨ ∃ r : Row n ET, s'.rows = s.rows ++ [r] ∧ r.t = s.t ∧ ∀ i, (r.nodes i).next.u = (s.nodes i).cur.u) →
      Down P cfg D (setting P cfg nodes D) E t0 c0 s' ∧ Drop cfg (setting P cfg nodes D) E κ s s' := by
    intro s' h hnt hr
    refine ⟨h.1, by rw [h.2], fun ha => ?_, Or.inl hnt.2, hr⟩
    unfold Accepted at ha
    omega
  cases step_kind cfg t0 (inp k) s with
  | halted _ e => rw [e]; exact same s ⟨ih, rfl⟩ ⟨rfl, rfl⟩ (Or.inl rfl)
  | output _ ht e =>
    have hnx := ih.next.resolve_right ht
    have e1 : (TimeLoop.step cfg t0 (inp k) s).nodes = s.nodes ∧ ((TimeLoop.step cfg t0 (inp k) s).nt = s.nt ∧ (TimeLoop.step cfg t0 (inp k) s).t = s.t) ∧
        (TimeLoop.step cfg t0 (inp k) s).rows = s.rows ++ [{ nt := s.rows.length, t := s.t, dt := s.dt, E := s.E, nodes := s.nodes }] := by
      rw [e]
      unfold forBody saver
      dsimp only
      split_ifs <;> exact ⟨rfl, ⟨rfl, rfl⟩, rfl⟩
    have enx : nextU cfg s.nodes = curU cfg s.nodes := by
      unfold nextU curU
      simp only [hnx]
    refine same _ (ih.keep (fun i => by rw [e1.1]) (Or.inl fun i => by rw [e1.1]; exact hnx i) (fun r hr => ?_) ?_) e1.2.1 (Or.inr ⟨_, e1.2.2, rfl, hnx⟩)
    · rw [e1.2.2, List.mem_append, List.mem_singleton] at hr
      rcases hr with hr | rfl
      · exact ih.rows r hr
      · dsimp only
        rw [enx]
        exact ⟨le_rfl, ih.first, ih.path⟩
    · rw [e1.2.2, List.pairwise_append]
      refine ⟨ih.sorted, List.pairwise_singleton _ _, fun r hr r' hr' => ?_⟩
      rw [List.mem_singleton.mp hr']
      dsimp only
      rw [enx]
      exact (ih.rows r hr).1
  | signal _ ht _ e => rw [e]; exact same _ (ih.keep (fun _ => rfl) (Or.inr ht) ih.rows ih.sorted) ⟨rfl, rfl⟩ (Or.inl rfl)
  | small _ ht _ _ e => rw [e]; exact same _ (ih.keep (fun _ => rfl) (Or.inr ht) ih.rows ih.sorted) ⟨rfl, rfl⟩ (Or.inl rfl)
  | fail _ ht _ _ _ e => rw [e]; exact same _ (ih.keep (fun _ => rfl) (Or.inr ht) ih.rows ih.sorted) ⟨rfl, rfl⟩ (Or.inl rfl)
  | reject _ ht _ _ X _ _ e =>
    rw [e]
    refine same _ (ih.keep (fun i => ?_) (Or.inr ht) ih.rows ih.sorted) ⟨rfl, rfl⟩ (Or.inl rfl)
    dsimp only
    unfold solvedNodes updateNodes
    split_ifs <;> rfl
  | exitRec _ _ _ _ X _ _ hrec e => rw [hR] at hrec; cases hrec
  | accept hc ht hi hdn X hX hr nd hrec e =>
    rw [hR] at hrec
    cases hrec
    obtain ⟨d1, d2, d3, d4, d5, -⟩ := hC02 (by rw [e]; rfl)
    have edt : (TimeLoop.step cfg t0 (inp k) s).dt = attDt cfg t0 s := by rw [e]; rfl
    rw [edt] at d1 d2 d4
    have et : (TimeLoop.step cfg t0 (inp k) s).t = s.t + attDt cfg t0 s := by
      rcases d4 with h | h
      · rw [h, hadd]
      · exact h.2
    have hdt : 0 < attDt cfg t0 s := hv.dtmin.trans_le d1
    obtain ⟨Mx, b, hsys, hMx⟩ := hx X ⟨hc, ht, hi⟩ (not_lt.mp hdn) hX
    have hmv := (hvel _ X Mx b hdt hsys hMx).1
    have hst := stepEq hs hd (D := D) hpos ih.phi ih.phiv hmv
    have hpot := hp X ⟨hc, ht, hi⟩ hX
    have enod : (TimeLoop.step cfg t0 (inp k) s).nodes = computeAllNodes cfg.magNode
        ((D.world cfg.magNode).pot (solvedNodes cfg (inp k) X (attDt cfg t0 s) s)) (solvedNodes cfg (inp k) X (attDt cfg t0 s) s) := by
      rw [e, ← hpot]
      rfl
    set v := ofComp (Run.ext (baseProjection (inp k).r s.nodes)) (unknowns X) with hvd
    set S := setting P cfg nodes D with hSd
    have hmagN : ∀ i : Fin n, S.magN i ↔ cfg.magNode i = true := fun i => magNode_getD hs i
    have eu : curU cfg (TimeLoop.step cfg t0 (inp k) s).nodes = S.next (curU cfg s.nodes) (attDt cfg t0 s) v := by
      funext i
      change co (masked _ _ i) = co (if S.magN i then _ else _)
      rw [vecs_state]
      unfold masked
      by_cases hm : cfg.magNode i = true
      · rw [if_pos hm, if_pos ((hmagN i).mpr hm), if_pos hm, enod]
        dsimp only
        rw [comp_u]
        exact congrArg co (hsol X _ i hm).2
      · rw [if_neg hm, if_neg fun h => hm ((hmagN i).mp h)]
    have ev : curV cfg (TimeLoop.step cfg t0 (inp k) s).nodes = S.nextV v := by
      funext i
      change co (masked _ _ i) = co (if S.magN i then _ else _)
      unfold masked
      by_cases hm : cfg.magNode i = true
      · rw [if_pos hm, if_pos ((hmagN i).mpr hm), enod]
        dsimp only
        rw [comp_v]
        exact congrArg co (hsol X (attDt cfg t0 s) i hm).1
      · rw [if_neg hm, if_neg fun h => hm ((hmagN i).mp h)]
    have hpf := prefactor_bounds hDp hdt d2
    have hθγ : 0 ≤ P.theta * cfg.gamma0 := mul_nonneg hs.theta hs.gamma0.le
    have hadm : S.Admissible (curU cfg s.nodes) := by
      refine motion_admissible hs (y := fun _ i => (s.nodes i).cur.u) (t := 0) fun i hi' => ?_
      have := (hunit i hi').1
      unfold IsUnit3 at this
      simp only [V3.dot]
      linarith
    obtain ⟨g0, g2, g3⟩ := hdes s.t (curU cfg s.nodes) _ (attDt cfg t0 s) _ v hadm ih.vel hdt (d2.trans hdmax) (mul_nonneg hpf.1 hθγ)
      (mul_le_mul_of_nonneg_right hpf.2 hθγ) hst
    have g1 := g0 _ hdt le_rfl
    have hpath := step_path (E := E) (e := E c0) hadm hst.1 ih.first hdt fun τ h1 h2 => by
      have h3 := g0 τ h1 h2
      have h4 : 0 ≤ κ * τ * ‖S.nextV v‖ ^ 2 := by positivity
      linarith [ih.first]
    rw [← eu, ← ev] at g1 g2 g3
    rw [← eu] at hpath
    have hle : E (curU cfg (TimeLoop.step cfg t0 (inp k) s).nodes) ≤ E (curU cfg s.nodes) := by
      have : 0 ≤ κ * attDt cfg t0 s * ‖curV cfg (TimeLoop.step cfg t0 (inp k) s).nodes‖ ^ 2 := by positivity
      linarith
    have hrw : (TimeLoop.step cfg t0 (inp k) s).rows = s.rows := by rw [e]; rfl
    refine ⟨⟨fun i hm => ?_, fun i hm => ?_, g2, Or.inl fun i => ?_, hle.trans ih.first, ih.path.trans hpath, ?_, ?_⟩, hle, fun _ => ⟨?_, ?_, g3⟩, Or.inr (by rw [e]; rfl), Or.inl hrw⟩
    · rw [enod]
      simp only [comp_u]
      exact (comp_pot D _ i hm).1
    · rw [enod]
      simp only [comp_u, comp_v]
      exact (comp_pot D _ i hm).2
    · rw [enod]
      exact (congrArg DataNode.u (computeAll_next_u cfg.magNode _ _ i).2.2.2.1).symm
    · rw [hrw]
      exact fun r hr => ⟨hle.trans (ih.rows r hr).1, (ih.rows r hr).2⟩
    · rw [hrw]
      exact ih.sorted
    · rw [et]; linarith
    · have e3 : (TimeLoop.step cfg t0 (inp k) s).t - s.t = attDt cfg t0 s := by rw [et]; ring
      rw [e3]
      exact g1

/-- in a state where the velocity is small, so is the work of every tangent displacement -/
theorem work_small {S : Setting n} (hS : S.Good) (htri : ∀ f ∈ S.tris, ∀ k, S.magN (f.1.ind k)) :
    ∃ C, 0 < C ∧ ∀ c : X n, S.Admissible c → ∀ w : X n, (∀ i, S.magN i → (vecs w i).dot (vecs c i) = 0) →
      |S.work (0, c) (vecs w)| ≤ C * ‖S.rhs (0, c)‖ * ‖w‖ := by
  classical
  have hsv : ∀ {Z : Type} [NormedAddCommGroup Z] [NormedSpace ℝ Z] {c : Z → X n} (_ : ContDiff ℝ 1 c) (k : ℕ), SmoothV fun a => vecs (c a) k :=
    fun hc k => smooth_vecs hc k
  have hvs : ∀ (a : ℝ) (w : X n) k, vecs (a • w) k = a * vecs w k := fun a w k => vecs_smul a w k
  obtain ⟨B, hB, hbd⟩ := Setting.hom_bound2 (Z := X n) (E := X n) (F := X n) (f := fun a => (S.tets.map fun t =>
        (∑ i, contrib S.G (fun k => S.p (t.ind k)) (fun _ => (S.prm t.reg).alpha) i * (vecs a.1.2 (t.ind i)).dot (vecs a.2 (t.ind i)))
        + ∑ i, aw S.G (fun k => S.p (t.ind k)) i * ((vecs a.1.1 (t.ind i)).cross (vecs a.1.2 (t.ind i))).dot (vecs a.2 (t.ind i))).sum)
    (smooth_list S.tets _ fun t _ => (ContDiff.sum fun i _ => contDiff_const.mul
        ((hsv (contDiff_snd.comp contDiff_fst) _).dot (hsv contDiff_snd _))).add
      (ContDiff.sum fun i _ => contDiff_const.mul
        (((hsv (contDiff_fst.comp contDiff_fst) _).cross (hsv (contDiff_snd.comp contDiff_fst) _)).dot (hsv contDiff_snd _)))).continuous
    (isCompact_closedBall (0 : X n) 1)
    (fun z a v w => by
      simp only [hvs]
      rw [← List.sum_map_mul_left]
      refine congrArg List.sum (List.map_congr_left fun t _ => ?_)
      rw [mul_add, Finset.mul_sum, Finset.mul_sum]
      congr 1 <;> refine Finset.sum_congr rfl fun i _ => ?_
      · rw [smul_dot]; ring
      · simp only [V3.cross, V3.dot, V3.smul_x, V3.smul_y, V3.smul_z]; ring)
    (fun z a w => by
      simp only [hvs]
      rw [← List.sum_map_mul_left]
      refine congrArg List.sum (List.map_congr_left fun t _ => ?_)
      rw [mul_add, Finset.mul_sum, Finset.mul_sum]
      congr 1 <;> refine Finset.sum_congr rfl fun i _ => ?_ <;> rw [dot_smul] <;> ring)
  have hg := hS.gamma0
  refine ⟨B / S.gamma0, by positivity, fun c hc w hw => ?_⟩
  have h1 := (Setting.velocity_exists hS htri (z := (0, c)) hc).2 (vecs w) hw
  have h2 := hbd c (mem_closedBall_zero_iff.mpr (Setting.norm_le_one hc)) (S.gamma0⁻¹ • S.rhs (0, c)) w
  have e : ∀ t ∈ S.tets, ∀ k, vecs (S.gamma0⁻¹ • S.rhs (0, c)) (t.ind k) = S.vel (0, c) (t.ind k) := by
    intro t ht k
    have hm := hS.tetMag t ht k
    have hn := (hS.magTet _ hm).1
    rw [hvs]
    have e1 : vecs (S.rhs (0, c)) (t.ind k) = S.gamma0 * S.vel (0, c) (t.ind k) := by
      unfold vecs
      rw [dif_pos hn]
      have : S.rhs (0, c) ⟨t.ind k, hn⟩ = co (S.gamma0 * S.vel (0, c) (t.ind k)) := by
        change co (if S.magN (t.ind k) then _ else _) = _
        rw [if_pos hm]
      rw [this]
      rfl
    rw [e1]
    ext <;> simp only [V3.smul_x, V3.smul_y, V3.smul_z] <;> field_simp
  have e2 : S.work (0, c) (vecs w) = (S.tets.map fun t =>
        (∑ i, contrib S.G (fun k => S.p (t.ind k)) (fun _ => (S.prm t.reg).alpha) i *
          (vecs (S.gamma0⁻¹ • S.rhs (0, c)) (t.ind i)).dot (vecs w (t.ind i)))
        + ∑ i, aw S.G (fun k => S.p (t.ind k)) i *
          ((vecs c (t.ind i)).cross (vecs (S.gamma0⁻¹ • S.rhs (0, c)) (t.ind i))).dot (vecs w (t.ind i))).sum := by
    change totalWork _ _ _ _ _ _ _ _ _ _ _ _ _ = _
    rw [← h1]
    refine congrArg List.sum (List.map_congr_left fun t ht => ?_)
    rw [damping_eq, gyration_eq]
    simp only [e t ht]
  rw [e2]
  refine h2.trans (le_of_eq ?_)
  rw [norm_smul, norm_inv, Real.norm_of_nonneg hg.le]
  field_simp

end

end Verif.Relax
