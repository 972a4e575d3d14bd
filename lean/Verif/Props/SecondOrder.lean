import Verif.Proofs.MacroDriven
import Verif.Props.Converge

/-!
# C85: order of accuracy in time for a uniform magnetization
-/

namespace Verif.SecondOrder

open Verif.Mesh Verif.Assembly Verif.Tetra Verif.SparseMat Verif.Llg Verif.WeakForm Verif.TimeLoop Verif.Run Verif.SemiDiscrete
  Verif.SemiDiscrete.Setting Verif.Converge Verif.MacroSpin Set

/-- a sample made of one material without cubic and surface anisotropy, in a uniform applied field `H t`; the demagnetizing field of
a uniform magnetization `U` is uniform, `N U` -/
structure Sample {n : ℕ} {ET : Type} (P : Problem) (cfg : Cfg n ET) (nodes : Fin n → Node) (W : World n P) (m : Prm) (H : ℝ → V3) (N : Mat) :
    Prop where
  mat : ∀ t ∈ magTet P.mag P.tets, P.prm t.reg = m
  cubic : m.K3 = 0
  surface : ∀ f ∈ P.tris, (P.sprm f.1.reg).Ks = 0
  applied : ∀ t nd, ∀ e ∈ magTet P.mag P.tets, ∀ j, W.Hext t nd e j = H t
  spin : ∀ t nd e j, W.Hst t nd e j = 0
  demag : ∀ nd U V, (∀ i, (nd i).p = (nodes i).p) → (∀ i, cfg.magNode i = true → (nd i).next.u = U ∧ (nd i).next.v = V) →
    ∀ e ∈ magTet P.mag P.tets,
      interpField (fun k => (Run.ext nodes (e.ind k)).p) (fun k => extS (fun i => (W.pot nd i).1) (e.ind k)) = N.app U ∧
      interpField (fun k => (Run.ext nodes (e.ind k)).p) (fun k => extS (fun i => (W.pot nd i).2) (e.ind k)) = N.app V

/-- the equation of the magnetization of such a sample -/
noncomputable def bodyOf (gamma0 mu0 : ℝ) (m : Prm) (H0 : V3) (N : Mat) : Body :=
  ⟨gamma0, m.alpha, H0, N, 2 * m.K / (mu0 * m.Ms), m.uk⟩

/-- the velocity that balances a field, with a given damping coefficient -/
theorem balance (a : ℝ) {U : V3} (F : V3) (hU : U.dot U = 1) :
    ∃ v0 : V3, v0.dot U = 0 ∧ (∀ w : V3, w.dot U = 0 → a * v0.dot w + (U.cross v0).dot w = F.dot w) ∧
      v0 = -(U.cross F) + a * U.cross v0 := by
  have hden : 1 + a * a ≠ 0 := by nlinarith [mul_self_nonneg a]
  have hU' : U.x * U.x + U.y * U.y + U.z * U.z = 1 := hU
  refine ⟨(1 / (1 + a * a)) * (a * (F - (U.dot F) * U) - U.cross F), ?_, ?_, ?_⟩
  · v3_ring
    linear_combination (-(1 / (1 + a * a)) * a * (U.x * F.x + U.y * F.y + U.z * F.z)) * hU'
  · intro w hw
    have hw' : w.x * U.x + w.y * U.y + w.z * U.z = 0 := hw
    v3_ring
    field_simp
    linear_combination (F.x * w.x + F.y * w.y + F.z * w.z) * hU'
      - ((a ^ 2 + 1) * (U.x * F.x + U.y * F.y + U.z * F.z)) * hw'
  · ext <;> v3_ring <;> field_simp
    · linear_combination (-a * F.x) * hU'
    · linear_combination (-a * F.y) * hU'
    · linear_combination (-a * F.z) * hU'

section
variable {n : ℕ} {ET : Type} {P : Problem} {cfg : Cfg n ET} {nodes : Fin n → Node} {W : World n P} {m : Prm} {H : ℝ → V3} {N : Mat}

/-- all magnetic nodes have the magnetization `U` and the velocity `V`, and the potentials are those of a uniform magnetization -/
structure Same (P : Problem) (cfg : Cfg n ET) (nodes : Fin n → Node) (N : Mat) (nd : Fin n → Node) (U V : V3) : Prop where
  node : ∀ i, cfg.magNode i = true → (nd i).cur.u = U ∧ (nd i).cur.v = V
  demag : ∀ e ∈ magTet P.mag P.tets,
    interpField (fun k => (Run.ext nodes (e.ind k)).p) (fun k => (Run.ext nd (e.ind k)).cur.phi) = N.app U ∧
    interpField (fun k => (Run.ext nodes (e.ind k)).p) (fun k => (Run.ext nd (e.ind k)).cur.phiv) = N.app V

/-- one attempt from a uniform magnetization -/
theorem same_moves (hs : Start P cfg nodes) (hth : P.theta = 1 / 2) (hW : Sample P cfg nodes W m H N) {nd : Fin n → Node} {U V : V3}
    (hp : ∀ i, (nd i).p = (nodes i).p) (hu : Same P cfg nodes N nd U V) (hU : U.dot U = 1) (t Vd dt : ℝ) :
    ∃ v0, (bodyOf cfg.gamma0 P.mu0 m (H t) N).Step dt U V v0 ∧ Moves P cfg ⟨W.Hext t nd, W.Hst t nd, Vd⟩ nd dt fun _ => v0 := by
  set b := bodyOf cfg.gamma0 P.mu0 m (H t) N with hb
  have hmt := good_tetMag hs
  have hcur : ∀ e ∈ magTet P.mag P.tets, ∀ k, (Run.ext nd (e.ind k)).cur.u = U ∧ (Run.ext nd (e.ind k)).cur.v = V := by
    intro e he k
    have h1 := hmt e he k
    have hi := magNode_lt h1
    have := hu.node ⟨_, hi⟩ ((magNode_getD hs ⟨_, hi⟩).mp h1)
    rw [show Run.ext nd (e.ind k) = nd ⟨_, hi⟩ by simp [Run.ext, hi]]
    exact this
  have hpos : ∀ i, (Run.ext nd i).p = (Run.ext nodes i).p := by
    intro i
    unfold Run.ext
    split_ifs
    · exact hp _
    · rfl
  have hun : Uniform P.G P.prm P.sprm P.mag P.tets P.tris (Run.ext nd) (W.Hext t nd) m U V (H t) (N.app U) (N.app V) := by
    refine ⟨hW.mat, hW.cubic, fun e he k => (hcur e he k).1, fun e he k => (hcur e he k).2, fun e he j => hW.applied t nd e he j,
      fun e he => ?_, fun e he => ?_, hW.surface⟩
    · have := (hu.demag e he).1
      rw [← this]
      unfold nodalOf
      simp only [hpos]
    · have := (hu.demag e he).2
      rw [← this]
      unfold nodalOf
      simp only [hpos]
  have ef : fieldOf m (P.step cfg dt) U V (H t) (N.app U) (N.app V) = b.field U + (dt / 2) * b.lin V := by
    unfold fieldOf Problem.step Body.field Body.lin
    rw [hth, hb]
    simp only [bodyOf]
    generalize N.app U = a
    generalize N.app V = c
    ext <;> v3_ring <;> ring
  have ea : dampingOf m (P.step cfg dt) U (H t) (N.app U) = alphaEff b.gamma dt b.alpha (U.dot (b.field U)) := by
    unfold dampingOf Problem.step Body.field
    rw [hb]
    simp only [bodyOf]
    congr 1
    generalize N.app U = a
    v3_ring
    ring
  obtain ⟨v0, h1, h2, h3⟩ := balance (dampingOf m (P.step cfg dt) U (H t) (N.app U)) (fieldOf m (P.step cfg dt) U V (H t) (N.app U) (N.app V)) hU
  refine ⟨v0, ?_, fun i hi => ?_, ?_⟩
  · unfold Body.Step
    rw [← ef, ← ea]
    exact h3
  · rw [(hu.node i hi).1]
    exact h1
  · have e0 : W.Hst t nd = fun _ _ => 0 := funext fun e => funext fun j => hW.spin t nd e j
    have ho : ∀ e ∈ P.tets, 0 < detJ (MeshElem.nod4 (fun i => (Run.ext nd i).p) e) := by
      intro e he
      simp only [hpos]
      exact hs.oriented e he
    have := uniform_holds (nod := n) (s := P.step cfg dt) hs.valid ho (show (P.step cfg dt).gamma0 ≠ 0 from hs.gamma0.ne') P.H hun P.dir Vd v0 h2
    dsimp only
    rw [e0]
    exact this

/-- what holds after each transition of the run: the magnetization is uniform, and `Inv` holds for the time, the magnetization and
the velocity -/
structure Kept (P : Problem) (cfg : Cfg n ET) (nodes : Fin n → Node) (N : Mat) (t0 : ℝ) (Inv : ℝ → V3 → V3 → Prop) (s : St n ET) : Prop where
  state : ∃ U V, U.dot U = 1 ∧ Same P cfg nodes N s.nodes U V ∧ Inv s.t U V
  ge : t0 ≤ s.t
  next : (∀ i, (s.nodes i).next.u = (s.nodes i).cur.u) ∨ s.t < tTarget cfg t0 s.stepNb
  rows : ∀ r ∈ s.rows, ∃ U V, Inv r.t U V ∧ ∀ i, cfg.magNode i = true → (r.nodes i).next.u = U

theorem Kept.keep {t0 : ℝ} {Inv : ℝ → V3 → V3 → Prop} {s s' : St n ET} (h : Kept P cfg nodes N t0 Inv s)
    (hc : ∀ i, (s'.nodes i).cur = (s.nodes i).cur) (ht : s'.t = s.t)
    (hn : (∀ i, (s'.nodes i).next.u = (s'.nodes i).cur.u) ∨ s'.t < tTarget cfg t0 s'.stepNb)
    (hr : ∀ r ∈ s'.rows, ∃ U V, Inv r.t U V ∧ ∀ i, cfg.magNode i = true → (r.nodes i).next.u = U) :
    Kept P cfg nodes N t0 Inv s' := by
  obtain ⟨U, V, h1, h2, h3⟩ := h.state
  have hext : ∀ i, (Run.ext s'.nodes i).cur = (Run.ext s.nodes i).cur := by
    intro i
    unfold Run.ext
    split_ifs
    · exact hc _
    · rfl
  refine ⟨⟨U, V, h1, ⟨fun i hi => by rw [hc i]; exact h2.node i hi, fun e he => by simp only [hext]; exact h2.demag e he⟩, ?_⟩, ?_, hn, hr⟩
  · rw [ht]; exact h3
  · rw [ht]; exact h.ge

/-- the state after the potentials have been computed for a uniform magnetization -/
theorem same_computed (hs : Start P cfg nodes) (hW : Sample P cfg nodes W m H N) {nd : Fin n → Node} {U V : V3}
    (hp : ∀ i, (nd i).p = (nodes i).p) (hu : ∀ i, cfg.magNode i = true → (nd i).next.u = U ∧ (nd i).next.v = V) :
    Same P cfg nodes N (computeAllNodes cfg.magNode (W.pot nd) nd) U V := by
  have hcomp : ∀ i, cfg.magNode i = true → (computeAllNodes cfg.magNode (W.pot nd) nd i).cur =
      { (nd i).next with phi := (W.pot nd i).1, phiv := (W.pot nd i).2 } := by
    intro i hi
    unfold computeAllNodes setPot Node.evolution
    rw [if_pos hi]
  refine ⟨fun i hi => ?_, fun e he => ?_⟩
  · rw [hcomp i hi]
    exact hu i hi
  · have hd := hW.demag nd U V hp hu e he
    have hk : ∀ k, (Run.ext (computeAllNodes cfg.magNode (W.pot nd) nd) (e.ind k)).cur.phi = extS (fun i => (W.pot nd i).1) (e.ind k) ∧
        (Run.ext (computeAllNodes cfg.magNode (W.pot nd) nd) (e.ind k)).cur.phiv = extS (fun i => (W.pot nd i).2) (e.ind k) := by
      intro k
      have h1 := good_tetMag hs e he k
      have hi := magNode_lt h1
      have h2 := (magNode_getD hs ⟨_, hi⟩).mp h1
      have e1 : Run.ext (computeAllNodes cfg.magNode (W.pot nd) nd) (e.ind k) = computeAllNodes cfg.magNode (W.pot nd) nd ⟨_, hi⟩ := by
        simp [Run.ext, hi]
      rw [e1, hcomp _ h2]
      simp [extS, hi]
    simp only [hk]
    exact hd

/-- the induction over the run -/
theorem kept_run (hs : Start P cfg nodes) (hth : P.theta = 1 / 2) (hW : Sample P cfg nodes W m H N) (hv : Valid cfg)
    (hR : NoRecenter cfg) (hadd : ∀ t dt, cfg.add t dt = t + dt) {t0 : ℝ} {Vd : ℕ → ℝ} {inp : ℕ → Input n}
    (hex : ExactRun P cfg W Vd t0 nodes inp) {U0 : V3} (hU0 : U0.dot U0 = 1)
    (h0 : ∀ i, cfg.magNode i = true → (nodes i).next.u = U0 ∧ (nodes i).next.v = 0) {Inv : ℝ → V3 → V3 → Prop} (hI0 : Inv t0 U0 0)
    (hstep : ∀ t dt U V v, t0 ≤ t → cfg.DTMIN ≤ dt → dt ≤ 2 * cfg.DTMAX → U.dot U = 1 → Inv t U V →
        (bodyOf cfg.gamma0 P.mu0 m (H t) N).Step dt U V v → Inv (t + dt) (U + (dt * cfg.gamma0) * v).normalize (cfg.gamma0 * v)) (k : ℕ) :
    Kept P cfg nodes N t0 Inv (run cfg t0 nodes (W.pot nodes) inp k) := by
  classical
  have hU : RecenterKeepsUnit cfg := fun nd nd' h => by rw [hR] at h; cases h; exact id
  have hN : RecenterKeepsNext cfg := fun nd nd' h => by rw [hR] at h; cases h; exact fun i => ⟨rfl, rfl, rfl⟩
  have hDp : 0 < cfg.DTMAX := hv.dtmin.trans_le hv.dtmax
  induction k with
  | zero =>
    refine ⟨⟨U0, 0, hU0, same_computed hs hW (fun _ => rfl) h0, hI0⟩, le_rfl, Or.inl fun i => ?_, fun r hr => ?_⟩
    · exact (congrArg DataNode.u (computeAll_next_u cfg.magNode _ nodes i).2.2.2.1).symm
    · exact absurd hr (List.not_mem_nil)
  | succ k ih =>
    have hC02 := C02_dt_limits cfg hv t0 nodes (W.pot nodes) inp k
    have hpos := run_pos (nodes := nodes) hN t0 (W.pot nodes) inp k
    have hvel := fun (F : Fields P) X M b hdt hsys hM => exact_velocity hs hv hU hN t0 (W.pot nodes) inp k F (inp k).r
      (attDt cfg t0 (run cfg t0 nodes (W.pot nodes) inp k)) hdt X M b hsys hM
    have hsol := fun X dt i hi => solved_eq (cfg := cfg) (nodes := nodes) t0 (W.pot nodes) inp k i X dt hi
    have hx := hex.exact k
    have hp := hex.pot k
    change Kept _ _ _ _ _ _ (TimeLoop.step cfg t0 (inp k) (run cfg t0 nodes (W.pot nodes) inp k))
    rw [show run cfg t0 nodes (W.pot nodes) inp (k + 1) =
      TimeLoop.step cfg t0 (inp k) (run cfg t0 nodes (W.pot nodes) inp k) from rfl] at hC02
    generalize run cfg t0 nodes (W.pot nodes) inp k = s at *
    cases step_kind cfg t0 (inp k) s with
    | halted _ e => rw [e]; exact ih
    | output _ ht e =>
      have hnx := ih.next.resolve_right ht
      have e1 : (TimeLoop.step cfg t0 (inp k) s).nodes = s.nodes ∧ (TimeLoop.step cfg t0 (inp k) s).t = s.t ∧
          (TimeLoop.step cfg t0 (inp k) s).rows = s.rows ++ [{ nt := s.rows.length, t := s.t, dt := s.dt, E := s.E, nodes := s.nodes }] := by
        rw [e]
        unfold forBody saver
        dsimp only
        split_ifs <;> exact ⟨rfl, rfl, rfl⟩
      refine ih.keep (fun i => by rw [e1.1]) e1.2.1 (Or.inl fun i => by rw [e1.1]; exact hnx i) fun r hr => ?_
      rw [e1.2.2, List.mem_append, List.mem_singleton] at hr
      rcases hr with hr | rfl
      · exact ih.rows r hr
      · obtain ⟨U, V, -, h2, h3⟩ := ih.state
        exact ⟨U, V, h3, fun i hi => (hnx i).trans (h2.node i hi).1⟩
    | signal _ ht _ e => rw [e]; exact ih.keep (fun _ => rfl) rfl (Or.inr ht) ih.rows
    | small _ ht _ _ e => rw [e]; exact ih.keep (fun _ => rfl) rfl (Or.inr ht) ih.rows
    | fail _ ht _ _ _ e => rw [e]; exact ih.keep (fun _ => rfl) rfl (Or.inr ht) ih.rows
    | reject _ ht _ _ X _ _ e =>
      rw [e]
      refine ih.keep (fun i => ?_) rfl (Or.inr ht) ih.rows
      dsimp only
      unfold solvedNodes updateNodes
      split_ifs <;> rfl
    | exitRec _ _ _ _ X _ _ hrec e => rw [hR] at hrec; cases hrec
    | accept hc ht hi hdn X hX hr nd hrec e =>
      rw [hR] at hrec
      cases hrec
      obtain ⟨d1, d2, d3, d4, d5, -⟩ := hC02 (by rw [e]; rfl)
      have edt : (TimeLoop.step cfg t0 (inp k) s).dt = attDt cfg t0 s := by rw [e]; rfl
      rw [edt] at d1 d2 d4
      have et : (TimeLoop.step cfg t0 (inp k) s).t = s.t + attDt cfg t0 s := by
        rcases d4 with h | h
        · rw [h, hadd]
        · exact h.2
      have hdt : 0 < attDt cfg t0 s := hv.dtmin.trans_le d1
      have hdt2 : attDt cfg t0 s ≤ 2 * cfg.DTMAX := d2.trans (by nlinarith)
      obtain ⟨Mx, bx, hsys, hMx⟩ := hx X ⟨hc, ht, hi⟩ (not_lt.mp hdn) hX
      have huniq := (hvel _ X Mx bx hdt hsys hMx).2
      have hpot := hp X ⟨hc, ht, hi⟩ hX
      obtain ⟨U, V, hUU, hsame, hcl⟩ := ih.state
      obtain ⟨v0, hst, hmv⟩ := same_moves hs hth hW hpos hsame hUU s.t (Vd k) (attDt cfg t0 s)
      have hv0 := huniq _ hmv
      have enod : (TimeLoop.step cfg t0 (inp k) s).nodes = computeAllNodes cfg.magNode
          (W.pot (solvedNodes cfg (inp k) X (attDt cfg t0 s) s)) (solvedNodes cfg (inp k) X (attDt cfg t0 s) s) := by
        rw [e, ← hpot]
        rfl
      have hnew : ∀ i, cfg.magNode i = true → (solvedNodes cfg (inp k) X (attDt cfg t0 s) s i).next.u =
          (U + (attDt cfg t0 s * cfg.gamma0) * v0).normalize ∧
          (solvedNodes cfg (inp k) X (attDt cfg t0 s) s i).next.v = cfg.gamma0 * v0 := by
        intro i hi'
        obtain ⟨s1, s2⟩ := hsol X (attDt cfg t0 s) i hi'
        have e2 := hv0 i hi'
        rw [← e2] at s1 s2
        rw [(hsame.node i hi').1] at s2
        exact ⟨s2, s1⟩
      have hunit : ((U + (attDt cfg t0 s * cfg.gamma0) * v0).normalize).dot ((U + (attDt cfg t0 s * cfg.gamma0) * v0).normalize) = 1 := by
        have ht1 := step_tang hst
        have hn : 0 < (U + (attDt cfg t0 s * cfg.gamma0) * v0).nsq := by
          have hu1' : U.x * U.x + U.y * U.y + U.z * U.z = 1 := hUU
          have hx' : U.x * v0.x + U.y * v0.y + U.z * v0.z = 0 := ht1
          have : (U + (attDt cfg t0 s * cfg.gamma0) * v0).nsq = 1 + (attDt cfg t0 s * cfg.gamma0) ^ 2 * (v0.x ^ 2 + v0.y ^ 2 + v0.z ^ 2) := by
            simp only [V3.nsq, V3.add_x, V3.add_y, V3.add_z, V3.smul_x, V3.smul_y, V3.smul_z]
            linear_combination hu1' + 2 * (attDt cfg t0 s * cfg.gamma0) * hx'
          rw [this]
          positivity
        exact V3.nsq_normalize hn
      have hpos' : ∀ i, (solvedNodes cfg (inp k) X (attDt cfg t0 s) s i).p = (nodes i).p := by
        intro i
        rw [← hpos i]
        unfold solvedNodes updateNodes
        split_ifs <;> rfl
      refine ⟨⟨_, cfg.gamma0 * v0, hunit, ?_, ?_⟩, ?_, Or.inl fun i => ?_, ?_⟩
      · rw [enod]
        exact same_computed hs hW hpos' hnew
      · rw [et]
        exact hstep s.t (attDt cfg t0 s) U V v0 ih.ge d1 hdt2 hUU hcl hst
      · rw [et]; linarith [ih.ge]
      · rw [enod]
        exact (congrArg DataNode.u (computeAll_next_u cfg.magNode _ _ i).2.2.2.1).symm
      · have : (TimeLoop.step cfg t0 (inp k) s).rows = s.rows := by rw [e]; rfl
        rw [this]
        exact ih.rows

end

theorem norm_le_two {a c : V3} {K : ℝ} (h : ‖co a - co c‖ ≤ K) : (a - c).norm ≤ 2 * K := by
  rw [← co_sub] at h
  exact norm_le_co h

/-- **C85** For given constants of the material, a constant applied field and a time interval there are a constant `C` and a bound for
`max(dt)` such that, on every mesh, every run from a uniform magnetization stays within `C max(dt)²` of the solution of the equation of
Landau, Lifshitz and Gilbert, at every accepted step and in every row of the output. -/
theorem C85_second_order_partial (gamma0 mu0 : ℝ) (m : Prm) (H0 : V3) (N : Mat) (hg : 0 < gamma0) (ha : 0 < m.alpha) (t0 T : ℝ) :
    ∃ C δ, 0 < C ∧ 0 < δ ∧ ∀ (n : ℕ) (ET : Type) (P : Problem) (cfg : Cfg n ET) (nodes : Fin n → Node) (W : World n P) (Vd : ℕ → ℝ)
      (inp : ℕ → Input n) (y : ℝ → V3),
      Start P cfg nodes → P.mu0 = mu0 → cfg.gamma0 = gamma0 → P.theta = 1 / 2 → Sample P cfg nodes W m (fun _ => H0) N →
      Valid cfg → NoRecenter cfg → (∀ t dt, cfg.add t dt = t + dt) → cfg.DTMAX ≤ δ → ExactRun P cfg W Vd t0 nodes inp →
      (bodyOf gamma0 mu0 m H0 N).Motion t0 T y → (y t0).dot (y t0) = 1 →
      (∀ i, cfg.magNode i = true → (nodes i).next.u = y t0 ∧ (nodes i).next.v = 0) →
      ∀ k, let s := run cfg t0 nodes (W.pot nodes) inp k
        (s.t ≤ T → ∀ i, cfg.magNode i = true → ((s.nodes i).cur.u - y s.t).norm ≤ C * cfg.DTMAX ^ 2) ∧
        ∀ r ∈ s.rows, r.t ≤ T → ∀ i, cfg.magNode i = true → ((r.nodes i).next.u - y r.t).norm ≤ C * cfg.DTMAX ^ 2 := by
  obtain ⟨C, L, A, D, δ, hC, hL, hA, hAD, hδ, h⟩ := close_step (bodyOf gamma0 mu0 m H0 N) hg ha t0 T
  refine ⟨8 * (D * Real.exp (L * (T - t0))), δ / 2, by have := hA.trans hAD; positivity, by positivity, ?_⟩
  intro n ET P cfg nodes W Vd inp y hs hmu hga hth hW hv hR hadd hdt hex hy hy0 h0 k s
  subst hmu hga
  have hDp : 0 < cfg.DTMAX := hv.dtmin.trans_le hv.dtmax
  have near := kept_run hs hth hW hv hR hadd hex hy0 h0 (Inv := fun t U V => t ≤ T → (t = t0 ∧ U = y t0 ∧ V = 0) ∨
      Close (bodyOf cfg.gamma0 P.mu0 m H0 N) C L A D (2 * cfg.DTMAX) t0 y t U V) (fun _ => Or.inl ⟨rfl, rfl, rfl⟩)
    (fun t dt U V v ht h1 h2 hUU hI hst hT => Or.inr (h y hy hy0 _ t dt U V v (by linarith) ⟨ht, by linarith [hv.dtmin]⟩
      ⟨by linarith [hv.dtmin], hT⟩ (hv.dtmin.trans_le h1) h2 hUU (hI (by linarith [hv.dtmin])) hst).2) k
  have hE : ∀ t, t ≤ T → 2 * ((2 * cfg.DTMAX) ^ 2 * (D * Real.exp (L * (t - t0)) - A)) ≤
      8 * (D * Real.exp (L * (T - t0))) * cfg.DTMAX ^ 2 := by
    intro t ht
    have e2 : Real.exp (L * (t - t0)) ≤ Real.exp (L * (T - t0)) := Real.exp_le_exp.mpr (mul_le_mul_of_nonneg_left (by linarith) hL.le)
    have e3 : D * Real.exp (L * (t - t0)) - A ≤ D * Real.exp (L * (T - t0)) := by
      have := mul_le_mul_of_nonneg_left e2 (hA.trans hAD).le
      linarith
    have e4 := mul_le_mul_of_nonneg_left e3 (sq_nonneg cfg.DTMAX)
    nlinarith
  have hB : ∀ t U V, t ≤ T → ((t = t0 ∧ U = y t0 ∧ V = 0) ∨ Close (bodyOf cfg.gamma0 P.mu0 m H0 N) C L A D (2 * cfg.DTMAX) t0 y t U V) →
      (U - y t).norm ≤ 8 * (D * Real.exp (L * (T - t0))) * cfg.DTMAX ^ 2 := by
    rintro t U V hT (⟨rfl, rfl, -⟩ | hcl)
    · have e4 : (y t - y t).norm = 0 := by simp [V3.norm, V3.nsq]
      rw [e4]
      have := hA.trans hAD
      positivity
    · exact (norm_le_two hcl.2).trans (hE _ hT)
  constructor
  · intro hT i hi
    obtain ⟨U, V, -, h2, h3⟩ := near.state
    rw [show (s.nodes i).cur.u = U from (h2.node i hi).1]
    exact hB _ _ _ hT (h3 hT)
  · intro r hr hT i hi
    obtain ⟨U, V, h2, h3⟩ := near.rows r hr
    rw [h3 i hi]
    exact hB _ _ _ hT (h2 hT)

/-- **C85** The equation has exactly one motion from each direction of the magnetization, in any applied field that depends smoothly on
the time, and it keeps the length of the magnetization. -/
theorem C85_motion (b : Body) {h : ℝ → V3} (hh : SmoothV h) {t0 T : ℝ} (hT : t0 ≤ T) {u : V3} (hu : u.dot u = 1) :
    ∃ y, b.Driven h t0 T y ∧ y t0 = u ∧ (∀ t ∈ Icc t0 T, (y t).dot (y t) = 1) ∧
      ∀ y', b.Driven h t0 T y' → y' t0 = u → ∀ t ∈ Icc t0 T, y' t = y t :=
  exists_driven b hh hT hu

/-! ## Cases that meet the hypotheses -/

/-- the two tetrahedrons of `Run.exP`, made of one material -/
noncomputable def soP (H : TriElem.Rule) (m : Prm) : Problem := { exP H with prm := fun _ => m }

/-- a uniform applied field, and the potential of a uniform demagnetizing field -/
noncomputable def soMedia (H : TriElem.Rule) (m : Prm) (h : ℝ → V3) (N : Mat) : Media 5 (soP H m) where
  Hext t _ _ _ := h t
  Hst _ _ _ _ := 0
  phi u i := (-N.app (u 0)).dot (MeshElem.exP2 i)
  phiv _ v i := (-N.app (v 0)).dot (MeshElem.exP2 i)

noncomputable def soNd (U : V3) : Fin 5 → Node := fun i => ⟨MeshElem.exP2 i, 0, 0, ⟨0, 0, 0, 0⟩, ⟨U, 0, 0, 0⟩⟩

/-- settings with given output times, largest time step and largest change of the magnetization -/
noncomputable def soCfg (p d D : ℝ) : Cfg 5 ℝ := { exCfg D with DTMIN := d / 10, DTMAX := d, timeStep := p, tf := p }

theorem so_smooth (H : TriElem.Rule) (m : Prm) {h : ℝ → V3} (hh : SmoothV h) (N : Mat) : (soMedia H m h N).Smooth := by
  have key : ∀ {Z : Type} [NormedAddCommGroup Z] [NormedSpace ℝ Z] {f : Z → Fin 5 → Fin 3 → ℝ} (_ : ContDiff ℝ 1 f) (a : V3),
      ContDiff ℝ 1 fun z => (-N.app (tab (f z) 0)).dot a := by
    intro Z _ _ f hf a
    have h0 : SmoothV fun z => tab (f z) 0 :=
      ⟨contDiff_pi.mp (contDiff_pi.mp hf 0) 0, contDiff_pi.mp (contDiff_pi.mp hf 0) 1, contDiff_pi.mp (contDiff_pi.mp hf 0) 2⟩
    have h1 : SmoothV fun z => N.app (tab (f z) 0) := ⟨(SmoothV.const _).dot h0, (SmoothV.const _).dot h0, (SmoothV.const _).dot h0⟩
    exact h1.neg.dot (SmoothV.const a)
  exact ⟨fun _ _ => ⟨hh.x.comp contDiff_fst, hh.y.comp contDiff_fst, hh.z.comp contDiff_fst⟩, fun _ _ => SmoothV.const 0,
    fun i => key contDiff_id _, fun i => key contDiff_snd _⟩

theorem so_start (H : TriElem.Rule) {m : Prm} (ha : 0 < m.alpha) (hA : 0 ≤ m.A) (hM : 0 < m.Ms) (p d D : ℝ) {U : V3} (hU : U.dot U = 1) :
    Start (soP H m) (soCfg p d D) (soNd U) :=
  { ex_start H D with
    oriented := by
      intro t ht
      have e : (fun i => (Run.ext (soNd U) i).p) = fun i => (Run.ext exNd i).p := by
        funext i
        unfold Run.ext
        split_ifs <;> rfl
      rw [e]
      exact (ex_start H D).oriented t ht
    unit := fun i _ => (isUnit3_iff _).mpr hU
    alpha := fun _ _ => ha
    exchange := fun _ _ => hA
    magnetic := fun _ _ => hM }

theorem so_sample (H : TriElem.Rule) {m : Prm} (ha : 0 < m.alpha) (hA : 0 ≤ m.A) (hM : 0 < m.Ms) (h3 : m.K3 = 0) (h : ℝ → V3) (N : Mat)
    (p d D : ℝ) {U : V3} (hU : U.dot U = 1) :
    Sample (soP H m) (soCfg p d D) (soNd U) ((soMedia H m h N).world (soCfg p d D).magNode) m h N where
  mat _ _ := rfl
  cubic := h3
  surface f hf := by simp [soP, Run.exP] at hf
  applied _ _ _ _ _ := rfl
  spin _ _ _ _ := rfl
  demag nd U' V' _ hn e he := by
    have hs := so_start H ha hA hM p d D hU
    have he' : e ∈ (soP H m).tets := he
    have hdet := (hs.oriented e he').ne'
    have hval : ∀ k, e.ind k < 5 := hs.valid e he'
    have key : ∀ g : V3, interpField (fun k => (Run.ext (soNd U) (e.ind k)).p)
        (fun k => extS (fun i : Fin 5 => (-g).dot (MeshElem.exP2 i)) (e.ind k)) = g := by
      intro g
      have h1 := (C35_affine (soP H m).G _ hdet 0 (-g)).2.2
      rw [neg_neg] at h1
      refine Eq.trans ?_ h1
      congr 1
      funext k
      rw [zero_add]
      have := hval k
      simp [extS, Run.ext, this, soNd, MeshElem.nod4]
    have e0 : masked (soCfg p d D).magNode (fun i => (nd i).next.u) 0 = U' := (if_pos rfl).trans (hn 0 rfl).1
    have e1 : masked (soCfg p d D).magNode (fun i => (nd i).next.v) 0 = V' := (if_pos rfl).trans (hn 0 rfl).2
    constructor
    · refine Eq.trans ?_ (key (N.app U'))
      rw [← e0]
      rfl
    · refine Eq.trans ?_ (key (N.app V'))
      rw [← e1]
      rfl

theorem so_valid {p d D : ℝ} (hp : 0 < p) (hd : 0 < d) (hD : 0 ≤ D) : Valid (soCfg p d D) :=
  ⟨by change 0 < d / 10; positivity, by change d / 10 ≤ d; linarith, hp, hD, fun t dt => by
    have : (0 : ℝ) ≤ d / 10 / 2 := by positivity
    simpa [soCfg, Run.exCfg] using this⟩

/-- For every largest step `d` the hypotheses hold for a sample with an easy axis along y and demagnetizing factors 1/3, in a field along
z, magnetized along x; there is a run of it and there is a motion. -/
example (H : TriElem.Rule) (d : ℝ) (hd : 0 < d) :
    let m : Prm := ⟨1 / 2, 1, 4, 3, ⟨0, 1, 0⟩, 0, 0, 0, 0⟩
    let N : Mat := ⟨⟨-1 / 3, 0, 0⟩, ⟨0, -1 / 3, 0⟩, ⟨0, 0, -1 / 3⟩⟩
    let W := (soMedia H m (fun _ => ⟨0, 0, 1⟩) N).world (soCfg 1 d 1).magNode
    Start (soP H m) (soCfg 1 d 1) (soNd ⟨1, 0, 0⟩) ∧ (soP H m).theta = 1 / 2 ∧
    Sample (soP H m) (soCfg 1 d 1) (soNd ⟨1, 0, 0⟩) W m (fun _ => ⟨0, 0, 1⟩) N ∧ Valid (soCfg 1 d 1) ∧ NoRecenter (soCfg 1 d 1) ∧
    (∀ t dt, (soCfg 1 d 1).add t dt = t + dt) ∧ (∃ inp, ExactRun (soP H m) (soCfg 1 d 1) W (fun _ => 0) 0 (soNd ⟨1, 0, 0⟩) inp) ∧
    ∃ y, (bodyOf 1 1 m ⟨0, 0, 1⟩ N).Motion 0 1 y ∧ y 0 = ⟨1, 0, 0⟩ ∧
      ∀ i, (soNd ⟨1, 0, 0⟩ i).next.u = y 0 ∧ (soNd ⟨1, 0, 0⟩ i).next.v = 0 := by
  intro m N W
  have hU : (⟨1, 0, 0⟩ : V3).dot ⟨1, 0, 0⟩ = 1 := by norm_num [V3.dot]
  have hs := so_start H (m := m) (by norm_num [m]) (by norm_num [m]) (by norm_num [m]) 1 d 1 hU
  have hv := so_valid (p := 1) (D := 1) one_pos hd one_pos.le
  obtain ⟨inp, h1, -⟩ := exists_exactRun hs hv (ex_keeps 1).1 (ex_keeps 1).2 W (fun _ => 0) 0 (fun _ => 0)
  obtain ⟨y, h2, h3, -⟩ := C85_motion (bodyOf 1 1 m ⟨0, 0, 1⟩ N) (SmoothV.const ⟨0, 0, 1⟩) (show (0 : ℝ) ≤ 1 by norm_num) hU
  exact ⟨hs, rfl, so_sample H (by norm_num [m]) (by norm_num [m]) (by norm_num [m]) rfl _ N 1 d 1 hU, hv, fun _ => rfl, fun _ _ => rfl,
    ⟨inp, h1⟩, y, h2, h3, fun i => ⟨h3.symm, rfl⟩⟩

/-! ## A field that depends on the time -/

theorem norm_ge_z (a b : V3) : b.z - a.z ≤ (a - b).norm := by
  have h : |(a - b).z| ≤ Real.sqrt (a - b).nsq := Real.abs_le_sqrt (by
    simp only [V3.nsq]
    nlinarith [mul_self_nonneg (a - b).x, mul_self_nonneg (a - b).y])
  have h2 := neg_abs_le (a - b).z
  rw [V3.sub_z] at h h2
  have h3 : (a - b).norm = Real.sqrt (a - b).nsq := rfl
  rw [h3]
  linarith

/-- **C85** The order two is lost when the applied field depends on the time: the program takes the field at the start of each step. In
the field `t` along z, all the settings being as in `C85_second_order_partial`, the error at the time 1/4 is at least `max(dt) / 1000`, so that
no bound `C max(dt)²` holds. -/
theorem C85_negation (H : TriElem.Rule) : ∃ m : Prm, ∃ N : Mat, ∃ δ, 0 < δ ∧ ∀ d, 0 < d → d ≤ δ →
    ∃ (cfg : Cfg 5 ℝ) (P : Problem) (nodes : Fin 5 → Node) (W : World 5 P) (inp : ℕ → Input 5),
      Start P cfg nodes ∧ P.mu0 = 1 ∧ cfg.gamma0 = 1 ∧ P.theta = 1 / 2 ∧ Sample P cfg nodes W m (fun t => ⟨0, 0, t⟩) N ∧
      Valid cfg ∧ NoRecenter cfg ∧ (∀ t dt, cfg.add t dt = t + dt) ∧ cfg.DTMAX = d ∧ ExactRun P cfg W (fun _ => 0) 0 nodes inp ∧
      (∀ i, (nodes i).next.u = ⟨1, 0, 0⟩ ∧ (nodes i).next.v = 0) ∧
      ∀ y, (bodyOf 1 1 m 0 N).Driven (fun t => ⟨0, 0, t⟩) 0 (1 / 4) y → y 0 = ⟨1, 0, 0⟩ →
        ∃ k, ∃ r ∈ (run cfg 0 nodes (W.pot nodes) inp k).rows, r.t = 1 / 4 ∧
          ∀ i, cfg.magNode i = true → d / 1000 ≤ ((r.nodes i).next.u - y r.t).norm := by
  obtain ⟨m, hm⟩ : ∃ m : Prm, m = ⟨1, 1, 1, 0, 0, 0, 0, 0, 0⟩ := ⟨_, rfl⟩
  obtain ⟨N, hN⟩ : ∃ N : Mat, N = ⟨0, 0, 0⟩ := ⟨_, rfl⟩
  have hh : SmoothV fun t : ℝ => (⟨0, 0, t⟩ : V3) := ⟨contDiff_const, contDiff_const, contDiff_id⟩
  have hU : (⟨1, 0, 0⟩ : V3).dot ⟨1, 0, 0⟩ = 1 := by norm_num [V3.dot]
  have ha : 0 < m.alpha := by rw [hm]; exact one_pos
  have hA : 0 ≤ m.A := by rw [hm]; exact zero_le_one
  have hM : 0 < m.Ms := by rw [hm]; exact one_pos
  have hs0 := so_start H ha hA hM (1 / 4) 1 1 hU
  obtain ⟨C, δ, Vm, -, hδ, hVm, hcomp⟩ := C81_completes hs0 rfl (so_smooth H m hh N) 0 (1 / 4)
  obtain ⟨y1, hy1, hy10, -⟩ := C81_motion hs0 (so_smooth H m hh N) (show (0 : ℝ) ≤ 1 / 4 by norm_num) (fun i => (soNd ⟨1, 0, 0⟩ i).next.u) hs0.unit
  refine ⟨m, N, min δ (1 / 100), by positivity, fun d hd hdδ => ?_⟩
  have hd1 : d ≤ δ := hdδ.trans (min_le_left _ _)
  have hd2 : d ≤ 1 / 100 := hdδ.trans (min_le_right _ _)
  have hs := so_start H ha hA hM (1 / 4) d Vm hU
  have hv := so_valid (p := 1 / 4) (D := Vm) (by norm_num) hd hVm.le
  have hk := ex_keeps Vm
  have hW := so_sample H ha hA hM (by rw [hm]) (fun t => ⟨0, 0, t⟩) N (1 / 4) d Vm hU
  obtain ⟨inp, h1, h2⟩ := exists_exactRun hs hv hk.1 hk.2 ((soMedia H m (fun t => ⟨0, 0, t⟩) N).world (soCfg (1 / 4) d Vm).magNode)
    (fun _ => 0) 0 (fun _ => 0)
  refine ⟨soCfg (1 / 4) d Vm, soP H m, soNd ⟨1, 0, 0⟩, _, inp, hs, rfl, rfl, rfl, hW, hv, fun _ => rfl, fun _ _ => rfl, rfl, h1,
    fun i => ⟨rfl, rfl⟩, fun y hy hy0 => ?_⟩
  have hr : cRound (((soCfg (1 / 4) d Vm).tf - 0) / (soCfg (1 / 4) d Vm).timeStep) = 1 := by
    have : (((soCfg (1 / 4) d Vm).tf - 0) / (soCfg (1 / 4) d Vm).timeStep) = 1 := by norm_num [soCfg]
    unfold cRound
    rw [this, if_pos (by norm_num)]
    norm_num [Int.floor_eq_iff]
  obtain ⟨M, hMk⟩ := hcomp (soCfg (1 / 4) d Vm) (soNd ⟨1, 0, 0⟩) inp (fun _ => 0) y1 rfl rfl (fun _ => rfl)
    (fun i hi => ⟨hs0.unit i hi, rfl⟩) hv (fun _ => rfl) (fun _ _ => rfl) hd1 h1 hy1 hy10
    (by change 9 * (d / 10) ≤ d; linarith) (by change d / 10 ≤ 1 / 4; linarith)
    (by change 3 * (d / 10) * Vm ≤ 0.95 * Vm; nlinarith) (by rw [hr]; norm_num [soCfg]) (fun k => ⟨(h2 k).1, (h2 k).2.2⟩)
  obtain ⟨-, hrows, -⟩ := hMk M le_rfl
  rw [hr] at hrows
  have hmem : (1 / 4 : ℝ) ∈ (run (soCfg (1 / 4) d Vm) 0 (soNd ⟨1, 0, 0⟩)
      (((soMedia H m (fun t => ⟨0, 0, t⟩) N).world (soCfg (1 / 4) d Vm).magNode).pot (soNd ⟨1, 0, 0⟩)) inp M).rows.map (·.t) := by
    rw [hrows]
    unfold gridTimes
    refine List.mem_map.mpr ⟨1, by simp, ?_⟩
    norm_num [soCfg]
  obtain ⟨r, hr1, hr2⟩ := List.mem_map.mp hmem
  have hbare : (bodyOf 1 1 m 0 N).Bare := by
    rw [hm, hN]
    exact ⟨rfl, rfl, rfl, by norm_num [bodyOf]⟩
  have hkept := kept_run hs rfl hW hv (fun _ => rfl) (fun _ _ => rfl) h1 hU (fun i _ => ⟨rfl, rfl⟩)
    (Inv := fun t U _ => t ≤ 1 / 2 → Lags d t U.z) (fun _ => ⟨le_rfl, by norm_num [Z_zero], Or.inl rfl⟩)
    (fun t dt U V v ht hdt1 hdt2 hUU hI hst ht2 => by
      have hdt1' : d / 10 ≤ dt := hdt1
      have hdt2' : dt ≤ 2 * d := hdt2
      have hdt : 0 < dt := by linarith
      have hUU' : U.x * U.x + U.y * U.y + U.z * U.z = 1 := hUU
      have hL := hI (by linarith)
      obtain ⟨s1, s2⟩ := ramp_step hbare ht hdt hUU hL.1 hst
      exact lags_step hd (by linarith) ht (by linarith) hdt1' hdt2'
        (by nlinarith [mul_self_nonneg U.x, mul_self_nonneg U.y]) hL s1 s2) M
  obtain ⟨U, V, hI, hnod⟩ := hkept.rows r hr1
  refine ⟨M, r, hr1, hr2, fun i hi => ?_⟩
  rw [hnod i hi]
  have e1 := lags_error hd hd2 (by
    have := hI (by rw [hr2]; norm_num)
    rwa [hr2] at this)
  have e2 := ramp_motion hbare hy hy0 (1 / 4) ⟨by norm_num, le_rfl⟩
  rw [hr2]
  refine le_trans ?_ (norm_ge_z _ _)
  rw [e2]
  exact e1

end Verif.SecondOrder
