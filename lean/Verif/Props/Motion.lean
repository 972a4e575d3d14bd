import Verif.Proofs.Motion
import Verif.Props.Reproducible
import Verif.Model.MeshElem

/-!
# C79: a sample moved as a whole
-/

namespace Verif.Run

open Verif.Mesh Verif.Assembly Verif.Tetra Verif.SparseMat Verif.Llg Verif.WeakForm Verif.TimeLoop

/-- the same problem with the axes of the materials turned -/
def Problem.moved (M : Motion) (P : Problem) : Problem :=
  { P with prm := fun r => M.prm (P.prm r), sprm := fun r => M.sprm (P.sprm r) }

/-- the fields turned; the speed of the frame is not used without recentering -/
def Fields.moved (M : Motion) {P : Problem} (F : Fields P) (V : ℝ) : Fields (P.moved M) :=
  ⟨fun t j => M.vec (F.Hext t j), fun t j => M.vec (F.Hst t j), V⟩

/-- the world `W'` is the world `W` moved: for the moved sample the fields are turned and the potentials are the same -/
structure World.Moved {n : ℕ} {P : Problem} (M : Motion) (W : World n P) (W' : World n (P.moved M)) : Prop where
  Hext : ∀ a b t, TimeLoop.Moved M a b → ∀ e j, W'.Hext t b e j = M.vec (W.Hext t a e j)
  Hst : ∀ a b t, TimeLoop.Moved M a b → ∀ e j, W'.Hst t b e j = M.vec (W.Hst t a e j)
  pot : ∀ a b, TimeLoop.Moved M a b → W'.pot b = W.pot a

/-- the weak form of the moved problem -/
theorem holds_move (M : Motion) {G : Rule} (H : TriElem.Rule) {prm : ℕ → Prm} {sprm : ℕ → SurfPrm} {s : Step}
    {magN : ℕ → Prop} {tets : List Tet} {tris : List (Tri × ℝ)} {nodes nodes' : ℕ → Node} {Hext Hst : Tet → Fin G.n → V3}
    {V : ℝ} (V' : ℝ) {v : ℕ → V3}
    (hm : ∀ i, magN i → (nodes' i).cur.u = M.vec (nodes i).cur.u)
    (ht : ∀ t ∈ tets, ∀ k, (nodes' (t.ind k)).p = M.pt (nodes (t.ind k)).p ∧
      (nodes' (t.ind k)).cur = M.data (nodes (t.ind k)).cur)
    (hf : ∀ f ∈ tris, ∀ k, (nodes' (f.1.ind k)).p = M.pt (nodes (f.1.ind k)).p ∧
      (nodes' (f.1.ind k)).cur = M.data (nodes (f.1.ind k)).cur)
    (hc : ∀ t ∈ tets, (prm t.reg).K3 = 0 ∨ ∀ k, (nodes (t.ind k)).cur.v = 0)
    (h : Holds G H prm sprm s magN tets tris nodes Hext Hst none V v) :
    Holds G H (fun r => M.prm (prm r)) (fun r => M.sprm (sprm r)) s magN tets tris nodes' (fun t j => M.vec (Hext t j))
      (fun t j => M.vec (Hst t j)) none V' fun i => M.vec (v i) := by
  intro w hw
  have h' := h (fun i => M.back (w i)) (by
    intro i hi
    have := hw i hi
    rw [hm i hi, ← M.vec_back (w i), M.vec_dot] at this
    exact this)
  refine Eq.trans (congrArg List.sum (List.map_congr_left ?_)) (h'.trans (congrArg List.sum (List.map_congr_left ?_)))
  · intro t htt
    have en : nodalOf nodes' t = M.nodal (nodalOf nodes t) (fun i => (nodes' (t.ind i)).ep) (fun i => (nodes' (t.ind i)).eq) := by
      unfold nodalOf Motion.nodal
      simp only [ht t htt, Motion.data]
    rw [en, ← M.residual_move G (prm t.reg) s (nodalOf nodes t) (fun i => (nodes' (t.ind i)).ep)
      (fun i => (nodes' (t.ind i)).eq) (Hext t) (Hst t) V V' (hc t htt)]
    simp only [M.vec_back]
  · intro f hff
    simp only
    rw [← M.surfaceWork_move]
    simp only [M.vec_back, hf f hff, Motion.data]

section
variable {n : ℕ} {ET : Type} {P : Problem} {cfg : Cfg n ET} {nodes nodes' : Fin n → Node} {M : Motion}

theorem start_move (hs : Start P cfg nodes) (hm : Moved M nodes nodes') (E : (Fin n → Node) → ℝ → ET) :
    Start (P.moved M) { cfg with energy := E } nodes' where
  rule := hs.rule
  valid := hs.valid
  oriented t ht := by
    have e : MeshElem.nod4 (fun i => (ext nodes' i).p) t = fun k => M.pt (MeshElem.nod4 (fun i => (ext nodes i).p) t k) := by
      funext k
      have hk := hs.valid t ht k
      unfold MeshElem.nod4 ext
      dsimp only
      rw [dif_pos hk, dif_pos hk]
      exact (hm _).1
    rw [e, M.detJ_move]
    exact hs.oriented t ht
  magNode := hs.magNode
  unit i hi := by
    have := hs.unit i hi
    rw [isUnit3_iff] at this ⊢
    rw [(hm i).2.2]
    exact (M.vec_nsq _).trans this
  triValid := hs.triValid
  triMag := hs.triMag
  alpha := hs.alpha
  exchange := hs.exchange
  magnetic := hs.magnetic
  gamma0 := hs.gamma0
  mu0 := hs.mu0
  theta := hs.theta

/-- the velocity of the moved sample is the velocity turned -/
theorem moves_move (hs : Start P cfg nodes) (E : (Fin n → Node) → ℝ → ET) {a b : Fin n → Node} (hm : Moved M a b)
    (hd : P.dir = none) (hc : ∀ t ∈ magTet P.mag P.tets, (P.prm t.reg).K3 = 0 ∨ ∀ k, (ext a (t.ind k)).cur.v = 0) (F : Fields P)
    (V : ℝ) (dt : ℝ) (v : ℕ → V3) (h : Moves P cfg F a dt v) :
    Moves (P.moved M) { cfg with energy := E } (F.moved M V) b dt fun i => M.vec (v i) := by
  refine ⟨fun i hi => ?_, ?_⟩
  · rw [(hm i).2.1]
    exact (M.vec_dot _ _).trans (h.1 i hi)
  · have h2 := h.2
    rw [hd] at h2
    have key : ∀ i, i < n → (ext b i).p = M.pt (ext a i).p ∧ (ext b i).cur = M.data (ext a i).cur := by
      intro i hi
      unfold ext
      rw [dif_pos hi, dif_pos hi]
      exact ⟨(hm _).1, (hm _).2.1⟩
    have := holds_move M P.H (nodes' := ext b) V (fun i hi => by rw [(key i (magNode_lt hi)).2]; rfl)
      (fun t ht k => key _ (hs.valid t (List.mem_filter.mp ht).1 k)) (fun f hf k => key _ (hs.triValid f hf k)) hc h2
    have hd' : (P.moved M).dir = none := hd
    rw [hd']
    exact this

theorem moved_setPot {a b : Fin n → Node} (h : Moved M a b) (mag : Fin n → Bool) (pot : Fin n → ℝ × ℝ) :
    Moved M (setPot mag pot a) (setPot mag pot b) := by
  intro i
  obtain ⟨h1, h2, h3⟩ := h i
  unfold setPot
  split_ifs
  · exact ⟨h1, h2, by dsimp only; rw [h3]; rfl⟩
  · exact ⟨h1, h2, h3⟩

theorem moved_computeAll {a b : Fin n → Node} (h : Moved M a b) (mag : Fin n → Bool) (pot : Fin n → ℝ × ℝ) :
    Moved M (computeAllNodes mag pot a) (computeAllNodes mag pot b) := by
  intro i
  obtain ⟨h1, h2, h3⟩ := moved_setPot h mag pot i
  exact ⟨h1, h3, h3⟩

theorem noRecenter_keeps (hR : NoRecenter cfg) : RecenterKeepsUnit cfg ∧ RecenterKeepsNext cfg :=
  ⟨fun nd nd' h hu => by rw [hR nd] at h; cases h; exact hu,
    fun nd nd' h i => by rw [hR nd] at h; cases h; exact ⟨rfl, rfl, rfl⟩⟩

/-- exact attempts from moved states give moved nodes and the same largest velocity -/
theorem solved_move (hs : Start P cfg nodes) (hv : Valid cfg) (hR : NoRecenter cfg) (hm : Moved M nodes nodes')
    (E : (Fin n → Node) → ℝ → ET) (hd : P.dir = none) (t0 : ℝ) (pot pot' : Fin n → ℝ × ℝ) (inp inp' : ℕ → Input n) (k : ℕ)
    (hc : ∀ t ∈ magTet P.mag P.tets, (P.prm t.reg).K3 = 0 ∨
      ∀ j, (ext (run cfg t0 nodes pot inp k).nodes (t.ind j)).cur.v = 0) (F : Fields P) (V : ℝ)
    (hsame : Moved M (run cfg t0 nodes pot inp k).nodes (run { cfg with energy := E } t0 nodes' pot' inp' k).nodes)
    (dt : ℝ) (hpos : 0 < dt) (X X' : Fin n → ℝ × ℝ) (A A' : Sp ℝ) (b b' : List ℝ)
    (h1 : IsSystem P cfg F (baseProjection (inp k).r (run cfg t0 nodes pot inp k).nodes) dt A b) (e1 : A.mult (unknowns X) = b)
    (h2 : IsSystem (P.moved M) { cfg with energy := E } (F.moved M V)
      (baseProjection (inp' k).r (run { cfg with energy := E } t0 nodes' pot' inp' k).nodes) dt A' b')
    (e2 : A'.mult (unknowns X') = b') :
    Moved M (solvedNodes cfg (inp k) X dt (run cfg t0 nodes pot inp k))
      (solvedNodes { cfg with energy := E } (inp' k) X' dt (run { cfg with energy := E } t0 nodes' pot' inp' k)) ∧
    vMax cfg.gamma0 cfg.magNode X' = vMax cfg.gamma0 cfg.magNode X := by
  have hs' := start_move hs hm E
  have hv' : Valid { cfg with energy := E } := { hv with }
  have hR' : NoRecenter { cfg with energy := E } := hR
  obtain ⟨hU, hN⟩ := noRecenter_keeps hR
  obtain ⟨hU', hN'⟩ := noRecenter_keeps hR'
  obtain ⟨m1, -⟩ := exact_velocity hs hv hU hN t0 pot inp k F (inp k).r dt hpos X A b h1 e1
  obtain ⟨-, m2⟩ := exact_velocity hs' hv' hU' hN' t0 pot' inp' k (F.moved M V) (inp' k).r dt hpos X' A' b' h2 e2
  have hvel := m2 _ (moves_move hs E hsame hd hc F V dt _ m1)
  constructor
  · intro i
    obtain ⟨a1, a2, a3⟩ := hsame i
    cases hi : cfg.magNode i with
    | false =>
      simp only [solvedNodes, updateNodes, hi, Bool.false_eq_true, if_false]
      exact ⟨a1, a2, a3⟩
    | true =>
      obtain ⟨b1, b2⟩ := solved_eq t0 pot inp k i X dt hi (nodes := nodes)
      obtain ⟨c1, c2⟩ := solved_eq (cfg := { cfg with energy := E }) t0 pot' inp' k i X' dt hi (nodes := nodes')
      have d1 : (solvedNodes cfg (inp k) X dt (run cfg t0 nodes pot inp k) i).next =
          { ((run cfg t0 nodes pot inp k).nodes i).next with
            u := (solvedNodes cfg (inp k) X dt (run cfg t0 nodes pot inp k) i).next.u
            v := (solvedNodes cfg (inp k) X dt (run cfg t0 nodes pot inp k) i).next.v } := by
        simp only [solvedNodes, updateNodes, hi, if_true]
        rfl
      have d2 : ∀ s' : St n ET, (solvedNodes { cfg with energy := E } (inp' k) X' dt s' i).next =
          { (s'.nodes i).next with
            u := (solvedNodes { cfg with energy := E } (inp' k) X' dt s' i).next.u
            v := (solvedNodes { cfg with energy := E } (inp' k) X' dt s' i).next.v } := by
        intro s'
        simp only [solvedNodes, updateNodes, hi, if_true]
        rfl
      refine ⟨?_, ?_, ?_⟩
      · simp only [solvedNodes, updateNodes, hi, if_true]
        exact a1
      · simp only [solvedNodes, updateNodes, hi, if_true]
        exact a2
      · rw [d1, d2, b1, b2, c1, c2, ← hvel i hi, a2, a3]
        unfold Motion.data
        dsimp only
        rw [M.vec_smul, ← M.vec_normalize, M.vec_add, M.vec_smul]
  · unfold vMax
    rw [v2max_congr fun i hi => ?_]
    have hu := (allUnit_run hU t0 nodes pot inp hs.unit k i hi).1
    have hu' := (allUnit_run hU' t0 nodes' pot' inp' hs'.unit k i hi).1
    rw [isUnit3_iff] at hu hu'
    have key : ∀ (r : ℝ) (nd : Fin n → Node) (Y : Fin n → ℝ × ℝ), (nd i).cur.u.nsq = 1 →
        (ofComp (ext (baseProjection r nd)) (unknowns Y) i).nsq = (Y i).1 * (Y i).1 + (Y i).2 * (Y i).2 := by
      intro r nd Y hu
      obtain ⟨c1, c2, -, c4, -⟩ := Node.setBasis_spec (2 / Real.pi * r) (nd i) hu
      unfold ofComp
      rw [unknowns_even, unknowns_odd, ext_fin]
      change ((Y i).1 * ((nd i).setBasis (2 / Real.pi * r)).ep + (Y i).2 * ((nd i).setBasis (2 / Real.pi * r)).eq).nsq = _
      rw [Node.nsq_tangent c1 c2 c4]
      ring
    rw [← key (inp k).r _ X hu, ← key (inp' k).r _ X' hu', ← hvel i hi, M.vec_nsq]

/-- **C79** A sample rotated and translated as a whole (nodes, magnetization, axes of the materials, applied fields), whose
potentials and energies are the same numbers, goes through the same run: the same time steps, the same accepted and
rejected attempts, the same output times, and at each of them the magnetization of the first run rotated. For runs without
recentering and without cubic anisotropy, with systems solved exactly and failing at the same attempts. -/
theorem C79_run_partial (M : Motion) (hs : Start P cfg nodes) (hv : Valid cfg) (hR : NoRecenter cfg) (hd : P.dir = none)
    (hm : Moved M nodes nodes') (hcub : ∀ r, P.mag r = true → (P.prm r).K3 = 0)
    (E : (Fin n → Node) → ℝ → ET) (hE : ∀ a b t, Moved M a b → E b t = cfg.energy a t)
    (W : World n P) (W' : World n (P.moved M)) (hW : World.Moved M W W') (V V' : ℕ → ℝ) (t0 : ℝ) (inp inp' : ℕ → Input n)
    (h : ExactRun P cfg W V t0 nodes inp) (h' : ExactRun (P.moved M) { cfg with energy := E } W' V' t0 nodes' inp')
    (hsig : ∀ k, (inp k).sig = (inp' k).sig) (hfail : ∀ k, (inp k).sol = none ↔ (inp' k).sol = none) (k : ℕ) :
    MovedState M (run cfg t0 nodes (W.pot nodes) inp k)
      (run { cfg with energy := E } t0 nodes' (W'.pot nodes') inp' k) := by
  induction k with
  | zero =>
    have hpot := hW.pot _ _ hm
    refine ⟨rfl, rfl, rfl, rfl, rfl, ?_, rfl, ?_, rfl, rfl, List.Forall₂.nil, List.Forall₂.nil⟩
    · rw [hpot]
      exact moved_computeAll hm _ _
    · rw [hpot]
      exact hE _ _ _ (moved_setPot hm _ _)
  | succ k ih =>
    have hx := h.exact k
    have hx' := h'.exact k
    have hp := h.pot k
    have hp' := h'.pot k
    have hsolved := fun F V => solved_move hs hv hR hm E hd t0 (W.pot nodes) (W'.pot nodes') inp inp' k
      (fun t ht => Or.inl (hcub _ (List.mem_filter.mp ht).2)) F V ih.nodes
    change MovedState M (TimeLoop.step cfg t0 (inp k) _) (TimeLoop.step { cfg with energy := E } t0 (inp' k) _)
    generalize run cfg t0 nodes (W.pot nodes) inp k = s at *
    generalize run { cfg with energy := E } t0 nodes' (W'.pot nodes') inp' k = s' at *
    have hdt : attDt { cfg with energy := E } t0 s' = attDt cfg t0 s := by
      unfold attDt
      rw [ih.stepper, ih.stepNb, ih.t]
      rfl
    have hst : attStepper { cfg with energy := E } t0 s' = attStepper cfg t0 s := by
      unfold attStepper
      rw [ih.stepper, ih.stepNb, ih.t]
      rfl
    have htg : tTarget { cfg with energy := E } t0 s'.stepNb = tTarget cfg t0 s.stepNb := by rw [ih.stepNb]; rfl
    by_cases hc : s.ctl = .running
    swap
    · have hc' : s'.ctl ≠ .running := by rw [ih.ctl]; exact hc
      have e : TimeLoop.step cfg t0 (inp k) s = s := by
        cases step_kind cfg t0 (inp k) s with
        | halted _ e => exact e
        | _ => contradiction
      have e' : TimeLoop.step { cfg with energy := E } t0 (inp' k) s' = s' := by
        cases step_kind { cfg with energy := E } t0 (inp' k) s' with
        | halted _ e => exact e
        | _ => contradiction
      rw [e, e']
      exact ih
    have hc' : s'.ctl = .running := by rw [ih.ctl]; exact hc
    by_cases ht : s.t < tTarget cfg t0 s.stepNb
    swap
    · have ht' : ¬ s'.t < tTarget { cfg with energy := E } t0 s'.stepNb := by rw [ih.t, htg]; exact ht
      have e : TimeLoop.step cfg t0 (inp k) s = forBody cfg t0 s := by simp [TimeLoop.step, hc, ht]
      have e' : TimeLoop.step { cfg with energy := E } t0 (inp' k) s' = forBody { cfg with energy := E } t0 s' := by
        simp [TimeLoop.step, hc', ht']
      rw [e, e']
      have hlen : s.rows.length = s'.rows.length := ih.rows.length_eq
      have hsols : List.Forall₂ (MovedSol M) (saver cfg s).sols (saver { cfg with energy := E } s').sols := by
        unfold saver
        dsimp only
        rw [hlen]
        split_ifs
        · refine List.rel_append ih.sols (List.Forall₂.cons ⟨rfl, ih.t, fun i => ?_⟩ List.Forall₂.nil)
          dsimp only
          rw [(ih.nodes i).2.2]
          rfl
        · exact ih.sols
      have hrows : List.Forall₂ (MovedRow M) (saver cfg s).rows (saver { cfg with energy := E } s').rows := by
        unfold saver
        dsimp only
        refine List.rel_append ih.rows (List.Forall₂.cons ?_ List.Forall₂.nil)
        exact ⟨hlen.symm, ih.t, ih.dt, ih.E, ih.nodes⟩
      unfold forBody
      dsimp only
      have hnb : (saver { cfg with energy := E } s').stepNb = (saver cfg s).stepNb := ih.stepNb
      have hct : stepCount { cfg with energy := E } t0 = stepCount cfg t0 := rfl
      rw [hnb, hct]
      split_ifs
      · exact ⟨ih.ctl, rfl, ih.t, ih.dt, ih.stepper, ih.nodes, ih.vmax, ih.E, ih.flag, ih.nt, hrows, hsols⟩
      · exact ⟨rfl, rfl, ih.t, ih.dt, ih.stepper, ih.nodes, ih.vmax, ih.E, ih.flag, ih.nt, hrows, hsols⟩
    have ht' : s'.t < tTarget { cfg with energy := E } t0 s'.stepNb := by rw [ih.t, htg]; exact ht
    have e : TimeLoop.step cfg t0 (inp k) s = whileBody cfg t0 (inp k) s := by simp [TimeLoop.step, hc, ht]
    have e' : TimeLoop.step { cfg with energy := E } t0 (inp' k) s' = whileBody { cfg with energy := E } t0 (inp' k) s' := by
      simp [TimeLoop.step, hc', ht']
    rw [e, e']
    cases hi : (inp k).sig with
    | true =>
      rw [whileBody_sig _ _ _ _ hi, whileBody_sig _ _ _ _ ((hsig k).symm.trans hi)]
      refine ⟨rfl, ih.stepNb, ih.t, ih.dt, ih.stepper, ih.nodes, ih.vmax, ih.E, ih.flag, ih.nt, ih.rows, ?_⟩
      unfold onSignal
      dsimp only
      split_ifs
      · refine List.rel_append ih.sols (List.Forall₂.cons ⟨rfl, ih.t, fun i => ?_⟩ List.Forall₂.nil)
        dsimp only
        rw [(ih.nodes i).2.2]
        rfl
      · exact ih.sols
    | false =>
      have hi' := (hsig k).symm.trans hi
      by_cases hdm : attDt cfg t0 s < cfg.DTMIN
      · rw [whileBody_small _ _ _ _ hi hdm, whileBody_small { cfg with energy := E } _ _ _ hi' (by rw [hdt]; exact hdm)]
        exact ⟨rfl, ih.stepNb, ih.t, hdt, hst, ih.nodes, ih.vmax, ih.E, ih.flag, ih.nt, ih.rows, ih.sols⟩
      · have hdm' : ¬ attDt { cfg with energy := E } t0 s' < cfg.DTMIN := by rw [hdt]; exact hdm
        cases hsol : (inp k).sol with
        | none =>
          rw [whileBody_fail _ _ _ _ hi hdm hsol, whileBody_fail { cfg with energy := E } _ _ _ hi' hdm' ((hfail k).mp hsol)]
          refine ⟨ih.ctl, ih.stepNb, ih.t, hdt, ?_, fun i => ?_, ih.vmax, ih.E, ?_, ih.nt, ih.rows, ih.sols⟩
          · dsimp only
            rw [hst, hdt]
          · exact ih.nodes i
          · dsimp only
            rw [ih.flag]
        | some X =>
          cases hsol' : (inp' k).sol with
          | none => rw [(hfail k).mpr hsol'] at hsol; cases hsol
          | some X' =>
            have hatt : Attempt cfg t0 (inp k) s := ⟨hc, ht, hi⟩
            have hatt' : Attempt { cfg with energy := E } t0 (inp' k) s' := ⟨hc', ht', hi'⟩
            obtain ⟨A, b, a1, a2⟩ := hx X hatt (not_lt.mp hdm) hsol
            obtain ⟨A', b', a1', a2'⟩ := hx' X' hatt' (not_lt.mp hdm') hsol'
            have eF : (⟨W'.Hext s'.t s'.nodes, W'.Hst s'.t s'.nodes, V' k⟩ : Fields (P.moved M)) =
                Fields.moved M ⟨W.Hext s.t s.nodes, W.Hst s.t s.nodes, V k⟩ (V' k) := by
              unfold Fields.moved
              congr 1
              · funext e j
                rw [ih.t]
                exact hW.Hext _ _ _ ih.nodes e j
              · funext e j
                rw [ih.t]
                exact hW.Hst _ _ _ ih.nodes e j
            rw [hdt, eF] at a1'
            obtain ⟨g1, g2⟩ := hsolved ⟨W.Hext s.t s.nodes, W.Hst s.t s.nodes, V k⟩ (V' k) (attDt cfg t0 s)
              (hv.dtmin.trans_le (not_lt.mp hdm)) X X' A A' b b' a1 a2 a1' a2'
            have hpot : (inp' k).pot = (inp k).pot := by
              rw [hp X hatt hsol, hp' X' hatt' hsol', hdt, hW.pot _ _ g1]
            by_cases hr : cfg.DUMAX < attDt cfg t0 s * vMax cfg.gamma0 cfg.magNode X
            · rw [whileBody_reject _ _ _ _ hi hdm hsol hr, whileBody_reject { cfg with energy := E } _ _ _ hi' hdm' hsol'
                (by rw [hdt]; change cfg.DUMAX < _ * vMax cfg.gamma0 cfg.magNode X'; rw [g2]; exact hr)]
              refine ⟨ih.ctl, ih.stepNb, ih.t, hdt, ?_, ?_, g2, ih.E, ?_, ih.nt, ih.rows, ih.sols⟩
              · dsimp only
                rw [hst, g2]
              · dsimp only
                rw [hdt]
                exact g1
              · dsimp only
                rw [ih.flag]
            · have hacc : MovedState M (accepted cfg t0 (inp k) s X) (accepted { cfg with energy := E } t0 (inp' k) s' X') := by
                refine ⟨ih.ctl, ih.stepNb, ?_, hdt, ?_, ?_, g2, ?_, rfl, ?_, ih.rows, ih.sols⟩
                · simp only [accepted]
                  rw [hdt, htg, ih.t]
                · simp only [accepted]
                  rw [hst, g2]
                · simp only [accepted]
                  rw [hpot, hdt]
                  exact moved_computeAll g1 _ _
                · simp only [accepted, computeAllE]
                  rw [hpot, hdt, ih.t]
                  exact hE _ _ _ (moved_setPot g1 _ _)
                · simp only [accepted]
                  rw [ih.nt]
              rw [whileBody_accept _ _ _ _ hi hdm hsol hr, whileBody_accept { cfg with energy := E } _ _ _ hi' hdm' hsol'
                (by rw [hdt]; change ¬ cfg.DUMAX < _ * vMax cfg.gamma0 cfg.magNode X'; rw [g2]; exact hr)]
              rw [hR]
              have : ({ cfg with energy := E } : Cfg n ET).recenter (accepted { cfg with energy := E } t0 (inp' k) s' X').nodes =
                  some (accepted { cfg with energy := E } t0 (inp' k) s' X').nodes := hR _
              rw [this]
              exact hacc

end

/-! ## Energies and potentials of the moved sample -/

/-- **C79** The energies of the moved sample are the same: exchange, volume anisotropy (uniaxial and cubic), demagnetizing
energy for the same potentials; and, for each element, the energies in an applied field and of a surface anisotropy. -/
theorem C79_energy (M : Motion) (G : Rule) (H : TriElem.Rule) (mu0 : ℝ) (p u : ℕ → V3) (phi : ℕ → ℝ) (mag : ℕ → Bool)
    (prm : ℕ → Prm) (Ms : ℕ → ℝ) (tets mtets : List Tet) (mtris : List (Tri × ℝ)) :
    let p' := fun i => M.pt (p i)
    let u' := fun i => M.vec (u i)
    MeshElem.exchangeEnergy G p' mag (fun r => M.prm (prm r)) tets u' = MeshElem.exchangeEnergy G p mag prm tets u ∧
    MeshElem.volAnisoEnergy G p' mag (fun r => M.prm (prm r)) tets u' = MeshElem.volAnisoEnergy G p mag prm tets u ∧
    MeshElem.demagEnergy G H mu0 p' Ms mtets mtris u' phi = MeshElem.demagEnergy G H mu0 p Ms mtets mtris u phi ∧
    (∀ (m : ℝ) (t : Tet) (h : V3), Tetra.zeemanEnergy G mu0 m (MeshElem.nod4 p' t) (MeshElem.nod4 u' t) (M.vec h) =
      Tetra.zeemanEnergy G mu0 m (MeshElem.nod4 p t) (MeshElem.nod4 u t) h) ∧
    (∀ (m amp : ℝ) (t : Tet) (h : Fin G.n → V3),
      Tetra.zeemanEnergySpace G mu0 m amp (MeshElem.nod4 p' t) (MeshElem.nod4 u' t) (fun j => M.vec (h j)) =
      Tetra.zeemanEnergySpace G mu0 m amp (MeshElem.nod4 p t) (MeshElem.nod4 u t) h) ∧
    ∀ (Ks : ℝ) (uk : V3) (f : Tri), TriElem.anisotropyEnergy H Ks (M.vec uk) (MeshElem.nod3 p' f) (MeshElem.nod3 u' f) =
      TriElem.anisotropyEnergy H Ks uk (MeshElem.nod3 p f) (MeshElem.nod3 u f) := by
  intro p' u'
  refine ⟨?_, ?_, ?_, fun m t h => M.zeemanEnergy_move G mu0 m _ _ h, fun m amp t h => M.zeemanEnergySpace_move G mu0 m amp _ _ h,
    fun Ks uk f => M.triAnisotropyEnergy_move H Ks uk _ _⟩
  · unfold MeshElem.exchangeEnergy
    exact congrArg List.sum (List.map_congr_left fun t _ => M.exchangeEnergy_move G (prm t.reg) _ _)
  · unfold MeshElem.volAnisoEnergy
    refine congrArg List.sum (List.map_congr_left fun t _ => ?_)
    have h1 := M.uniaxialEnergy_move G (prm t.reg) (MeshElem.nod4 p t) (MeshElem.nod4 u t)
    have h2 := M.cubicEnergy_move G (prm t.reg) (MeshElem.nod4 p t) (MeshElem.nod4 u t)
    change (if (prm t.reg).K ≠ 0 then Tetra.uniaxialEnergy G (M.prm (prm t.reg)) (fun i => M.pt (MeshElem.nod4 p t i))
      (fun i => M.vec (MeshElem.nod4 u t i)) else 0) + (if (prm t.reg).K3 ≠ 0 then Tetra.cubicEnergy G (M.prm (prm t.reg))
      (fun i => M.pt (MeshElem.nod4 p t i)) (fun i => M.vec (MeshElem.nod4 u t i)) else 0) = _
    rw [h1, h2]
  · unfold MeshElem.demagEnergy
    congr 1
    · exact congrArg List.sum (List.map_congr_left fun t _ => M.demagEnergy_move G mu0 _ _ _ _)
    · exact congrArg List.sum (List.map_congr_left fun f _ => M.triDemagEnergy_move H mu0 _ _ _ _)

/-- the potential at node `i` of the charges stored by `calc_charges` (fmm_demag.h:155-179), summed directly instead of by the
fast multipole method, with the correction of the node -/
noncomputable def directPot (G : Rule) (H : TriElem.Rule) (p : ℕ → V3) (Ms : ℕ → ℝ) (mtets : List Tet) (mtris : List (Tri × ℝ))
    (u : ℕ → V3) (i : ℕ) : ℝ :=
  ((mtets.map fun t => ∑ j, Tetra.charges G (Ms t.reg) (MeshElem.nod4 p t) (MeshElem.nod4 u t) j
      / (p i - Tetra.ptGauss G (MeshElem.nod4 p t) j).norm).sum
    + (mtris.map fun f => ∑ j, TriElem.charges H f.2 (MeshElem.nod3 p f.1) (MeshElem.nod3 u f.1) j
      / (p i - TriElem.ptGauss H (MeshElem.nod3 p f.1) j).norm).sum
    + MeshElem.corr H p mtris u i) / (4 * Real.pi)

/-- **C79** The potentials of the moved sample are the same numbers, when the sum over the charges is exact. -/
theorem C79_potential (M : Motion) (G : Rule) (H : TriElem.Rule) (p u : ℕ → V3) (Ms : ℕ → ℝ) (mtets : List Tet)
    (mtris : List (Tri × ℝ)) (i : ℕ) :
    directPot G H (fun i => M.pt (p i)) Ms mtets mtris (fun i => M.vec (u i)) i = directPot G H p Ms mtets mtris u i := by
  have hcorr : MeshElem.corr H (fun i => M.pt (p i)) mtris (fun i => M.vec (u i)) = MeshElem.corr H p mtris u := by
    unfold MeshElem.corr
    have h : ∀ f : Tri × ℝ, ∀ k, TriElem.correction H f.2 (MeshElem.nod3 (fun i => M.pt (p i)) f.1)
        (MeshElem.nod3 (fun i => M.vec (u i)) f.1) k = TriElem.correction H f.2 (MeshElem.nod3 p f.1) (MeshElem.nod3 u f.1) k :=
      fun f k => M.correction_move H f.2 _ _ k
    simp only [h]
  unfold directPot
  rw [hcorr]
  congr 3
  · refine congrArg List.sum (List.map_congr_left fun t _ => Finset.sum_congr rfl fun j _ => ?_)
    change Tetra.charges G (Ms t.reg) (fun i => M.pt (MeshElem.nod4 p t i)) (fun i => M.vec (MeshElem.nod4 u t i)) j
      / (M.pt (p i) - Tetra.ptGauss G (fun i => M.pt (MeshElem.nod4 p t i)) j).norm = _
    rw [M.charges_move, M.ptGauss_move, M.pt_sub, M.vec_norm]
  · refine congrArg List.sum (List.map_congr_left fun f _ => Finset.sum_congr rfl fun j _ => ?_)
    change TriElem.charges H f.2 (fun i => M.pt (MeshElem.nod3 p f.1 i)) (fun i => M.vec (MeshElem.nod3 u f.1 i)) j
      / (M.pt (p i) - TriElem.ptGauss H (fun i => M.pt (MeshElem.nod3 p f.1 i)) j).norm = _
    rw [M.triCharges_move, M.triPtGauss_move, M.pt_sub, M.vec_norm]

/-! ## Cubic anisotropy -/

/-- **C79** What cubic anisotropy changes: the rotated velocity is the velocity of the rotated sample if and only if the part of
the anisotropy field that does not turn with the sample has no effect in any tangent direction. -/
theorem C79_cubic {n : ℕ} {ET : Type} {P : Problem} {cfg : Cfg n ET} {nodes : Fin n → Node} (M : Motion)
    (hs : Start P cfg nodes) (hd : P.dir = none) {a b : Fin n → Node} (hm : Moved M a b) (F : Fields P) (V dt : ℝ) (v : ℕ → V3)
    (h : Moves P cfg F a dt v) :
    Moves (P.moved M) cfg (F.moved M V) b dt (fun i => M.vec (v i)) ↔
      ∀ w : ℕ → V3, (∀ i, (magNode P.mag n P.tets).getD i false = true → (w i).dot (ext a i).cur.u = 0) →
        ((magTet P.mag P.tets).map fun t => work P.G (nodalOf (ext a) t).p
          (M.defect P.G (P.prm t.reg) (P.step cfg dt) (nodalOf (ext a) t)) fun k => M.vec (w (t.ind k))).sum = 0 := by
  have key : ∀ i, i < n → (ext b i).p = M.pt (ext a i).p ∧ (ext b i).cur = M.data (ext a i).cur := by
    intro i hi
    unfold ext
    rw [dif_pos hi, dif_pos hi]
    exact ⟨(hm _).1, (hm _).2.1⟩
  have h2 := h.2
  rw [hd] at h2
  -- the two sides of the equation of the moved sample, tested with a turned field
  have hl : ∀ w : ℕ → V3, ((magTet P.mag P.tets).map fun t => WeakForm.residual P.G (M.prm (P.prm t.reg)) (P.step cfg dt)
        (nodalOf (ext b) t) (fun j => M.vec (F.Hext t j)) (fun j => M.vec (F.Hst t j)) none V (fun k => M.vec (v (t.ind k)))
        (fun k => M.vec (w (t.ind k)))).sum =
      ((magTet P.mag P.tets).map fun t => WeakForm.residual P.G (P.prm t.reg) (P.step cfg dt) (nodalOf (ext a) t) (F.Hext t)
        (F.Hst t) none F.V (fun k => v (t.ind k)) (fun k => w (t.ind k))).sum
      - ((magTet P.mag P.tets).map fun t => work P.G (nodalOf (ext a) t).p
          (M.defect P.G (P.prm t.reg) (P.step cfg dt) (nodalOf (ext a) t)) fun k => M.vec (w (t.ind k))).sum := by
    intro w
    rw [← Energy.list_sum_sub]
    refine congrArg List.sum (List.map_congr_left fun t ht => ?_)
    have en : nodalOf (ext b) t = M.nodal (nodalOf (ext a) t) (fun i => (ext b (t.ind i)).ep) (fun i => (ext b (t.ind i)).eq) := by
      unfold nodalOf Motion.nodal
      simp only [fun k => key _ (hs.valid t (List.mem_filter.mp ht).1 k), Motion.data]
    rw [en]
    exact M.residual_defect P.G (P.prm t.reg) (P.step cfg dt) (nodalOf (ext a) t) _ _ (F.Hext t) (F.Hst t) F.V V _ _
  have hr : ∀ w : ℕ → V3, (P.tris.map fun f => surfaceWork P.H (M.sprm (P.sprm f.1.reg)) f.2 (fun i => (ext b (f.1.ind i)).p)
        (fun i => (ext b (f.1.ind i)).cur.u) (fun i => M.vec (w (f.1.ind i)))).sum =
      (P.tris.map fun f => surfaceWork P.H (P.sprm f.1.reg) f.2 (fun i => (ext a (f.1.ind i)).p)
        (fun i => (ext a (f.1.ind i)).cur.u) (fun i => w (f.1.ind i))).sum := by
    intro w
    refine congrArg List.sum (List.map_congr_left fun f hf => ?_)
    rw [← M.surfaceWork_move P.H (P.sprm f.1.reg) f.2 (fun i => (ext a (f.1.ind i)).p) (fun i => (ext a (f.1.ind i)).cur.u)
      (fun i => w (f.1.ind i))]
    simp only [fun k => key _ (hs.triValid f hf k), Motion.data]
  have htan : ∀ i : Fin n, cfg.magNode i = true → (M.vec (v i)).dot (b i).cur.u = 0 := fun i hi => by
    rw [(hm i).2.1]
    exact (M.vec_dot _ _).trans (h.1 i hi)
  constructor
  · rintro ⟨-, hb⟩ w hw
    have hd' : (P.moved M).dir = none := hd
    rw [hd'] at hb
    have e1 := hb (fun i => M.vec (w i)) (fun i hi => by
      rw [(key i (magNode_lt hi)).2]
      exact (M.vec_dot _ _).trans (hw i hi))
    have e2 := h2 w hw
    have e3 := hl w
    have e4 := hr w
    have e5 := e3.symm.trans (e1.trans (e4.trans e2.symm))
    linarith
  · intro hz
    refine ⟨htan, fun w hw => ?_⟩
    have hd' : (P.moved M).dir = none := hd
    rw [hd']
    have hw' : ∀ i, (magNode P.mag n P.tets).getD i false = true → (M.back (w i)).dot (ext a i).cur.u = 0 := by
      intro i hi
      have := hw i hi
      rw [(key i (magNode_lt hi)).2, ← M.vec_back (w i)] at this
      exact (M.vec_dot _ _).symm.trans this
    have e3 := hl fun i => M.back (w i)
    have e4 := hr fun i => M.back (w i)
    simp only [M.vec_back] at e3 e4
    refine e3.trans ?_
    have e6 := hz _ hw'
    simp only [M.vec_back] at e6
    rw [e6, sub_zero]
    exact (h2 _ hw').trans e4.symm

/-- a quarter turn about `z`, then a displacement -/
noncomputable def quarter : Motion :=
  ⟨⟨0, 1, 0⟩, ⟨-1, 0, 0⟩, ⟨0, 0, 1⟩, ⟨5, 0, 0⟩, by simp [DirectOrthonormal, V3.nsq, V3.dot, V3.cross]⟩

/-- the problem of the example of C72 with cubic anisotropy along the axes -/
noncomputable def exPc (H : TriElem.Rule) : Problem :=
  { exP H with prm := fun r => { Energy.ex2Prm r with K3 := 1, ex := ⟨1, 0, 0⟩, ey := ⟨0, 1, 0⟩, ez := ⟨0, 0, 1⟩ } }

/-- magnetization along `z`, moving along `x` -/
noncomputable def exNc : Fin 5 → Node := fun i =>
  ⟨MeshElem.exP2 i, 0, 0, ⟨⟨0, 0, 1⟩, ⟨1, 0, 0⟩, 0, 0⟩, ⟨⟨0, 0, 1⟩, ⟨1, 0, 0⟩, 0, 0⟩⟩

/-- these nodes turned -/
noncomputable def exNc' : Fin 5 → Node := fun i =>
  ⟨quarter.pt (MeshElem.exP2 i), 0, 0, quarter.data ⟨⟨0, 0, 1⟩, ⟨1, 0, 0⟩, 0, 0⟩, quarter.data ⟨⟨0, 0, 1⟩, ⟨1, 0, 0⟩, 0, 0⟩⟩

theorem exc_start (H : TriElem.Rule) (D : ℝ) : Start (exPc H) (exCfg D) exNc where
  rule := Or.inr rfl
  valid := Energy.ex2_timeStep.valid
  oriented := by
    intro t ht
    have e : MeshElem.nod4 (fun i => (ext exNc i).p) t = MeshElem.nod4 MeshElem.exP2 t := by
      funext k
      have := Energy.ex2_timeStep.valid t ht k
      unfold MeshElem.nod4 ext
      dsimp only
      rw [dif_pos this]
      rfl
    rw [e]
    exact MeshElem.ex2_pos t ht
  magNode := (ex_start H D).magNode
  unit := fun i _ => by simp [exNc, IsUnit3]
  triValid := by simp [exPc, exP]
  triMag := by simp [exPc, exP]
  alpha := fun _ _ => by simp [exPc, Energy.ex2Prm]
  exchange := fun _ _ => by simp [exPc, Energy.ex2Prm]
  magnetic := fun t _ => by
    simp only [exPc, Energy.ex2Prm]
    split_ifs <;> norm_num
  gamma0 := by norm_num [exCfg]
  mu0 := by norm_num [exPc, exP]
  theta := by norm_num [exPc, exP]

/-- the anisotropy field of the turned sample differs from the anisotropy field turned -/
theorem exc_defect (H : TriElem.Rule) (D dt : ℝ) (t : Tet) (ht : t ∈ MeshElem.exT2) (j : Fin rule5.n) :
    quarter.defect rule5 ((exPc H).prm t.reg) ((exPc H).step (exCfg D) dt) (nodalOf (ext exNc) t) j =
      ⟨0, dt / (Energy.ex2Prm t.reg).Ms, 0⟩ := by
  have hu := interpV_uniform rule5 (nodalOf (ext exNc) t).u ⟨0, 0, 1⟩ (fun k => by
    have := Energy.ex2_timeStep.valid t ht k
    unfold nodalOf ext
    dsimp only
    rw [dif_pos this]
    rfl) j
  have hv := interpV_uniform rule5 (nodalOf (ext exNc) t).v ⟨1, 0, 0⟩ (fun k => by
    have := Energy.ex2_timeStep.valid t ht k
    unfold nodalOf ext
    dsimp only
    rw [dif_pos this]
    rfl) j
  unfold Motion.defect
  rw [hu, hv]
  unfold hAniso anisoCubH
  simp only [exPc, exP, Energy.ex2Prm, Motion.prm, Problem.step, exCfg, sdt, quarter, Motion.vec, V3.dot, cwise]
  ext <;> simp
  ring

/-- **C79, negation** With cubic anisotropy the claim fails: for two tetrahedrons with cubic axes along the coordinate axes,
magnetized along z and moving, no velocity that solves the equation of motion solves it, turned, for the sample turned by
a quarter turn about z. -/
theorem C79_negation (H : TriElem.Rule) (F : Fields (exPc H)) (V dt : ℝ) (hdt : 0 < dt) :
    Start (exPc H) (exCfg 0) exNc ∧ Moved quarter exNc exNc' ∧ (∃ v, Moves (exPc H) (exCfg 0) F exNc dt v) ∧
    ∀ v, Moves (exPc H) (exCfg 0) F exNc dt v →
      ¬ Moves ((exPc H).moved quarter) (exCfg 0) (F.moved quarter V) exNc' dt fun i => quarter.vec (v i) := by
  have hm : Moved quarter exNc exNc' := fun i => ⟨rfl, rfl, rfl⟩
  have hs := exc_start H 0
  refine ⟨hs, hm, ?_, ?_⟩
  · have e : (run (exCfg 0) 0 exNc (fun _ => (0, 0)) (fun _ => ⟨false, 0, none, fun _ => (0, 0)⟩) 0).nodes = exNc := by
      funext i
      rfl
    obtain ⟨⟨A, b, hsys⟩, hx⟩ := C72_solvable hs (ex_valid 0 le_rfl) (ex_keeps 0).1 (ex_keeps 0).2 0 (fun _ => (0, 0))
      (fun _ => ⟨false, 0, none, fun _ => (0, 0)⟩) 0 F 0 dt hdt
    obtain ⟨X, hX, -⟩ := hx A b hsys
    have := (exact_velocity hs (ex_valid 0 le_rfl) (ex_keeps 0).1 (ex_keeps 0).2 0 (fun _ => (0, 0))
      (fun _ => ⟨false, 0, none, fun _ => (0, 0)⟩) 0 F 0 dt hdt X A b hsys hX).1
    rw [e] at this
    exact ⟨_, this⟩
  · intro v hv hv'
    have h0 := (C79_cubic quarter hs rfl hm F V dt v hv).mp hv' (fun _ => ⟨1, 0, 0⟩) (by
      intro i hi
      have := magNode_lt hi
      unfold ext
      rw [dif_pos this]
      simp [exNc, V3.dot])
    have hw : ∀ t ∈ MeshElem.exT2, 0 < work rule5 (nodalOf (ext exNc) t).p
        (quarter.defect rule5 ((exPc H).prm t.reg) ((exPc H).step (exCfg 0) dt) (nodalOf (ext exNc) t))
        fun _ => quarter.vec ⟨1, 0, 0⟩ := by
      intro t ht
      have hdet : 0 < detJ (nodalOf (ext exNc) t).p := hs.oriented t ht
      have hMs : 0 < (Energy.ex2Prm t.reg).Ms := by
        simp only [Energy.ex2Prm]
        split_ifs <;> norm_num
      have e : work rule5 (nodalOf (ext exNc) t).p
          (quarter.defect rule5 ((exPc H).prm t.reg) ((exPc H).step (exCfg 0) dt) (nodalOf (ext exNc) t))
          (fun _ => quarter.vec ⟨1, 0, 0⟩) = calcVol rule5 (nodalOf (ext exNc) t).p * (dt / (Energy.ex2Prm t.reg).Ms) := by
        unfold work calcVol
        rw [Finset.sum_mul]
        refine Finset.sum_congr rfl fun j _ => ?_
        rw [exc_defect H 0 dt t ht j, interpV_uniform rule5 _ (quarter.vec ⟨1, 0, 0⟩) (fun _ => rfl) j]
        simp [quarter, V3.dot]
      rw [e, calcVol_eq rule5_ok]
      positivity
    have hT : magTet (exPc H).mag (exPc H).tets = MeshElem.exT2 := rfl
    rw [hT] at h0
    simp only [MeshElem.exT2, List.map_cons, List.map_nil, List.sum_cons, List.sum_nil] at h0
    have w1 := hw ⟨![0, 1, 2, 3], 0⟩ (by simp [MeshElem.exT2])
    have w2 := hw ⟨![4, 1, 3, 2], 1⟩ (by simp [MeshElem.exT2])
    have e1 : (exPc H).G = rule5 := rfl
    rw [e1] at h0
    linarith

/-! ## Two runs that meet the hypotheses -/

/-- the nodes of the example of C72 turned -/
noncomputable def exNq : Fin 5 → Node := fun i =>
  ⟨quarter.pt (exNd i).p, 0, 0, quarter.data (exNd i).cur, quarter.data (exNd i).next⟩

/-- the fields of the example turned -/
noncomputable def exWq (H : TriElem.Rule) : World 5 ((exP H).moved quarter) :=
  ⟨fun _ _ t j => quarter.vec (Energy.ex2H t j), fun _ _ _ _ => quarter.vec 0, fun _ _ => (0, 0)⟩

theorem exq_run1 (nd : Fin 5 → Node) (D : ℝ) (inp : ℕ → Input 5) :
    let s := run (exCfg D) 0 nd (fun _ => (0, 0)) inp 1
    s.ctl = .running ∧ s.t = 0 ∧ s.stepNb = 1 ∧ s.nt = 0 ∧ s.stepper.softMax = 10 ∧
      s.nodes = computeAllNodes (fun _ => true) (fun _ => (0, 0)) nd := by
  have hcnt : stepCount (exCfg D) 0 = 2 := by
    have : (((exCfg D).tf - 0) / (exCfg D).timeStep) = 2 := by norm_num [exCfg]
    unfold stepCount cRound
    rw [this, if_pos (by norm_num)]
    norm_num [Int.floor_eq_iff]
  have hctl : (init (exCfg D) 0 nd fun _ => (0, 0)).ctl = .running := by
    change (if 0 ≤ stepCount (exCfg D) 0 then Ctl.running else Ctl.done 0) = _
    rw [hcnt]; rfl
  have e : run (exCfg D) 0 nd (fun _ => (0, 0)) inp 1 =
      { saver (exCfg D) (init (exCfg D) 0 nd fun _ => (0, 0)) with stepNb := 1 } := by
    change TimeLoop.step (exCfg D) 0 (inp 0) (init (exCfg D) 0 nd fun _ => (0, 0)) = _
    have hnot : ¬ (init (exCfg D) 0 nd fun _ => (0, 0)).t < tTarget (exCfg D) 0
        (init (exCfg D) 0 nd fun _ => (0, 0)).stepNb := by
      simp [init, tTarget]
    have hc : ((0 + 1 : ℕ) : ℤ) ≤ stepCount (exCfg D) 0 := by rw [hcnt]; norm_num
    unfold TimeLoop.step
    rw [hctl]
    simp only
    rw [if_neg hnot]
    exact if_pos hc
  rw [e]
  refine ⟨hctl, rfl, rfl, rfl, ?_, rfl⟩
  change Real.sqrt ((1 : ℝ) * 100) = 10
  rw [show (1 : ℝ) * 100 = 10 ^ 2 by norm_num, Real.sqrt_sq (by norm_num)]

theorem exq_att (nd : Fin 5 → Node) (D : ℝ) (inp : ℕ → Input 5) :
    attDt (exCfg D) 0 (run (exCfg D) 0 nd (fun _ => (0, 0)) inp 1) = 10 := by
  obtain ⟨-, h2, h3, -, h5, -⟩ := exq_run1 nd D inp
  have hs : tTarget (exCfg D) 0 (run (exCfg D) 0 nd (fun _ => (0, 0)) inp 1).stepNb
      - (run (exCfg D) 0 nd (fun _ => (0, 0)) inp 1).t = 10 := by
    rw [h2, h3]; norm_num [tTarget, exCfg]
  unfold attDt
  rw [hs]
  unfold TimeStepper.step
  simp only
  rw [h5]
  norm_num

/-- the hypotheses of C79 are met by a run which keeps a step and the run of the turned and displaced sample, with other random
angles; the magnetization does turn, and it is not uniform -/
example (H : TriElem.Rule) : ∃ D inp inp', Start (exP H) (exCfg D) exNd ∧ Valid (exCfg D) ∧ NoRecenter (exCfg D) ∧
    (exP H).dir = none ∧ Moved quarter exNd exNq ∧ (∀ r, (exP H).mag r = true → ((exP H).prm r).K3 = 0) ∧
    World.Moved quarter (exWorld H none) (exWq H) ∧
    ExactRun (exP H) (exCfg D) (exWorld H none) (fun _ => 0) 0 exNd inp ∧
    ExactRun ((exP H).moved quarter) { exCfg D with energy := fun _ t => t } (exWq H) (fun _ => 1) 0 exNq inp' ∧
    (∀ k, (inp k).sig = (inp' k).sig) ∧ (∀ k, (inp k).sol = none ↔ (inp' k).sol = none) ∧ (inp 1).r ≠ (inp' 1).r ∧
    TimeLoop.Accepted (run (exCfg D) 0 exNd (fun _ => (0, 0)) inp 1) (run (exCfg D) 0 exNd (fun _ => (0, 0)) inp 2) ∧
    (exNq 0).next.u ≠ (exNd 0).next.u ∧ (exNq 0).next.u ≠ (exNq 1).next.u := by
  have hmv : Moved quarter exNd exNq := fun i => ⟨rfl, rfl, rfl⟩
  obtain ⟨X, M, b, hsys, hM⟩ := ex_solution H none 0 0
  have hsq : ∀ D, Start ((exP H).moved quarter) (exCfg D) exNq := fun D =>
    start_move (ex_start H D) hmv (exCfg D).energy
  obtain ⟨⟨M', b', hsys'⟩, hx⟩ := C72_solvable (hsq 0) (ex_valid 0 le_rfl) (ex_keeps 0).1 (ex_keeps 0).2 0 (fun _ => (0, 0))
    (fun _ => ⟨false, 0, none, fun _ => (0, 0)⟩) 1
    ⟨fun t j => quarter.vec (Energy.ex2H t j), fun _ _ => quarter.vec 0, 1⟩ 1 10 (by norm_num)
  obtain ⟨X', hX', -⟩ := hx M' b' hsys'
  rw [(exq_run1 exNq 0 _).2.2.2.2.2] at hsys'
  set D := 10 * vMax 1 (fun _ => true) X with hDdef
  have hD0 : 0 ≤ D := by rw [hDdef]; unfold vMax; positivity
  refine ⟨D, exInp 0 X, exInp 1 X', ex_start H D, ex_valid D hD0, fun _ => rfl, rfl, hmv, fun _ _ => rfl,
    ⟨fun _ _ _ _ _ _ => rfl, fun _ _ _ _ _ _ => rfl, fun _ _ _ => rfl⟩, ex_exact H none D 0 0 X M b hsys hM, ⟨?_, fun _ _ _ _ => rfl⟩,
    fun _ => rfl, ?_, by simp [exInp], by rw [ex_run2 D 0 X le_rfl]; rfl, ?_, ?_⟩
  · intro k Y s hatt hd hY
    have hk : k = 1 ∧ Y = X' := by
      unfold exInp at hY
      dsimp only at hY
      split_ifs at hY with hk
      exact ⟨hk, by injection hY with e; exact e.symm⟩
    obtain ⟨rfl, rfl⟩ := hk
    refine ⟨M', b', ?_, hX'⟩
    have e1 : attDt (exCfg D) 0 s = 10 := exq_att exNq D (exInp 1 Y)
    have e2 : s.nodes = computeAllNodes (fun _ => true) (fun _ => (0, 0)) exNq := (exq_run1 exNq D (exInp 1 Y)).2.2.2.2.2
    have e1' : attDt { exCfg D with energy := fun _ t => t } 0 s = 10 := e1
    rw [e1', e2]
    exact hsys'
  · intro k
    unfold exInp
    dsimp only
    split_ifs <;> simp
  · intro h
    have := congrArg V3.x h
    simp [exNq, exNd, Motion.data, Motion.vec, quarter] at this
  · intro h
    have := congrArg V3.z h
    simp [exNq, exNd, Motion.data, Motion.vec, quarter] at this

end Verif.Run
