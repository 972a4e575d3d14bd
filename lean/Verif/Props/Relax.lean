import Verif.Proofs.RelaxRun

/-!
# C90: in steady conditions the energy never increases and the run relaxes
-/

namespace Verif.Relax

open Verif.Mesh Verif.Assembly Verif.Tetra Verif.SparseMat Verif.Llg Verif.WeakForm Verif.TimeLoop Verif.Run Verif.Converge Verif.SemiDiscrete Set

section
variable {n : ℕ} {ET : Type} {P : Problem} {cfg : Cfg n ET} {nodes : Fin n → Node} {D : Media n P} {H : Tet → Fin P.G.n → V3} {Ms : ℝ}

theorem energyOf_eq {p : ℕ → V3} (h : P.mu0 * Ms ≠ 0) (mag : Fin n → Bool) (u : Fin n → V3) :
    energyOf P p D H mag u = P.mu0 * Ms * redEnergy P p D H Ms (state mag u) := by
  unfold energyOf redEnergy
  rw [tab_state, vecs_state', mul_div_cancel₀ _ h]

theorem norm_sq_le_state {mag : Fin n → Bool} (f : Fin n → V3) (i : Fin n) (hi : mag i = true) :
    (f i).norm ^ 2 ≤ 4 * ‖state mag f‖ ^ 2 := by
  have h1 : ‖state mag f i‖ ≤ ‖state mag f‖ := norm_le_pi_norm _ i
  have e : state mag f i = co (f i) := by simp only [state, masked, hi, if_true]
  rw [e] at h1
  have h2 := norm_le_co h1
  have h3 : 0 ≤ (f i).norm := Real.sqrt_nonneg _
  have h4 : (f i).norm ≤ 2 * ‖state mag f‖ := h2
  nlinarith

theorem state_le {mag : Fin n → Bool} {f : Fin n → V3} {ε : ℝ} (hε : 0 ≤ ε) (h : ∀ i, mag i = true → (f i).norm ≤ ε) : ‖state mag f‖ ≤ ε := by
  rw [pi_norm_le_iff_of_nonneg hε]
  intro i
  unfold state masked
  split_ifs with hi
  · have h1 := norm_co_sq (f i)
    have h2 := h i hi
    have h3 : (f i).norm ^ 2 = (f i).dot (f i) := by
      unfold V3.norm
      rw [Real.sq_sqrt]
      · rfl
      · unfold V3.nsq
        nlinarith [mul_self_nonneg (f i).x, mul_self_nonneg (f i).y, mul_self_nonneg (f i).z]
    have h4 : 0 ≤ (f i).norm := Real.sqrt_nonneg _
    nlinarith [norm_nonneg (co (f i))]
  · rw [co_zero, norm_zero]
    exact hε

theorem state_of_tab {S : Setting n} {mag : Fin n → Bool} (hmag : ∀ i : Fin n, S.magN i ↔ mag i = true) {c : X n} (hc : S.Admissible c) :
    state mag (tab c) = c := by
  funext i
  have hv : vecs c i = tab c i := by
    unfold vecs tab
    rw [dif_pos i.2]
  unfold state masked
  split_ifs with hi
  · rw [← hv]; exact Setting.co_vecs _ i
  · have := (hc i i.2).2 fun hm => hi ((hmag i).mp hm)
    rw [← Setting.co_vecs c i, this]

/-- a path in the coordinates is a path of the magnetization -/
theorem reaches_of {p : ℕ → V3} (hM : 0 < P.mu0 * Ms) {S : Setting n} {mag : Fin n → Bool} (hmag : ∀ i : Fin n, S.magN i ↔ mag i = true)
    {a b : Fin n → V3} {e : ℝ} (h : JoinedIn (well S (redEnergy P p D H Ms) e) (state mag a) (state mag b)) :
    Reaches mag (energyOf P p D H mag) (P.mu0 * Ms * e) a b := by
  obtain ⟨γ, hγ⟩ := h
  have hcont : ∀ (i : Fin n) (k : Fin 3), Continuous fun τ : ℝ => γ.extend τ i k := fun i k =>
    (continuous_apply k).comp ((continuous_apply i).comp γ.continuous_extend)
  have hst : ∀ (f : Fin n → V3) i, mag i = true → tab (state mag f) i = f i := fun f i hi => by
    rw [tab_state]; simp only [masked, hi, if_true]
  refine ⟨fun τ => tab (γ.extend τ), fun i => ⟨hcont i 0, hcont i 1, hcont i 2⟩, fun i hi => ⟨?_, ?_⟩, fun τ h0 h1 => ?_⟩
  · simp only [γ.extend_zero]; exact hst a i hi
  · simp only [γ.extend_one]; exact hst b i hi
  · obtain ⟨g1, g2⟩ : γ.extend τ ∈ well S (redEnergy P p D H Ms) e := by
      rw [γ.extend_apply ⟨h0, h1⟩]
      exact hγ _
    have hv : ∀ i : Fin n, vecs (γ.extend τ) i = tab (γ.extend τ) i := fun i => by
      unfold vecs tab
      rw [dif_pos i.2]
    refine ⟨fun i hi => ?_, ?_⟩
    · have := (g1 i i.2).1 ((hmag i).mpr hi)
      rw [hv] at this
      unfold IsUnit3
      simp only [V3.dot] at this
      linarith
    · rw [energyOf_eq hM.ne', state_of_tab hmag g1]
      exact mul_le_mul_of_nonneg_left g2 hM.le

/-- the derivative of the energy along a displacement -/
theorem energy_deriv (h : Steady P (fun i => (ext nodes i).p) D H Ms) (hM : P.mu0 * Ms ≠ 0) (u w : Fin n → V3) :
    HasDerivAt (fun τ : ℝ => energyOf P (fun i => (ext nodes i).p) D H cfg.magNode fun i => u i + τ * w i)
      (-(P.mu0 * Ms * (setting P cfg nodes D).work (0, state cfg.magNode u) (vecs (state cfg.magNode w)))) 0 := by
  have est : ∀ τ : ℝ, (state cfg.magNode fun i => u i + τ * w i) = state cfg.magNode u + τ • state cfg.magNode w := by
    intro τ
    funext i k
    simp only [state, masked, Pi.add_apply, Pi.smul_apply]
    split_ifs
    · fin_cases k <;> simp [co]
    · fin_cases k <;> simp [co]
  generalize state cfg.magNode u = c at est ⊢
  have e : (fun τ : ℝ => energyOf P (fun i => (ext nodes i).p) D H cfg.magNode fun i => u i + τ * w i) = fun τ =>
      P.mu0 * Ms * (redEnergy P (fun i => (ext nodes i).p) D H Ms c - τ * (setting P cfg nodes D).work (0, c) (vecs (state cfg.magNode w))
        + τ ^ 2 * quad P (fun i => (ext nodes i).p) D (state cfg.magNode w)) := by
    funext τ
    rw [energyOf_eq hM, est, red_taylor (cfg := cfg) h hM]
  rw [e]
  have h6 := ((((hasDerivAt_id (0 : ℝ)).mul_const ((setting P cfg nodes D).work (0, c) (vecs (state cfg.magNode w)))).const_sub
    (redEnergy P (fun i => (ext nodes i).p) D H Ms c)).add
    (((hasDerivAt_id (0 : ℝ)).pow 2).mul_const (quad P (fun i => (ext nodes i).p) D (state cfg.magNode w)))).const_mul (P.mu0 * Ms)
  refine h6.congr_deriv ?_
  simp

/-- what holds in every run, with the same constants -/
theorem core_down (hs : Start P cfg nodes) (hd : P.dir = none) (h : Steady P (fun i => (ext nodes i).p) D H Ms) :
    ∃ κ δ, 0 < κ ∧ 0 < δ ∧ ∀ (cfg' : Cfg n ET) (nodes' : Fin n → Node) (t0 : ℝ) (inp : ℕ → Input n) (V : ℕ → ℝ),
      cfg'.gamma0 = cfg.gamma0 → cfg'.magNode = cfg.magNode → (∀ i, (nodes' i).p = (nodes i).p) →
      (∀ i, cfg.magNode i = true → IsUnit3 (nodes' i).next.u ∧ (nodes' i).next.v = 0) →
      Valid cfg' → NoRecenter cfg' → (∀ t dt, cfg'.add t dt = t + dt) → cfg'.DTMAX ≤ δ →
      ExactRun P cfg' (D.world cfg'.magNode) V t0 nodes' inp →
      Start P cfg' nodes' ∧ setting P cfg' nodes' D = setting P cfg nodes D ∧
      ∀ k, Down P cfg' D (setting P cfg nodes D) (redEnergy P (fun i => (ext nodes i).p) D H Ms) t0 (nextU cfg' nodes')
          (run cfg' t0 nodes' ((D.world cfg'.magNode).pot nodes') inp k) ∧
        Drop cfg' (setting P cfg nodes D) (redEnergy P (fun i => (ext nodes i).p) D H Ms) κ
          (run cfg' t0 nodes' ((D.world cfg'.magNode).pot nodes') inp k)
          (run cfg' t0 nodes' ((D.world cfg'.magNode).pot nodes') inp (k + 1)) ∧
        (setting P cfg nodes D).Admissible (curU cfg' (run cfg' t0 nodes' ((D.world cfg'.magNode).pot nodes') inp k).nodes) := by
  have hM : 0 < P.mu0 * Ms := mul_pos hs.mu0 h.pos
  have hS := good hs h.smooth
  have hG := grad (cfg := cfg) h hM.ne'
  have hQ : 0 ≤ 2 * (P.theta * cfg.gamma0) := by
    have := mul_nonneg hs.theta hs.gamma0.le
    linarith
  obtain ⟨δ, κ, hδ, hκ, hdes⟩ := Setting.descent hS hG hQ
  refine ⟨κ, δ / 2, hκ, by positivity, ?_⟩
  intro cfg' nodes' t0 inp V hg hm hp hu hv hR hadd hdt hex
  have hs' : Start P cfg' nodes' :=
    { hs with
      oriented := fun t ht => by
        have e : MeshElem.nod4 (fun i => (Run.ext nodes' i).p) t = MeshElem.nod4 (fun i => (Run.ext nodes i).p) t := by
          funext j
          have hj := hs.valid t ht j
          unfold MeshElem.nod4 Run.ext
          dsimp only
          rw [dif_pos hj, dif_pos hj]
          exact hp _
        rw [e]
        exact hs.oriented t ht
      magNode := fun i => by rw [hm]; exact hs.magNode i
      unit := fun i hi => by rw [hm] at hi; exact (hu i hi).1
      gamma0 := by rw [hg]; exact hs.gamma0 }
  have hpe : (fun i => (Run.ext nodes' i).p) = fun i => (Run.ext nodes i).p := by
    funext i
    unfold Run.ext
    split_ifs
    · exact hp _
    · rfl
  have hset : setting P cfg' nodes' D = setting P cfg nodes D := by
    unfold setting
    rw [hg, hpe]
  have hDp : 0 < cfg'.DTMAX := hv.dtmin.trans_le hv.dtmax
  have hU : RecenterKeepsUnit cfg' := fun nd nd' h => by rw [hR] at h; cases h; exact id
  set R := redEnergy P (fun i => (ext nodes i).p) D H Ms with hRd
  have hdes' : Descends (setting P cfg' nodes' D) R (2 * (P.theta * cfg'.gamma0)) δ κ := by
    rw [hset, hg]
    exact hdes
  have hstep := fun k => step_down hs' hd hv hR hadd hex hκ hdes' (by nlinarith) (c0 := nextU cfg' nodes') k
  have hdown : ∀ k, Down P cfg' D (setting P cfg' nodes' D) R t0 (nextU cfg' nodes')
      (run cfg' t0 nodes' ((D.world cfg'.magNode).pot nodes') inp k) := by
    intro k
    induction k with
    | zero =>
      refine init_down (fun i hi => by rw [hm] at hi; exact (hu i hi).2) ?_
      refine motion_admissible hs' (y := fun _ i => (nodes' i).next.u) (t := 0) fun i hi' => ?_
      have := (hu i (by rw [← hm]; exact hi')).1
      unfold IsUnit3 at this
      simp only [V3.dot]
      linarith
    | succ k ih => exact (hstep k ih).1
  refine ⟨hs', hset, fun k => ?_⟩
  have h1 := (hdown k)
  have h2 := (hstep k h1).2
  rw [hset] at h1 h2
  refine ⟨h1, h2, ?_⟩
  rw [← hset]
  refine motion_admissible hs' (y := fun _ i => ((run cfg' t0 nodes' ((D.world cfg'.magNode).pot nodes') inp k).nodes i).cur.u) (t := 0)
    fun i hi' => ?_
  have := (allUnit_run hU t0 nodes' ((D.world cfg'.magNode).pot nodes') inp hs'.unit k i hi').1
  unfold IsUnit3 at this
  simp only [V3.dot]
  linarith

/-- the theorems below, with the constants in common -/
theorem core (hs : Start P cfg nodes) (hd : P.dir = none) (h : Steady P (fun i => (ext nodes i).p) D H Ms) :
    ∃ c δ B C, 0 < c ∧ 0 < δ ∧ 0 < B ∧ 0 < C ∧ ∀ (cfg' : Cfg n ET) (nodes' : Fin n → Node) (t0 : ℝ) (inp : ℕ → Input n) (V : ℕ → ℝ),
      cfg'.gamma0 = cfg.gamma0 → cfg'.magNode = cfg.magNode → (∀ i, (nodes' i).p = (nodes i).p) →
      (∀ i, cfg.magNode i = true → IsUnit3 (nodes' i).next.u ∧ (nodes' i).next.v = 0) →
      Valid cfg' → NoRecenter cfg' → (∀ t dt, cfg'.add t dt = t + dt) → cfg'.DTMAX ≤ δ →
      ExactRun P cfg' (D.world cfg'.magNode) V t0 nodes' inp →
      ∀ k, let s := run cfg' t0 nodes' ((D.world cfg'.magNode).pot nodes') inp k
        let s' := run cfg' t0 nodes' ((D.world cfg'.magNode).pot nodes') inp (k + 1)
        let W := energyOf P (fun i => (ext nodes i).p) D H cfg.magNode
        |W fun i => (s.nodes i).cur.u| ≤ B ∧
        Reaches cfg.magNode W (W fun i => (nodes' i).next.u) (fun i => (nodes' i).next.u) (fun i => (s.nodes i).cur.u) ∧
        W (fun i => (s'.nodes i).cur.u) ≤ W (fun i => (s.nodes i).cur.u) ∧
        (Accepted s s' → s.t < s'.t ∧ (∀ i, cfg.magNode i = true →
          W (fun i => (s'.nodes i).cur.u) + c * (s'.t - s.t) * (s'.nodes i).cur.v.norm ^ 2 ≤ W fun i => (s.nodes i).cur.u) ∧
          ∀ ε, 0 ≤ ε → (∀ i, cfg.magNode i = true → (s'.nodes i).cur.v.norm ≤ ε) → ∀ w : Fin n → V3,
            (∀ i, cfg.magNode i = true → (w i).dot (s'.nodes i).cur.u = 0 ∧ (w i).norm ≤ 1) →
            ∃ d, HasDerivAt (fun τ : ℝ => W fun i => (s'.nodes i).cur.u + τ * w i) d 0 ∧ |d| ≤ C * ε) ∧
        (s.rows.Pairwise fun r r' => W (fun i => (r'.nodes i).next.u) ≤ W fun i => (r.nodes i).next.u) ∧
        ∀ r ∈ s.rows, W (fun i => (s.nodes i).cur.u) ≤ W (fun i => (r.nodes i).next.u) ∧
          W (fun i => (r.nodes i).next.u) ≤ (W fun i => (nodes' i).next.u) ∧
          Reaches cfg.magNode W (W fun i => (nodes' i).next.u) (fun i => (nodes' i).next.u) (fun i => (r.nodes i).next.u) := by
  have hM : 0 < P.mu0 * Ms := mul_pos hs.mu0 h.pos
  have hS := good hs h.smooth
  obtain ⟨κ, δ, hκ, hδ, hrun⟩ := core_down (ET := ET) hs hd h
  obtain ⟨B, hB, hbd⟩ := red_bound (cfg := cfg) h hM.ne' hS
  obtain ⟨C, hC, hwork⟩ := work_small hS (tri_mag hs)
  refine ⟨P.mu0 * Ms * κ / 4, δ, P.mu0 * Ms * B, P.mu0 * Ms * (C * 2), by positivity, by positivity, by positivity, by positivity, ?_⟩
  intro cfg' nodes' t0 inp V hg hm hp hu hv hR hadd hdt hex
  obtain ⟨hs', hset, hall⟩ := hrun cfg' nodes' t0 inp V hg hm hp hu hv hR hadd hdt hex
  set R := redEnergy P (fun i => (ext nodes i).p) D H Ms with hRd
  intro k s s' W
  have hW : ∀ u, W u = P.mu0 * Ms * R (state cfg.magNode u) := fun u => energyOf_eq hM.ne' _ _
  obtain ⟨hdk, hdrop, hadm⟩ := hall k
  have hadm' := (hall (k + 1)).2.2
  change Down P cfg' D _ R t0 _ s at hdk
  change Drop cfg' _ R κ s s' at hdrop
  change (setting P cfg nodes D).Admissible (curU cfg' s.nodes) at hadm
  change (setting P cfg nodes D).Admissible (curU cfg' s'.nodes) at hadm'
  have ecu : ∀ nd : Fin n → Node, curU cfg' nd = state cfg.magNode fun i => (nd i).cur.u := fun nd => by unfold curU; rw [hm]
  have ecv : ∀ nd : Fin n → Node, curV cfg' nd = state cfg.magNode fun i => (nd i).cur.v := fun nd => by unfold curV; rw [hm]
  have enu : ∀ nd : Fin n → Node, nextU cfg' nd = state cfg.magNode fun i => (nd i).next.u := fun nd => by unfold nextU; rw [hm]
  simp only [hW]
  have hmag' : ∀ i : Fin n, (setting P cfg nodes D).magN i ↔ cfg.magNode i = true := fun i => magNode_getD hs i
  rw [ecu] at hadm hadm'
  refine ⟨?_, ?_, ?_, fun hacc => ⟨(hdrop.acc hacc).1, fun i hi => ?_, fun ε hε hsmall w hw => ?_⟩, ?_, fun r hr => ⟨?_, ?_, ?_⟩⟩
  · rw [abs_mul, abs_of_pos hM]
    exact mul_le_mul_of_nonneg_left (hbd _ (Setting.norm_le_one hadm)) hM.le
  · have := hdk.path
    rw [enu, ecu] at this
    exact reaches_of hM hmag' this
  · rw [← ecu, ← ecu]
    exact mul_le_mul_of_nonneg_left hdrop.le hM.le
  · obtain ⟨h1, h2, -⟩ := hdrop.acc hacc
    have h3 := norm_sq_le_state (mag := cfg.magNode) (fun i => (s'.nodes i).cur.v) i hi
    rw [← ecv] at h3
    rw [← ecu, ← ecu]
    have h4 : 0 ≤ κ * (s'.t - s.t) := mul_nonneg hκ.le (by linarith)
    have h5 := mul_le_mul_of_nonneg_left h3 h4
    have h6 : R (curU cfg' s'.nodes) + κ / 4 * (s'.t - s.t) * (s'.nodes i).cur.v.norm ^ 2 ≤ R (curU cfg' s.nodes) := by
      nlinarith
    have h7 := mul_le_mul_of_nonneg_left h6 hM.le
    linarith
  · obtain ⟨-, -, h3⟩ := hdrop.acc hacc
    rw [ecu, ecv] at h3
    set c := state cfg.magNode fun i => (s'.nodes i).cur.u with hc
    have h4 : ‖(setting P cfg nodes D).rhs (0, c)‖ ≤ 2 * ε := h3.trans (by linarith [state_le (mag := cfg.magNode) hε hsmall])
    have hw1 : ‖state cfg.magNode w‖ ≤ 1 := state_le zero_le_one fun i hi => (hw i hi).2
    have h5 := hwork c hadm' (state cfg.magNode w) (fun i hi => by
      have hin : i < n := (hS.magTet i hi).1
      have e1 := vecs_state cfg.magNode w ⟨i, hin⟩
      have e2 := vecs_state cfg.magNode (fun i => (s'.nodes i).cur.u) ⟨i, hin⟩
      have hmi := (hmag' ⟨i, hin⟩).mp hi
      dsimp only at e1 e2
      rw [e1, hc, e2]
      simp only [masked, hmi, if_true]
      exact (hw _ hmi).1)
    refine ⟨-(P.mu0 * Ms * (setting P cfg nodes D).work (0, c) (vecs (state cfg.magNode w))), ?_, ?_⟩
    · simp only [← hW]
      exact energy_deriv h hM.ne' _ _
    · rw [abs_neg, abs_mul, abs_of_pos hM, mul_assoc (P.mu0 * Ms)]
      refine mul_le_mul_of_nonneg_left (h5.trans ?_) hM.le
      have h7 : C * ‖(setting P cfg nodes D).rhs (0, c)‖ ≤ C * (2 * ε) := mul_le_mul_of_nonneg_left h4 hC.le
      have h8 : 0 ≤ C * ‖(setting P cfg nodes D).rhs (0, c)‖ := by positivity
      nlinarith [norm_nonneg (state cfg.magNode w)]
  · refine hdk.sorted.imp fun h => ?_
    rw [← enu, ← enu]
    exact mul_le_mul_of_nonneg_left h hM.le
  · rw [← ecu, ← enu]
    exact mul_le_mul_of_nonneg_left (hdk.rows r hr).1 hM.le
  · rw [← enu, ← enu]
    exact mul_le_mul_of_nonneg_left (hdk.rows r hr).2.1 hM.le
  · have := (hdk.rows r hr).2.2
    rw [enu, enu] at this
    exact reaches_of hM hmag' this

/-- **C90** In steady conditions there is a limit for `max(dt)`, the same for all initial magnetizations, under which no transition of
a run increases the energy, and an accepted step decreases it by at least `c dt |v|²`, where `v` is the velocity of any magnetic node
in that step. -/
theorem C90_energy (hs : Start P cfg nodes) (hd : P.dir = none) (h : Steady P (fun i => (ext nodes i).p) D H Ms) :
    ∃ c δ, 0 < c ∧ 0 < δ ∧ ∀ (cfg' : Cfg n ET) (nodes' : Fin n → Node) (t0 : ℝ) (inp : ℕ → Input n) (V : ℕ → ℝ),
      cfg'.gamma0 = cfg.gamma0 → cfg'.magNode = cfg.magNode → (∀ i, (nodes' i).p = (nodes i).p) →
      (∀ i, cfg.magNode i = true → IsUnit3 (nodes' i).next.u ∧ (nodes' i).next.v = 0) →
      Valid cfg' → NoRecenter cfg' → (∀ t dt, cfg'.add t dt = t + dt) → cfg'.DTMAX ≤ δ →
      ExactRun P cfg' (D.world cfg'.magNode) V t0 nodes' inp →
      ∀ k, let s := run cfg' t0 nodes' ((D.world cfg'.magNode).pot nodes') inp k
        let s' := run cfg' t0 nodes' ((D.world cfg'.magNode).pot nodes') inp (k + 1)
        let W := energyOf P (fun i => (ext nodes i).p) D H cfg.magNode
        W (fun i => (s'.nodes i).cur.u) ≤ W (fun i => (s.nodes i).cur.u) ∧
        (Accepted s s' → s.t < s'.t ∧ ∀ i, cfg.magNode i = true →
          W (fun i => (s'.nodes i).cur.u) + c * (s'.t - s.t) * (s'.nodes i).cur.v.norm ^ 2 ≤ W fun i => (s.nodes i).cur.u) := by
  obtain ⟨c, δ, B, C, hc, hδ, -, -, hk⟩ := core (ET := ET) hs hd h
  refine ⟨c, δ, hc, hδ, fun cfg' nodes' t0 inp V h1 h2 h3 h4 h5 h6 h7 h8 h9 k => ?_⟩
  obtain ⟨-, -, a, b, -⟩ := hk cfg' nodes' t0 inp V h1 h2 h3 h4 h5 h6 h7 h8 h9 k
  exact ⟨a, fun ha => ⟨(b ha).1, (b ha).2.1⟩⟩

/-- **C90** Under the same limit, the energies of the states in the rows of the output never increase from one row to any later row, and
none exceeds the energy of the initial magnetization. -/
theorem C90_rows (hs : Start P cfg nodes) (hd : P.dir = none) (h : Steady P (fun i => (ext nodes i).p) D H Ms) :
    ∃ δ, 0 < δ ∧ ∀ (cfg' : Cfg n ET) (nodes' : Fin n → Node) (t0 : ℝ) (inp : ℕ → Input n) (V : ℕ → ℝ),
      cfg'.gamma0 = cfg.gamma0 → cfg'.magNode = cfg.magNode → (∀ i, (nodes' i).p = (nodes i).p) →
      (∀ i, cfg.magNode i = true → IsUnit3 (nodes' i).next.u ∧ (nodes' i).next.v = 0) →
      Valid cfg' → NoRecenter cfg' → (∀ t dt, cfg'.add t dt = t + dt) → cfg'.DTMAX ≤ δ →
      ExactRun P cfg' (D.world cfg'.magNode) V t0 nodes' inp →
      ∀ k, let s := run cfg' t0 nodes' ((D.world cfg'.magNode).pot nodes') inp k
        let W := energyOf P (fun i => (ext nodes i).p) D H cfg.magNode
        (s.rows.Pairwise fun r r' => W (fun i => (r'.nodes i).next.u) ≤ W fun i => (r.nodes i).next.u) ∧
        ∀ r ∈ s.rows, W (fun i => (r.nodes i).next.u) ≤ W fun i => (nodes' i).next.u := by
  obtain ⟨c, δ, B, C, -, hδ, -, -, hk⟩ := core (ET := ET) hs hd h
  refine ⟨δ, hδ, fun cfg' nodes' t0 inp V h1 h2 h3 h4 h5 h6 h7 h8 h9 k => ?_⟩
  obtain ⟨-, -, -, -, a, b⟩ := hk cfg' nodes' t0 inp V h1 h2 h3 h4 h5 h6 h7 h8 h9 k
  exact ⟨a, fun r hr => (b r hr).2.1⟩

/-- **C90** Under the same limit, the time during which some magnetic node moves with velocity `ε` or more is at most `C / ε²`, with the
same `C` for every initial magnetization and however long the run is: what is left of it is spent near equilibrium. -/
theorem C90_relaxation (hs : Start P cfg nodes) (hd : P.dir = none) (h : Steady P (fun i => (ext nodes i).p) D H Ms) :
    ∃ C δ, 0 < C ∧ 0 < δ ∧ ∀ (cfg' : Cfg n ET) (nodes' : Fin n → Node) (t0 : ℝ) (inp : ℕ → Input n) (V : ℕ → ℝ),
      cfg'.gamma0 = cfg.gamma0 → cfg'.magNode = cfg.magNode → (∀ i, (nodes' i).p = (nodes i).p) →
      (∀ i, cfg.magNode i = true → IsUnit3 (nodes' i).next.u ∧ (nodes' i).next.v = 0) →
      Valid cfg' → NoRecenter cfg' → (∀ t dt, cfg'.add t dt = t + dt) → cfg'.DTMAX ≤ δ →
      ExactRun P cfg' (D.world cfg'.magNode) V t0 nodes' inp →
      ∀ ε, 0 < ε → ∀ k, timeAbove cfg' (run cfg' t0 nodes' ((D.world cfg'.magNode).pot nodes') inp) ε k ≤ C / ε ^ 2 := by
  obtain ⟨c, δ, B, C, hc, hδ, hB, -, hk⟩ := core (ET := ET) hs hd h
  refine ⟨2 * B / c, δ, by positivity, hδ, fun cfg' nodes' t0 inp V h1 h2 h3 h4 h5 h6 h7 h8 h9 ε hε k => ?_⟩
  have hst := hk cfg' nodes' t0 inp V h1 h2 h3 h4 h5 h6 h7 h8 h9
  set W := energyOf P (fun i => (ext nodes i).p) D H cfg.magNode with hW
  set S := run cfg' t0 nodes' ((D.world cfg'.magNode).pot nodes') inp with hS
  have key : ∀ k, W (fun i => ((S k).nodes i).cur.u) + c * ε ^ 2 * timeAbove cfg' S ε k ≤ W fun i => ((S 0).nodes i).cur.u := by
    intro k
    induction k with
    | zero =>
      change _ + c * ε ^ 2 * 0 ≤ _
      rw [mul_zero, add_zero]
    | succ k ih =>
      obtain ⟨-, -, a, b, -⟩ := hst k
      unfold timeAbove
      split_ifs with ha
      · obtain ⟨hacc, i, hi, hv⟩ := ha
        obtain ⟨b1, b2, -⟩ := b hacc
        have b3 := b2 i (by rw [← h2]; exact hi)
        have hsq : ε ^ 2 ≤ ((S (k + 1)).nodes i).cur.v.norm ^ 2 := pow_le_pow_left₀ hε.le hv 2
        have h10 : c * ((S (k + 1)).t - (S k).t) * ε ^ 2 ≤ c * ((S (k + 1)).t - (S k).t) * ((S (k + 1)).nodes i).cur.v.norm ^ 2 :=
          mul_le_mul_of_nonneg_left hsq (mul_nonneg hc.le (by linarith))
        have b4 : W (fun i => ((S (k + 1)).nodes i).cur.u) + c * ((S (k + 1)).t - (S k).t) * ((S (k + 1)).nodes i).cur.v.norm ^ 2 ≤
          W fun i => ((S k).nodes i).cur.u := b3
        nlinarith
      · have a' : W (fun i => ((S (k + 1)).nodes i).cur.u) ≤ W fun i => ((S k).nodes i).cur.u := a
        nlinarith
  have hb0 := (abs_le.mp (hst 0).1).2
  have hbk := (abs_le.mp (hst k).1).1
  have h0 := key k
  rw [div_div, le_div_iff₀ (by positivity)]
  nlinarith

/-- **C90** Under the same limit, after an accepted step in which no magnetic node moves faster than `ε`, the state is close to
equilibrium: the derivative of the energy in every direction tangent to the magnetization is at most `C ε`. -/
theorem C90_stationary (hs : Start P cfg nodes) (hd : P.dir = none) (h : Steady P (fun i => (ext nodes i).p) D H Ms) :
    ∃ C δ, 0 < C ∧ 0 < δ ∧ ∀ (cfg' : Cfg n ET) (nodes' : Fin n → Node) (t0 : ℝ) (inp : ℕ → Input n) (V : ℕ → ℝ),
      cfg'.gamma0 = cfg.gamma0 → cfg'.magNode = cfg.magNode → (∀ i, (nodes' i).p = (nodes i).p) →
      (∀ i, cfg.magNode i = true → IsUnit3 (nodes' i).next.u ∧ (nodes' i).next.v = 0) →
      Valid cfg' → NoRecenter cfg' → (∀ t dt, cfg'.add t dt = t + dt) → cfg'.DTMAX ≤ δ →
      ExactRun P cfg' (D.world cfg'.magNode) V t0 nodes' inp →
      ∀ k, let s := run cfg' t0 nodes' ((D.world cfg'.magNode).pot nodes') inp k
        let s' := run cfg' t0 nodes' ((D.world cfg'.magNode).pot nodes') inp (k + 1)
        let W := energyOf P (fun i => (ext nodes i).p) D H cfg.magNode
        Accepted s s' → ∀ ε, 0 ≤ ε → (∀ i, cfg.magNode i = true → (s'.nodes i).cur.v.norm ≤ ε) → ∀ w : Fin n → V3,
          (∀ i, cfg.magNode i = true → (w i).dot (s'.nodes i).cur.u = 0 ∧ (w i).norm ≤ 1) →
          ∃ d, HasDerivAt (fun τ : ℝ => W fun i => (s'.nodes i).cur.u + τ * w i) d 0 ∧ |d| ≤ C * ε := by
  obtain ⟨c, δ, B, C, -, hδ, -, hC, hk⟩ := core (ET := ET) hs hd h
  refine ⟨C, δ, hC, hδ, fun cfg' nodes' t0 inp V h1 h2 h3 h4 h5 h6 h7 h8 h9 k => ?_⟩
  obtain ⟨-, -, -, b, -⟩ := hk cfg' nodes' t0 inp V h1 h2 h3 h4 h5 h6 h7 h8 h9 k
  exact fun ha => (b ha).2.2

end

/-! ## A case that meets the hypotheses -/

/-- two tetrahedrons of the same material, with exchange and uniaxial anisotropy -/
noncomputable def exP (H : TriElem.Rule) : Problem := { Run.exP H with prm := fun _ => ⟨1 / 2, 1, 1, 1, ⟨0, 0, 1⟩, 0, 0, 0, 0⟩ }

/-- the potential of node 0, for a charge measured by its own field -/
noncomputable def exCharge (H : TriElem.Rule) (u : Fin 5 → V3) : ℝ :=
  demagWork (exP H) (fun i => (ext exNd i).p) (fun i => if i = 0 then 1 else 0) (extV u)

noncomputable def exMedia (H : TriElem.Rule) : Media 5 (exP H) where
  Hext _ _ := Energy.ex2H
  Hst _ _ _ _ := 0
  phi u i := if i = 0 then exCharge H u else 0
  phiv _ v i := if i = 0 then exCharge H v else 0

theorem extV_lin {n : ℕ} (a b : ℝ) (u w : Fin n → V3) : extV (fun i => a * u i + b * w i) = fun i => a * extV u i + b * extV w i := by
  funext i
  unfold extV
  split_ifs
  · rfl
  · ext <;> simp

theorem exCharge_lin (H : TriElem.Rule) (a b : ℝ) (u w : Fin 5 → V3) :
    exCharge H (fun i => a * u i + b * w i) = a * exCharge H u + b * exCharge H w := by
  unfold exCharge
  rw [extV_lin, demagWork_lin]

theorem exMedia_work (H : TriElem.Rule) (u w : Fin 5 → V3) :
    demagWork (exP H) (fun i => (ext exNd i).p) (extS ((exMedia H).phi u)) (extV w) = exCharge H u * exCharge H w := by
  have e : extS ((exMedia H).phi u) = fun i => exCharge H u * (if i = 0 then 1 else 0) + 0 * (if i = 0 then (1 : ℝ) else 0) := by
    funext i
    unfold extS
    by_cases hi : i = 0
    · subst hi
      simp [exMedia]
    · have : ∀ h : i < 5, (⟨i, h⟩ : Fin 5) ≠ 0 := fun h hc => hi (by simpa using congrArg Fin.val hc)
      simp [exMedia, hi, this]
  rw [e, demagWork_lin_phi]
  unfold exCharge
  ring

theorem ex_steady (H : TriElem.Rule) : Steady (exP H) (fun i => (ext exNd i).p) (exMedia H) Energy.ex2H 1 where
  pos := one_pos
  sameMs _ _ := rfl
  cubic _ _ := rfl
  surface f hf := by simp [exP, Run.exP] at hf
  applied _ _ := rfl
  spin _ _ := rfl
  linear a b u w i := by
    simp only [exMedia]
    split_ifs
    · exact exCharge_lin H a b u w
    · ring
  reciprocal u w := by rw [exMedia_work, exMedia_work, mul_comm]
  phiv := Or.inl fun _ _ => rfl

theorem ex_start' (H : TriElem.Rule) : Start (exP H) (exCfg 1) exNd :=
  { ex_start H 1 with
    alpha := fun _ _ => by norm_num [exP]
    exchange := fun _ _ => by norm_num [exP]
    magnetic := fun _ _ => by norm_num [exP] }

/-- For every largest step `d` the hypotheses hold for some run, from a magnetization which is not uniform. -/
example (H : TriElem.Rule) (d : ℝ) (hd : 0 < d) : Start (exP H) (exCfg 1) exNd ∧ (exP H).dir = none ∧
    Steady (exP H) (fun i => (ext exNd i).p) (exMedia H) Energy.ex2H 1 ∧
    (exCfgDt d).gamma0 = (exCfg 1).gamma0 ∧ (exCfgDt d).magNode = (exCfg 1).magNode ∧
    (∀ i, (exCfg 1).magNode i = true → IsUnit3 (exNd i).next.u ∧ (exNd i).next.v = 0) ∧
    Valid (exCfgDt d) ∧ NoRecenter (exCfgDt d) ∧ (∀ t dt, (exCfgDt d).add t dt = t + dt) ∧
    ∃ inp, ExactRun (exP H) (exCfgDt d) ((exMedia H).world (exCfgDt d).magNode) (fun _ => 0) 0 exNd inp ∧
      ∀ k, (inp k).sig = false ∧ (inp k).sol ≠ none := by
  have hs := ex_start' H
  have hs' : Start (exP H) (exCfgDt d) exNd := { hs with }
  have hv : Valid (exCfgDt d) := ⟨by change 0 < d / 10; positivity, by change d / 10 ≤ d; linarith, by norm_num [exCfgDt, Run.exCfg],
    by norm_num [exCfgDt, Run.exCfg], fun t dt => by
      have : (0 : ℝ) ≤ d / 10 / 2 := by positivity
      simpa [exCfgDt, Run.exCfg] using this⟩
  obtain ⟨inp, h1, h2⟩ := exists_exactRun hs' hv (ex_keeps 1).1 (ex_keeps 1).2 ((exMedia H).world (exCfgDt d).magNode) (fun _ => 0) 0
    (fun _ => 0)
  exact ⟨hs, rfl, ex_steady H, rfl, rfl, fun i hi => ⟨hs.unit i hi, rfl⟩, hv, fun _ => rfl, fun _ _ => rfl, inp, h1,
    fun k => ⟨(h2 k).1, (h2 k).2.2⟩⟩

end Verif.Relax
