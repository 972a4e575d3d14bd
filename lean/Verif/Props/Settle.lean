import Verif.Props.Barrier
import Verif.Proofs.Settle
import Verif.Proofs.NonObtuse

/-!
# C108: in an energy well with one equilibrium, every run converges to this equilibrium
-/

namespace Verif.Relax

open Verif.Mesh Verif.Assembly Verif.Tetra Verif.SparseMat Verif.Llg Verif.WeakForm Verif.TimeLoop Verif.Run Verif.Converge Verif.SemiDiscrete Set

section
variable {n : ℕ} {ET : Type} {P : Problem} {cfg : Cfg n ET} {nodes : Fin n → Node} {D : Media n P} {H : Tet → Fin P.G.n → V3} {Ms : ℝ}

theorem isClosed_admissible (S : Setting n) : IsClosed {c : X n | S.Admissible c} := by
  have e : {c : X n | S.Admissible c} = ⋂ i : Fin n, {c : X n | (S.magN i → (vecs c i).dot (vecs c i) = 1) ∧ (¬ S.magN i → c i = 0)} := by
    ext c
    simp only [mem_ofPred_eq, mem_iInter]
    constructor
    · intro h i
      refine ⟨(h i i.2).1, fun hi => ?_⟩
      rw [← Setting.co_vecs c i, (h i i.2).2 hi]
      exact co_zero
    · intro h i hi
      refine ⟨(h ⟨i, hi⟩).1, fun hm => ?_⟩
      have := (h ⟨i, hi⟩).2 hm
      unfold vecs
      rw [dif_pos hi, this]
      rfl
  rw [e]
  refine isClosed_iInter fun i => ?_
  have h1 : Continuous fun c : X n => (vecs c i).dot (vecs c i) := by
    simp only [vecs, i.2, dif_pos, V3.dot]
    fun_prop
  by_cases hi : S.magN i
  · simp only [hi, true_imp_iff, not_true_eq_false, false_imp_iff, and_true]
    exact isClosed_eq h1 continuous_const
  · simp only [hi, false_imp_iff, not_false_eq_true, true_imp_iff, true_and]
    exact isClosed_eq (continuous_apply i) continuous_const

theorem Well.moving {mag : Fin n → Bool} {W f : (Fin n → V3) → ℝ} {a e : ℝ} {m : Fin n → V3} (h : Well mag W f a e m)
    (γ : ℝ → Fin n → V3) (hγ : Moving γ) : Continuous fun τ => f (γ τ) := by
  have h1 : Continuous fun τ => (fun i => co (γ τ i) : Fin n → Fin 3 → ℝ) := by
    refine continuous_pi fun i => continuous_pi fun k => ?_
    obtain ⟨hx, hy, hz⟩ := hγ i
    fin_cases k
    · exact hx
    · exact hy
    · exact hz
  have e2 : ∀ τ, tab (fun i => co (γ τ i)) = γ τ := fun τ => by
    funext i
    simp [tab, co]
  have h2 := h.continuous.comp h1
  simpa only [Function.comp_def, e2] using h2

theorem near_of_state {mag : Fin n → Bool} {u m : Fin n → V3} {ε : ℝ} (h : ‖state mag u - state mag m‖ < ε / 2) (i : Fin n) (hi : mag i = true) :
    (u i - m i).norm ≤ ε := by
  have h1 : ‖(state mag u - state mag m) i‖ ≤ ‖state mag u - state mag m‖ := norm_le_pi_norm _ i
  have e : (state mag u - state mag m) i = co (u i - m i) := by
    funext k
    simp only [Pi.sub_apply, state, masked, hi, if_true]
    fin_cases k <;> simp [co]
  rw [e] at h1
  have h2 : (u i - m i).norm ≤ 2 * ‖state mag u - state mag m‖ := norm_le_co h1
  linarith

/-- **C108** In steady conditions there is a limit for `max(dt)` under which every run which begins in an energy well with one equilibrium
`m` converges to it: however small `ε`, after a simulated time `T` which depends on the well and on `ε` but not on the initial
magnetization nor on the steps, the magnetization of every magnetic node is within `ε` of `m`, and so it is in every row of the output
after this time. -/
theorem C108_settles (hs : Start P cfg nodes) (hd : P.dir = none) (h : Steady P (fun i => (ext nodes i).p) D H Ms) :
    ∃ δ, 0 < δ ∧ ∀ (f : (Fin n → V3) → ℝ) (a e : ℝ) (m : Fin n → V3),
      Well cfg.magNode (energyOf P (fun i => (ext nodes i).p) D H cfg.magNode) f a e m →
      ∀ ε, 0 < ε → ∃ T, ∀ (cfg' : Cfg n ET) (nodes' : Fin n → Node) (t0 : ℝ) (inp : ℕ → Input n) (V : ℕ → ℝ),
      cfg'.gamma0 = cfg.gamma0 → cfg'.magNode = cfg.magNode → (∀ i, (nodes' i).p = (nodes i).p) →
      (∀ i, cfg.magNode i = true → IsUnit3 (nodes' i).next.u ∧ (nodes' i).next.v = 0) →
      Valid cfg' → NoRecenter cfg' → (∀ t dt, cfg'.add t dt = t + dt) → cfg'.DTMAX ≤ δ →
      ExactRun P cfg' (D.world cfg'.magNode) V t0 nodes' inp →
      f (fun i => (nodes' i).next.u) < a → energyOf P (fun i => (ext nodes i).p) D H cfg.magNode (fun i => (nodes' i).next.u) ≤ e →
      ∀ k, let s := run cfg' t0 nodes' ((D.world cfg'.magNode).pot nodes') inp k
        ∀ i, cfg.magNode i = true → (t0 + T < s.t → ((s.nodes i).cur.u - m i).norm ≤ ε) ∧
          ∀ r ∈ s.rows, t0 + T < r.t → ((r.nodes i).next.u - m i).norm ≤ ε := by
  have hM : 0 < P.mu0 * Ms := mul_pos hs.mu0 h.pos
  have hS := good hs h.smooth
  have hG := grad (cfg := cfg) h hM.ne'
  obtain ⟨κ, δ, hκ, hδ, hrun⟩ := core_down (ET := ET) hs hd h
  refine ⟨δ, hδ, fun f a e m hw ε hε => ?_⟩
  set R := redEnergy P (fun i => (ext nodes i).p) D H Ms with hRd
  set S := setting P cfg nodes D with hSd
  have hmag : ∀ i : Fin n, S.magN i ↔ cfg.magNode i = true := fun i => magNode_getD hs i
  have hW : ∀ u, energyOf P (fun i => (ext nodes i).p) D H cfg.magNode u = P.mu0 * Ms * R (state cfg.magNode u) := fun u =>
    energyOf_eq hM.ne' _ _
  have hfs : ∀ u, f (tab (state cfg.magNode u)) = f u := fun u => hw.depends _ _ fun i hi => by
    rw [tab_state]; simp only [masked, hi, if_true]
  have htabU : ∀ c, S.Admissible c → ∀ i, cfg.magNode i = true → IsUnit3 (tab c i) := by
    intro c hc i hi
    have h1 := (hc i i.2).1 ((hmag i).mpr hi)
    have hv : vecs c i = tab c i := by unfold vecs tab; rw [dif_pos i.2]
    rw [hv] at h1
    unfold IsUnit3
    simp only [V3.dot] at h1
    linarith
  set N : Set (X n) := {c | S.Admissible c} ∩ {c | f (tab c) ≤ a} ∩ {c | P.mu0 * Ms * R c ≤ e} with hNd
  have hRc := Setting.grad_continuous hS hG
  have hAc : IsCompact {c : X n | S.Admissible c} := Metric.isCompact_of_isClosed_isBounded (isClosed_admissible S)
    ((Metric.isBounded_closedBall (x := (0 : X n)) (r := 1)).subset fun c hc => mem_closedBall_zero_iff.mpr (Setting.norm_le_one hc))
  have hAf : IsCompact ({c : X n | S.Admissible c} ∩ {c | f (tab c) ≤ a}) := hAc.inter_right (isClosed_le hw.continuous continuous_const)
  have hRA : ContinuousOn (fun c => P.mu0 * Ms * R c) ({c : X n | S.Admissible c} ∩ {c | f (tab c) ≤ a}) :=
    continuousOn_const.mul (hRc.mono fun c hc => mem_closedBall_zero_iff.mpr (Setting.norm_le_one hc.1))
  have hN : IsCompact N := hAf.of_isClosed_subset (hRA.preimage_isClosed_of_isClosed hAf.isClosed isClosed_Iic) inter_subset_left
  have hWc : ∀ c, S.Admissible c → energyOf P (fun i => (ext nodes i).p) D H cfg.magNode (tab c) = P.mu0 * Ms * R c := fun c hc => by
    rw [hW, state_of_tab hmag hc]
  have hlt : ∀ c ∈ N, f (tab c) < a := by
    intro c hc
    refine lt_of_le_of_ne hc.1.2 fun heq => ?_
    have h1 := hw.barrier (tab c) (htabU c hc.1.1) heq
    rw [hWc c hc.1.1] at h1
    exact absurd hc.2 (not_le.mpr h1)
  obtain ⟨T, hT⟩ := Setting.settle hS hG (tri_mag hs) hN (fun c hc => hc.1.1) (m := state cfg.magNode m)
    (fun c hc => by
      have h1 : ∀ᶠ c' in nhds c, f (tab c') < a := hw.continuous.continuousAt.eventually_lt continuousAt_const (hlt c hc)
      obtain ⟨r, hr, h2⟩ := Metric.eventually_nhds_iff.mp h1
      refine ⟨r, hr, fun c' h3 h4 h5 => ⟨⟨h3, (h2 (by rw [dist_eq_norm]; exact h4)).le⟩, ?_⟩⟩
      exact (mul_le_mul_of_nonneg_left h5 hM.le).trans hc.2)
    (fun c hc hst => by
      have h1 : Stationary cfg.magNode (energyOf P (fun i => (ext nodes i).p) D H cfg.magNode) (tab c) := by
        intro w hw'
        have h2 := energy_deriv (cfg := cfg) h hM.ne' (tab c) w
        rw [state_of_tab hmag hc.1.1, hst (state cfg.magNode w) (fun i hi => ?_) (fun i hi => ?_)] at h2
        · simpa using h2
        · have hin : i < n := (hS.magTet i hi).1
          have hmi := (hmag ⟨i, hin⟩).mp hi
          have e1 := vecs_state cfg.magNode w ⟨i, hin⟩
          dsimp only at e1
          have hv : vecs c i = tab c ⟨i, hin⟩ := by unfold vecs tab; rw [dif_pos hin]
          rw [e1, hv]
          simp only [masked, hmi, if_true]
          exact hw' _ hmi
        · unfold state masked
          rw [if_neg fun hm => hi ((hmag i).mpr hm)]
          exact co_zero
      have h3 := hw.one (tab c) (htabU c hc.1.1) (hlt c hc) (by rw [hWc c hc.1.1]; exact hc.2) h1
      rw [← state_of_tab hmag hc.1.1]
      funext i
      unfold state masked
      split_ifs with hi
      · rw [h3 i hi]
      · rfl)
    hκ (half_pos hε)
  refine ⟨T, fun cfg' nodes' t0 inp V hg hm hp hu hv hR hadd hdt hex hf0 he0 => ?_⟩
  obtain ⟨hs', hset, hall⟩ := hrun cfg' nodes' t0 inp V hg hm hp hu hv hR hadd hdt hex
  have ecu : ∀ nd : Fin n → Node, curU cfg' nd = state cfg.magNode fun i => (nd i).cur.u := fun nd => by unfold curU; rw [hm]
  have enu : ∀ nd : Fin n → Node, nextU cfg' nd = state cfg.magNode fun i => (nd i).next.u := fun nd => by unfold nextU; rw [hm]
  set st := run cfg' t0 nodes' ((D.world cfg'.magNode).pot nodes') inp with hst
  have hmem : ∀ k, curU cfg' (st k).nodes ∈ N := by
    intro k
    obtain ⟨hdk, -, hadm⟩ := hall k
    have h1 := hdk.path
    have h2 := hdk.first
    rw [enu, ecu] at h1 h2
    have h3 := reaches_of hM hmag h1
    rw [← hW] at h3
    have h4 := h3.not_pass (hw.moving) hw.depends hf0 fun u hu' hfu => he0.trans_lt (hw.barrier u hu' hfu)
    refine ⟨⟨hadm, ?_⟩, ?_⟩
    · change f (tab (curU cfg' (st k).nodes)) ≤ a
      rw [ecu, hfs]
      exact h4.le
    · change P.mu0 * Ms * R (curU cfg' (st k).nodes) ≤ e
      rw [ecu]
      refine (mul_le_mul_of_nonneg_left h2 hM.le).trans ?_
      rw [← hW]
      exact he0
  have hnear := hT (fun k => curU cfg' (st k).nodes) (fun k => (st k).t) (fun k => ‖curV cfg' (st (k + 1)).nodes‖) hmem
    (fun k => (hall k).2.1.le)
    (fun k => by
      rcases (hall k).2.1.rest with h1 | h1
      · exact Or.inl h1
      · exact Or.inr ((hall k).2.1.acc h1))
  have hzero : (st 0).t = t0 := rfl
  have hcur : ∀ k, t0 + T < (st k).t → ∀ i, cfg.magNode i = true → (((st k).nodes i).cur.u - m i).norm ≤ ε := by
    intro k hk i hi
    have h1 := hnear k (by rw [hzero]; exact hk)
    rw [ecu] at h1
    exact near_of_state (u := fun i => ((st k).nodes i).cur.u) h1 i hi
  have hrows : ∀ k, ∀ r ∈ (st k).rows, t0 + T < r.t → ∀ i, cfg.magNode i = true → ((r.nodes i).next.u - m i).norm ≤ ε := by
    intro k
    induction k with
    | zero => intro r hr; exact absurd hr List.not_mem_nil
    | succ k ih =>
      intro r hr
      rcases (hall k).2.1.rows with h1 | ⟨r', h1, h2, h3⟩
      · rw [h1] at hr
        exact ih r hr
      · rw [h1, List.mem_append, List.mem_singleton] at hr
        rcases hr with hr | rfl
        · exact ih r hr
        · intro ht i hi
          rw [h3 i]
          rw [h2] at ht
          exact hcur k ht i hi
  intro k s i hi
  exact ⟨fun ht => hcur k ht i hi, fun r hr ht => hrows k r hr ht i hi⟩

/-! ## A field too weak to reverse the magnetization -/

theorem gradDot_eq (p f g : Fin 4 → V3) : gradDot p f g = ∑ i, ∑ j, (daRow p i).dot (daRow p j) * (f i).dot (g j) := by
  unfold gradDot Tetra.deriv daRow
  simp only [Fin.sum_univ_four, V3.dot, V3.add_x, V3.add_y, V3.add_z, V3.smul_x, V3.smul_y, V3.smul_z]
  ring

theorem sum_weight_mul {G : Rule} (hG : Compiled G) (p : Fin 4 → V3) (hp : 0 < detJ p) (z y : Fin 4 → ℝ) (hz : ∀ i, 0 ≤ z i) (hy : ∀ i, 0 ≤ y i) :
    calcVol G p / 20 * ((∑ i, z i) * ∑ i, y i) ≤ ∑ j, weight G p j * (interpS G z j * interpS G y j) := by
  have hv : 0 < calcVol G p := by
    rw [calcVol_eq hG.ok]
    positivity
  have hlin : ∀ j, interpS G (fun i => z i + y i) j = interpS G z j + interpS G y j := fun j => by
    unfold interpS
    simp only [Fin.sum_univ_four]
    ring
  have hzy : 0 ≤ (∑ i, z i) * ∑ i, y i := mul_nonneg (Finset.sum_nonneg fun i _ => hz i) (Finset.sum_nonneg fun i _ => hy i)
  have hd : 0 ≤ ∑ i, z i * y i := Finset.sum_nonneg fun i _ => mul_nonneg (hz i) (hy i)
  have hpol : ∑ j, weight G p j * (interpS G z j * interpS G y j) = 1 / 2 * (∑ j, weight G p j * (interpS G (fun i => z i + y i) j * interpS G (fun i => z i + y i) j)
      - ∑ j, weight G p j * (interpS G z j * interpS G z j) - ∑ j, weight G p j * (interpS G y j * interpS G y j)) := by
    rw [← Finset.sum_sub_distrib, ← Finset.sum_sub_distrib, Finset.mul_sum]
    refine Finset.sum_congr rfl fun j _ => ?_
    rw [hlin]
    ring
  rcases hG with rfl | rfl
  · rw [hpol, sum_weight_sq1, sum_weight_sq1, sum_weight_sq1]
    simp only [Fin.sum_univ_four] at *
    nlinarith [mul_nonneg hv.le hzy]
  · rw [hpol, sum_weight_sq, sum_weight_sq, sum_weight_sq]
    simp only [Fin.sum_univ_four] at *
    nlinarith [mul_nonneg hv.le hd]

/-- in one element: the fields of exchange, of anisotropy and of the applied field work when the magnetization turns towards the easy axis -/
theorem elem_turn {G : Rule} (hG : Compiled G) (p : Fin 4 → V3) (hp : 0 < detJ p)
    (hobt : ∀ i j, i ≠ j → (daRow p i).dot (daRow p j) ≤ 0) {q : Prm} {mu0 K Hr : ℝ} {e : V3} (hM : 0 < mu0 * q.Ms) (hA : 0 ≤ q.A)
    (hK3 : q.K3 = 0) (hK : q.K = K) (hk : q.uk = e) (he : e.dot e = 1) (u : Fin 4 → V3) (hu : ∀ i, (u i).dot (u i) = 1)
    (hx : ∀ i, 0 ≤ e.dot (u i) ∧ mu0 * q.Ms * Hr ≤ 2 * K * e.dot (u i)) :
    calcVol G p / 20 / (mu0 * q.Ms) * ((∑ i, (2 * K * e.dot (u i) - mu0 * q.Ms * Hr)) * ∑ i, (1 - e.dot (u i) * e.dot (u i))) ≤
      -(2 * q.A / (mu0 * q.Ms)) * calcVol G p * gradDot p u (fun i => e - e.dot (u i) * u i)
      + work G p (fun j => (-Hr) * e + anisoField q mu0 (interpV G u j)) (fun i => e - e.dot (u i) * u i) := by
  have hv : 0 < calcVol G p := by
    rw [calcVol_eq hG.ok]
    positivity
  have hle : ∀ a b : V3, a.dot a = 1 → b.dot b = 1 → a.dot b ≤ 1 := by
    intro a b ha hb
    unfold V3.dot at *
    nlinarith [sq_nonneg (a.x - b.x), sq_nonneg (a.y - b.y), sq_nonneg (a.z - b.z)]
  have h1 : gradDot p u (fun i => e - e.dot (u i) * u i) ≤ 0 := by
    rw [gradDot_eq]
    have hc : ∀ i j, (u i).dot (e - e.dot (u j) * u j) = e.dot (u i) - e.dot (u j) * (u i).dot (u j) := by
      intro i j
      simp only [V3.dot, V3.sub_x, V3.sub_y, V3.sub_z, V3.smul_x, V3.smul_y, V3.smul_z]
      ring
    simp only [hc]
    have hsym : ∀ i j, (daRow p i).dot (daRow p j) = (daRow p j).dot (daRow p i) := fun i j => V3.dot_comm _ _
    have hs2 : ∑ i, ∑ j, (daRow p i).dot (daRow p j) * (e.dot (u i) - e.dot (u j) * (u i).dot (u j)) =
        ∑ i, ∑ j, (daRow p i).dot (daRow p j) * (e.dot (u j) - e.dot (u i) * (u i).dot (u j)) := by
      rw [Finset.sum_comm]
      refine Finset.sum_congr rfl fun i _ => Finset.sum_congr rfl fun j _ => ?_
      rw [hsym, V3.dot_comm (u j) (u i)]
    have hs3 : ∑ i, ∑ j, (daRow p i).dot (daRow p j) * (e.dot (u i) - e.dot (u j) * (u i).dot (u j)) =
        1 / 2 * ∑ i, ∑ j, (daRow p i).dot (daRow p j) * ((e.dot (u i) + e.dot (u j)) * (1 - (u i).dot (u j))) := by
      have : ∑ i, ∑ j, (daRow p i).dot (daRow p j) * ((e.dot (u i) + e.dot (u j)) * (1 - (u i).dot (u j))) =
          ∑ i, ∑ j, (daRow p i).dot (daRow p j) * (e.dot (u i) - e.dot (u j) * (u i).dot (u j)) +
          ∑ i, ∑ j, (daRow p i).dot (daRow p j) * (e.dot (u j) - e.dot (u i) * (u i).dot (u j)) := by
        rw [← Finset.sum_add_distrib]
        refine Finset.sum_congr rfl fun i _ => ?_
        rw [← Finset.sum_add_distrib]
        refine Finset.sum_congr rfl fun j _ => ?_
        ring
      rw [this, ← hs2]
      ring
    rw [hs3]
    have : ∑ i, ∑ j, (daRow p i).dot (daRow p j) * ((e.dot (u i) + e.dot (u j)) * (1 - (u i).dot (u j))) ≤ 0 := by
      refine Finset.sum_nonpos fun i _ => Finset.sum_nonpos fun j _ => ?_
      by_cases hij : i = j
      · rw [hij, hu j]
        simp
      · exact mul_nonpos_of_nonpos_of_nonneg (hobt i j hij) (mul_nonneg (by linarith [(hx i).1, (hx j).1]) (by linarith [hle _ _ (hu i) (hu j)]))
    linarith
  have h2 : 0 ≤ -(2 * q.A / (mu0 * q.Ms)) * calcVol G p * gradDot p u (fun i => e - e.dot (u i) * u i) := by
    have : 0 ≤ 2 * q.A / (mu0 * q.Ms) * calcVol G p := by positivity
    nlinarith
  have h3 : work G p (fun j => (-Hr) * e + anisoField q mu0 (interpV G u j)) (fun i => e - e.dot (u i) * u i) =
      (mu0 * q.Ms)⁻¹ * ∑ j, weight G p j * (interpS G (fun i => 2 * K * e.dot (u i) - mu0 * q.Ms * Hr) j * interpS G (fun i => 1 - e.dot (u i) * e.dot (u i)) j) := by
    unfold work
    rw [Finset.mul_sum]
    refine Finset.sum_congr rfl fun j _ => ?_
    have e1 : e.dot (interpV G (fun i => e - e.dot (u i) * u i) j) = interpS G (fun i => 1 - e.dot (u i) * e.dot (u i)) j := by
      rw [interpV_dot]
      congr 1
      funext i
      have : e.dot (e - e.dot (u i) * u i) = e.dot e - e.dot (u i) * e.dot (u i) := by
        simp only [V3.dot, V3.sub_x, V3.sub_y, V3.sub_z, V3.smul_x, V3.smul_y, V3.smul_z]
        ring
      rw [this, he]
    have e2 : interpS G (fun i => 2 * K * e.dot (u i) - mu0 * q.Ms * Hr) j = 2 * K * e.dot (interpV G u j) - mu0 * q.Ms * Hr := by
      rw [interpV_dot]
      have := G.a_sum j
      unfold interpS
      simp only [Fin.sum_univ_four] at this ⊢
      linear_combination (-(mu0 * q.Ms * Hr)) * this
    have e3 : (-Hr) * e + anisoField q mu0 (interpV G u j) = ((mu0 * q.Ms)⁻¹ * (2 * K * e.dot (interpV G u j) - mu0 * q.Ms * Hr)) * e := by
      unfold anisoField
      rw [hK3, hK, hk]
      have hM' := hM.ne'
      have hMs : q.Ms ≠ 0 := right_ne_zero_of_mul hM'
      have hmu : mu0 ≠ 0 := left_ne_zero_of_mul hM'
      ext <;> simp only [V3.add_x, V3.add_y, V3.add_z, V3.sub_x, V3.sub_y, V3.sub_z, V3.smul_x, V3.smul_y, V3.smul_z] <;> field_simp <;> ring
    dsimp only
    rw [e3, smul_dot, e1, e2]
    ring
  rw [h3]
  have h4 := sum_weight_mul hG p hp (fun i => 2 * K * e.dot (u i) - mu0 * q.Ms * Hr) (fun i => 1 - e.dot (u i) * e.dot (u i))
    (fun i => by linarith [(hx i).2]) (fun i => by nlinarith [hle e (u i) he (hu i), (hx i).1])
  have h5 := mul_le_mul_of_nonneg_left h4 (inv_nonneg.mpr hM.le)
  refine le_trans (le_of_eq ?_) (h5.trans (le_add_of_nonneg_left h2))
  rw [div_eq_mul_inv _ (mu0 * q.Ms)]
  ring

/-- without the demagnetizing field, there is no other equilibrium on this side of the barrier than the saturated state -/
theorem one_equilibrium (hs : Start P cfg nodes) (h : Steady P (fun i => (ext nodes i).p) D H Ms) {K Hr : ℝ} {e : V3}
    (hr : Reversed P (fun i => (ext nodes i).p) D H K Hr e) (hHr : 0 ≤ Hr) (hphi : ∀ u i, D.phi u i = 0)
    (hobt : NonObtuse P fun i => (ext nodes i).p) {u : Fin n → V3} (hu : ∀ i, cfg.magNode i = true → IsUnit3 (u i))
    (hx : ∀ i, cfg.magNode i = true → P.mu0 * Ms * Hr / (2 * K) < e.dot (u i))
    (hst : Stationary cfg.magNode (energyOf P (fun i => (ext nodes i).p) D H cfg.magNode) u) (i : Fin n) (hi : cfg.magNode i = true) :
    u i = e := by
  have hM : 0 < P.mu0 * Ms := mul_pos hs.mu0 h.pos
  have hKp := hr.hard
  have he : e.dot e = 1 := by
    have := hr.unit
    unfold IsUnit3 at this
    simp only [V3.dot]
    linarith
  have hu1 : ∀ i, cfg.magNode i = true → (u i).dot (u i) = 1 := fun i hi => by
    have := hu i hi
    unfold IsUnit3 at this
    simp only [V3.dot]
    linarith
  have hb : 0 ≤ P.mu0 * Ms * Hr / (2 * K) := by positivity
  have hx2 : ∀ i, cfg.magNode i = true → P.mu0 * Ms * Hr < 2 * K * e.dot (u i) := fun i hi => by
    have := hx i hi
    rw [div_lt_iff₀ (by positivity)] at this
    linarith
  set w : Fin n → V3 := fun i => e - e.dot (u i) * u i with hw
  have h1 := hst w fun i hi => by
    have e1 : (w i).dot (u i) = e.dot (u i) - e.dot (u i) * (u i).dot (u i) := by
      simp only [hw, V3.dot, V3.sub_x, V3.sub_y, V3.sub_z, V3.smul_x, V3.smul_y, V3.smul_z]
      ring
    rw [e1, hu1 i hi]
    ring
  have h2 := (energy_deriv (cfg := cfg) h hM.ne' u w).unique h1
  have h3 : (setting P cfg nodes D).work (0, state cfg.magNode u) (vecs (state cfg.magNode w)) = 0 := by
    rcases mul_eq_zero.mp (neg_eq_zero.mp h2) with h4 | h4
    · exact absurd h4 hM.ne'
    · exact h4
  rw [work_eq h] at h3
  have h4 : demagWork P (fun i => (ext nodes i).p) (extS (D.phi (tab (state cfg.magNode u)))) (vecs (state cfg.magNode w)) = 0 := by
    have : D.phi (tab (state cfg.magNode u)) = fun _ => 0 := funext fun i => hphi _ i
    rw [this]
    exact demagWork_zero _ _ _
  rw [h4, add_zero, vecs_state', vecs_state'] at h3
  unfold locWork at h3
  set p : ℕ → V3 := fun i => (ext nodes i).p with hp
  have hmem : ∀ t ∈ magTet P.mag P.tets, t ∈ P.tets ∧ P.mag t.reg = true := fun t ht => by
    unfold magTet at ht
    exact List.mem_filter.mp ht
  have hnode : ∀ t ∈ magTet P.mag P.tets, ∀ k, ∃ hk : t.ind k < n, cfg.magNode ⟨t.ind k, hk⟩ = true := fun t ht k =>
    ⟨hs.valid t (hmem t ht).1 k, (hs.magNode _).mpr ⟨t, (hmem t ht).1, (hmem t ht).2, k, rfl⟩⟩
  have hext : ∀ f : Fin n → V3, ∀ t ∈ magTet P.mag P.tets, ∀ k, extV (masked cfg.magNode f) (t.ind k) = extV f (t.ind k) := fun f t ht k => by
    obtain ⟨hk, hm⟩ := hnode t ht k
    unfold extV masked
    rw [dif_pos hk, dif_pos hk, if_pos hm]
  have hwk : ∀ t ∈ magTet P.mag P.tets, ∀ k, extV w (t.ind k) = e - e.dot (extV u (t.ind k)) * extV u (t.ind k) := fun t ht k => by
    obtain ⟨hk, -⟩ := hnode t ht k
    unfold extV
    rw [dif_pos hk, dif_pos hk]
  have hdet : ∀ t ∈ magTet P.mag P.tets, 0 < detJ fun k => p (t.ind k) := fun t ht => hs.oriented t (hmem t ht).1
  have huk : ∀ t ∈ magTet P.mag P.tets, ∀ k, (extV u (t.ind k)).dot (extV u (t.ind k)) = 1 ∧ 0 ≤ e.dot (extV u (t.ind k)) ∧
      P.mu0 * Ms * Hr < 2 * K * e.dot (extV u (t.ind k)) := fun t ht k => by
    obtain ⟨hk, hm⟩ := hnode t ht k
    unfold extV
    rw [dif_pos hk]
    exact ⟨hu1 _ hm, hb.trans (hx _ hm).le, hx2 _ hm⟩
  have hbound : ∀ t ∈ magTet P.mag P.tets, calcVol P.G (fun k => p (t.ind k)) / 20 / (P.mu0 * Ms) *
      ((∑ k, (2 * K * e.dot (extV u (t.ind k)) - P.mu0 * Ms * Hr)) * ∑ k, (1 - e.dot (extV u (t.ind k)) * e.dot (extV u (t.ind k)))) ≤
      -(2 * (P.prm t.reg).A / (P.mu0 * (P.prm t.reg).Ms)) * calcVol P.G (fun k => p (t.ind k)) *
        gradDot (fun k => p (t.ind k)) (fun k => extV (masked cfg.magNode u) (t.ind k)) (fun k => extV (masked cfg.magNode w) (t.ind k))
      + work P.G (fun k => p (t.ind k)) (fun j => H t j + anisoField (P.prm t.reg) P.mu0
          (interpV P.G (fun k => extV (masked cfg.magNode u) (t.ind k)) j)) (fun k => extV (masked cfg.magNode w) (t.ind k)) := by
    intro t ht
    obtain ⟨m1, m2⟩ := hr.material t ht
    have e1 : (fun k => extV (masked cfg.magNode w) (t.ind k)) = fun k => e - e.dot (extV u (t.ind k)) * extV u (t.ind k) :=
      funext fun k => by rw [hext w t ht, hwk t ht]
    have e2 : (fun k => extV (masked cfg.magNode u) (t.ind k)) = fun k => extV u (t.ind k) := funext fun k => hext u t ht k
    rw [e1, e2]
    have := elem_turn hs.rule (fun k => p (t.ind k)) (hdet t ht) (fun i j hij => daRow_nonobtuse (hobt t ht) i j hij) (q := P.prm t.reg)
      (mu0 := P.mu0) (K := K) (Hr := Hr) (e := e) (by rw [h.sameMs t ht]; exact hM) (hs.exchange _ (hmem t ht).2) (h.cubic t ht) m1 m2 he
      (fun k => extV u (t.ind k)) (fun k => (huk t ht k).1) (fun k => ⟨(huk t ht k).2.1, by rw [h.sameMs t ht]; exact (huk t ht k).2.2.le⟩)
    rw [h.sameMs t ht] at this ⊢
    simp only [hr.field t ht]
    exact this
  have hle1 : ∀ t ∈ magTet P.mag P.tets, ∀ k, 0 ≤ 1 - e.dot (extV u (t.ind k)) * e.dot (extV u (t.ind k)) := by
    intro t ht k
    obtain ⟨g1, g2, -⟩ := huk t ht k
    have : e.dot (extV u (t.ind k)) ≤ 1 := by
      unfold V3.dot at *
      nlinarith [sq_nonneg (e.x - (extV u (t.ind k)).x), sq_nonneg (e.y - (extV u (t.ind k)).y), sq_nonneg (e.z - (extV u (t.ind k)).z)]
    nlinarith
  have hsumz : ∀ t ∈ magTet P.mag P.tets, 0 < ∑ k, (2 * K * e.dot (extV u (t.ind k)) - P.mu0 * Ms * Hr) := fun t ht =>
    Finset.sum_pos (fun k _ => by linarith [(huk t ht k).2.2]) ⟨0, Finset.mem_univ _⟩
  have hpos : ∀ t ∈ magTet P.mag P.tets, 0 < calcVol P.G (fun k => p (t.ind k)) / 20 / (P.mu0 * Ms) := fun t ht => by
    rw [calcVol_eq hs.rule.ok]
    have := hdet t ht
    positivity
  obtain ⟨t, ht0, hm0, k, hk⟩ := (hs.magNode i).mp hi
  have ht : t ∈ magTet P.mag P.tets := by
    unfold magTet
    exact List.mem_filter.mpr ⟨ht0, hm0⟩
  have hzero : ∀ t ∈ magTet P.mag P.tets, 0 ≤ calcVol P.G (fun k => p (t.ind k)) / 20 / (P.mu0 * Ms) *
      ((∑ k, (2 * K * e.dot (extV u (t.ind k)) - P.mu0 * Ms * Hr)) * ∑ k, (1 - e.dot (extV u (t.ind k)) * e.dot (extV u (t.ind k)))) :=
    fun t ht => mul_nonneg (hpos t ht).le (mul_nonneg (hsumz t ht).le (Finset.sum_nonneg fun k _ => hle1 t ht k))
  have h5 := List.single_le_sum (l := (magTet P.mag P.tets).map fun t => -(2 * (P.prm t.reg).A / (P.mu0 * (P.prm t.reg).Ms)) * calcVol P.G (fun k => p (t.ind k)) *
        gradDot (fun k => p (t.ind k)) (fun k => extV (masked cfg.magNode u) (t.ind k)) (fun k => extV (masked cfg.magNode w) (t.ind k))
      + work P.G (fun k => p (t.ind k)) (fun j => H t j + anisoField (P.prm t.reg) P.mu0
          (interpV P.G (fun k => extV (masked cfg.magNode u) (t.ind k)) j)) (fun k => extV (masked cfg.magNode w) (t.ind k)))
    (by
      intro x hx
      obtain ⟨t', ht', rfl⟩ := List.mem_map.mp hx
      exact (hzero t' ht').trans (hbound t' ht'))
    _ (List.mem_map.mpr ⟨t, ht, rfl⟩)
  rw [h3] at h5
  have h6 := (hbound t ht).trans h5
  have h7 : ∑ k, (1 - e.dot (extV u (t.ind k)) * e.dot (extV u (t.ind k))) ≤ 0 := by
    by_contra hcon
    rw [not_le] at hcon
    exact absurd h6 (not_le.mpr (mul_pos (hpos t ht) (mul_pos (hsumz t ht) hcon)))
  have h8 := (Finset.single_le_sum (fun k _ => hle1 t ht k) (Finset.mem_univ k)).trans h7
  have e3 : extV u (t.ind k) = u i := by
    unfold extV
    rw [dif_pos (by rw [hk]; exact i.2)]
    congr 1
    exact Fin.ext hk
  rw [e3] at h8
  have h9 : 1 ≤ e.dot (u i) := by nlinarith [hb.trans (hx i hi).le]
  have h10 := hu1 i hi
  have hd : (u i).x = e.x ∧ (u i).y = e.y ∧ (u i).z = e.z := by
    have : (u i - e).dot (u i - e) ≤ 0 := by
      have : (u i - e).dot (u i - e) = (u i).dot (u i) + e.dot e - 2 * e.dot (u i) := by
        simp only [V3.dot, V3.sub_x, V3.sub_y, V3.sub_z]
        ring
      rw [this]
      linarith
    simp only [V3.dot, V3.sub_x, V3.sub_y, V3.sub_z] at this
    refine ⟨?_, ?_, ?_⟩
    · nlinarith [mul_self_nonneg ((u i).x - e.x), mul_self_nonneg ((u i).y - e.y), mul_self_nonneg ((u i).z - e.z)]
    · nlinarith [mul_self_nonneg ((u i).x - e.x), mul_self_nonneg ((u i).y - e.y), mul_self_nonneg ((u i).z - e.z)]
    · nlinarith [mul_self_nonneg ((u i).x - e.x), mul_self_nonneg ((u i).y - e.y), mul_self_nonneg ((u i).z - e.z)]
  exact V3.ext hd.1 hd.2.1 hd.2.2

/-- the well of the saturated state; the quantity is minus the smallest component along the easy axis -/
theorem saturated_well (hs : Start P cfg nodes) (h : Steady P (fun i => (ext nodes i).p) D H Ms) (hphi : ∀ u i, D.phi u i = 0)
    (hobt : NonObtuse P fun i => (ext nodes i).p) {K Hr : ℝ} {e : V3} (hr : Reversed P (fun i => (ext nodes i).p) D H K Hr e) (hHr : 0 ≤ Hr)
    (hlt : P.mu0 * Ms * Hr < 2 * K) {v : ℝ} (hv : ∀ t ∈ magTet P.mag P.tets, v ≤ calcVol P.G fun k => (ext nodes (t.ind k)).p) {e0 : ℝ}
    (he0 : e0 < magVol P (fun i => (ext nodes i).p) * (P.mu0 * Ms * Hr - K) + (2 * K - P.mu0 * Ms * Hr) ^ 2 / (16 * K) * v)
    (hne : (Finset.univ.filter fun i => cfg.magNode i = true).Nonempty) :
    Well cfg.magNode (energyOf P (fun i => (ext nodes i).p) D H cfg.magNode)
      (fun u => (Finset.univ.filter fun i => cfg.magNode i = true).sup' hne fun i => -e.dot (u i)) (-(P.mu0 * Ms * Hr / (2 * K))) e0 fun _ => e := by
  refine ⟨?_, fun u w huw => ?_, fun u hu hf => he0.trans_le (barrier_energy hs h hr hlt hv hne hu hf), fun u hu hf _ hst i hi => ?_⟩
  · refine Continuous.finset_sup'_apply hne fun j _ => ?_
    simp only [V3.dot, tab]
    fun_prop
  · refine Finset.sup'_congr hne rfl fun j hj => ?_
    rw [huw j (Finset.mem_filter.mp hj).2]
  · refine one_equilibrium hs h hr hHr hphi hobt hu (fun j hj => ?_) hst i hi
    have := (Finset.sup'_lt_iff hne).mp hf j (Finset.mem_filter.mpr ⟨Finset.mem_univ _, hj⟩)
    linarith

/-- **C108** A material with uniaxial anisotropy, in a field opposite to the easy direction `e` and weaker than the anisotropy field
(`mu0 Ms Hr < 2 K`), without the demagnetizing field, on a mesh without obtuse dihedral angles: every run which begins on this side of the
barrier at every node, with an energy not too far above the energy of the saturated state, converges to the saturated state: after a time
`T`, which is the same for all initial magnetizations of energy at most `e0`, the magnetization of each magnetic node is within `ε` of `e`,
and so it is in the rows of the output after this time. -/
theorem C108_saturates (hs : Start P cfg nodes) (hd : P.dir = none) (h : Steady P (fun i => (ext nodes i).p) D H Ms)
    (hphi : ∀ u i, D.phi u i = 0) (hobt : NonObtuse P fun i => (ext nodes i).p) :
    ∃ δ, 0 < δ ∧ ∀ K Hr e, Reversed P (fun i => (ext nodes i).p) D H K Hr e → 0 ≤ Hr → P.mu0 * Ms * Hr < 2 * K →
      ∀ v, (∀ t ∈ magTet P.mag P.tets, v ≤ calcVol P.G fun k => (ext nodes (t.ind k)).p) →
      ∀ e0, e0 < magVol P (fun i => (ext nodes i).p) * (P.mu0 * Ms * Hr - K) + (2 * K - P.mu0 * Ms * Hr) ^ 2 / (16 * K) * v →
      ∀ ε, 0 < ε → ∃ T, ∀ (cfg' : Cfg n ET) (nodes' : Fin n → Node) (t0 : ℝ) (inp : ℕ → Input n) (V : ℕ → ℝ),
      cfg'.gamma0 = cfg.gamma0 → cfg'.magNode = cfg.magNode → (∀ i, (nodes' i).p = (nodes i).p) →
      (∀ i, cfg.magNode i = true → IsUnit3 (nodes' i).next.u ∧ (nodes' i).next.v = 0) →
      Valid cfg' → NoRecenter cfg' → (∀ t dt, cfg'.add t dt = t + dt) → cfg'.DTMAX ≤ δ →
      ExactRun P cfg' (D.world cfg'.magNode) V t0 nodes' inp →
      (∀ i, cfg.magNode i = true → P.mu0 * Ms * Hr / (2 * K) < e.dot (nodes' i).next.u) →
      energyOf P (fun i => (ext nodes i).p) D H cfg.magNode (fun i => (nodes' i).next.u) ≤ e0 →
      ∀ k, let s := run cfg' t0 nodes' ((D.world cfg'.magNode).pot nodes') inp k
        ∀ i, cfg.magNode i = true → (t0 + T < s.t → ((s.nodes i).cur.u - e).norm ≤ ε) ∧
          ∀ r ∈ s.rows, t0 + T < r.t → ((r.nodes i).next.u - e).norm ≤ ε := by
  classical
  obtain ⟨δ, hδ, hk⟩ := C108_settles (ET := ET) hs hd h
  refine ⟨δ, hδ, fun K Hr e hr hHr hlt v hv e0 he0 ε hε => ?_⟩
  by_cases hne : (Finset.univ.filter fun i => cfg.magNode i = true).Nonempty
  swap
  · refine ⟨0, fun cfg' nodes' t0 inp V _ _ _ _ _ _ _ _ _ _ _ k => ?_⟩
    intro s i hi
    exact absurd ⟨i, Finset.mem_filter.mpr ⟨Finset.mem_univ _, hi⟩⟩ hne
  have hwell := saturated_well hs h hphi hobt hr hHr hlt hv he0 hne
  obtain ⟨T, hT⟩ := hk _ _ _ _ hwell ε hε
  refine ⟨T, fun cfg' nodes' t0 inp V h1 h2 h3 h4 h5 h6 h7 h8 h9 hnear hE => ?_⟩
  refine hT cfg' nodes' t0 inp V h1 h2 h3 h4 h5 h6 h7 h8 h9 ?_ hE
  rw [Finset.sup'_lt_iff]
  exact fun j hj => neg_lt_neg (hnear j (Finset.mem_filter.mp hj).2)

end

/-! ## A case that meets the hypotheses -/

theorem exT_nonobtuse (H : TriElem.Rule) : NonObtuse (exP H) fun i => (ext exNd i).p := by
  intro t ht i j k l h1 h2 h3 h4 h5 h6
  have e : magTet (exP H).mag (exP H).tets = [⟨![0, 1, 2, 3], 0⟩, ⟨![4, 1, 3, 2], 1⟩] := rfl
  rw [e] at ht
  simp only [List.mem_cons, List.not_mem_nil, or_false] at ht
  rcases ht with ht | ht
  · have e1 : (fun k => (ext exNd (t.ind k)).p) = ![⟨0, 0, 0⟩, ⟨1, 0, 0⟩, ⟨0, 1, 0⟩, ⟨0, 0, 1⟩] := by
      rw [ht]
      funext k
      fin_cases k <;> rfl
    have := corner_nonobtuse i j k l h1 h2 h3 h4 h5 h6
    rw [← e1] at this
    exact this
  · have e1 : (fun k => (ext exNd (t.ind k)).p) = ![⟨1, 1, 1⟩, ⟨1, 0, 0⟩, ⟨0, 0, 1⟩, ⟨0, 1, 0⟩] := by
      rw [ht]
      funext k
      fin_cases k <;> rfl
    have := regular_nonobtuse i j k l h1 h2 h3 h4 h5 h6
    rw [← e1] at this
    exact this

/-- The run of `exT_case`, from a tilted magnetization, meets the hypotheses. -/
example (H : TriElem.Rule) (d : ℝ) (hd : 0 < d) :
    (∀ u i, (exMediaT H).phi u i = 0) ∧ NonObtuse (exP H) (fun i => (ext exNd i).p) ∧ (0 : ℝ) ≤ 1 / 2 ∧
    (∃ inp, ExactRun (exP H) (exCfgDt d) ((exMediaT H).world (exCfgDt d).magNode) (fun _ => 0) 0 exNdT inp ∧
      ∀ k, (inp k).sig = false ∧ (inp k).sol ≠ none) ∧
    ∃ f, Well (exCfg 1).magNode (energyOf (exP H) (fun i => (ext exNd i).p) (exMediaT H) (exHT H) (exCfg 1).magNode) f
        (-((exP H).mu0 * 1 * (1 / 2) / (2 * 1)))
        (energyOf (exP H) (fun i => (ext exNd i).p) (exMediaT H) (exHT H) (exCfg 1).magNode fun i => (exNdT i).next.u) (fun _ => exAxis) ∧
      f (fun i => (exNdT i).next.u) < -((exP H).mu0 * 1 * (1 / 2) / (2 * 1)) ∧ ∀ i, (exNdT i).next.u ≠ exAxis := by
  obtain ⟨c1, -, c3, -, -, -, -, -, -, -, c11, c12, c13, c14, c15, c16⟩ := exT_case H d hd
  have hne : (Finset.univ.filter fun i => (exCfg 1).magNode i = true).Nonempty := ⟨0, Finset.mem_filter.mpr ⟨Finset.mem_univ _, rfl⟩⟩
  refine ⟨fun _ _ => rfl, exT_nonobtuse H, by norm_num, c16, _,
    saturated_well c1 c3 (fun _ _ => rfl) (exT_nonobtuse H) c11 (by norm_num) c12 c14 c15 hne, ?_, fun i hi => ?_⟩
  · rw [Finset.sup'_lt_iff]
    exact fun j hj => neg_lt_neg (c13 j (Finset.mem_filter.mp hj).2)
  · have := congrArg V3.x hi
    simp [exNdT, exTilt, exAxis] at this

end Verif.Relax
