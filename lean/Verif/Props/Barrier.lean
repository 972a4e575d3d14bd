import Verif.Props.Relax

/-!
# C107: in steady conditions a run does not cross an energy barrier
-/

namespace Verif.Relax

open Verif.Mesh Verif.Assembly Verif.Tetra Verif.SparseMat Verif.Llg Verif.WeakForm Verif.TimeLoop Verif.Run Verif.Converge Verif.SemiDiscrete Set

section
variable {n : ℕ} {ET : Type} {P : Problem} {cfg : Cfg n ET} {nodes : Fin n → Node} {D : Media n P} {H : Tet → Fin P.G.n → V3} {Ms : ℝ}

/-- **C107** In steady conditions there is a limit for `max(dt)`, the same for all initial magnetizations, under which every state of a
run, and every state in a row of the output, is reached from the initial magnetization along a continuous path of unit magnetizations on
which the energy never exceeds the initial energy. -/
theorem C107_path (hs : Start P cfg nodes) (hd : P.dir = none) (h : Steady P (fun i => (ext nodes i).p) D H Ms) :
    ∃ δ, 0 < δ ∧ ∀ (cfg' : Cfg n ET) (nodes' : Fin n → Node) (t0 : ℝ) (inp : ℕ → Input n) (V : ℕ → ℝ),
      cfg'.gamma0 = cfg.gamma0 → cfg'.magNode = cfg.magNode → (∀ i, (nodes' i).p = (nodes i).p) →
      (∀ i, cfg.magNode i = true → IsUnit3 (nodes' i).next.u ∧ (nodes' i).next.v = 0) →
      Valid cfg' → NoRecenter cfg' → (∀ t dt, cfg'.add t dt = t + dt) → cfg'.DTMAX ≤ δ →
      ExactRun P cfg' (D.world cfg'.magNode) V t0 nodes' inp →
      ∀ k, let s := run cfg' t0 nodes' ((D.world cfg'.magNode).pot nodes') inp k
        let W := energyOf P (fun i => (ext nodes i).p) D H cfg.magNode
        let u0 := fun i => (nodes' i).next.u
        Reaches cfg.magNode W (W u0) u0 (fun i => (s.nodes i).cur.u) ∧
        ∀ r ∈ s.rows, Reaches cfg.magNode W (W u0) u0 fun i => (r.nodes i).next.u := by
  obtain ⟨c, δ, B, C, -, hδ, -, -, hk⟩ := core (ET := ET) hs hd h
  refine ⟨δ, hδ, fun cfg' nodes' t0 inp V h1 h2 h3 h4 h5 h6 h7 h8 h9 k => ?_⟩
  obtain ⟨-, a, -, -, -, b⟩ := hk cfg' nodes' t0 inp V h1 h2 h3 h4 h5 h6 h7 h8 h9 k
  exact ⟨a, fun r hr => (b r hr).2.2⟩

/-- a continuous quantity does not pass a value where the energy is always higher -/
theorem Reaches.not_pass {mag : Fin n → Bool} {W : (Fin n → V3) → ℝ} {e : ℝ} {a b : Fin n → V3} (hr : Reaches mag W e a b)
    {f : (Fin n → V3) → ℝ} (hc : ∀ γ : ℝ → Fin n → V3, Moving γ → Continuous fun τ => f (γ τ))
    (hm : ∀ u w : Fin n → V3, (∀ i, mag i = true → u i = w i) → f u = f w) {c : ℝ} (ha : f a < c)
    (hbar : ∀ u : Fin n → V3, (∀ i, mag i = true → IsUnit3 (u i)) → f u = c → e < W u) : f b < c := by
  obtain ⟨γ, h1, h2, h3⟩ := hr
  by_contra hcon
  rw [not_lt] at hcon
  rw [hm a (γ 0) fun i hi => ((h2 i hi).1).symm] at ha
  rw [hm b (γ 1) fun i hi => ((h2 i hi).2).symm] at hcon
  obtain ⟨τ, hτ, e1⟩ := intermediate_value_Icc zero_le_one (hc γ h1).continuousOn ⟨ha.le, hcon⟩
  obtain ⟨h4, h5⟩ := h3 τ hτ.1 hτ.2
  exact absurd (hbar _ h4 e1) (not_lt.mpr h5)

/-- **C107** Let `f` be a quantity which depends continuously on the magnetization, below `a` in the initial magnetization, and such that
every unit magnetization with `f = a` has a higher energy than the initial one (a barrier). Under the same limit for `max(dt)`, `f`
stays below `a` in all the states of the run, and in all the rows of the output. -/
theorem C107_barrier (hs : Start P cfg nodes) (hd : P.dir = none) (h : Steady P (fun i => (ext nodes i).p) D H Ms) :
    ∃ δ, 0 < δ ∧ ∀ (cfg' : Cfg n ET) (nodes' : Fin n → Node) (t0 : ℝ) (inp : ℕ → Input n) (V : ℕ → ℝ),
      cfg'.gamma0 = cfg.gamma0 → cfg'.magNode = cfg.magNode → (∀ i, (nodes' i).p = (nodes i).p) →
      (∀ i, cfg.magNode i = true → IsUnit3 (nodes' i).next.u ∧ (nodes' i).next.v = 0) →
      Valid cfg' → NoRecenter cfg' → (∀ t dt, cfg'.add t dt = t + dt) → cfg'.DTMAX ≤ δ →
      ExactRun P cfg' (D.world cfg'.magNode) V t0 nodes' inp →
      let W := energyOf P (fun i => (ext nodes i).p) D H cfg.magNode
      let u0 := fun i => (nodes' i).next.u
      ∀ f : (Fin n → V3) → ℝ, (∀ γ : ℝ → Fin n → V3, Moving γ → Continuous fun τ => f (γ τ)) →
      (∀ u w : Fin n → V3, (∀ i, cfg.magNode i = true → u i = w i) → f u = f w) →
      ∀ a, f u0 < a → (∀ u : Fin n → V3, (∀ i, cfg.magNode i = true → IsUnit3 (u i)) → f u = a → W u0 < W u) →
      ∀ k, let s := run cfg' t0 nodes' ((D.world cfg'.magNode).pot nodes') inp k
        f (fun i => (s.nodes i).cur.u) < a ∧ ∀ r ∈ s.rows, f (fun i => (r.nodes i).next.u) < a := by
  obtain ⟨δ, hδ, hk⟩ := C107_path (ET := ET) hs hd h
  refine ⟨δ, hδ, fun cfg' nodes' t0 inp V h1 h2 h3 h4 h5 h6 h7 h8 h9 => ?_⟩
  intro W u0 f hc hm a ha hbar k s
  obtain ⟨a1, a2⟩ := hk cfg' nodes' t0 inp V h1 h2 h3 h4 h5 h6 h7 h8 h9 k
  exact ⟨a1.not_pass hc hm ha hbar, fun r hr => (a2 r hr).not_pass hc hm ha hbar⟩

/-! ## A field too weak to reverse the magnetization -/

theorem interpV_dot (G : Rule) (e : V3) (u : Fin 4 → V3) (j : Fin G.n) : e.dot (interpV G u j) = interpS G (fun i => e.dot (u i)) j := by
  unfold interpV interpS
  simp only [Fin.sum_univ_four, V3.dot, V3.add_x, V3.add_y, V3.add_z, V3.smul_x, V3.smul_y, V3.smul_z]
  ring

theorem sum_weight_lin {G : Rule} (hG : G.Ok) (p : Fin 4 → V3) (x : Fin 4 → ℝ) :
    ∑ j, weight G p j * interpS G x j = calcVol G p / 4 * ∑ i, x i := by
  have h1 : ∑ j, weight G p j * interpS G x j = ∑ i, x i * aw G p i := by
    unfold interpS aw
    simp only [Finset.mul_sum]
    rw [Finset.sum_comm]
    exact Finset.sum_congr rfl fun i _ => Finset.sum_congr rfl fun j _ => by ring
  rw [h1, Finset.mul_sum]
  exact Finset.sum_congr rfl fun i _ => by rw [aw_eq hG]; ring

theorem sum_weight_sq1 (p : Fin 4 → V3) (x : Fin 4 → ℝ) :
    ∑ j, weight rule1 p j * (interpS rule1 x j * interpS rule1 x j) = calcVol rule1 p * ((∑ i, x i) / 4) ^ 2 := by
  rw [calcVol_eq rule1_ok]
  have h : ∀ f : Fin rule1.n → ℝ, ∑ j, f j = f (0 : Fin 1) := fun f => Fin.sum_univ_one (f : Fin 1 → ℝ)
  rw [h]
  have ha : ∀ i, rule1.a i (0 : Fin 1) = 1 / 4 := by
    intro i
    have hu : rule1.u (0 : Fin 1) = 1 / 4 := rfl
    have hv : rule1.v (0 : Fin 1) = 1 / 4 := rfl
    have hw : rule1.w (0 : Fin 1) = 1 / 4 := rfl
    fin_cases i
    · change 1 - rule1.u (0 : Fin 1) - rule1.v (0 : Fin 1) - rule1.w (0 : Fin 1) = 1 / 4
      rw [hu, hv, hw]
      norm_num
    · exact hu
    · exact hv
    · exact hw
  unfold weight interpS
  simp only [ha, Fin.sum_univ_four]
  have hpds : rule1.pds (0 : Fin 1) = 1 / 6 := rfl
  rw [hpds]
  ring

/-- anisotropy and applied field: the energy of an element, when the magnetization at its nodes is on the near side of the barrier -/
theorem elem_bound {G : Rule} (hG : Compiled G) (p : Fin 4 → V3) (hp : 0 < detJ p) {K b : ℝ} (hK : 0 < K) (x : Fin 4 → ℝ)
    (hx : ∀ i, b / (2 * K) ≤ x i ∧ x i ≤ 1) :
    calcVol G p * (b - K) + (2 * K - b) / 8 * calcVol G p * ∑ i, (1 - x i) ≤
      -K * ∑ j, weight G p j * (interpS G x j * interpS G x j) + b * ∑ j, weight G p j * interpS G x j := by
  have hv : 0 < calcVol G p := by
    rw [calcVol_eq hG.ok]
    positivity
  rw [sum_weight_lin hG.ok]
  have hlo : ∀ i, b ≤ 2 * K * x i := fun i => by
    have := (hx i).1
    rw [div_le_iff₀ (by positivity)] at this
    linarith
  have hy : ∀ i, 0 ≤ 1 - x i ∧ 2 * K * (1 - x i) ≤ 2 * K - b := fun i => ⟨by linarith [(hx i).2], by nlinarith [hlo i]⟩
  rcases hG with rfl | rfl
  · rw [sum_weight_sq1]
    set y := (∑ i, (1 - x i)) / 4 with hyd
    have e1 : ∑ i, x i = 4 - 4 * y := by
      rw [hyd]
      simp only [Fin.sum_univ_four]
      ring
    have e2 : ∑ i, (1 - x i) = 4 * y := by rw [hyd]; ring
    have hy0 : 0 ≤ y := by
      rw [hyd]
      have := Finset.sum_nonneg fun i (_ : i ∈ Finset.univ) => (hy i).1
      positivity
    have hy1 : 2 * K * y ≤ 2 * K - b := by
      rw [hyd]
      simp only [Fin.sum_univ_four]
      linarith [(hy 0).2, (hy 1).2, (hy 2).2, (hy 3).2]
    rw [e1, e2]
    have h1 : 0 ≤ calcVol rule1 p * (y * (2 * K - b - 2 * K * y)) := mul_nonneg hv.le (mul_nonneg hy0 (by linarith))
    nlinarith
  · rw [sum_weight_sq]
    have e1 : ∀ i, x i = 1 - (1 - x i) := fun i => by ring
    generalize hyd : (fun i => 1 - x i) = y at *
    have e2 : ∀ i, x i = 1 - y i := fun i => by rw [← hyd]; ring
    have hy' : ∀ i, 0 ≤ y i ∧ 2 * K * y i ≤ 2 * K - b := fun i => by rw [← hyd]; exact hy i
    simp only [e2, Fin.sum_univ_four]
    have hp : ∀ i k, 0 ≤ y i * (2 * K - b - 2 * K * y k) := fun i k => mul_nonneg (hy' i).1 (by linarith [(hy' k).2])
    have h1 : 0 ≤ calcVol rule5 p * ((y 0 * (2 * K - b - 2 * K * y 0) + y 1 * (2 * K - b - 2 * K * y 1) + y 2 * (2 * K - b - 2 * K * y 2)
        + y 3 * (2 * K - b - 2 * K * y 3)) +
        (y 0 * (2 * K - b - 2 * K * y 0) + y 0 * (2 * K - b - 2 * K * y 1) + y 0 * (2 * K - b - 2 * K * y 2) + y 0 * (2 * K - b - 2 * K * y 3)
        + y 1 * (2 * K - b - 2 * K * y 0) + y 1 * (2 * K - b - 2 * K * y 1) + y 1 * (2 * K - b - 2 * K * y 2) + y 1 * (2 * K - b - 2 * K * y 3)
        + y 2 * (2 * K - b - 2 * K * y 0) + y 2 * (2 * K - b - 2 * K * y 1) + y 2 * (2 * K - b - 2 * K * y 2) + y 2 * (2 * K - b - 2 * K * y 3)
        + y 3 * (2 * K - b - 2 * K * y 0) + y 3 * (2 * K - b - 2 * K * y 1) + y 3 * (2 * K - b - 2 * K * y 2)
        + y 3 * (2 * K - b - 2 * K * y 3))) := by
      refine mul_nonneg hv.le ?_
      have := hp
      linarith [hp 0 0, hp 1 1, hp 2 2, hp 3 3, hp 0 1, hp 0 2, hp 0 3, hp 1 0, hp 1 2, hp 1 3, hp 2 0, hp 2 1, hp 2 3, hp 3 0, hp 3 1, hp 3 2]
    nlinarith [h1]

/-- the energy on the near side of the barrier -/
theorem energy_bound (hs : Start P cfg nodes) (h : Steady P (fun i => (ext nodes i).p) D H Ms) {K Hr : ℝ} {e : V3}
    (hr : Reversed P (fun i => (ext nodes i).p) D H K Hr e) {u : Fin n → V3} (hu : ∀ i, cfg.magNode i = true → IsUnit3 (u i))
    (hx : ∀ i, cfg.magNode i = true → P.mu0 * Ms * Hr / (2 * K) ≤ e.dot (u i)) :
    magVol P (fun i => (ext nodes i).p) * (P.mu0 * Ms * Hr - K) + (2 * K - P.mu0 * Ms * Hr) / 8 *
      ((magTet P.mag P.tets).map fun t => (calcVol P.G fun k => (ext nodes (t.ind k)).p) * ∑ k, (1 - e.dot (extV u (t.ind k)))).sum ≤
    energyOf P (fun i => (ext nodes i).p) D H cfg.magNode u := by
  have hmem : ∀ t ∈ magTet P.mag P.tets, t ∈ P.tets ∧ P.mag t.reg = true := fun t ht => by
    unfold magTet at ht
    exact List.mem_filter.mp ht
  have hnode : ∀ t ∈ magTet P.mag P.tets, ∀ k, ∃ hk : t.ind k < n, cfg.magNode ⟨t.ind k, hk⟩ = true := fun t ht k =>
    ⟨hs.valid t (hmem t ht).1 k, (hs.magNode _).mpr ⟨t, (hmem t ht).1, (hmem t ht).2, k, rfl⟩⟩
  have hext : ∀ t ∈ magTet P.mag P.tets, ∀ k, extV (masked cfg.magNode u) (t.ind k) = extV u (t.ind k) := fun t ht k => by
    obtain ⟨hk, hm⟩ := hnode t ht k
    unfold extV masked
    rw [dif_pos hk, dif_pos hk, if_pos hm]
  have hdem := hr.demag (masked cfg.magNode u)
  unfold energyOf totalEnergy
  set p : ℕ → V3 := fun i => (ext nodes i).p with hp
  set ph := extS (D.phi (masked cfg.magNode u)) with hph
  have e1 : ∀ L : List Tet, (∀ t ∈ L, (P.prm t.reg).Ms = Ms) → (L.map fun t =>
      exchangeEnergy P.G (P.prm t.reg) (fun k => p (t.ind k)) (fun k => extV (masked cfg.magNode u) (t.ind k))
      + uniaxialEnergy P.G (P.prm t.reg) (fun k => p (t.ind k)) (fun k => extV (masked cfg.magNode u) (t.ind k))
      + zeemanEnergySpace P.G P.mu0 (P.prm t.reg).Ms 1 (fun k => p (t.ind k)) (fun k => extV (masked cfg.magNode u) (t.ind k)) (H t)
      + -(1 / 2) * P.mu0 * (P.prm t.reg).Ms * WeakForm.work P.G (fun k => p (t.ind k))
          (fun _ => interpField (fun k => p (t.ind k)) fun k => ph (t.ind k)) (fun k => extV (masked cfg.magNode u) (t.ind k))).sum =
      (L.map fun t =>
      exchangeEnergy P.G (P.prm t.reg) (fun k => p (t.ind k)) (fun k => extV (masked cfg.magNode u) (t.ind k))
      + uniaxialEnergy P.G (P.prm t.reg) (fun k => p (t.ind k)) (fun k => extV (masked cfg.magNode u) (t.ind k))
      + zeemanEnergySpace P.G P.mu0 (P.prm t.reg).Ms 1 (fun k => p (t.ind k)) (fun k => extV (masked cfg.magNode u) (t.ind k)) (H t)).sum
      + -(1 / 2) * (P.mu0 * Ms) * (L.map fun t => WeakForm.work P.G (fun k => p (t.ind k))
          (fun _ => interpField (fun k => p (t.ind k)) fun k => ph (t.ind k)) (fun k => extV (masked cfg.magNode u) (t.ind k))).sum := by
    intro L hL
    induction L with
    | nil => simp
    | cons t L ih =>
      simp only [List.map_cons, List.sum_cons]
      rw [ih fun t' ht' => hL t' (List.mem_cons_of_mem _ ht'), hL t List.mem_cons_self]
      ring
  rw [e1 _ h.sameMs]
  have hM : 0 < P.mu0 * Ms := mul_pos hs.mu0 h.pos
  have h2 : 0 ≤ -(1 / 2) * (P.mu0 * Ms) * ((magTet P.mag P.tets).map fun t => WeakForm.work P.G (fun k => p (t.ind k))
          (fun _ => interpField (fun k => p (t.ind k)) fun k => ph (t.ind k)) (fun k => extV (masked cfg.magNode u) (t.ind k))).sum := by
    unfold demagWork at hdem
    nlinarith
  refine le_trans ?_ (le_add_of_nonneg_right h2)
  unfold magVol
  rw [← List.sum_map_mul_right, ← List.sum_map_mul_left, ← List.sum_map_add]
  refine List.sum_le_sum fun t ht => ?_
  obtain ⟨m1, m2⟩ := hr.material t ht
  have hdet : 0 < detJ fun k => p (t.ind k) := hs.oriented t (hmem t ht).1
  have hxk : ∀ k, P.mu0 * Ms * Hr / (2 * K) ≤ e.dot (extV u (t.ind k)) ∧ e.dot (extV u (t.ind k)) ≤ 1 := by
    intro k
    obtain ⟨hk, hm⟩ := hnode t ht k
    unfold extV
    rw [dif_pos hk]
    refine ⟨hx _ hm, ?_⟩
    have a1 := hr.unit
    have a2 := hu _ hm
    unfold IsUnit3 at a1 a2
    unfold V3.dot
    nlinarith [sq_nonneg (e.x - (u ⟨t.ind k, hk⟩).x), sq_nonneg (e.y - (u ⟨t.ind k, hk⟩).y), sq_nonneg (e.z - (u ⟨t.ind k, hk⟩).z)]
  have hb := elem_bound hs.rule (fun k => p (t.ind k)) hdet hr.hard (fun k => e.dot (extV u (t.ind k))) hxk
  simp only [hext t ht]
  have hex : 0 ≤ exchangeEnergy P.G (P.prm t.reg) (fun k => p (t.ind k)) (fun k => extV u (t.ind k)) := by
    unfold exchangeEnergy
    refine mul_nonneg (hs.exchange _ (hmem t ht).2) ?_
    rw [← Finset.sum_mul]
    refine mul_nonneg ?_ ?_
    · have := calcVol_eq hs.rule.ok fun k => p (t.ind k)
      unfold calcVol at this
      rw [this]
      positivity
    · have hsq : ∀ a : V3, 0 ≤ a.nsq := fun a => by
        unfold V3.nsq
        nlinarith [mul_self_nonneg a.x, mul_self_nonneg a.y, mul_self_nonneg a.z]
      linarith [hsq (Tetra.deriv (fun k => p (t.ind k)) 0 fun k => extV u (t.ind k)), hsq (Tetra.deriv (fun k => p (t.ind k)) 1 fun k => extV u (t.ind k)),
        hsq (Tetra.deriv (fun k => p (t.ind k)) 2 fun k => extV u (t.ind k))]
  have hun : uniaxialEnergy P.G (P.prm t.reg) (fun k => p (t.ind k)) (fun k => extV u (t.ind k)) = -K * ∑ j, weight P.G (fun k => p (t.ind k)) j *
      (interpS P.G (fun k => e.dot (extV u (t.ind k))) j * interpS P.G (fun k => e.dot (extV u (t.ind k))) j) := by
    unfold uniaxialEnergy
    rw [m1, m2]
    simp only [interpV_dot]
  have hze : zeemanEnergySpace P.G P.mu0 (P.prm t.reg).Ms 1 (fun k => p (t.ind k)) (fun k => extV u (t.ind k)) (H t) =
      P.mu0 * Ms * Hr * ∑ j, weight P.G (fun k => p (t.ind k)) j * interpS P.G (fun k => e.dot (extV u (t.ind k))) j := by
    unfold zeemanEnergySpace
    rw [h.sameMs t ht, Finset.mul_sum, Finset.mul_sum]
    refine Finset.sum_congr rfl fun j _ => ?_
    rw [hr.field t ht, ← interpV_dot]
    simp only [V3.dot, V3.smul_x, V3.smul_y, V3.smul_z]
    ring
  rw [hun, hze]
  simp only [hp] at hb hex ⊢
  linarith

/-- the energy at the barrier -/
theorem barrier_energy (hs : Start P cfg nodes) (h : Steady P (fun i => (ext nodes i).p) D H Ms) {K Hr : ℝ} {e : V3}
    (hr : Reversed P (fun i => (ext nodes i).p) D H K Hr e) (hlt : P.mu0 * Ms * Hr < 2 * K) {v : ℝ}
    (hv : ∀ t ∈ magTet P.mag P.tets, v ≤ calcVol P.G fun k => (ext nodes (t.ind k)).p)
    (hne : (Finset.univ.filter fun i => cfg.magNode i = true).Nonempty) {u : Fin n → V3} (hu : ∀ i, cfg.magNode i = true → IsUnit3 (u i))
    (hf : ((Finset.univ.filter fun i => cfg.magNode i = true).sup' hne fun i => -e.dot (u i)) = -(P.mu0 * Ms * Hr / (2 * K))) :
    magVol P (fun i => (ext nodes i).p) * (P.mu0 * Ms * Hr - K) + (2 * K - P.mu0 * Ms * Hr) ^ 2 / (16 * K) * v ≤
      energyOf P (fun i => (ext nodes i).p) D H cfg.magNode u := by
  have hKp := hr.hard
  set a := P.mu0 * Ms * Hr / (2 * K) with ha
  have hle : ∀ j, cfg.magNode j = true → a ≤ e.dot (u j) := fun j hj => by
    have hjm : j ∈ Finset.univ.filter fun i => cfg.magNode i = true := Finset.mem_filter.mpr ⟨Finset.mem_univ j, hj⟩
    have := Finset.le_sup' (f := fun i => -e.dot (u i)) hjm
    rw [hf] at this
    linarith
  obtain ⟨j, hj, hja⟩ := Finset.exists_mem_eq_sup' hne fun i => -e.dot (u i)
  rw [hf] at hja
  have hjm := (Finset.mem_filter.mp hj).2
  have hb := energy_bound hs h hr hu hle
  refine le_trans ?_ hb
  rw [add_le_add_iff_left]
  obtain ⟨t, ht, hm, q, hq⟩ := (hs.magNode j).mp hjm
  have htm : t ∈ magTet P.mag P.tets := by
    unfold magTet
    exact List.mem_filter.mpr ⟨ht, hm⟩
  have hterm : ∀ t' ∈ magTet P.mag P.tets, (0 ≤ calcVol P.G fun k => (ext nodes (t'.ind k)).p) ∧
      ∀ k, 0 ≤ 1 - e.dot (extV u (t'.ind k)) := by
    intro t' ht'
    unfold magTet at ht'
    obtain ⟨g1, g2⟩ := List.mem_filter.mp ht'
    have hdet : 0 < detJ fun k => (ext nodes (t'.ind k)).p := hs.oriented t' g1
    refine ⟨by rw [calcVol_eq hs.rule.ok]; positivity, fun k => ?_⟩
    have hk := hs.valid t' g1 k
    have hm' := (hs.magNode ⟨t'.ind k, hk⟩).mpr ⟨t', g1, g2, k, rfl⟩
    unfold extV
    rw [dif_pos hk]
    have a1 := hr.unit
    have a2 := hu _ hm'
    unfold IsUnit3 at a1 a2
    unfold V3.dot
    nlinarith [sq_nonneg (e.x - (u ⟨t'.ind k, hk⟩).x), sq_nonneg (e.y - (u ⟨t'.ind k, hk⟩).y), sq_nonneg (e.z - (u ⟨t'.ind k, hk⟩).z)]
  have hsum := List.single_le_sum (l := (magTet P.mag P.tets).map fun t =>
      (calcVol P.G fun k => (ext nodes (t.ind k)).p) * ∑ k, (1 - e.dot (extV u (t.ind k))))
    (by
      intro x hx
      obtain ⟨t', ht', rfl⟩ := List.mem_map.mp hx
      exact mul_nonneg (hterm t' ht').1 (Finset.sum_nonneg fun k _ => (hterm t' ht').2 k))
    _ (List.mem_map.mpr ⟨t, htm, rfl⟩)
  have hone : 1 - a ≤ ∑ k, (1 - e.dot (extV u (t.ind k))) := by
    refine le_trans (le_of_eq ?_) (Finset.single_le_sum (fun k _ => (hterm t htm).2 k) (Finset.mem_univ q))
    unfold extV
    rw [dif_pos (by rw [hq]; exact j.2)]
    have : (⟨t.ind q, by rw [hq]; exact j.2⟩ : Fin n) = j := Fin.ext hq
    rw [this]
    linarith
  have ha1 : 0 < 1 - a := by
    rw [ha, sub_pos, div_lt_one (by positivity)]
    exact hlt
  have h10 : v * (1 - a) ≤ (calcVol P.G fun k => (ext nodes (t.ind k)).p) * ∑ k, (1 - e.dot (extV u (t.ind k))) :=
    (mul_le_mul_of_nonneg_right (hv t htm) ha1.le).trans (mul_le_mul_of_nonneg_left hone (hterm t htm).1)
  have h11 : (2 * K - P.mu0 * Ms * Hr) ^ 2 / (16 * K) * v = (2 * K - P.mu0 * Ms * Hr) / 8 * (v * (1 - a)) := by
    rw [ha]
    field_simp
    ring
  rw [h11]
  exact mul_le_mul_of_nonneg_left (h10.trans hsum) (by linarith)

/-- **C107** A material with uniaxial anisotropy, in a field opposite to the magnetization and weaker than the anisotropy field
(`mu0 Ms Hr < 2 K`): if the initial magnetization is on its side of the barrier at every node (its component along the easy axis `e` is
more than `mu0 Ms Hr / 2 K`), and if its energy is not too far above the energy of the saturated state, the magnetization stays on this
side of the barrier at every node, for ever. -/
theorem C107_metastable (hs : Start P cfg nodes) (hd : P.dir = none) (h : Steady P (fun i => (ext nodes i).p) D H Ms) :
    ∃ δ, 0 < δ ∧ ∀ (cfg' : Cfg n ET) (nodes' : Fin n → Node) (t0 : ℝ) (inp : ℕ → Input n) (V : ℕ → ℝ),
      cfg'.gamma0 = cfg.gamma0 → cfg'.magNode = cfg.magNode → (∀ i, (nodes' i).p = (nodes i).p) →
      (∀ i, cfg.magNode i = true → IsUnit3 (nodes' i).next.u ∧ (nodes' i).next.v = 0) →
      Valid cfg' → NoRecenter cfg' → (∀ t dt, cfg'.add t dt = t + dt) → cfg'.DTMAX ≤ δ →
      ExactRun P cfg' (D.world cfg'.magNode) V t0 nodes' inp →
      ∀ K Hr e, Reversed P (fun i => (ext nodes i).p) D H K Hr e → P.mu0 * Ms * Hr < 2 * K →
      (∀ i, cfg.magNode i = true → P.mu0 * Ms * Hr / (2 * K) < e.dot (nodes' i).next.u) →
      ∀ v, (∀ t ∈ magTet P.mag P.tets, v ≤ calcVol P.G fun k => (ext nodes (t.ind k)).p) →
      energyOf P (fun i => (ext nodes i).p) D H cfg.magNode (fun i => (nodes' i).next.u) <
        magVol P (fun i => (ext nodes i).p) * (P.mu0 * Ms * Hr - K) + (2 * K - P.mu0 * Ms * Hr) ^ 2 / (16 * K) * v →
      ∀ k, let s := run cfg' t0 nodes' ((D.world cfg'.magNode).pot nodes') inp k
        ∀ i, cfg.magNode i = true → P.mu0 * Ms * Hr / (2 * K) < e.dot (s.nodes i).cur.u ∧
          ∀ r ∈ s.rows, P.mu0 * Ms * Hr / (2 * K) < e.dot (r.nodes i).next.u := by
  classical
  obtain ⟨δ, hδ, hk⟩ := C107_barrier (ET := ET) hs hd h
  refine ⟨δ, hδ, fun cfg' nodes' t0 inp V h1 h2 h3 h4 h5 h6 h7 h8 h9 K Hr e hr hlt hnear v hv hE k => ?_⟩
  intro s i hi
  set a := P.mu0 * Ms * Hr / (2 * K) with ha
  have hne : (Finset.univ.filter fun i => cfg.magNode i = true).Nonempty := ⟨i, Finset.mem_filter.mpr ⟨Finset.mem_univ _, hi⟩⟩
  have hKp := hr.hard
  -- minus the smallest component along the easy axis
  obtain ⟨b1, b2⟩ := hk cfg' nodes' t0 inp V h1 h2 h3 h4 h5 h6 h7 h8 h9
    (fun u => (Finset.univ.filter fun i => cfg.magNode i = true).sup' hne fun i => -e.dot (u i))
    (fun γ hγ => by
      refine Continuous.finset_sup'_apply hne fun j _ => ?_
      obtain ⟨c1, c2, c3⟩ := hγ j
      simp only [V3.dot]
      fun_prop)
    (fun u w huw => by
      refine Finset.sup'_congr hne rfl fun j hj => ?_
      rw [huw j (Finset.mem_filter.mp hj).2])
    (-a)
    (by
      rw [Finset.sup'_lt_iff]
      exact fun j hj => neg_lt_neg (hnear j (Finset.mem_filter.mp hj).2))
    (fun u hu hf => hE.trans_le (barrier_energy hs h hr hlt hv hne hu hf)) k
  have hmem : i ∈ Finset.univ.filter fun i => cfg.magNode i = true := Finset.mem_filter.mpr ⟨Finset.mem_univ _, hi⟩
  refine ⟨?_, fun r hrr => ?_⟩
  · have := (Finset.sup'_lt_iff hne).mp b1 i hmem
    linarith
  · have := (Finset.sup'_lt_iff hne).mp (b2 r hrr) i hmem
    linarith

end

/-! ## A case that meets the hypotheses -/

/-- a uniform magnetization, tilted from the easy axis -/
noncomputable def exTilt : V3 := ⟨9 / 41, 0, 40 / 41⟩

def exAxis : V3 := ⟨0, 0, 1⟩

noncomputable def exNdT : Fin 5 → Node := fun i => { exNd i with next := ⟨exTilt, 0, 0, 0⟩ }

/-- a quarter of the anisotropy field, opposite to the easy axis -/
noncomputable def exHT (H : TriElem.Rule) : Tet → Fin (exP H).G.n → V3 := fun _ _ => (-(1 / 2 : ℝ)) * exAxis

noncomputable def exMediaT (H : TriElem.Rule) : Media 5 (exP H) where
  Hext _ _ := exHT H
  Hst _ _ _ _ := 0
  phi _ _ := 0
  phiv _ _ _ := 0

theorem interpField_zero (p : Fin 4 → V3) (f : Fin 4 → ℝ) (hf : ∀ k, f k = 0) : interpField p f = 0 := by
  unfold interpField
  simp only [hf, Fin.sum_univ_four]
  ext <;> simp

theorem extS_zero {n : ℕ} (i : ℕ) : extS (fun _ : Fin n => (0 : ℝ)) i = 0 := by
  unfold extS
  split_ifs <;> rfl

theorem demagWork_zero (P : Problem) (p w : ℕ → V3) {n : ℕ} : demagWork P p (extS fun _ : Fin n => 0) w = 0 := by
  unfold demagWork
  refine List.sum_eq_zero fun x hx => ?_
  obtain ⟨t, -, rfl⟩ := List.mem_map.mp hx
  unfold WeakForm.work
  refine Finset.sum_eq_zero fun j _ => ?_
  rw [interpField_zero _ _ fun k => extS_zero _]
  simp [V3.dot]

theorem exT_steady (H : TriElem.Rule) :
    Steady (exP H) (fun i => (ext exNd i).p) (exMediaT H) (exHT H) 1 where
  pos := one_pos
  sameMs _ _ := rfl
  cubic _ _ := rfl
  surface f hf := by simp [exP, Run.exP] at hf
  applied _ _ := rfl
  spin _ _ := rfl
  linear a b u w i := by simp [exMediaT]
  reciprocal u w := by
    change demagWork _ _ (extS fun _ => 0) _ = demagWork _ _ (extS fun _ => 0) _
    rw [demagWork_zero, demagWork_zero]
  phiv := Or.inl fun _ _ => rfl

theorem exT_reversed (H : TriElem.Rule) : Reversed (exP H) (fun i => (ext exNd i).p) (exMediaT H) (exHT H) 1 (1 / 2) exAxis where
  unit := by simp [IsUnit3, exAxis]
  hard := one_pos
  material _ _ := ⟨rfl, rfl⟩
  field _ _ _ := rfl
  demag u := by
    change demagWork _ _ (extS fun _ => 0) _ ≤ 0
    rw [demagWork_zero]

theorem exT_vol (H : TriElem.Rule) : (magTet (exP H).mag (exP H).tets).map (fun t => calcVol (exP H).G fun k => (ext exNd (t.ind k)).p) = [1 / 6, 1 / 3] := by
  have e : magTet (exP H).mag (exP H).tets = [⟨![0, 1, 2, 3], 0⟩, ⟨![4, 1, 3, 2], 1⟩] := rfl
  have e1 : (fun k => (ext exNd ((⟨![0, 1, 2, 3], 0⟩ : Tet).ind k)).p) = ![⟨0, 0, 0⟩, ⟨1, 0, 0⟩, ⟨0, 1, 0⟩, ⟨0, 0, 1⟩] := by
    funext k
    fin_cases k <;> rfl
  have e2 : (fun k => (ext exNd ((⟨![4, 1, 3, 2], 1⟩ : Tet).ind k)).p) = ![⟨1, 1, 1⟩, ⟨1, 0, 0⟩, ⟨0, 0, 1⟩, ⟨0, 1, 0⟩] := by
    funext k
    fin_cases k <;> rfl
  have hG : (exP H).G = rule5 := rfl
  rw [e, List.map_cons, List.map_cons, List.map_nil, e1, e2, hG, calcVol_eq rule5_ok, calcVol_eq rule5_ok, detJ_eq, detJ_eq]
  congr 1
  · simp [V3.dot, V3.cross]
  · congr 1
    simp [V3.dot, V3.cross]
    norm_num

theorem exT_energy (H : TriElem.Rule) : energyOf (exP H) (fun i => (ext exNd i).p) (exMediaT H) (exHT H) (exCfg 1).magNode
    (fun i => (exNdT i).next.u) = 1 / 2 * (-(40 / 41) ^ 2 + 1 / 2 * (40 / 41)) := by
  have hv := exT_vol H
  set p : ℕ → V3 := fun i => (ext exNd i).p with hp
  have key : ∀ t ∈ magTet (exP H).mag (exP H).tets,
      exchangeEnergy (exP H).G ((exP H).prm t.reg) (fun k => p (t.ind k)) (fun k => extV (masked (exCfg 1).magNode fun i => (exNdT i).next.u) (t.ind k))
      + uniaxialEnergy (exP H).G ((exP H).prm t.reg) (fun k => p (t.ind k)) (fun k => extV (masked (exCfg 1).magNode fun i => (exNdT i).next.u) (t.ind k))
      + zeemanEnergySpace (exP H).G (exP H).mu0 ((exP H).prm t.reg).Ms 1 (fun k => p (t.ind k))
          (fun k => extV (masked (exCfg 1).magNode fun i => (exNdT i).next.u) (t.ind k)) (exHT H t)
      + -(1 / 2) * (exP H).mu0 * ((exP H).prm t.reg).Ms * WeakForm.work (exP H).G (fun k => p (t.ind k))
          (fun _ => interpField (fun k => p (t.ind k)) fun k => extS ((exMediaT H).phi (masked (exCfg 1).magNode fun i => (exNdT i).next.u)) (t.ind k))
          (fun k => extV (masked (exCfg 1).magNode fun i => (exNdT i).next.u) (t.ind k)) =
      (calcVol (exP H).G fun k => p (t.ind k)) * (-(40 / 41) ^ 2 + 1 / 2 * (40 / 41)) := by
    intro t ht
    have hin : ∀ k, t.ind k < 5 := (ex_start' H).valid t (List.mem_filter.mp ht).1
    have hu : (fun k => extV (masked (exCfg 1).magNode fun i => (exNdT i).next.u) (t.ind k)) = fun _ => exTilt := by
      funext k
      unfold extV
      rw [dif_pos (hin k)]
      rfl
    obtain ⟨ha, hda⟩ := C35_partition rule5 fun k => p (t.ind k)
    have hi : ∀ j, interpV rule5 (fun _ => exTilt) j = exTilt := by
      intro j
      have := ha j
      unfold interpV
      rw [Fin.sum_univ_four] at this ⊢
      ext <;> simp only [V3.add_x, V3.add_y, V3.add_z, V3.smul_x, V3.smul_y, V3.smul_z] <;> rw [← add_mul, ← add_mul, ← add_mul, this, one_mul]
    have hdv : ∀ d, Tetra.deriv (fun k => p (t.ind k)) d (fun _ => exTilt) = 0 := by
      intro d
      have := hda d
      unfold Tetra.deriv
      rw [Fin.sum_univ_four] at this ⊢
      ext <;> simp only [V3.add_x, V3.add_y, V3.add_z, V3.smul_x, V3.smul_y, V3.smul_z, V3.zero_x, V3.zero_y, V3.zero_z] <;>
        rw [← add_mul, ← add_mul, ← add_mul, this, zero_mul]
    have hw : WeakForm.work (exP H).G (fun k => p (t.ind k))
        (fun _ => interpField (fun k => p (t.ind k)) fun k => extS ((exMediaT H).phi (masked (exCfg 1).magNode fun i => (exNdT i).next.u)) (t.ind k))
        (fun _ => exTilt) = 0 := by
      unfold WeakForm.work
      refine Finset.sum_eq_zero fun j _ => ?_
      dsimp only
      rw [interpField_zero _ (fun k => extS ((exMediaT H).phi (masked (exCfg 1).magNode fun i => (exNdT i).next.u)) (t.ind k))
        fun k => extS_zero (n := 5) _]
      simp [V3.dot]
    rw [hu, hw]
    unfold exchangeEnergy uniaxialEnergy zeemanEnergySpace
    change (1 : ℝ) * (∑ j, weight rule5 _ j * _) + -(1 : ℝ) * (∑ j, weight rule5 _ j * (V3.dot exAxis (interpV rule5 _ j) * V3.dot exAxis (interpV rule5 _ j)))
      + -(1 : ℝ) * 1 * 1 * (∑ j, weight rule5 _ j * (interpV rule5 _ j).dot ((-(1 / 2 : ℝ)) * exAxis)) + _ = calcVol rule5 _ * _
    simp only [hi, hdv]
    rw [← Finset.sum_mul, ← Finset.sum_mul, ← Finset.sum_mul]
    change 1 * (calcVol rule5 _ * _) + -1 * (calcVol rule5 _ * _) + -1 * 1 * 1 * (calcVol rule5 _ * _) + _ = _
    simp only [V3.dot, V3.nsq, exTilt, exAxis, V3.smul_x, V3.smul_y, V3.smul_z, V3.zero_x, V3.zero_y, V3.zero_z]
    ring
  unfold energyOf totalEnergy
  rw [List.map_congr_left key, List.sum_map_mul_right, hv]
  norm_num

/-- For every largest step `d` the hypotheses hold for some run, from a magnetization which is tilted from the easy axis. -/
theorem exT_case (H : TriElem.Rule) (d : ℝ) (hd : 0 < d) : Start (exP H) (exCfg 1) exNd ∧ (exP H).dir = none ∧
    Steady (exP H) (fun i => (ext exNd i).p) (exMediaT H) (exHT H) 1 ∧
    (exCfgDt d).gamma0 = (exCfg 1).gamma0 ∧ (exCfgDt d).magNode = (exCfg 1).magNode ∧ (∀ i, (exNdT i).p = (exNd i).p) ∧
    (∀ i, (exCfg 1).magNode i = true → IsUnit3 (exNdT i).next.u ∧ (exNdT i).next.v = 0) ∧
    Valid (exCfgDt d) ∧ NoRecenter (exCfgDt d) ∧ (∀ t dt, (exCfgDt d).add t dt = t + dt) ∧
    Reversed (exP H) (fun i => (ext exNd i).p) (exMediaT H) (exHT H) 1 (1 / 2) exAxis ∧
    (exP H).mu0 * 1 * (1 / 2) < 2 * 1 ∧
    (∀ i, (exCfg 1).magNode i = true → (exP H).mu0 * 1 * (1 / 2) / (2 * 1) < exAxis.dot (exNdT i).next.u) ∧
    (∀ t ∈ magTet (exP H).mag (exP H).tets, 1 / 6 ≤ calcVol (exP H).G fun k => (ext exNd (t.ind k)).p) ∧
    energyOf (exP H) (fun i => (ext exNd i).p) (exMediaT H) (exHT H) (exCfg 1).magNode (fun i => (exNdT i).next.u) <
      magVol (exP H) (fun i => (ext exNd i).p) * ((exP H).mu0 * 1 * (1 / 2) - 1) + (2 * 1 - (exP H).mu0 * 1 * (1 / 2)) ^ 2 / (16 * 1) * (1 / 6) ∧
    ∃ inp, ExactRun (exP H) (exCfgDt d) ((exMediaT H).world (exCfgDt d).magNode) (fun _ => 0) 0 exNdT inp ∧
      ∀ k, (inp k).sig = false ∧ (inp k).sol ≠ none := by
  have hs := ex_start' H
  have hu : ∀ i, (exCfg 1).magNode i = true → IsUnit3 (exNdT i).next.u ∧ (exNdT i).next.v = 0 := fun i _ =>
    ⟨by simp only [exNdT, exTilt, IsUnit3]; norm_num, rfl⟩
  have hs' : Start (exP H) (exCfgDt d) exNdT :=
    { hs with
      oriented := fun t ht => by
        have e : MeshElem.nod4 (fun i => (Run.ext exNdT i).p) t = MeshElem.nod4 (fun i => (Run.ext exNd i).p) t := by
          funext j
          have hj := hs.valid t ht j
          unfold MeshElem.nod4 Run.ext
          dsimp only
          rw [dif_pos hj, dif_pos hj]
          rfl
        rw [e]
        exact hs.oriented t ht
      unit := fun i hi => (hu i hi).1 }
  have hv : Valid (exCfgDt d) := ⟨by change 0 < d / 10; positivity, by change d / 10 ≤ d; linarith, by norm_num [exCfgDt, Run.exCfg],
    by norm_num [exCfgDt, Run.exCfg], fun t dt => by
      have : (0 : ℝ) ≤ d / 10 / 2 := by positivity
      simpa [exCfgDt, Run.exCfg] using this⟩
  have hmu : (exP H).mu0 = 1 := rfl
  obtain ⟨inp, h1, h2⟩ := exists_exactRun hs' hv (ex_keeps 1).1 (ex_keeps 1).2 ((exMediaT H).world (exCfgDt d).magNode) (fun _ => 0) 0
    (fun _ => 0)
  refine ⟨hs, rfl, exT_steady H, rfl, rfl, fun _ => rfl, hu, hv, fun _ => rfl, fun _ _ => rfl, exT_reversed H, by rw [hmu]; norm_num,
    fun i _ => ?_, fun t ht => ?_, ?_, inp, h1, fun k => ⟨(h2 k).1, (h2 k).2.2⟩⟩
  · rw [hmu]
    simp only [exNdT, exTilt, exAxis, V3.dot]
    norm_num
  · have := List.mem_map_of_mem (f := fun t : Tet => calcVol (exP H).G fun k => (ext exNd (t.ind k)).p) ht
    rw [exT_vol] at this
    simp only [List.mem_cons, List.not_mem_nil, or_false] at this
    rcases this with h | h <;> rw [h] <;> norm_num
  · rw [exT_energy, hmu]
    unfold magVol
    rw [exT_vol]
    norm_num

end Verif.Relax
