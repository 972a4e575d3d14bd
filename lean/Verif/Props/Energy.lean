import Verif.Spec.Energy
import Verif.Proofs.Energy
import Verif.Props.WeakForm
import Verif.Props.MeshElem

/-!
# C66: the energy decreases along the computed velocity
-/

namespace Verif.Energy

open Verif.Mesh Verif.Assembly Verif.Tetra Verif.SparseMat Verif.Llg Verif.WeakForm

/-- What C66 assumes besides `TimeStep`: the forces are those of the energy. No spin accumulation field, no moving frame,
no surface anisotropy on the triangles, no cubic anisotropy, and nothing extrapolated: the rate of change of the
potential is zero, and so is the velocity of the last step wherever there is anisotropy. -/
structure Static (prm : ℕ → Prm) (sprm : ℕ → SurfPrm) (mag : ℕ → Bool) (tets : List Tet) (tris : List (Tri × ℝ))
    (nodes : ℕ → Node) : Prop where
  cubic : ∀ t ∈ magTet mag tets, (prm t.reg).K3 = 0
  surface : ∀ f ∈ tris, (sprm f.1.reg).Ks = 0
  phiv : ∀ t ∈ magTet mag tets, ∀ k, (nodes (t.ind k)).cur.phiv = 0
  vel : ∀ t ∈ magTet mag tets, (prm t.reg).K = 0 ∨ ∀ k, (nodes (t.ind k)).cur.v = 0

section
variable {G : Rule} {prm : ℕ → Prm} {s : Step} {mag : ℕ → Bool} {nod : ℕ} {tets : List Tet} {nodes : ℕ → Node}

theorem interpField_zero (p : Fin 4 → V3) (f : Fin 4 → ℝ) (h : ∀ i, f i = 0) : interpField p f = 0 := by
  unfold interpField
  ext <;> simp [h]

theorem interpV_zero (f : Fin 4 → V3) (h : ∀ i, f i = 0) (j : Fin G.n) : interpV G f j = 0 := by
  unfold interpV
  ext <;> simp [h]

/-- on one tetrahedron, the derivative of the energy is minus the work of the forces -/
theorem tet_deriv (m : Prm) (s : Step) (hM : s.mu0 * m.Ms ≠ 0) (n : Nodal) (Hext : Fin G.n → V3)
    (hK3 : m.K3 = 0) (hphiv : ∀ i, n.phiv i = 0) (hv : m.K = 0 ∨ ∀ i, n.v i = 0) (c : ℝ → Fin 4 → V3) (w : Fin 4 → V3)
    (h : ∀ i, HasV (fun τ => c τ i) (w i) 0) (hc : c 0 = n.u) :
    HasDerivAt (fun τ => tetEnergy G m s.mu0 n.p (c τ) (fun j => interpField n.p n.phi + Hext j))
      (s.mu0 * m.Ms * (2 * m.A / (s.mu0 * m.Ms) * calcVol G n.p * gradDot n.p n.u w
        - work G n.p (explicitField G m s n Hext fun _ => 0) w)) 0 := by
  have := ((exchange_deriv (G := G) (m := m) (p := n.p) h).add (uniaxial_deriv (G := G) (m := m) (p := n.p) h)).add
    (zeeman_deriv (G := G) (p := n.p) s.mu0 m.Ms 1 (fun j => interpField n.p n.phi + Hext j) h)
  refine this.congr_deriv ?_
  rw [hc]
  obtain ⟨hmu, hMs⟩ := mul_ne_zero_iff.mp hM
  have hH : ∀ j, explicitField G m s n Hext (fun _ => 0) j = interpField n.p n.phi + Hext j
      + (2 * m.K / (s.mu0 * m.Ms) * m.uk.dot (interpV G n.u j)) * m.uk := by
    intro j
    unfold explicitField hAniso
    rw [interpField_zero n.p n.phiv hphiv, hK3]
    simp only [ne_eq, not_true_eq_false, if_false]
    rcases hv with hK | hv
    · rw [hK]
      ext <;> simp [V3.dot]
    · rw [interpV_zero n.v hv]
      by_cases hK : m.K = 0
      · rw [hK]
        ext <;> simp [V3.dot]
      · rw [if_pos hK]
        unfold anisoUniaxH
        ext <;> simp [V3.dot]
  unfold work
  simp only [hH, add_dot, smul_dot, mul_sub]
  have e1 : s.mu0 * m.Ms * (2 * m.A / (s.mu0 * m.Ms) * calcVol G n.p * gradDot n.p n.u w)
      = 2 * m.A * calcVol G n.p * gradDot n.p n.u w := by field_simp
  have e2 : s.mu0 * m.Ms * ∑ j, weight G n.p j * ((interpField n.p n.phi).dot (interpV G w j) + (Hext j).dot (interpV G w j)
      + 2 * m.K / (s.mu0 * m.Ms) * m.uk.dot (interpV G n.u j) * m.uk.dot (interpV G w j)) =
      s.mu0 * m.Ms * ∑ j, weight G n.p j * (interpV G w j).dot (interpField n.p n.phi + Hext j) +
      2 * m.K * ∑ j, weight G n.p j * (m.uk.dot (interpV G n.u j) * m.uk.dot (interpV G w j)) := by
    rw [Finset.mul_sum, Finset.mul_sum, Finset.mul_sum, ← Finset.sum_add_distrib]
    refine Finset.sum_congr rfl fun j _ => ?_
    rw [dot_add, V3.dot_comm (interpV G w j), V3.dot_comm (interpV G w j)]
    field_simp
  rw [e1, e2]
  ring

theorem gyration_self (p u v : Fin 4 → V3) : gyration G p u v v = 0 := by
  rw [gyration_eq]
  refine Finset.sum_eq_zero fun i _ => ?_
  have : ((u i).cross (v i)).dot (v i) = 0 := by simp only [V3.dot, V3.cross]; ring
  rw [this, mul_zero]

theorem damping_self (h : TimeStep G prm s mag nod tets nodes) (Hext Hst : Tet → Fin G.n → V3) (t : Tet)
    (ht : t ∈ magTet mag tets) (v : Fin 4 → V3) :
    0 ≤ damping G (nodalOf nodes t).p (effDamping G (prm t.reg) s (nodalOf nodes t) (Hext t) (Hst t)) v v ∧
    (damping G (nodalOf nodes t).p (effDamping G (prm t.reg) s (nodalOf nodes t) (Hext t) (Hst t)) v v = 0 →
      ∀ i, v i = 0) := by
  have ht1 := (List.mem_filter.mp ht).1
  rw [damping_eq]
  have hdet : 0 < detJ (nodalOf nodes t).p := h.oriented t ht1
  have hc : ∀ i, 0 < contrib G (nodalOf nodes t).p (effDamping G (prm t.reg) s (nodalOf nodes t) (Hext t) (Hst t)) i :=
    contrib_pos h.rule _ hdet _ _ (h.alpha t ht) fun j => C38_bounds _ _ _ _ h.gamma0 h.dt (h.alpha t ht)
  have hnn : ∀ i, 0 ≤ contrib G (nodalOf nodes t).p (effDamping G (prm t.reg) s (nodalOf nodes t) (Hext t) (Hst t)) i
      * (v i).dot (v i) := by
    intro i
    rw [← V3.nsq_eq_dot]
    exact mul_nonneg (hc i).le (nsq_nonneg _)
  refine ⟨Finset.sum_nonneg fun i _ => hnn i, fun h0 i => ?_⟩
  have := (Finset.sum_eq_zero_iff_of_nonneg fun i _ => hnn i).mp h0 i (Finset.mem_univ _)
  rw [← V3.nsq_eq_dot] at this
  exact nsq_eq_zero ((mul_eq_zero.mp this).resolve_left (hc i).ne')

theorem gradDot_self_nonneg (p v : Fin 4 → V3) : 0 ≤ gradDot p v v := by
  unfold gradDot
  simp only [← V3.nsq_eq_dot]
  exact add_nonneg (add_nonneg (nsq_nonneg _) (nsq_nonneg _)) (nsq_nonneg _)

theorem hasDerivAt_list_sum {ι : Type} (l : List ι) (f : ι → ℝ → ℝ) (f' : ι → ℝ) (x : ℝ)
    (h : ∀ i ∈ l, HasDerivAt (f i) (f' i) x) : HasDerivAt (fun τ => (l.map fun i => f i τ).sum) (l.map f').sum x := by
  induction l with
  | nil => simpa using hasDerivAt_const x (0 : ℝ)
  | cons a l ih =>
    simp only [List.map_cons, List.sum_cons]
    exact (h a (by simp)).add (ih fun i hi => h i (List.mem_cons_of_mem _ hi))

theorem list_sum_sub {ι : Type} (l : List ι) (A B : ι → ℝ) : (l.map fun t => A t - B t).sum = (l.map A).sum - (l.map B).sum := by
  induction l with
  | nil => simp
  | cons a l ih => simp only [List.map_cons, List.sum_cons, ih]; ring

/-- the motion of the nodes of a magnetic tetrahedron -/
theorem moved_hasV (h : TimeStep G prm s mag nod tets nodes) (x : ℕ → ℝ) (t : Tet) (ht : t ∈ magTet mag tets) (k : Fin 4) :
    HasV (fun τ => moved s.gamma0 nodes x τ (t.ind k)) (s.gamma0 * ofComp nodes x (t.ind k)) 0 := by
  obtain ⟨a1, -, -, ab, -, ca, -⟩ := h.ortho ht k
  have hv : ∀ τ, moved s.gamma0 nodes x τ (t.ind k) =
      ((nodes (t.ind k)).cur.u + τ * (s.gamma0 * ofComp nodes x (t.ind k))).normalize := by
    intro τ
    unfold moved Node.makeEvol ofComp
    dsimp only
    congr 1
    ext <;> simp only [V3.add_x, V3.add_y, V3.add_z, V3.smul_x, V3.smul_y, V3.smul_z] <;> ring
  simp only [hv]
  apply HasV.normalize _ _ a1
  unfold ofComp
  rw [dot_smul, dot_add, dot_smul, dot_smul, ab, V3.dot_comm, ca]
  ring

theorem moved_zero (h : TimeStep G prm s mag nod tets nodes) (x : ℕ → ℝ) (t : Tet) (ht : t ∈ magTet mag tets) (k : Fin 4) :
    moved s.gamma0 nodes x 0 (t.ind k) = (nodes (t.ind k)).cur.u := by
  obtain ⟨a1, -⟩ := h.ortho ht k
  unfold moved Node.makeEvol V3.normalize
  dsimp only
  have e : (nodes (t.ind k)).cur.u + (0 : ℝ) * (x (2 * t.ind k) * s.gamma0 * (nodes (t.ind k)).ep
      + x (2 * t.ind k + 1) * s.gamma0 * (nodes (t.ind k)).eq) = (nodes (t.ind k)).cur.u := by
    ext <;> simp
  rw [e, a1, if_pos one_pos]
  ext <;> simp

/-- how fast the energy of one tetrahedron is dissipated -/
noncomputable def rate (G : Rule) (prm : ℕ → Prm) (s : Step) (nodes : ℕ → Node) (Hext : Tet → Fin G.n → V3) (x : ℕ → ℝ)
    (t : Tet) : ℝ :=
  s.gamma0 * (damping G (nodalOf nodes t).p (effDamping G (prm t.reg) s (nodalOf nodes t) (Hext t) fun _ => 0)
      (fun i => ofComp nodes x (t.ind i)) (fun i => ofComp nodes x (t.ind i))
    + 2 * (prm t.reg).A / (s.mu0 * (prm t.reg).Ms) * (s.prefactor * (s.theta * s.dt * s.gamma0)) * calcVol G (nodalOf nodes t).p *
      gradDot (nodalOf nodes t).p (fun i => ofComp nodes x (t.ind i)) (fun i => ofComp nodes x (t.ind i)))

theorem rate_nonneg (h : TimeStep G prm s mag nod tets nodes) (Hext : Tet → Fin G.n → V3) (x : ℕ → ℝ) (t : Tet)
    (ht : t ∈ magTet mag tets) :
    0 ≤ rate G prm s nodes Hext x t ∧ (rate G prm s nodes Hext x t = 0 → ∀ k, ofComp nodes x (t.ind k) = 0) := by
  obtain ⟨h1, h2⟩ := damping_self h Hext (fun _ _ => 0) t ht (fun i => ofComp nodes x (t.ind i))
  have ht1 := (List.mem_filter.mp ht).1
  have hdet : 0 < detJ (nodalOf nodes t).p := h.oriented t ht1
  have hv : 0 < calcVol G (nodalOf nodes t).p := by
    rw [calcVol_eq h.rule.ok]
    positivity
  have hpref : 0 < s.prefactor := by
    obtain ⟨dm, h1, h2⟩ := h.pref
    rw [h2]
    exact prefactor_pos h1 h.dt
  have h3 : 0 ≤ 2 * (prm t.reg).A / (s.mu0 * (prm t.reg).Ms) * (s.prefactor * (s.theta * s.dt * s.gamma0))
      * calcVol G (nodalOf nodes t).p * gradDot (nodalOf nodes t).p (fun i => ofComp nodes x (t.ind i))
        (fun i => ofComp nodes x (t.ind i)) := by
    have a1 : 0 ≤ 2 * (prm t.reg).A / (s.mu0 * (prm t.reg).Ms) :=
      div_nonneg (mul_nonneg (by norm_num) (h.exchange t ht)) (mul_nonneg h.mu0.le (h.magnetic t ht).le)
    have a2 : 0 ≤ s.theta * s.dt * s.gamma0 := mul_nonneg (mul_nonneg h.theta h.dt.le) h.gamma0.le
    have a3 := gradDot_self_nonneg (nodalOf nodes t).p (fun i => ofComp nodes x (t.ind i))
    positivity
  refine ⟨mul_nonneg h.gamma0.le (add_nonneg h1 h3), fun h0 => h2 ?_⟩
  have := (mul_eq_zero.mp h0).resolve_left h.gamma0.ne'
  linarith

/-- the weak form tested with the velocity itself -/
theorem dissipation (h : TimeStep G prm s mag nod tets nodes) (H : TriElem.Rule) (sprm : ℕ → SurfPrm)
    (tris : List (Tri × ℝ)) (hs : Static prm sprm mag tets tris nodes) (Hext : Tet → Fin G.n → V3) (x : ℕ → ℝ)
    (hw : Holds G H prm sprm s (fun i => (magNode mag nod tets).getD i false = true) (magTet mag tets) tris nodes Hext
      (fun _ _ => 0) none 0 fun i => x (2 * i) * (nodes i).ep + x (2 * i + 1) * (nodes i).eq) :
    ((magTet mag tets).map fun t => s.gamma0 * (2 * (prm t.reg).A / (s.mu0 * (prm t.reg).Ms) * calcVol G (nodalOf nodes t).p *
        gradDot (nodalOf nodes t).p (nodalOf nodes t).u (fun i => ofComp nodes x (t.ind i))
      - work G (nodalOf nodes t).p (explicitField G (prm t.reg) s (nodalOf nodes t) (Hext t) fun _ => 0)
        (fun i => ofComp nodes x (t.ind i)))).sum
    = -((magTet mag tets).map (rate G prm s nodes Hext x)).sum := by
  have ht := hw (ofComp nodes x) (by
    intro i hmi
    have hi : i < nod := by
      by_contra hn
      have hl : (magNode mag nod tets).length = nod := magNode_length mag nod tets
      rw [List.getD_eq_getElem?_getD, List.getElem?_eq_none (by omega)] at hmi
      simp at hmi
    obtain ⟨t, ht1, ht2, k, hk⟩ := (magNode_iff mag nod tets _ hi).mp hmi
    obtain ⟨-, -, -, ab, -, ca, -⟩ := h.ortho (List.mem_filter.mpr ⟨ht1, ht2⟩) k
    rw [hk] at ab ca
    rw [V3.dot_comm] at ab
    unfold ofComp
    rw [add_dot, smul_dot, smul_dot, ab, ca]
    ring)
  have hz : (tris.map fun f => surfaceWork H (sprm f.1.reg) f.2 (fun i => (nodes (f.1.ind i)).p)
          (fun i => (nodes (f.1.ind i)).cur.u) (fun i => ofComp nodes x (f.1.ind i))).sum = 0 := by
    apply List.sum_eq_zero
    intro y hy
    obtain ⟨f, hf, rfl⟩ := List.mem_map.mp hy
    unfold surfaceWork
    rw [hs.surface f hf]
    simp
  rw [hz] at ht
  have e : ∀ t, s.gamma0 * (2 * (prm t.reg).A / (s.mu0 * (prm t.reg).Ms) * calcVol G (nodalOf nodes t).p *
        gradDot (nodalOf nodes t).p (nodalOf nodes t).u (fun i => ofComp nodes x (t.ind i))
      - work G (nodalOf nodes t).p (explicitField G (prm t.reg) s (nodalOf nodes t) (Hext t) fun _ => 0)
        (fun i => ofComp nodes x (t.ind i))) =
      s.gamma0 * WeakForm.residual G (prm t.reg) s (nodalOf nodes t) (Hext t) (fun _ => 0) none 0
        (fun i => ofComp nodes x (t.ind i)) (fun i => ofComp nodes x (t.ind i)) - rate G prm s nodes Hext x t := by
    intro t
    unfold WeakForm.residual rate
    rw [gyration_self, gradDot_add_smul]
    unfold drift
    ring
  simp only [e]
  rw [list_sum_sub, List.sum_map_mul_left]
  have : ((magTet mag tets).map fun t => WeakForm.residual G (prm t.reg) s (nodalOf nodes t) (Hext t) (fun _ => 0) none 0
        (fun i => ofComp nodes x (t.ind i)) (fun i => ofComp nodes x (t.ind i))).sum = 0 := ht
  rw [this]
  simp

/-- the derivative of the energy of a tetrahedron along the motion of its nodes -/
theorem tet_moved (h : TimeStep G prm s mag nod tets nodes) {sprm : ℕ → SurfPrm} {tris : List (Tri × ℝ)}
    (hs : Static prm sprm mag tets tris nodes) (Hext : Tet → Fin G.n → V3) (x : ℕ → ℝ) (t : Tet) (ht : t ∈ magTet mag tets) :
    HasDerivAt (fun τ => tetEnergy G (prm t.reg) s.mu0 (nodalOf nodes t).p (fun i => moved s.gamma0 nodes x τ (t.ind i))
        (fun j => interpField (nodalOf nodes t).p (nodalOf nodes t).phi + Hext t j))
      (s.mu0 * (prm t.reg).Ms * (s.gamma0 * (2 * (prm t.reg).A / (s.mu0 * (prm t.reg).Ms) * calcVol G (nodalOf nodes t).p *
        gradDot (nodalOf nodes t).p (nodalOf nodes t).u (fun i => ofComp nodes x (t.ind i))
      - work G (nodalOf nodes t).p (explicitField G (prm t.reg) s (nodalOf nodes t) (Hext t) fun _ => 0)
        (fun i => ofComp nodes x (t.ind i))))) 0 := by
  have hM : s.mu0 * (prm t.reg).Ms ≠ 0 := (mul_pos h.mu0 (h.magnetic t ht)).ne'
  have hd := tet_deriv (G := G) (prm t.reg) s hM (nodalOf nodes t) (Hext t) (hs.cubic t ht) (hs.phiv t ht) (hs.vel t ht)
    (fun τ i => moved s.gamma0 nodes x τ (t.ind i)) (fun i => s.gamma0 * ofComp nodes x (t.ind i))
    (fun i => moved_hasV h x t ht i) (funext fun i => moved_zero h x t ht i)
  refine hd.congr_deriv ?_
  have e1 : gradDot (nodalOf nodes t).p (nodalOf nodes t).u (fun i => s.gamma0 * ofComp nodes x (t.ind i)) =
      s.gamma0 * gradDot (nodalOf nodes t).p (nodalOf nodes t).u (fun i => ofComp nodes x (t.ind i)) := by
    have hd : ∀ d, Tetra.deriv (nodalOf nodes t).p d (fun i => s.gamma0 * ofComp nodes x (t.ind i)) =
        s.gamma0 * Tetra.deriv (nodalOf nodes t).p d (fun i => ofComp nodes x (t.ind i)) := by
      intro d
      unfold Tetra.deriv
      ext <;> simp only [Fin.sum_univ_four, V3.add_x, V3.add_y, V3.add_z, V3.smul_x, V3.smul_y, V3.smul_z] <;> ring
    unfold gradDot
    rw [hd, hd, hd]
    simp only [dot_smul]
    ring
  have e2 : ∀ F : Fin G.n → V3, work G (nodalOf nodes t).p F (fun i => s.gamma0 * ofComp nodes x (t.ind i)) =
      s.gamma0 * work G (nodalOf nodes t).p F (fun i => ofComp nodes x (t.ind i)) := by
    intro F
    rw [work_interp, work_interp, Finset.mul_sum]
    exact Finset.sum_congr rfl fun i _ => smul_dot _ _ _
  rw [e1, e2]
  ring
/-- **C66** (any materials) Suppose that the velocity satisfies the weak form (C65: it solves the linear system). Moving
the magnetization with this velocity changes the sum over the elements of energy / (mu0 Ms) at the rate `-D` with `D` not
negative, and `D = 0` only if no magnetic node moves. -/
theorem C66_reduced_energy (h : TimeStep G prm s mag nod tets nodes) (H : TriElem.Rule) (sprm : ℕ → SurfPrm)
    (tris : List (Tri × ℝ)) (hs : Static prm sprm mag tets tris nodes) (Hext : Tet → Fin G.n → V3) (x : ℕ → ℝ)
    (hw : Holds G H prm sprm s (fun i => (magNode mag nod tets).getD i false = true) (magTet mag tets) tris nodes Hext
      (fun _ _ => 0) none 0 fun i => x (2 * i) * (nodes i).ep + x (2 * i + 1) * (nodes i).eq) :
    ∃ D, HasDerivAt (fun τ => reduced G prm s.mu0 (magTet mag tets) nodes Hext (moved s.gamma0 nodes x τ)) (-D) 0 ∧ 0 ≤ D ∧
      (D = 0 → ∀ t ∈ magTet mag tets, ∀ k τ, moved s.gamma0 nodes x τ (t.ind k) = (nodes (t.ind k)).cur.u) := by
  refine ⟨((magTet mag tets).map (rate G prm s nodes Hext x)).sum, ?_, ?_, ?_⟩
  · rw [← dissipation h H sprm tris hs Hext x hw]
    unfold reduced
    apply hasDerivAt_list_sum (magTet mag tets) (fun t τ => tetEnergy G (prm t.reg) s.mu0 (nodalOf nodes t).p
      (fun i => moved s.gamma0 nodes x τ (t.ind i))
      (fun j => interpField (nodalOf nodes t).p (nodalOf nodes t).phi + Hext t j) / (s.mu0 * (prm t.reg).Ms))
    intro t ht
    have hM : s.mu0 * (prm t.reg).Ms ≠ 0 := (mul_pos h.mu0 (h.magnetic t ht)).ne'
    refine ((tet_moved h hs Hext x t ht).div_const _).congr_deriv ?_
    rw [mul_div_cancel_left₀ _ hM]
  · apply List.sum_nonneg
    intro y hy
    obtain ⟨t, ht, rfl⟩ := List.mem_map.mp hy
    exact (rate_nonneg h Hext x t ht).1
  · intro h0 t ht k τ
    have hr : rate G prm s nodes Hext x t = 0 := by
      refine list_sum_zero ?_ h0 _ (List.mem_map.mpr ⟨t, ht, rfl⟩)
      intro y hy
      obtain ⟨t, ht, rfl⟩ := List.mem_map.mp hy
      exact (rate_nonneg h Hext x t ht).1
    have hv := (rate_nonneg h Hext x t ht).2 hr k
    have e : moved s.gamma0 nodes x τ (t.ind k) = moved s.gamma0 nodes x 0 (t.ind k) := by
      unfold moved Node.makeEvol
      dsimp only
      have e3 : x (2 * t.ind k) * s.gamma0 * (nodes (t.ind k)).ep + x (2 * t.ind k + 1) * s.gamma0 * (nodes (t.ind k)).eq
          = s.gamma0 * ofComp nodes x (t.ind k) := by
        unfold ofComp
        ext <;> simp only [V3.add_x, V3.add_y, V3.add_z, V3.smul_x, V3.smul_y, V3.smul_z] <;> ring
      rw [e3, hv]
      congr 1
      ext <;> simp
    rw [e, moved_zero h x t ht k]

theorem energy_eq_reduced (Ms : ℝ) (hMs : ∀ t ∈ magTet mag tets, (prm t.reg).Ms = Ms) (mu0 : ℝ) (h0 : mu0 * Ms ≠ 0)
    (Hext : Tet → Fin G.n → V3) (u : ℕ → V3) :
    energy G prm mu0 (magTet mag tets) nodes Hext u =
      mu0 * Ms * reduced G prm mu0 (magTet mag tets) nodes Hext u := by
  unfold energy reduced
  rw [← List.sum_map_mul_left]
  congr 1
  apply List.map_congr_left
  intro t ht
  rw [hMs t ht, mul_div_cancel₀ _ h0]

/-- **C66** (one value of Ms) If all magnetic regions have the same `Ms`, a solution of the linear system assembled for the
time step makes the energy decrease: either no magnetic node moves, or every step short enough strictly lowers the energy. -/
theorem C66_energy_decreases_partial (h : TimeStep G prm s mag nod tets nodes) (H : TriElem.Rule) (sprm : ℕ → SurfPrm)
    (tris : List (Tri × ℝ)) (hs : Static prm sprm mag tets tris nodes) (hvt : ∀ f ∈ tris, ∀ k, f.1.ind k < nod)
    (hmt : ∀ f ∈ tris, f.1.isMagnetic (magNode mag nod tets) = true)
    (Ms : ℝ) (hMs : ∀ t ∈ magTet mag tets, (prm t.reg).Ms = Ms) (hMs0 : 0 < Ms)
    (Hext : Tet → Fin G.n → V3)
    (order : List Tet) (ho : order.Perm (magTet mag tets)) (orderT : List (Tri × ℝ)) (hoT : orderT.Perm tris)
    (before : List (Op ℝ)) (hb : ∀ o ∈ before, o.InShape (llgShape mag nod tets)) :
    ∃ m b, (ofShape (llgShape mag nod tets) : Sp ℝ).run (before ++ llgOps (magNode mag nod tets) nod
        (elems (tetElem G prm s nodes Hext (fun _ _ => 0) none 0) order)) = some m ∧
      llgRhs (magNode mag nod tets) nod (order.map (tetElem G prm s nodes Hext (fun _ _ => 0) none 0))
        (orderT.map (triElem H sprm nodes)) = some b ∧
      ∀ x : ℕ → ℝ, m.mult x = b →
        (∀ t ∈ magTet mag tets, ∀ k τ, moved s.gamma0 nodes x τ (t.ind k) = (nodes (t.ind k)).cur.u) ∨
        ∃ τ₀ > 0, ∀ τ, 0 < τ → τ < τ₀ →
          energy G prm s.mu0 (magTet mag tets) nodes Hext (moved s.gamma0 nodes x τ) <
            energy G prm s.mu0 (magTet mag tets) nodes Hext fun i => (nodes i).cur.u := by
  obtain ⟨m, b, hm, hb', hx⟩ := C65_weak_form h H sprm tris hvt hmt Hext (fun _ _ => 0) none 0 order ho orderT hoT before hb
  refine ⟨m, b, hm, hb', fun x hsol => ?_⟩
  obtain ⟨-, hw⟩ := (hx x).mp hsol
  obtain ⟨D, hD, hD0, hDz⟩ := C66_reduced_energy h H sprm tris hs Hext x hw
  by_cases hz : D = 0
  · exact Or.inl (hDz hz)
  · right
    have hDpos : 0 < D := lt_of_le_of_ne hD0 (Ne.symm hz)
    have h0 : 0 < s.mu0 * Ms := mul_pos h.mu0 hMs0
    have hsl := hD.hasDerivWithinAt (s := Set.Ioi 0)
    have hev := (hasDerivWithinAt_iff_tendsto_slope' (by simp)).mp hsl
    have hlt : ∀ᶠ τ in nhdsWithin (0 : ℝ) (Set.Ioi 0), slope (fun τ => reduced G prm s.mu0 (magTet mag tets) nodes Hext
        (moved s.gamma0 nodes x τ)) 0 τ < 0 := hev.eventually (gt_mem_nhds (by linarith))
    obtain ⟨τ₀, hτ₀, hsub⟩ := (mem_nhdsGT_iff_exists_Ioo_subset).mp hlt
    refine ⟨τ₀, hτ₀, fun τ h1 h2 => ?_⟩
    have hs2 : slope (fun τ => reduced G prm s.mu0 (magTet mag tets) nodes Hext (moved s.gamma0 nodes x τ)) 0 τ < 0 := hsub ⟨h1, h2⟩
    rw [slope_def_field, sub_zero, div_neg_iff] at hs2
    have hred : reduced G prm s.mu0 (magTet mag tets) nodes Hext (moved s.gamma0 nodes x τ) <
        reduced G prm s.mu0 (magTet mag tets) nodes Hext (moved s.gamma0 nodes x 0) := by
      rcases hs2 with ⟨-, h3⟩ | ⟨h3, -⟩
      · linarith
      · linarith
    have hu : energy G prm s.mu0 (magTet mag tets) nodes Hext (moved s.gamma0 nodes x 0) =
        energy G prm s.mu0 (magTet mag tets) nodes Hext fun i => (nodes i).cur.u := by
      unfold energy
      congr 1
      apply List.map_congr_left
      intro t ht
      congr 1
      funext i
      exact moved_zero h x t ht i
    rw [← hu, energy_eq_reduced Ms hMs s.mu0 h0.ne', energy_eq_reduced Ms hMs s.mu0 h0.ne']
    exact mul_lt_mul_of_pos_left hred h0

end

/-! ## two materials: the energy may increase -/

/-- the work of a field constant on the element -/
theorem work_const {G : Rule} (hG : G.Ok) (p : Fin 4 → V3) (F : V3) (w : Fin 4 → V3) :
    work G p (fun _ => F) w = calcVol G p * ((∑ i, F.dot (w i)) / 4) := by
  unfold work
  simp only [dot_interpV]
  exact sum_weight_interpS hG p _

/-- two materials, Ms is 1 and 4; no exchange, no anisotropy -/
noncomputable def ex2Prm : ℕ → Prm := fun r => ⟨1 / 2, 0, if r = 0 then 1 else 4, 0, 0, 0, 0, 0, 0⟩

/-- the two nodes off the common face are magnetized along x, the three nodes of the common face along z -/
noncomputable def ex2Nodes : ℕ → Node := fun i => Node.setBasis i
  ⟨MeshElem.exP2 i, 0, 0, ⟨if i = 0 ∨ i = 4 then ⟨1, 0, 0⟩ else ⟨0, 0, 1⟩, 0, 0, 0⟩, ⟨0, 0, 0, 0⟩⟩

/-- the applied field is 4 along x in the first region, 1 against x in the second -/
noncomputable def ex2H : Tet → Fin rule5.n → V3 := fun t _ => if t.reg = 0 then ⟨4, 0, 0⟩ else ⟨-1, 0, 0⟩

noncomputable def ex2S : Step := ⟨1, 1, 1 / 2, 1, prefactor 1 1⟩

theorem ex2_timeStep : TimeStep rule5 ex2Prm ex2S (fun _ => true) 5 MeshElem.exT2 ex2Nodes where
  rule := Or.inr rfl
  valid := by
    intro t ht k
    simp only [MeshElem.exT2, List.mem_cons, List.not_mem_nil, or_false] at ht
    rcases ht with rfl | rfl <;> fin_cases k <;> simp
  oriented := MeshElem.ex2_pos
  basis := fun t _ k => ⟨_, _, rfl, by
    dsimp only
    split_ifs <;> simp [IsUnit3]⟩
  alpha := fun _ _ => by simp [ex2Prm]
  exchange := fun _ _ => by simp [ex2Prm]
  magnetic := fun t _ => by
    simp only [ex2Prm]
    split_ifs <;> norm_num
  gamma0 := by norm_num [ex2S]
  mu0 := by norm_num [ex2S]
  theta := by norm_num [ex2S]
  dt := by norm_num [ex2S]
  pref := ⟨1, by norm_num, rfl⟩

theorem ex2_static : Static ex2Prm (fun _ => ⟨0, 0⟩) (fun _ => true) MeshElem.exT2 [] ex2Nodes where
  cubic := fun _ _ => rfl
  surface := fun _ _ => rfl
  phiv := fun _ _ _ => rfl
  vel := fun _ _ => Or.inl rfl

theorem ex2_mag : magTet (fun _ => true) MeshElem.exT2 = MeshElem.exT2 := rfl

theorem ex2_vol0 : calcVol rule5 (nodalOf ex2Nodes ⟨![0, 1, 2, 3], 0⟩).p = 1 / 6 := by
  rw [calcVol_eq rule5_ok, detJ_eq]
  simp [nodalOf, ex2Nodes, Node.setBasis, MeshElem.exP2, V3.dot, V3.cross]

theorem ex2_vol1 : calcVol rule5 (nodalOf ex2Nodes ⟨![4, 1, 3, 2], 1⟩).p = 1 / 3 := by
  rw [calcVol_eq rule5_ok, detJ_eq]
  simp [nodalOf, ex2Nodes, Node.setBasis, MeshElem.exP2, V3.dot, V3.cross]
  norm_num

theorem ex2_field (t : Tet) : explicitField rule5 (ex2Prm t.reg) ex2S (nodalOf ex2Nodes t) (ex2H t) (fun _ => 0) =
    fun _ => if t.reg = 0 then ⟨4, 0, 0⟩ else ⟨-1, 0, 0⟩ := by
  funext j
  unfold explicitField hAniso
  rw [interpField_zero _ (nodalOf ex2Nodes t).phiv (fun _ => rfl), interpField_zero _ (nodalOf ex2Nodes t).phi (fun _ => rfl)]
  simp only [ex2H]
  split_ifs <;> ext <;> simp [ex2Prm, V3.dot] at *

/-- velocity along x at a node -/
theorem ex2_x0 (x : ℕ → ℝ) : (ofComp ex2Nodes x 0).x = 0 ∧ (ofComp ex2Nodes x 4).x = 0 := by
  have h := ex2_timeStep
  have t0 : (⟨![0, 1, 2, 3], 0⟩ : Tet) ∈ magTet (fun _ => true) MeshElem.exT2 := by rw [ex2_mag]; simp [MeshElem.exT2]
  have t1 : (⟨![4, 1, 3, 2], 1⟩ : Tet) ∈ magTet (fun _ => true) MeshElem.exT2 := by rw [ex2_mag]; simp [MeshElem.exT2]
  obtain ⟨-, -, -, ab, -, ca, -⟩ := h.ortho t0 0
  obtain ⟨-, -, -, ab', -, ca', -⟩ := h.ortho t1 0
  have e0 : (ex2Nodes 0).cur.u = ⟨1, 0, 0⟩ := by simp [ex2Nodes, Node.setBasis]
  have e4 : (ex2Nodes 4).cur.u = ⟨1, 0, 0⟩ := by simp [ex2Nodes, Node.setBasis]
  simp only [Matrix.cons_val_zero, e0, e4, V3.dot] at ab ca ab' ca'
  unfold ofComp
  simp only [V3.add_x, V3.smul_x]
  constructor
  · have a : (ex2Nodes 0).ep.x = 0 := by linarith
    have b : (ex2Nodes 0).eq.x = 0 := by linarith
    rw [a, b]; ring
  · have a : (ex2Nodes 4).ep.x = 0 := by linarith
    have b : (ex2Nodes 4).eq.x = 0 := by linarith
    rw [a, b]; ring

theorem ex2_work0 (w : ℕ → V3) : work rule5 (nodalOf ex2Nodes ⟨![0, 1, 2, 3], 0⟩).p
      (explicitField rule5 (ex2Prm 0) ex2S (nodalOf ex2Nodes ⟨![0, 1, 2, 3], 0⟩) (ex2H ⟨![0, 1, 2, 3], 0⟩) fun _ => 0)
      (fun i => w ((⟨![0, 1, 2, 3], 0⟩ : Tet).ind i)) = ((w 0).x + (w 1).x + (w 2).x + (w 3).x) / 6 := by
  have e := ex2_field ⟨![0, 1, 2, 3], 0⟩
  dsimp only at e
  rw [e, work_const rule5_ok, ex2_vol0]
  simp only [if_pos, Fin.sum_univ_four, V3.dot]
  simp
  ring

theorem ex2_work1 (w : ℕ → V3) : work rule5 (nodalOf ex2Nodes ⟨![4, 1, 3, 2], 1⟩).p
      (explicitField rule5 (ex2Prm 1) ex2S (nodalOf ex2Nodes ⟨![4, 1, 3, 2], 1⟩) (ex2H ⟨![4, 1, 3, 2], 1⟩) fun _ => 0)
      (fun i => w ((⟨![4, 1, 3, 2], 1⟩ : Tet).ind i)) = -((w 4).x + (w 1).x + (w 2).x + (w 3).x) / 12 := by
  have e := ex2_field ⟨![4, 1, 3, 2], 1⟩
  dsimp only at e
  rw [e, work_const rule5_ok, ex2_vol1]
  simp only [Fin.sum_univ_four, V3.dot]
  simp
  ring

/-- the velocity computed in this example is along the field of the first region at the common nodes -/
theorem ex2_velocity (H : TriElem.Rule) (x : ℕ → ℝ)
    (hw : Holds rule5 H ex2Prm (fun _ => ⟨0, 0⟩) ex2S
      (fun i => (magNode (fun _ => true) 5 MeshElem.exT2).getD i false = true) (magTet (fun _ => true) MeshElem.exT2) []
      ex2Nodes ex2H (fun _ _ => 0) none 0 fun i => x (2 * i) * (ex2Nodes i).ep + x (2 * i + 1) * (ex2Nodes i).eq) :
    0 < (ofComp ex2Nodes x 1).x + (ofComp ex2Nodes x 2).x + (ofComp ex2Nodes x 3).x := by
  have hA : ∀ r, (ex2Prm r).A = 0 := fun _ => rfl
  have hd := dissipation ex2_timeStep H (fun _ => ⟨0, 0⟩) [] ex2_static ex2H x hw
  rw [ex2_mag] at hd
  simp only [hA, MeshElem.exT2, List.map_cons, List.map_nil, List.sum_cons, List.sum_nil] at hd
  rw [ex2_work0 (ofComp ex2Nodes x), ex2_work1 (ofComp ex2Nodes x), (ex2_x0 x).1, (ex2_x0 x).2] at hd
  have t0 : (⟨![0, 1, 2, 3], 0⟩ : Tet) ∈ magTet (fun _ => true) MeshElem.exT2 := by rw [ex2_mag]; simp [MeshElem.exT2]
  have t1 : (⟨![4, 1, 3, 2], 1⟩ : Tet) ∈ magTet (fun _ => true) MeshElem.exT2 := by rw [ex2_mag]; simp [MeshElem.exT2]
  obtain ⟨r0, z0⟩ := rate_nonneg ex2_timeStep ex2H x _ t0
  obtain ⟨r1, z1⟩ := rate_nonneg ex2_timeStep ex2H x _ t1
  have hg : ex2S.gamma0 = 1 := rfl
  rw [hg] at hd
  have hpos : 0 < rate rule5 ex2Prm ex2S ex2Nodes ex2H x ⟨![0, 1, 2, 3], 0⟩
      + rate rule5 ex2Prm ex2S ex2Nodes ex2H x ⟨![4, 1, 3, 2], 1⟩ := by
    by_contra hn
    have v0 := z0 (by linarith)
    have v1 := z1 (by linarith)
    have ht := hw (fun i => if i = 0 ∨ i = 4 then 0 else ⟨1, 0, 0⟩) (by
      intro i _
      by_cases hi : i = 0 ∨ i = 4
      · simp [hi, V3.dot]
      · simp [hi, V3.dot, ex2Nodes, Node.setBasis])
    rw [ex2_mag] at ht
    have c0 : (fun i => x (2 * (⟨![0, 1, 2, 3], 0⟩ : Tet).ind i) * (ex2Nodes ((⟨![0, 1, 2, 3], 0⟩ : Tet).ind i)).ep
        + x (2 * (⟨![0, 1, 2, 3], 0⟩ : Tet).ind i + 1) * (ex2Nodes ((⟨![0, 1, 2, 3], 0⟩ : Tet).ind i)).eq) = fun _ => 0 :=
      funext v0
    have c1 : (fun i => x (2 * (⟨![4, 1, 3, 2], 1⟩ : Tet).ind i) * (ex2Nodes ((⟨![4, 1, 3, 2], 1⟩ : Tet).ind i)).ep
        + x (2 * (⟨![4, 1, 3, 2], 1⟩ : Tet).ind i + 1) * (ex2Nodes ((⟨![4, 1, 3, 2], 1⟩ : Tet).ind i)).eq) = fun _ => 0 :=
      funext v1
    simp only [MeshElem.exT2, List.map_cons, List.map_nil, List.sum_cons, List.sum_nil] at ht
    rw [c0, c1] at ht
    have hz : ∀ (p : Fin 4 → V3) (al : Fin rule5.n → ℝ) (w : Fin 4 → V3), damping rule5 p al (fun _ => 0) w = 0 := by
      intro p al w
      rw [damping_eq]
      exact Finset.sum_eq_zero fun i _ => by simp [V3.dot]
    have hz' : ∀ (p u w : Fin 4 → V3), gyration rule5 p u (fun _ => 0) w = 0 := by
      intro p u w
      rw [gyration_eq]
      exact Finset.sum_eq_zero fun i _ => by simp [V3.dot, V3.cross]
    unfold WeakForm.residual at ht
    rw [hz, hz, hz', hz', ex2_work0 (fun i => if i = 0 ∨ i = 4 then 0 else ⟨1, 0, 0⟩),
      ex2_work1 (fun i => if i = 0 ∨ i = 4 then 0 else ⟨1, 0, 0⟩), hA, hA] at ht
    unfold drift at ht
    norm_num at ht
  simp only [mul_zero, zero_div, zero_mul] at hd
  linarith

/-- **C66** (negation) The energy need not decrease when the magnetic regions have different `Ms`. Here are two
tetrahedrons with a common face, `Ms` 1 and 4, in a field which differs between the regions: the linear system assembled
for the time step has a solution, and every solution makes the energy increase, for every step short enough. -/
theorem C66_negation_two_materials (H : TriElem.Rule) :
    ∃ m b, (ofShape (llgShape (fun _ => true) 5 MeshElem.exT2) : Sp ℝ).run (llgOps (magNode (fun _ => true) 5 MeshElem.exT2) 5
        (elems (tetElem rule5 ex2Prm ex2S ex2Nodes ex2H (fun _ _ => 0) none 0) MeshElem.exT2)) = some m ∧
      llgRhs (magNode (fun _ => true) 5 MeshElem.exT2) 5
        (MeshElem.exT2.map (tetElem rule5 ex2Prm ex2S ex2Nodes ex2H (fun _ _ => 0) none 0)) ([] : List (Elem 3 ℝ)) = some b ∧
      (∃ x, m.mult x = b) ∧
      ∀ x : ℕ → ℝ, m.mult x = b → ∃ τ₀ > 0, ∀ τ, 0 < τ → τ < τ₀ →
          energy rule5 ex2Prm ex2S.mu0 MeshElem.exT2 ex2Nodes ex2H (fun i => (ex2Nodes i).cur.u) <
            energy rule5 ex2Prm ex2S.mu0 MeshElem.exT2 ex2Nodes ex2H (moved ex2S.gamma0 ex2Nodes x τ) := by
  obtain ⟨m, b, hm, hb, hx⟩ := C65_weak_form ex2_timeStep H (fun _ => ⟨0, 0⟩) [] (by simp) (by simp) ex2H (fun _ _ => 0) none 0
    MeshElem.exT2 (by rw [ex2_mag]) [] (List.Perm.refl _) [] (by simp)
  obtain ⟨m', hm', hsol⟩ := C39_unique_solution ex2_timeStep ex2H (fun _ _ => 0) none 0 MeshElem.exT2 (by rw [ex2_mag]) []
    (by simp)
  obtain ⟨b', hb', hlen, -⟩ := C22_rhs (fun _ => true) 5 MeshElem.exT2 ex2_timeStep.valid
    (tetElem rule5 ex2Prm ex2S ex2Nodes ex2H (fun _ _ => 0) none 0) (fun _ => rfl) MeshElem.exT2 (by rw [ex2_mag])
    [] (triElem H (fun _ => ⟨0, 0⟩) ex2Nodes) (by simp) [] (List.Perm.refl _)
  obtain rfl : m = m' := Option.some.inj (hm.symm.trans hm')
  obtain rfl : b = b' := Option.some.inj (hb.symm.trans hb')
  refine ⟨m, b, hm, hb, ?_, ?_⟩
  · obtain ⟨x, hx, -⟩ := hsol (fun i => b.getD i 0)
    refine ⟨ext x, hx.trans ?_⟩
    apply List.ext_getElem
    · rw [List.length_ofFn, hlen]
    · intro n h1 h2
      rw [List.getElem_ofFn]
      simp [List.getD_eq_getElem?_getD, h2]
  · intro x hsolx
    have hpos := ex2_velocity H x ((hx x).mp hsolx).2
    have h0 : ∀ t ∈ MeshElem.exT2, ∀ k, moved ex2S.gamma0 ex2Nodes x 0 (t.ind k) = (ex2Nodes (t.ind k)).cur.u := fun t ht k =>
      moved_zero ex2_timeStep x t (by rw [ex2_mag]; exact ht) k
    have hd : HasDerivAt (fun τ => energy rule5 ex2Prm ex2S.mu0 MeshElem.exT2 ex2Nodes ex2H (moved ex2S.gamma0 ex2Nodes x τ))
        (((ofComp ex2Nodes x 1).x + (ofComp ex2Nodes x 2).x + (ofComp ex2Nodes x 3).x) / 6) 0 := by
      have := hasDerivAt_list_sum MeshElem.exT2 (fun t τ => tetEnergy rule5 (ex2Prm t.reg) ex2S.mu0 (nodalOf ex2Nodes t).p
        (fun i => moved ex2S.gamma0 ex2Nodes x τ (t.ind i))
        (fun j => interpField (nodalOf ex2Nodes t).p (nodalOf ex2Nodes t).phi + ex2H t j)) _ 0
        (fun t ht => tet_moved ex2_timeStep ex2_static ex2H x t (by rw [ex2_mag]; exact ht))
      refine this.congr_deriv ?_
      have hA : ∀ r, (ex2Prm r).A = 0 := fun _ => rfl
      simp only [hA, MeshElem.exT2, List.map_cons, List.map_nil, List.sum_cons, List.sum_nil]
      rw [ex2_work0 (ofComp ex2Nodes x), ex2_work1 (ofComp ex2Nodes x), (ex2_x0 x).1, (ex2_x0 x).2]
      have hg : ex2S.gamma0 = 1 := rfl
      have hmu : ex2S.mu0 = 1 := rfl
      have m0 : (ex2Prm 0).Ms = 1 := rfl
      have m1 : (ex2Prm 1).Ms = 4 := by simp [ex2Prm]
      rw [hg, hmu, m0, m1]
      ring
    have hev := (hasDerivWithinAt_iff_tendsto_slope' (by simp)).mp (hd.hasDerivWithinAt (s := Set.Ioi 0))
    have hlt : ∀ᶠ τ in nhdsWithin (0 : ℝ) (Set.Ioi 0), 0 < slope (fun τ => energy rule5 ex2Prm ex2S.mu0 MeshElem.exT2 ex2Nodes
        ex2H (moved ex2S.gamma0 ex2Nodes x τ)) 0 τ := hev.eventually (lt_mem_nhds (by linarith))
    obtain ⟨τ₀, hτ₀, hsub⟩ := (mem_nhdsGT_iff_exists_Ioo_subset).mp hlt
    refine ⟨τ₀, hτ₀, fun τ h1 h2 => ?_⟩
    have hs2 : 0 < slope (fun τ => energy rule5 ex2Prm ex2S.mu0 MeshElem.exT2 ex2Nodes ex2H (moved ex2S.gamma0 ex2Nodes x τ)) 0 τ :=
      hsub ⟨h1, h2⟩
    rw [slope_def_field, sub_zero, div_pos_iff] at hs2
    have hu : energy rule5 ex2Prm ex2S.mu0 MeshElem.exT2 ex2Nodes ex2H (moved ex2S.gamma0 ex2Nodes x 0) =
        energy rule5 ex2Prm ex2S.mu0 MeshElem.exT2 ex2Nodes ex2H fun i => (ex2Nodes i).cur.u := by
      unfold energy
      congr 1
      apply List.map_congr_left
      intro t ht
      congr 1
      funext i
      exact h0 t ht i
    rw [← hu]
    rcases hs2 with ⟨h3, -⟩ | ⟨-, h3⟩
    · linarith
    · linarith

/-- C65: the hypotheses are met by these two tetrahedrons with a triangle on the boundary of the first one -/
example : TimeStep rule5 ex2Prm ex2S (fun _ => true) 5 MeshElem.exT2 ex2Nodes ∧
    (∀ f ∈ [((⟨![0, 2, 1], 0⟩ : Tri), (5 : ℝ))], ∀ k, f.1.ind k < 5) ∧
    ∀ f ∈ [((⟨![0, 2, 1], 0⟩ : Tri), (5 : ℝ))], f.1.isMagnetic (magNode (fun _ => true) 5 MeshElem.exT2) = true := by
  refine ⟨ex2_timeStep, ?_, ?_⟩
  · intro f hf k
    simp only [List.mem_cons, List.not_mem_nil, or_false] at hf
    subst hf
    fin_cases k <;> simp
  · intro f hf
    simp only [List.mem_cons, List.not_mem_nil, or_false] at hf
    subst hf
    decide

/-- C66: the hypotheses are met by the same tetrahedrons with exchange, uniaxial anisotropy and one value of `Ms` -/
example : TimeStep rule5 (fun _ => ⟨1 / 2, 1, 4, 3, ⟨0, 1, 0⟩, 0, 0, 0, 0⟩) ex2S (fun _ => true) 5 MeshElem.exT2 ex2Nodes ∧
    Static (fun _ => ⟨1 / 2, 1, 4, 3, ⟨0, 1, 0⟩, 0, 0, 0, 0⟩) (fun _ => ⟨0, 0⟩) (fun _ => true) MeshElem.exT2
      [((⟨![0, 2, 1], 0⟩ : Tri), (5 : ℝ))] ex2Nodes :=
  ⟨{ ex2_timeStep with
      alpha := fun _ _ => by norm_num
      exchange := fun _ _ => by norm_num
      magnetic := fun _ _ => by norm_num },
    ⟨fun _ _ => rfl, fun _ _ => rfl, fun _ _ _ => rfl, fun _ _ => Or.inr fun _ => rfl⟩⟩

end Verif.Energy
