import Verif.Props.Energy

/-!
# C68, C69: what the computed velocity does not depend on, and what it is for a uniform magnetization
-/

namespace Verif.WeakForm

open Verif.Mesh Verif.Assembly Verif.Tetra Verif.SparseMat Verif.Llg Verif.Energy

section
variable {G : Rule} {prm : ℕ → Prm} {s : Step} {mag : ℕ → Bool} {nod : ℕ} {tets : List Tet} {nodes : ℕ → Node}

theorem sub_dot (a b c : V3) : (a - b).dot c = a.dot c - b.dot c := by
  simp only [V3.dot, V3.sub_x, V3.sub_y, V3.sub_z]; ring

theorem residual_sub (G : Rule) (m : Prm) (s : Step) (n : Nodal) (Hext Hst : Fin G.n → V3) (dir : Option (Fin 3)) (V : ℝ)
    (v v' w : Fin 4 → V3) :
    WeakForm.residual G m s n Hext Hst dir V v w - WeakForm.residual G m s n Hext Hst dir V v' w =
      damping G n.p (effDamping G m s n Hext Hst) (fun i => v i - v' i) w + gyration G n.p n.u (fun i => v i - v' i) w
      + 2 * m.A / (s.mu0 * m.Ms) * (s.prefactor * (s.theta * s.dt * s.gamma0)) * calcVol G n.p *
        gradDot n.p (fun i => v i - v' i) w := by
  have e1 : ∀ al : Fin G.n → ℝ, damping G n.p al (fun i => v i - v' i) w = damping G n.p al v w - damping G n.p al v' w := by
    intro al
    rw [damping_eq, damping_eq, damping_eq, ← Finset.sum_sub_distrib]
    exact Finset.sum_congr rfl fun i _ => by rw [sub_dot]; ring
  have e2 : gyration G n.p n.u (fun i => v i - v' i) w = gyration G n.p n.u v w - gyration G n.p n.u v' w := by
    rw [gyration_eq, gyration_eq, gyration_eq, ← Finset.sum_sub_distrib]
    refine Finset.sum_congr rfl fun i _ => ?_
    simp only [V3.dot, V3.cross, V3.sub_x, V3.sub_y, V3.sub_z]
    ring
  have e3 : gradDot n.p (fun i => v i - v' i) w = gradDot n.p v w - gradDot n.p v' w := by
    have h : ∀ i, v i - v' i = v i + (-1 : ℝ) * v' i := by
      intro i
      ext <;> simp <;> ring
    simp only [h]
    rw [gradDot_add_smul]
    ring
  unfold WeakForm.residual
  rw [e1, e2, e3, gradDot_add_smul, gradDot_add_smul]
  ring

/-- the weak form determines the velocity of the magnetic nodes -/
theorem holds_unique (h : TimeStep G prm s mag nod tets nodes) (H : TriElem.Rule) (sprm : ℕ → SurfPrm)
    (tris : List (Tri × ℝ)) (Hext Hst : Tet → Fin G.n → V3) (dir : Option (Fin 3)) (V : ℝ) (magN : ℕ → Prop)
    (v v' : ℕ → V3)
    (hv : ∀ i, magN i → (v i).dot (nodes i).cur.u = 0) (hv' : ∀ i, magN i → (v' i).dot (nodes i).cur.u = 0)
    (h1 : Holds G H prm sprm s magN (magTet mag tets) tris nodes Hext Hst dir V v)
    (h2 : Holds G H prm sprm s magN (magTet mag tets) tris nodes Hext Hst dir V v') :
    ∀ t ∈ magTet mag tets, ∀ k, v (t.ind k) = v' (t.ind k) := by
  have hw : ∀ i, magN i → (v i - v' i).dot (nodes i).cur.u = 0 := by
    intro i hi
    rw [sub_dot, hv i hi, hv' i hi, sub_zero]
  have e := (h1 (fun i => v i - v' i) hw).trans (h2 (fun i => v i - v' i) hw).symm
  have e0 := sub_eq_zero.mpr e
  rw [← list_sum_sub] at e0
  simp only [residual_sub] at e0
  have hpref : 0 < s.prefactor := by
    obtain ⟨dm, h1, h2⟩ := h.pref
    rw [h2]
    exact prefactor_pos h1 h.dt
  have hex : ∀ t ∈ magTet mag tets, 0 ≤ 2 * (prm t.reg).A / (s.mu0 * (prm t.reg).Ms) *
      (s.prefactor * (s.theta * s.dt * s.gamma0)) * calcVol G (nodalOf nodes t).p * gradDot (nodalOf nodes t).p
        (fun i => v (t.ind i) - v' (t.ind i)) (fun i => v (t.ind i) - v' (t.ind i)) := by
    intro t ht
    have hdet : 0 < detJ (nodalOf nodes t).p := h.oriented t (List.mem_filter.mp ht).1
    have hv : 0 < calcVol G (nodalOf nodes t).p := by
      rw [calcVol_eq h.rule.ok]
      positivity
    have a1 : 0 ≤ 2 * (prm t.reg).A / (s.mu0 * (prm t.reg).Ms) :=
      div_nonneg (mul_nonneg (by norm_num) (h.exchange t ht)) (mul_nonneg h.mu0.le (h.magnetic t ht).le)
    have a2 : 0 ≤ s.theta * s.dt * s.gamma0 := mul_nonneg (mul_nonneg h.theta h.dt.le) h.gamma0.le
    have a3 := gradDot_self_nonneg (nodalOf nodes t).p (fun i => v (t.ind i) - v' (t.ind i))
    positivity
  intro t ht k
  have hz := list_sum_zero (by
    intro y hy
    obtain ⟨t, ht, rfl⟩ := List.mem_map.mp hy
    rw [gyration_self]
    have := (damping_self h Hext Hst t ht (fun i => v (t.ind i) - v' (t.ind i))).1
    have := hex t ht
    linarith) e0 _ (List.mem_map.mpr ⟨t, ht, rfl⟩)
  rw [gyration_self] at hz
  have hd := damping_self h Hext Hst t ht (fun i => v (t.ind i) - v' (t.ind i))
  have h0 := hd.2 (by
    have := hd.1
    have := hex t ht
    linarith) k
  have hx : v (t.ind k) - v' (t.ind k) = 0 := h0
  have ex := congrArg V3.x hx
  have ey := congrArg V3.y hx
  have ez := congrArg V3.z hx
  simp only [V3.sub_x, V3.sub_y, V3.sub_z, V3.zero_x, V3.zero_y, V3.zero_z] at ex ey ez
  ext
  · linarith
  · linarith
  · linarith

end

/-! ## C68: numbering of the nodes, order of the elements, tangent bases -/

/-- renumbering of a tetrahedron -/
def renT (σ : Equiv.Perm ℕ) (t : Tet) : Tet := ⟨fun k => σ (t.ind k), t.reg⟩

/-- renumbering of a triangle with its jump of magnetization -/
def renF (σ : Equiv.Perm ℕ) (f : Tri × ℝ) : Tri × ℝ := (⟨fun k => σ (f.1.ind k), f.1.reg⟩, f.2)

/-- the second mesh is the first one with its nodes renumbered by `σ`, its elements listed in another order, and other
tangent bases -/
structure Same (σ : Equiv.Perm ℕ) (nodes nodes' : ℕ → Node) (tets tets' : List Tet) (tris tris' : List (Tri × ℝ)) : Prop where
  pos : ∀ i, (nodes' (σ i)).p = (nodes i).p
  cur : ∀ i, (nodes' (σ i)).cur = (nodes i).cur
  tets : tets'.Perm (tets.map (renT σ))
  tris : tris'.Perm (tris.map (renF σ))

theorem holds_pull {G : Rule} {prm : ℕ → Prm} {s : Step} (H : TriElem.Rule) (sprm : ℕ → SurfPrm) {mag : ℕ → Bool}
    {σ : Equiv.Perm ℕ} {nodes nodes' : ℕ → Node} {tets tets' : List Tet} {tris tris' : List (Tri × ℝ)}
    (hs : Same σ nodes nodes' tets tets' tris tris') (Hext Hst Hext' Hst' : Tet → Fin G.n → V3)
    (hH : ∀ t ∈ tets, Hext' (renT σ t) = Hext t) (hHst : ∀ t ∈ tets, Hst' (renT σ t) = Hst t)
    (dir : Option (Fin 3)) (V : ℝ) (magN magN' : ℕ → Prop) (hm : ∀ i, magN' (σ i) → magN i) (v' : ℕ → V3)
    (h : Holds G H prm sprm s magN' (magTet mag tets') tris' nodes' Hext' Hst' dir V v') :
    Holds G H prm sprm s magN (magTet mag tets) tris nodes Hext Hst dir V fun i => v' (σ i) := by
  intro w hw
  have h' := h (fun i => w (σ.symm i)) (by
    intro i hi
    have e : i = σ (σ.symm i) := (σ.apply_symm_apply i).symm
    rw [e] at hi
    have := hw _ (hm _ hi)
    rw [← hs.cur, σ.apply_symm_apply] at this
    exact this)
  have e1 : (magTet mag tets').Perm ((magTet mag tets).map (renT σ)) := by
    have := hs.tets.filter fun t => mag t.reg
    refine this.trans (List.Perm.of_eq ?_)
    unfold magTet
    rw [List.filter_map]
    rfl
  rw [(e1.map _).sum_eq, (hs.tris.map _).sum_eq, List.map_map, List.map_map] at h'
  refine Eq.trans (congrArg List.sum (List.map_congr_left ?_)) (h'.trans (congrArg List.sum (List.map_congr_left ?_)))
  · intro t ht
    have ht1 := (List.mem_filter.mp ht).1
    have en : nodalOf nodes t = { nodalOf nodes' (renT σ t) with
        ep := fun i => (nodes (t.ind i)).ep, eq := fun i => (nodes (t.ind i)).eq } := by
      unfold nodalOf renT
      simp only [hs.pos, hs.cur]
    have ew : (fun i => w (σ.symm ((renT σ t).ind i))) = fun i => w (t.ind i) := by
      funext i
      simp [renT]
    simp only [Function.comp_apply]
    rw [hH t ht1, hHst t ht1, ew, en]
    rfl
  · intro f _
    simp only [Function.comp_apply]
    have ew : (fun i => w (σ.symm ((renF σ f).1.ind i))) = fun i => w (f.1.ind i) := by
      funext i
      simp [renF]
    rw [ew]
    simp only [renF, hs.pos, hs.cur]

/-- the velocity of a magnetic node has no component along its magnetization -/
theorem ofComp_tangent {G : Rule} {prm : ℕ → Prm} {s : Step} {mag : ℕ → Bool} {nod : ℕ} {tets : List Tet} {nodes : ℕ → Node}
    (h : TimeStep G prm s mag nod tets nodes) (x : ℕ → ℝ) (i : ℕ) (hmi : (magNode mag nod tets).getD i false = true) :
    (ofComp nodes x i).dot (nodes i).cur.u = 0 := by
  have hi : i < nod := by
    by_contra hn
    have hl : (magNode mag nod tets).length = nod := magNode_length mag nod tets
    rw [List.getD_eq_getElem?_getD, List.getElem?_eq_none (by omega)] at hmi
    simp at hmi
  obtain ⟨t, ht1, ht2, k, hk⟩ := (magNode_iff mag nod tets _ hi).mp hmi
  obtain ⟨-, -, -, ab, -, ca, -⟩ := h.ortho (List.mem_filter.mpr ⟨ht1, ht2⟩) k
  rw [hk] at ab ca
  rw [V3.dot_comm] at ab
  unfold ofComp
  rw [add_dot, smul_dot, smul_dot, ab, ca]
  ring

/-- **C68** Renumbering the nodes, listing the elements in another order and drawing other tangent bases changes nothing to
a time step: from solutions of the two linear systems each node gets the same velocity and the same new magnetization. -/
theorem C68_same_step {G : Rule} {prm : ℕ → Prm} {s : Step} {mag : ℕ → Bool} {nod nod' : ℕ} {tets tets' : List Tet}
    {nodes nodes' : ℕ → Node} {tris tris' : List (Tri × ℝ)} {σ : Equiv.Perm ℕ}
    (h : TimeStep G prm s mag nod tets nodes) (h' : TimeStep G prm s mag nod' tets' nodes')
    (hs : Same σ nodes nodes' tets tets' tris tris') (H : TriElem.Rule) (sprm : ℕ → SurfPrm)
    (hvt : ∀ f ∈ tris, ∀ k, f.1.ind k < nod) (hmt : ∀ f ∈ tris, f.1.isMagnetic (magNode mag nod tets) = true)
    (hvt' : ∀ f ∈ tris', ∀ k, f.1.ind k < nod') (hmt' : ∀ f ∈ tris', f.1.isMagnetic (magNode mag nod' tets') = true)
    (Hext Hst Hext' Hst' : Tet → Fin G.n → V3)
    (hH : ∀ t ∈ tets, Hext' (renT σ t) = Hext t) (hHst : ∀ t ∈ tets, Hst' (renT σ t) = Hst t)
    (dir : Option (Fin 3)) (V : ℝ)
    (m m' : Sp ℝ) (b b' : List ℝ) (before before' : List (Op ℝ))
    (hb : ∀ o ∈ before, o.InShape (llgShape mag nod tets)) (hb' : ∀ o ∈ before', o.InShape (llgShape mag nod' tets'))
    (hm : (ofShape (llgShape mag nod tets) : Sp ℝ).run (before ++ llgOps (magNode mag nod tets) nod
        (elems (tetElem G prm s nodes Hext Hst dir V) (magTet mag tets))) = some m)
    (hm' : (ofShape (llgShape mag nod' tets') : Sp ℝ).run (before' ++ llgOps (magNode mag nod' tets') nod'
        (elems (tetElem G prm s nodes' Hext' Hst' dir V) (magTet mag tets'))) = some m')
    (hr : llgRhs (magNode mag nod tets) nod ((magTet mag tets).map (tetElem G prm s nodes Hext Hst dir V))
        (tris.map (triElem H sprm nodes)) = some b)
    (hr' : llgRhs (magNode mag nod' tets') nod' ((magTet mag tets').map (tetElem G prm s nodes' Hext' Hst' dir V))
        (tris'.map (triElem H sprm nodes')) = some b')
    (x x' : ℕ → ℝ) (hx : m.mult x = b) (hx' : m'.mult x' = b') (gamma0 τ : ℝ) :
    ∀ t ∈ magTet mag tets, ∀ k, let i := t.ind k
      (Node.makeEvol (x' (2 * σ i) * gamma0) (x' (2 * σ i + 1) * gamma0) τ (nodes' (σ i))).next.v =
        (Node.makeEvol (x (2 * i) * gamma0) (x (2 * i + 1) * gamma0) τ (nodes i)).next.v ∧
      (Node.makeEvol (x' (2 * σ i) * gamma0) (x' (2 * σ i + 1) * gamma0) τ (nodes' (σ i))).next.u =
        (Node.makeEvol (x (2 * i) * gamma0) (x (2 * i + 1) * gamma0) τ (nodes i)).next.u := by
  obtain ⟨m1, b1, em, eb, hsol⟩ := C65_weak_form h H sprm tris hvt hmt Hext Hst dir V _ (List.Perm.refl _) tris
    (List.Perm.refl _) before hb
  obtain ⟨m2, b2, em', eb', hsol'⟩ := C65_weak_form h' H sprm tris' hvt' hmt' Hext' Hst' dir V _ (List.Perm.refl _) tris'
    (List.Perm.refl _) before' hb'
  obtain rfl : m = m1 := Option.some.inj (hm.symm.trans em)
  obtain rfl : b = b1 := Option.some.inj (hr.symm.trans eb)
  obtain rfl : m' = m2 := Option.some.inj (hm'.symm.trans em')
  obtain rfl : b' = b2 := Option.some.inj (hr'.symm.trans eb')
  have k1 := ((hsol x).mp hx).2
  have k2 := ((hsol' x').mp hx').2
  -- a magnetic node of one mesh is magnetic in the other
  have hmm : ∀ i, (magNode mag nod tets).getD i false = true ↔ (magNode mag nod' tets').getD (σ i) false = true := by
    have key : ∀ (n : ℕ) (T : List Tet), IndicesValid n T → ∀ i, (magNode mag n T).getD i false = true ↔
        ∃ t ∈ T, mag t.reg = true ∧ ∃ k, t.ind k = i := by
      intro n T hT i
      by_cases hi : i < n
      · exact magNode_iff mag n T i hi
      · have hl : (magNode mag n T).length = n := magNode_length mag n T
        rw [List.getD_eq_getElem?_getD, List.getElem?_eq_none (by omega)]
        simp only [Option.getD_none, Bool.false_eq_true, false_iff]
        rintro ⟨t, ht, -, k, rfl⟩
        exact hi (hT t ht k)
    intro i
    rw [key _ _ h.valid, key _ _ h'.valid]
    constructor
    · rintro ⟨t, ht, hr, k, rfl⟩
      exact ⟨renT σ t, hs.tets.mem_iff.mpr (List.mem_map.mpr ⟨t, ht, rfl⟩), hr, k, rfl⟩
    · rintro ⟨t', ht', hr, k, e⟩
      obtain ⟨t, ht, rfl⟩ := List.mem_map.mp (hs.tets.mem_iff.mp ht')
      exact ⟨t, ht, hr, k, σ.injective e⟩
  have k3 := holds_pull H sprm hs Hext Hst Hext' Hst' hH hHst dir V
    (fun i => (magNode mag nod tets).getD i false = true) _ (fun i hi => (hmm i).mpr hi) _ k2
  have hu := holds_unique h H sprm tris Hext Hst dir V (fun i => (magNode mag nod tets).getD i false = true)
    (ofComp nodes x) (fun i => ofComp nodes' x' (σ i)) (fun i hi => ofComp_tangent h x i hi) (fun i hi => by
      have := ofComp_tangent h' x' (σ i) ((hmm i).mp hi)
      rw [hs.cur] at this
      exact this) k1 k3
  intro t ht k
  dsimp only
  have e : ∀ (N : ℕ → Node) (z : ℕ → ℝ) (i : ℕ), z (2 * i) * gamma0 * (N i).ep + z (2 * i + 1) * gamma0 * (N i).eq =
      gamma0 * ofComp N z i := by
    intro N z i
    unfold ofComp
    ext <;> simp only [V3.add_x, V3.add_y, V3.add_z, V3.smul_x, V3.smul_y, V3.smul_z] <;> ring
  have hk : ofComp nodes x (t.ind k) = ofComp nodes' x' (σ (t.ind k)) := hu t ht k
  unfold Node.makeEvol
  dsimp only
  rw [e, e, hs.cur, hk]
  exact ⟨rfl, rfl⟩

/-! ## C69: a uniform magnetization follows the equation of Landau, Lifshitz and Gilbert -/

theorem interpV_uniform (G : Rule) (f : Fin 4 → V3) (U : V3) (h : ∀ i, f i = U) (j : Fin G.n) : interpV G f j = U := by
  have hs := G.a_sum j
  rw [Fin.sum_univ_four] at hs
  unfold interpV
  simp only [h]
  ext <;> simp only [Fin.sum_univ_four, V3.add_x, V3.add_y, V3.add_z, V3.smul_x, V3.smul_y, V3.smul_z]
  · linear_combination U.x * hs
  · linear_combination U.y * hs
  · linear_combination U.z * hs

theorem deriv_uniform {p : Fin 4 → V3} (hp : detJ p ≠ 0) (f : Fin 4 → V3) (U : V3) (h : ∀ i, f i = U) (d : Fin 3) :
    Tetra.deriv p d f = 0 :=
  ((C41_gradient p f hp).mpr fun i => (h i).trans (h 0).symm) d

/-- one material with uniaxial anisotropy, a uniform magnetization `U` and last velocity `W`, uniform applied field `H0` and
demagnetizing field `Hd` (with rate `Hdv`), no spin accumulation field, no surface anisotropy -/
structure Uniform (G : Rule) (prm : ℕ → Prm) (sprm : ℕ → SurfPrm) (mag : ℕ → Bool) (tets : List Tet) (tris : List (Tri × ℝ))
    (nodes : ℕ → Node) (Hext : Tet → Fin G.n → V3) (m : Prm) (U W H0 Hd Hdv : V3) : Prop where
  mat : ∀ t ∈ magTet mag tets, prm t.reg = m
  cubic : m.K3 = 0
  u : ∀ t ∈ magTet mag tets, ∀ k, (nodes (t.ind k)).cur.u = U
  v : ∀ t ∈ magTet mag tets, ∀ k, (nodes (t.ind k)).cur.v = W
  ext : ∀ t ∈ magTet mag tets, ∀ j, Hext t j = H0
  demag : ∀ t ∈ magTet mag tets, interpField (nodalOf nodes t).p (nodalOf nodes t).phi = Hd
  demagv : ∀ t ∈ magTet mag tets, interpField (nodalOf nodes t).p (nodalOf nodes t).phiv = Hdv
  surface : ∀ f ∈ tris, (sprm f.1.reg).Ks = 0

/-- the field acting on the magnetization: demagnetizing field at time `t + theta dt`, applied field, and anisotropy field of
the extrapolated magnetization -/
noncomputable def fieldOf (m : Prm) (s : Step) (U W H0 Hd Hdv : V3) : V3 :=
  Hd + (s.theta * s.dt) * Hdv + H0 + (2 * m.K / (s.mu0 * m.Ms) * m.uk.dot (U + (s.theta * s.dt) * W)) * m.uk

/-- the effective damping of the scheme -/
noncomputable def dampingOf (m : Prm) (s : Step) (U H0 Hd : V3) : ℝ :=
  alphaEff s.gamma0 s.dt m.alpha (2 * m.K / (s.mu0 * m.Ms) * (m.uk.dot U * m.uk.dot U) + U.dot (Hd + H0))

theorem uniform_field {G : Rule} {prm : ℕ → Prm} {sprm : ℕ → SurfPrm} {s : Step} {mag : ℕ → Bool} {tets : List Tet}
    {tris : List (Tri × ℝ)} {nodes : ℕ → Node} {Hext : Tet → Fin G.n → V3} {m : Prm} {U W H0 Hd Hdv : V3}
    (hg : s.gamma0 ≠ 0) (hu : Uniform G prm sprm mag tets tris nodes Hext m U W H0 Hd Hdv) (t : Tet) (ht : t ∈ magTet mag tets)
    (hdet : detJ (nodalOf nodes t).p ≠ 0) (j : Fin G.n) :
    explicitField G m s (nodalOf nodes t) (Hext t) (fun _ => 0) j = fieldOf m s U W H0 Hd Hdv ∧
    effDamping G m s (nodalOf nodes t) (Hext t) (fun _ => 0) j = dampingOf m s U H0 Hd := by
  have eu := interpV_uniform G (nodalOf nodes t).u U (hu.u t ht) j
  have ev := interpV_uniform G (nodalOf nodes t).v W (hu.v t ht) j
  have ed := fun d => deriv_uniform hdet (nodalOf nodes t).u U (hu.u t ht) d
  constructor
  · unfold explicitField hAniso fieldOf
    rw [hu.demag t ht, hu.demagv t ht, hu.ext t ht, eu, ev, hu.cubic]
    simp only [ne_eq, not_true_eq_false, if_false]
    by_cases hK : m.K = 0
    · rw [hK]
      ext <;> simp [V3.dot]
    · rw [if_pos hK]
      unfold anisoUniaxH sdt
      have e : s.theta * s.dt * s.gamma0 / s.gamma0 = s.theta * s.dt := by field_simp
      ext <;> simp [V3.dot, e]
  · unfold effDamping uHeff dampingOf
    dsimp only
    rw [hu.demag t ht, hu.ext t ht, eu, ed, ed, ed, hu.cubic]
    congr 1
    by_cases hK : m.K = 0
    · rw [hK]
      simp [V3.dot, V3.nsq]
    · simp only [ne_eq, hK, not_false_eq_true, if_true, not_true_eq_false, if_false]
      unfold anisoUniaxUH
      rw [V3.dot_comm U m.uk]
      simp [V3.dot, V3.nsq]

theorem uniform_mag {G : Rule} {prm : ℕ → Prm} {sprm : ℕ → SurfPrm} {mag : ℕ → Bool} {nod : ℕ} {tets : List Tet}
    {tris : List (Tri × ℝ)} {nodes : ℕ → Node} {Hext : Tet → Fin G.n → V3} {m : Prm} {U W H0 Hd Hdv : V3}
    (hu : Uniform G prm sprm mag tets tris nodes Hext m U W H0 Hd Hdv) :
    ∀ i, (magNode mag nod tets).getD i false = true → (nodes i).cur.u = U := by
  intro i hmi
  have hi : i < nod := by
    by_contra hn
    have hl : (magNode mag nod tets).length = nod := magNode_length mag nod tets
    rw [List.getD_eq_getElem?_getD, List.getElem?_eq_none (by omega)] at hmi
    simp at hmi
  obtain ⟨t, ht1, ht2, k, rfl⟩ := (magNode_iff mag nod tets _ hi).mp hmi
  exact hu.u t (List.mem_filter.mpr ⟨ht1, ht2⟩) k

/-- the same velocity for all nodes satisfies the equation of motion when it balances the uniform field -/
theorem uniform_holds {G : Rule} {prm : ℕ → Prm} {sprm : ℕ → SurfPrm} {mag : ℕ → Bool} {nod : ℕ} {tets : List Tet}
    {tris : List (Tri × ℝ)} {nodes : ℕ → Node} {Hext : Tet → Fin G.n → V3} {m : Prm} {U W H0 Hd Hdv : V3} {s : Step} (hval : IndicesValid nod tets)
    (ho : ∀ t ∈ tets, 0 < detJ (MeshElem.nod4 (fun i => (nodes i).p) t)) (hg : s.gamma0 ≠ 0) (H : TriElem.Rule)
    (hu : Uniform G prm sprm mag tets tris nodes Hext m U W H0 Hd Hdv) (dir : Option (Fin 3)) (V : ℝ) (v0 : V3)
    (hforce : ∀ w : V3, w.dot U = 0 → dampingOf m s U H0 Hd * v0.dot w + (U.cross v0).dot w =
      (fieldOf m s U W H0 Hd Hdv).dot w) :
    Holds G H prm sprm s (fun i => (magNode mag nod tets).getD i false = true) (magTet mag tets) tris nodes Hext
      (fun _ _ => 0) dir V fun _ => v0 := by
  set F := fieldOf m s U W H0 Hd Hdv with hF
  set a := dampingOf m s U H0 Hd with ha
  intro w hw
  have z1 : (tris.map fun f => surfaceWork H (sprm f.1.reg) f.2 (fun i => (nodes (f.1.ind i)).p)
        (fun i => (nodes (f.1.ind i)).cur.u) (fun i => w (f.1.ind i))).sum = 0 := by
    apply List.sum_eq_zero
    intro y hy
    obtain ⟨f, hf, rfl⟩ := List.mem_map.mp hy
    unfold surfaceWork
    rw [hu.surface f hf]
    simp
  rw [z1]
  apply List.sum_eq_zero
  intro y hy
  obtain ⟨t, ht, rfl⟩ := List.mem_map.mp hy
  have ht1 := (List.mem_filter.mp ht).1
  have hdet : detJ (nodalOf nodes t).p ≠ 0 := ne_of_gt (ho t ht1)
  have hwt : ∀ i, (w (t.ind i)).dot U = 0 := by
    intro i
    have hm : (magNode mag nod tets).getD (t.ind i) false = true :=
      (magNode_iff mag nod tets _ (hval t ht1 i)).mpr ⟨t, ht1, (List.mem_filter.mp ht).2, i, rfl⟩
    have := hw _ hm
    rw [uniform_mag hu _ hm] at this
    exact this
  have e1 : explicitField G m s (nodalOf nodes t) (Hext t) (fun _ => 0) = fun _ => F :=
    funext fun j => (uniform_field hg hu t ht hdet j).1
  have e2 : effDamping G m s (nodalOf nodes t) (Hext t) (fun _ => 0) = fun _ => a :=
    funext fun j => (uniform_field hg hu t ht hdet j).2
  have e3 : drift G m s (nodalOf nodes t) dir V (fun i => w (t.ind i)) = 0 := by
    have d1 := fun d => deriv_uniform hdet (nodalOf nodes t).u U (hu.u t ht) d
    have d2 := fun d => deriv_uniform hdet (nodalOf nodes t).v W (hu.v t ht) d
    unfold drift
    cases dir with
    | none => rfl
    | some d =>
      simp only [d1, d2]
      rw [Finset.sum_eq_zero, mul_zero]
      intro j _
      simp [V3.dot, V3.cross]
  have e4 : gradDot (nodalOf nodes t).p (fun i => (nodalOf nodes t).u i + (s.prefactor * (s.theta * s.dt * s.gamma0)) * v0)
      (fun i => w (t.ind i)) = 0 := by
    have d3 := fun d => deriv_uniform hdet
      (fun i => (nodalOf nodes t).u i + (s.prefactor * (s.theta * s.dt * s.gamma0)) * v0) _
      (fun i => by rw [show (nodalOf nodes t).u i = U from hu.u t ht i]) d
    unfold gradDot
    rw [d3, d3, d3]
    simp [V3.dot]
  have e5 : (nodalOf nodes t).u = fun _ => U := funext fun i => hu.u t ht i
  rw [hu.mat t ht]
  unfold WeakForm.residual
  rw [e1, e2, e3, e4, e5]
  unfold damping gyration work
  simp only [dot_interpV]
  rw [mul_zero, zero_add, add_zero, ← Finset.sum_add_distrib, ← Finset.sum_sub_distrib]
  apply Finset.sum_eq_zero
  intro j _
  have : a * interpS G (fun i => v0.dot (w (t.ind i))) j + interpS G (fun i => (U.cross v0).dot (w (t.ind i))) j =
      interpS G (fun i => F.dot (w (t.ind i))) j := by
    unfold interpS
    rw [Finset.mul_sum, ← Finset.sum_add_distrib]
    refine Finset.sum_congr rfl fun i _ => ?_
    dsimp only
    rw [← hforce _ (hwt i)]
    ring
  rw [← this]
  ring

/-- **C69** When the magnetization, the material and the fields are uniform, the velocity computed for every magnetic node
(in units of gamma0) satisfies the equation of Landau, Lifshitz and Gilbert `v = -U × H + alpha U × v`, with the field `H` at
the time where the scheme evaluates it and the effective damping. -/
theorem C69_uniform {G : Rule} {prm : ℕ → Prm} {s : Step} {mag : ℕ → Bool} {nod : ℕ} {tets : List Tet}
    {nodes : ℕ → Node} {tris : List (Tri × ℝ)} (h : TimeStep G prm s mag nod tets nodes) (H : TriElem.Rule)
    (sprm : ℕ → SurfPrm) (hvt : ∀ f ∈ tris, ∀ k, f.1.ind k < nod)
    (hmt : ∀ f ∈ tris, f.1.isMagnetic (magNode mag nod tets) = true)
    (Hext : Tet → Fin G.n → V3) (m : Prm) (U W H0 Hd Hdv : V3)
    (hu : Uniform G prm sprm mag tets tris nodes Hext m U W H0 Hd Hdv) (dir : Option (Fin 3)) (V : ℝ)
    (order : List Tet) (ho : order.Perm (magTet mag tets)) (orderT : List (Tri × ℝ)) (hoT : orderT.Perm tris)
    (before : List (Op ℝ)) (hb : ∀ o ∈ before, o.InShape (llgShape mag nod tets)) :
    ∃ M b, (ofShape (llgShape mag nod tets) : Sp ℝ).run (before ++ llgOps (magNode mag nod tets) nod
        (elems (tetElem G prm s nodes Hext (fun _ _ => 0) dir V) order)) = some M ∧
      llgRhs (magNode mag nod tets) nod (order.map (tetElem G prm s nodes Hext (fun _ _ => 0) dir V))
        (orderT.map (triElem H sprm nodes)) = some b ∧
      ∀ x : ℕ → ℝ, M.mult x = b → ∀ t ∈ magTet mag tets, ∀ k,
        let v := x (2 * t.ind k) * (nodes (t.ind k)).ep + x (2 * t.ind k + 1) * (nodes (t.ind k)).eq
        v = -(U.cross (fieldOf m s U W H0 Hd Hdv)) + dampingOf m s U H0 Hd * U.cross v := by
  obtain ⟨M, b, em, eb, hsol⟩ := C65_weak_form h H sprm tris hvt hmt Hext (fun _ _ => 0) dir V order ho orderT hoT before hb
  refine ⟨M, b, em, eb, fun x hx t0 ht0 k0 => ?_⟩
  have k1 := ((hsol x).mp hx).2
  set F := fieldOf m s U W H0 Hd Hdv with hF
  set a := dampingOf m s U H0 Hd with ha
  have hU : U.dot U = 1 := by
    obtain ⟨a1, -⟩ := h.ortho ht0 k0
    rw [hu.u t0 ht0] at a1
    rw [← V3.nsq_eq_dot]
    exact a1
  -- the solution of the equation
  let v0 : V3 := (1 / (1 + a * a)) * (a * (F - (U.dot F) * U) - U.cross F)
  have hden : 1 + a * a ≠ 0 := by nlinarith [mul_self_nonneg a]
  have hv0 : v0.dot U = 0 := by
    show ((1 / (1 + a * a)) * (a * (F - (U.dot F) * U) - U.cross F)).dot U = 0
    rw [smul_dot, sub_dot, smul_dot, sub_dot, smul_dot, hU, V3.dot_comm F U]
    have : (U.cross F).dot U = 0 := by simp only [V3.dot, V3.cross]; ring
    rw [this]
    ring
  have hforce : ∀ w : V3, w.dot U = 0 → a * v0.dot w + (U.cross v0).dot w = F.dot w := by
    intro w hw
    have e1 : v0.dot w = 1 / (1 + a * a) * (a * F.dot w - (U.cross F).dot w) := by
      show ((1 / (1 + a * a)) * (a * (F - (U.dot F) * U) - U.cross F)).dot w = _
      rw [smul_dot, sub_dot, smul_dot, sub_dot, smul_dot, V3.dot_comm U w, hw]
      ring
    have e2 : (U.cross v0).dot w = 1 / (1 + a * a) * (a * (U.cross F).dot w + F.dot w) := by
      have : (U.cross v0).dot w = 1 / (1 + a * a) * (a * (U.cross F).dot w + ((U.dot U) * F.dot w - (U.dot F) * w.dot U)) := by
        show (U.cross ((1 / (1 + a * a)) * (a * (F - (U.dot F) * U) - U.cross F))).dot w = _
        simp only [V3.dot, V3.cross, V3.sub_x, V3.sub_y, V3.sub_z, V3.smul_x, V3.smul_y, V3.smul_z]
        ring
      rw [this, hU, hw]
      ring
    rw [e1, e2]
    field_simp
    ring
  have hmag := uniform_mag hu (nod := nod)
  have hh := uniform_holds h.valid h.oriented h.gamma0.ne' H hu dir V v0 hforce
  have hv := holds_unique h H sprm tris Hext (fun _ _ => 0) dir V (fun i => (magNode mag nod tets).getD i false = true)
    (ofComp nodes x) (fun _ => v0) (fun i hi => ofComp_tangent h x i hi) (fun i hi => by rw [hmag i hi]; exact hv0) k1 hh t0 ht0 k0
  have e : x (2 * t0.ind k0) * (nodes (t0.ind k0)).ep + x (2 * t0.ind k0 + 1) * (nodes (t0.ind k0)).eq = v0 := hv
  dsimp only
  rw [e]
  show (1 / (1 + a * a)) * (a * (F - (U.dot F) * U) - U.cross F) =
    -(U.cross F) + a * U.cross ((1 / (1 + a * a)) * (a * (F - (U.dot F) * U) - U.cross F))
  have hU' : U.x * U.x + U.y * U.y + U.z * U.z = 1 := hU
  ext <;> simp only [V3.dot, V3.cross, V3.add_x, V3.add_y, V3.add_z, V3.sub_x, V3.sub_y, V3.sub_z, V3.smul_x, V3.smul_y,
    V3.smul_z, V3.neg_x, V3.neg_y, V3.neg_z] <;> field_simp
  · linear_combination (-a * F.x) * hU'
  · linear_combination (-a * F.y) * hU'
  · linear_combination (-a * F.z) * hU'

/-! ## concrete cases -/

/-- the mesh of the example of C66 with its nodes 0 and 4 exchanged and other tangent bases -/
noncomputable def ex3Nodes : ℕ → Node := fun i => Node.setBasis (i + 7 : ℝ)
  ⟨MeshElem.exP2 (Equiv.swap 0 4 i), 0, 0, ⟨if Equiv.swap 0 4 i = 0 ∨ Equiv.swap 0 4 i = 4 then ⟨1, 0, 0⟩ else ⟨0, 0, 1⟩, 0, 0, 0⟩,
    ⟨0, 0, 0, 0⟩⟩

/-- C68: the hypotheses are met by this renumbering, with the tetrahedrons listed in the other order -/
example : TimeStep rule5 ex2Prm ex2S (fun _ => true) 5 MeshElem.exT2 ex2Nodes ∧
    TimeStep rule5 ex2Prm ex2S (fun _ => true) 5 [⟨![0, 1, 3, 2], 1⟩, ⟨![4, 1, 2, 3], 0⟩] ex3Nodes ∧
    Same (Equiv.swap 0 4) ex2Nodes ex3Nodes MeshElem.exT2 [⟨![0, 1, 3, 2], 1⟩, ⟨![4, 1, 2, 3], 0⟩]
      [((⟨![0, 2, 1], 0⟩ : Tri), (5 : ℝ))] [((⟨![4, 2, 1], 0⟩ : Tri), (5 : ℝ))] := by
  have r0 : renT (Equiv.swap 0 4) ⟨![0, 1, 2, 3], 0⟩ = ⟨![4, 1, 2, 3], 0⟩ := by
    unfold renT
    congr 1
    funext k
    fin_cases k <;> decide
  have r1 : renT (Equiv.swap 0 4) ⟨![4, 1, 3, 2], 1⟩ = ⟨![0, 1, 3, 2], 1⟩ := by
    unfold renT
    congr 1
    funext k
    fin_cases k <;> decide
  have r2 : renF (Equiv.swap 0 4) (⟨![0, 2, 1], 0⟩, (5 : ℝ)) = (⟨![4, 2, 1], 0⟩, 5) := by
    unfold renF
    congr 2
    funext k
    fin_cases k <;> decide
  have hs : Same (Equiv.swap 0 4) ex2Nodes ex3Nodes MeshElem.exT2 [⟨![0, 1, 3, 2], 1⟩, ⟨![4, 1, 2, 3], 0⟩]
      [((⟨![0, 2, 1], 0⟩ : Tri), (5 : ℝ))] [((⟨![4, 2, 1], 0⟩ : Tri), (5 : ℝ))] := by
    refine ⟨fun i => ?_, fun i => ?_, ?_, ?_⟩
    · show MeshElem.exP2 (Equiv.swap 0 4 (Equiv.swap 0 4 i)) = MeshElem.exP2 i
      rw [Equiv.swap_apply_self]
    · show (⟨if Equiv.swap 0 4 (Equiv.swap 0 4 i) = 0 ∨ Equiv.swap 0 4 (Equiv.swap 0 4 i) = 4 then ⟨1, 0, 0⟩ else ⟨0, 0, 1⟩,
        0, 0, 0⟩ : DataNode) = ⟨if i = 0 ∨ i = 4 then ⟨1, 0, 0⟩ else ⟨0, 0, 1⟩, 0, 0, 0⟩
      rw [Equiv.swap_apply_self]
    · simp only [MeshElem.exT2, List.map_cons, List.map_nil, r0, r1]
      exact List.Perm.swap _ _ _
    · simp only [List.map_cons, List.map_nil, r2]
      exact List.Perm.refl _
  refine ⟨ex2_timeStep, ?_, hs⟩
  refine { ex2_timeStep with valid := ?_, oriented := ?_, basis := ?_ , alpha := ?_, exchange := ?_, magnetic := ?_ }
  · intro t ht k
    simp only [List.mem_cons, List.not_mem_nil, or_false] at ht
    rcases ht with rfl | rfl <;> fin_cases k <;> simp
  · intro t ht
    obtain ⟨t0, ht0, rfl⟩ := List.mem_map.mp (hs.tets.mem_iff.mp ht)
    have e : MeshElem.nod4 (fun i => (ex3Nodes i).p) (renT (Equiv.swap 0 4) t0) = MeshElem.nod4 (fun i => (ex2Nodes i).p) t0 :=
      funext fun k => hs.pos _
    rw [e]
    exact ex2_timeStep.oriented t0 ht0
  · exact fun t _ k => ⟨_, _, rfl, by
      dsimp only
      split_ifs <;> simp [IsUnit3]⟩
  · exact fun _ _ => by simp [ex2Prm]
  · exact fun _ _ => by simp [ex2Prm]
  · exact fun t _ => by
      simp only [ex2Prm]
      split_ifs <;> norm_num

/-- C69: the hypotheses are met by the two tetrahedrons with the magnetization along z, a field along x and an easy axis
along y; the velocity is not zero -/
noncomputable def ex4Nodes : ℕ → Node := fun i => Node.setBasis i
  ⟨MeshElem.exP2 i, 0, 0, ⟨⟨0, 0, 1⟩, 0, 0, 0⟩, ⟨0, 0, 0, 0⟩⟩

example : TimeStep rule5 (fun _ => ⟨1 / 2, 1, 4, 3, ⟨0, 1, 0⟩, 0, 0, 0, 0⟩) ex2S (fun _ => true) 5 MeshElem.exT2 ex4Nodes ∧
    Uniform rule5 (fun _ => ⟨1 / 2, 1, 4, 3, ⟨0, 1, 0⟩, 0, 0, 0, 0⟩) (fun _ => ⟨0, 0⟩) (fun _ => true) MeshElem.exT2
      [((⟨![0, 2, 1], 0⟩ : Tri), (5 : ℝ))] ex4Nodes (fun _ _ => ⟨1, 0, 0⟩) ⟨1 / 2, 1, 4, 3, ⟨0, 1, 0⟩, 0, 0, 0, 0⟩
      ⟨0, 0, 1⟩ 0 ⟨1, 0, 0⟩ 0 0 ∧
    (⟨0, 0, 1⟩ : V3).cross (fieldOf ⟨1 / 2, 1, 4, 3, ⟨0, 1, 0⟩, 0, 0, 0, 0⟩ ex2S ⟨0, 0, 1⟩ 0 ⟨1, 0, 0⟩ 0 0) ≠ 0 := by
  refine ⟨?_, ⟨fun _ _ => rfl, rfl, fun _ _ _ => rfl, fun _ _ _ => rfl, fun _ _ _ => rfl,
    fun t _ => interpField_zero _ _ (fun _ => rfl), fun t _ => interpField_zero _ _ (fun _ => rfl), fun _ _ => rfl⟩, ?_⟩
  · exact { ex2_timeStep with
      basis := fun t _ k => ⟨_, _, rfl, by simp [IsUnit3]⟩
      alpha := fun _ _ => by norm_num
      exchange := fun _ _ => by norm_num
      magnetic := fun _ _ => by norm_num }
  · intro h
    have := congrArg V3.y h
    simp [fieldOf, V3.cross, V3.dot] at this

end Verif.WeakForm
