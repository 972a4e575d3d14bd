import Mathlib.Tactic.FinCases
import Verif.Model.MeshElem
import Verif.Proofs.Potential
import Verif.Props.Fmm

/-!
# C64: the potential of a charged triangle at its own vertices is exact
-/

namespace Verif.Potential

open MeasureTheory Set

/-! ## the surface integral does not depend on the vertex from which the triangle is described -/

theorem point_rot (a b c : V3) (q : ℝ × ℝ) : point a b c (1 - q.1 - q.2, q.1) = point b c a q := by
  ext <;> simp [point] <;> ring

noncomputable def rot' : ℝ × ℝ →L[ℝ] ℝ × ℝ :=
  (Matrix.toLin (.finTwoProd ℝ) (.finTwoProd ℝ) !![-1, -1; 1, 0]).toContinuousLinearMap

theorem hasFDerivAt_rot (q : ℝ × ℝ) : HasFDerivAt (fun q : ℝ × ℝ => (1 - q.1 - q.2, q.1)) rot' q := by
  unfold rot'
  rw [Matrix.toLin_finTwoProd_toContinuousLinearMap]
  have hf : HasFDerivAt (fun q : ℝ × ℝ => q.1) (ContinuousLinearMap.fst ℝ ℝ ℝ) q := hasFDerivAt_fst
  have hg : HasFDerivAt (fun q : ℝ × ℝ => q.2) (ContinuousLinearMap.snd ℝ ℝ ℝ) q := hasFDerivAt_snd
  convert! (((hasFDerivAt_const (1 : ℝ) q).sub hf).sub hg).prodMk hf using 2 <;>
  simp [sub_eq_add_neg, neg_smul _ (ContinuousLinearMap.snd ℝ ℝ ℝ), neg_smul _ (ContinuousLinearMap.fst ℝ ℝ ℝ)]

theorem det_rot' : rot'.det = 1 := by
  unfold rot'
  simp [LinearMap.det_toContinuousLinearMap, LinearMap.det_toLin, Matrix.det_fin_two_of]

theorem measurableSet_refTri : MeasurableSet refTri := by
  have h1 : IsOpen refTri := by
    unfold refTri
    apply IsOpen.inter (isOpen_lt continuous_const continuous_fst)
    exact IsOpen.inter (isOpen_lt continuous_const continuous_snd)
      (isOpen_lt (continuous_fst.add continuous_snd) continuous_const)
  exact h1.measurableSet

theorem rot_image : (fun q : ℝ × ℝ => ((1 - q.1 - q.2, q.1) : ℝ × ℝ)) '' refTri = refTri := by
  ext ⟨x, y⟩
  simp only [mem_image, refTri, mem_ofPred_eq, Prod.mk.injEq, Prod.exists]
  constructor
  · rintro ⟨a, b, ⟨h1, h2, h3⟩, rfl, rfl⟩
    exact ⟨by linarith, h1, by linarith⟩
  · rintro ⟨h1, h2, h3⟩
    exact ⟨y, 1 - x - y, ⟨h2, by linarith, by linarith⟩, by ring, rfl⟩

theorem rot_injOn : InjOn (fun q : ℝ × ℝ => ((1 - q.1 - q.2, q.1) : ℝ × ℝ)) refTri := by
  rintro ⟨a, b⟩ _ ⟨c, d⟩ _ h
  simp only [Prod.mk.injEq] at h ⊢
  exact ⟨h.2, by linarith [h.1, h.2]⟩

theorem areaRatio_rot (a b c : V3) : areaRatio b c a = areaRatio a b c := by
  unfold areaRatio V3.norm
  congr 1
  simp only [V3.nsq, V3.cross, V3.sub_x, V3.sub_y, V3.sub_z]
  ring

theorem integrand_rot (a b c y : V3) (sigma : ℝ × ℝ → ℝ) (q : ℝ × ℝ) :
    integrand a b c y sigma (1 - q.1 - q.2, q.1) = integrand b c a y (fun q => sigma (1 - q.1 - q.2, q.1)) q := by
  unfold integrand
  rw [point_rot, areaRatio_rot a b c]

theorem surfacePotential_rot (a b c y : V3) (sigma : ℝ × ℝ → ℝ) :
    surfacePotential a b c y sigma = surfacePotential b c a y (fun q => sigma (1 - q.1 - q.2, q.1)) := by
  unfold surfacePotential
  conv_lhs => rw [← rot_image]
  rw [integral_image_eq_integral_abs_det_fderiv_smul volume measurableSet_refTri
    (fun q _ => (hasFDerivAt_rot q).hasFDerivWithinAt) rot_injOn]
  simp only [det_rot', abs_one, one_smul, integrand_rot]

theorem integrable_rot (a b c y : V3) (sigma : ℝ × ℝ → ℝ) :
    IntegrableOn (integrand a b c y sigma) refTri ↔
      IntegrableOn (integrand b c a y (fun q => sigma (1 - q.1 - q.2, q.1))) refTri := by
  conv_lhs => rw [← rot_image]
  rw [integrableOn_image_iff_integrableOn_abs_det_fderiv_smul volume measurableSet_refTri
    (fun q _ => (hasFDerivAt_rot q).hasFDerivWithinAt) rot_injOn]
  simp only [det_rot', abs_one, one_smul, integrand_rot]

theorem affine_rot (fa fb fc : ℝ) : (fun q : ℝ × ℝ => affine fa fb fc (1 - q.1 - q.2, q.1)) = affine fb fc fa := by
  funext q
  simp only [affine]
  ring

/-! ## one triangle -/

/-- the charge density `dMs u·n` on a triangle: `u` is affine between the nodes, `n` is the unit normal -/
noncomputable def density (dMs : ℝ) (p u : Fin 3 → V3) (q : ℝ × ℝ) : ℝ :=
  dMs * V3.dot ((1 - q.1 - q.2) * u 0 + q.1 * u 1 + q.2 * u 2)
    ((1 / areaRatio (p 0) (p 1) (p 2)) * V3.cross (p 1 - p 0) (p 2 - p 0))

theorem unitNormal_eq (p : Fin 3 → V3) (hS : areaRatio (p 0) (p 1) (p 2) ≠ 0) :
    TriElem.unitNormal p = (1 / areaRatio (p 0) (p 1) (p 2)) * V3.cross (p 1 - p 0) (p 2 - p 0) := by
  unfold TriElem.unitNormal TriElem.normalVect V3.normalize
  have h : 0 < (V3.cross (p 1 - p 0) (p 2 - p 0)).nsq := by
    rcases lt_or_eq_of_le (nsq_nonneg (V3.cross (p 1 - p 0) (p 2 - p 0))) with h | h
    · exact h
    · exact absurd (by unfold areaRatio V3.norm; rw [← h, Real.sqrt_zero]) hS
  rw [if_pos h]
  rfl

theorem density_eq (dMs : ℝ) (p u : Fin 3 → V3) (hS : areaRatio (p 0) (p 1) (p 2) ≠ 0) :
    density dMs p u = fun q => dMs * affine ((u 0).dot (TriElem.unitNormal p)) ((u 1).dot (TriElem.unitNormal p))
      ((u 2).dot (TriElem.unitNormal p)) q := by
  funext q
  rw [unitNormal_eq p hS]
  simp only [density, affine, V3.dot, V3.add_x, V3.add_y, V3.add_z, V3.smul_x, V3.smul_y, V3.smul_z]
  ring

theorem surfacePotential_smul (a b c y : V3) (k : ℝ) (sigma : ℝ × ℝ → ℝ) :
    surfacePotential a b c y (fun q => k * sigma q) = k * surfacePotential a b c y sigma := by
  unfold surfacePotential
  rw [← integral_const_mul]
  congr 1
  funext q
  unfold integrand
  ring

theorem potentialAt_eq (dMs : ℝ) (p u : Fin 3 → V3) (hS : areaRatio (p 0) (p 1) (p 2) ≠ 0) (i : Fin 3) :
    TriElem.potentialAt dMs p u i = surfacePotential (p 0) (p 1) (p 2) (p i) (density dMs p u) := by
  have hs : TriElem.surf p = 1 / 2 * areaRatio (p 0) (p 1) (p 2) := rfl
  rw [density_eq dMs p u hS, surfacePotential_smul]
  unfold TriElem.potentialAt
  rw [hs]
  generalize TriElem.unitNormal p = n
  fin_cases i
  · exact potential_eq (p 0) (p 1) (p 2) hS dMs _ _ _
  · have h1 : areaRatio (p 1) (p 2) (p 0) ≠ 0 := by rw [areaRatio_rot]; exact hS
    have := potential_eq (p 1) (p 2) (p 0) h1 dMs ((u 1).dot n) ((u 2).dot n) ((u 0).dot n)
    rw [areaRatio_rot, ← affine_rot ((u 0).dot n), ← surfacePotential_rot] at this
    exact this
  · have h1 : areaRatio (p 2) (p 0) (p 1) ≠ 0 := by rw [areaRatio_rot, areaRatio_rot]; exact hS
    have := potential_eq (p 2) (p 0) (p 1) h1 dMs ((u 2).dot n) ((u 0).dot n) ((u 1).dot n)
    rw [areaRatio_rot, areaRatio_rot, ← affine_rot ((u 1).dot n), ← surfacePotential_rot,
      ← affine_rot ((u 0).dot n), ← surfacePotential_rot] at this
    exact this

theorem integrable_smul (a b c y : V3) (k : ℝ) {sigma : ℝ × ℝ → ℝ} (h : IntegrableOn (integrand a b c y sigma) refTri) :
    IntegrableOn (integrand a b c y (fun q => k * sigma q)) refTri := by
  have := h.const_mul k
  refine (integrableOn_congr_fun ?_ measurableSet_refTri).mp this
  intro q _
  simp only [integrand]
  ring

theorem integrable_first (p1 p2 p3 : V3) (hS : areaRatio p1 p2 p3 ≠ 0) (s1 s2 s3 : ℝ) :
    IntegrableOn (integrand p1 p2 p3 p1 (affine s1 s2 s3)) refTri := by
  obtain ⟨hb, hh, ha, hd, had⟩ := shape p1 p2 p3 hS
  exact integrable_integrand p1 p2 p3 hb hh ha hd had s1 s2 s3

/-- The integral `∫ dMs u·n / |x - p_i| dS` over a triangle with a surface exists although the integrand is not bounded
near the vertex `p_i` (so that its value in the theorems below is not a convention). -/
theorem C64_integrable (dMs : ℝ) (p u : Fin 3 → V3) (hS : areaRatio (p 0) (p 1) (p 2) ≠ 0) (i : Fin 3) :
    IntegrableOn (integrand (p 0) (p 1) (p 2) (p i) (density dMs p u)) refTri := by
  rw [density_eq dMs p u hS]
  apply integrable_smul
  generalize TriElem.unitNormal p = n
  fin_cases i
  · exact integrable_first _ _ _ hS _ _ _
  · have h1 : areaRatio (p 1) (p 2) (p 0) ≠ 0 := by rw [areaRatio_rot]; exact hS
    rw [integrable_rot, affine_rot]
    exact integrable_first _ _ _ h1 _ _ _
  · have h1 : areaRatio (p 2) (p 0) (p 1) ≠ 0 := by rw [areaRatio_rot, areaRatio_rot]; exact hS
    rw [integrable_rot, affine_rot, integrable_rot, affine_rot]
    exact integrable_first _ _ _ h1 _ _ _

/-- The point charges of a triangle and the correction of the code add up, at each vertex of the triangle, to the exact
potential of the surface charge `dMs u·n`, with `u` affine on the triangle: for every triangle with a surface, every
rule of integration, every field at the nodes. -/
theorem C64_self_potential (G : TriElem.Rule) (dMs : ℝ) (p u : Fin 3 → V3)
    (hS : areaRatio (p 0) (p 1) (p 2) ≠ 0) (i : Fin 3) :
    (∑ j, TriElem.charges G dMs p u j / (p i - TriElem.ptGauss G p j).norm) + TriElem.correction G dMs p u i =
      surfacePotential (p 0) (p 1) (p 2) (p i) (density dMs p u) := by
  rw [TriElem.correction, potentialAt_eq dMs p u hS i]
  ring

/-! ## the whole mesh -/

open Verif.Mesh Verif.MeshElem

theorem corr_inner (c : ℕ → ℝ) (ind : Fin 3 → ℕ) (hi : Function.Injective ind) (g : Fin 3 → ℝ) (k : ℕ) :
    (List.finRange 3).foldl (fun c i => Function.update c (ind i) (c (ind i) + g i)) c k =
      c k + ∑ i, if ind i = k then g i else 0 := by
  have h01 : ind 0 ≠ ind 1 := fun h => absurd (hi h) (by decide)
  have h02 : ind 0 ≠ ind 2 := fun h => absurd (hi h) (by decide)
  have h12 : ind 1 ≠ ind 2 := fun h => absurd (hi h) (by decide)
  rw [Fin.sum_univ_three]
  simp only [List.finRange_succ, List.finRange_zero, List.map_cons, List.map_nil, List.foldl_cons, List.foldl_nil]
  by_cases h0 : ind 0 = k
  · subst h0
    simp [Function.update, h01, h02, h01.symm, h02.symm]
  · by_cases h1 : ind 1 = k
    · subst h1
      simp [Function.update, h01, h12, h01.symm, h12.symm]
    · by_cases h2 : ind 2 = k
      · subst h2
        simp [Function.update, h02, h12, h02.symm, h12.symm]
      · have e0 : k ≠ ind 0 := Ne.symm h0
        have e1 : k ≠ ind 1 := Ne.symm h1
        have e2 : k ≠ ind 2 := Ne.symm h2
        simp [Function.update, h0, h1, h2, e0, e1, e2]

/-- the nodes of a triangle with a surface are distinct -/
theorem ind_injective (p : ℕ → V3) (f : Tri) (hS : areaRatio (p (f.ind 0)) (p (f.ind 1)) (p (f.ind 2)) ≠ 0) :
    Function.Injective f.ind := by
  have h01 : f.ind 0 ≠ f.ind 1 := by
    intro h; apply hS; unfold areaRatio V3.norm; rw [h]; simp [V3.nsq, V3.cross]
  have h02 : f.ind 0 ≠ f.ind 2 := by
    intro h; apply hS; unfold areaRatio V3.norm; rw [h]; simp [V3.nsq, V3.cross]
  have h12 : f.ind 1 ≠ f.ind 2 := by
    intro h; apply hS; unfold areaRatio V3.norm; rw [h]; simp [V3.nsq, V3.cross, mul_comm]
  intro i j hij
  fin_cases i <;> fin_cases j <;> first | rfl | exact absurd hij ‹_› | exact absurd hij.symm ‹_›

theorem corr_eq (H : TriElem.Rule) (p u : ℕ → V3) (mtris : List (Tri × ℝ))
    (hi : ∀ f ∈ mtris, Function.Injective f.1.ind) (k : ℕ) :
    corr H p mtris u k = (mtris.map fun f => ∑ i, if f.1.ind i = k then
      TriElem.correction H f.2 (nod3 p f.1) (nod3 u f.1) i else 0).sum := by
  have gen : ∀ (l : List (Tri × ℝ)) (c : ℕ → ℝ), (∀ f ∈ l, Function.Injective f.1.ind) →
      l.foldl (fun c f => (List.finRange 3).foldl (fun c i =>
        Function.update c (f.1.ind i) (c (f.1.ind i) + TriElem.correction H f.2 (nod3 p f.1) (nod3 u f.1) i)) c) c k
      = c k + (l.map fun f => ∑ i, if f.1.ind i = k then
        TriElem.correction H f.2 (nod3 p f.1) (nod3 u f.1) i else 0).sum := by
    intro l
    induction l with
    | nil => intro c _; simp
    | cons f l ih =>
      intro c h
      rw [List.foldl_cons, ih _ fun g hg => h g (List.mem_cons_of_mem _ hg),
        corr_inner c f.1.ind (h f List.mem_cons_self), List.map_cons, List.sum_cons]
      ring
  unfold corr
  rw [gen mtris _ hi, zero_add]

/-- Gauss points of a triangle of the mesh, by number -/
noncomputable def gaussTri (H : TriElem.Rule) (p : ℕ → V3) (f : Tri × ℝ) (j : ℕ) : V3 :=
  if h : j < H.n then TriElem.ptGauss H (nod3 p f.1) ⟨j, h⟩ else 0

/-- charges of a triangle of the mesh, by number -/
noncomputable def chargeTri (H : TriElem.Rule) (p u : ℕ → V3) (f : Tri × ℝ) (j : ℕ) : ℝ :=
  if h : j < H.n then TriElem.charges H f.2 (nod3 p f.1) (nod3 u f.1) ⟨j, h⟩ else 0

/-- Gauss points of a tetrahedron of the mesh, by number -/
noncomputable def gaussTet (G : Tetra.Rule) (p : ℕ → V3) (t : Tet) (j : ℕ) : V3 :=
  if h : j < G.n then Tetra.ptGauss G (nod4 p t) ⟨j, h⟩ else 0

/-- charges of a tetrahedron of the mesh, by number -/
noncomputable def chargeTet (G : Tetra.Rule) (Ms : ℕ → ℝ) (p u : ℕ → V3) (t : Tet) (j : ℕ) : ℝ :=
  if h : j < G.n then Tetra.charges G (Ms t.reg) (nod4 p t) (nod4 u t) ⟨j, h⟩ else 0

/-- potential at `x` of the point charges of a tetrahedron -/
noncomputable def tetPointPotential (G : Tetra.Rule) (Ms : ℕ → ℝ) (p u : ℕ → V3) (x : V3) (t : Tet) : ℝ :=
  ∑ j, Tetra.charges G (Ms t.reg) (nod4 p t) (nod4 u t) j / (x - Tetra.ptGauss G (nod4 p t) j).norm

/-- potential at `x` of the point charges of a triangle -/
noncomputable def triPointPotential (H : TriElem.Rule) (p u : ℕ → V3) (x : V3) (f : Tri × ℝ) : ℝ :=
  ∑ j, TriElem.charges H f.2 (nod3 p f.1) (nod3 u f.1) j / (x - TriElem.ptGauss H (nod3 p f.1) j).norm

/-- exact potential at `x` of the surface charge of a triangle -/
noncomputable def triExactPotential (p u : ℕ → V3) (x : V3) (f : Tri × ℝ) : ℝ :=
  surfacePotential (p (f.1.ind 0)) (p (f.1.ind 1)) (p (f.1.ind 2)) x (density f.2 (nod3 p f.1) (nod3 u f.1))

theorem coulomb_append (A B : List (V3 × ℝ)) (x : V3) : Fmm.coulomb (A ++ B) x = Fmm.coulomb A x + Fmm.coulomb B x := by
  simp [Fmm.coulomb]

theorem sum_range_dite (n : ℕ) (f : Fin n → ℝ) (g : ℕ → ℝ) (h : ∀ j : Fin n, g j = f j) :
    ((List.range n).map g).sum = ∑ j, f j := by
  rw [Fin.sum_univ_def, ← List.map_coe_finRange_eq_range, List.map_map]
  congr 1
  apply List.map_congr_left
  intro j _
  exact h j

theorem coulomb_pointCharges {E : Type} (n : ℕ) (gauss : E → ℕ → V3) (charge : E → ℕ → ℝ) (elems : List E) (x : V3)
    (g : E → Fin n → V3) (q : E → Fin n → ℝ) (hg : ∀ e (j : Fin n), gauss e j = g e j)
    (hq : ∀ e (j : Fin n), charge e j = q e j) :
    Fmm.coulomb (Fmm.pointCharges n gauss charge elems) x = (elems.map fun e => ∑ j, q e j / (x - g e j).norm).sum := by
  induction elems with
  | nil => simp [Fmm.coulomb, Fmm.pointCharges]
  | cons e l ih =>
    have h1 : Fmm.pointCharges n gauss charge (e :: l) =
        ((List.range n).map fun j => (gauss e j, charge e j)) ++ Fmm.pointCharges n gauss charge l := by
      simp [Fmm.pointCharges]
    rw [h1, coulomb_append, ih, List.map_cons, List.sum_cons]
    congr 1
    unfold Fmm.coulomb
    rw [List.map_map]
    apply sum_range_dite
    intro j
    simp [hg, hq]

/-- Suppose that the multipole algorithm returns the Coulomb potential of the charges it was given. Then each magnetic
node receives the sum of: the potentials of the point charges of the magnetic tetrahedrons, the potentials of the point
charges of the surface triangles it does not belong to, and the exact potentials of the surface charges of the
triangles it belongs to. -/
theorem C64_mesh_potential (G : Tetra.Rule) (H : TriElem.Rule) (norm : ℝ) (hnorm : 0 < norm) (c : V3) (p u : ℕ → V3)
    (Ms : ℕ → ℝ) (magNode : List Bool) (mtets : List Tet) (mtris : List (Tri × ℝ))
    (hS : ∀ f ∈ mtris, areaRatio (p (f.1.ind 0)) (p (f.1.ind 1)) (p (f.1.ind 2)) ≠ 0)
    (pot : V3 → ℝ) (phi : ℕ → ℝ)
    (hpot : ∀ x, pot x = Fmm.coulomb ((Fmm.physicalValues magNode.length
      (Fmm.calcCharges G.n H.n (chargeTet G Ms p u) (chargeTri H p u) mtets mtris)
      (Fmm.tree G.n H.n norm c p magNode (gaussTet G p) (gaussTri H p) mtets mtris)).map fun q => (q.1, q.2.getD 0)) x)
    (k : ℕ) (hk : magNode[k]? = some true) :
    Fmm.writeBack norm pot (corr H p mtris u)
      (Fmm.tree G.n H.n norm c p magNode (gaussTet G p) (gaussTri H p) mtets mtris) phi k =
    ((mtets.map (tetPointPotential G Ms p u (p k))).sum
      + (mtris.map fun f => open Classical in if ∃ i, f.1.ind i = k then triExactPotential p u (p k) f
          else triPointPotential H p u (p k) f).sum) / (4 * Real.pi) := by
  have hinj : ∀ f ∈ mtris, Function.Injective f.1.ind := fun f hf => ind_injective p f.1 (hS f hf)
  rw [Fmm.C47_coulomb G.n H.n norm hnorm c p magNode (gaussTet G p) (gaussTri H p) (chargeTet G Ms p u)
    (chargeTri H p u) mtets mtris pot (corr H p mtris u) phi hpot k hk, coulomb_append,
    coulomb_pointCharges G.n _ _ mtets (p k) (fun t j => Tetra.ptGauss G (nod4 p t) j)
      (fun t j => Tetra.charges G (Ms t.reg) (nod4 p t) (nod4 u t) j)
      (fun t j => by simp [gaussTet]) (fun t j => by simp [chargeTet]),
    coulomb_pointCharges H.n _ _ mtris (p k) (fun f j => TriElem.ptGauss H (nod3 p f.1) j)
      (fun f j => TriElem.charges H f.2 (nod3 p f.1) (nod3 u f.1) j)
      (fun t j => by simp [gaussTri]) (fun t j => by simp [chargeTri]), corr_eq H p u mtris hinj k]
  congr 1
  rw [add_assoc]
  congr 1
  rw [← List.sum_map_add]
  congr 1
  apply List.map_congr_left
  intro f hf
  by_cases hex : ∃ i, f.1.ind i = k
  · rw [if_pos hex]
    obtain ⟨i, hik⟩ := hex
    have e : (∑ i', if f.1.ind i' = k then TriElem.correction H f.2 (nod3 p f.1) (nod3 u f.1) i' else 0)
        = TriElem.correction H f.2 (nod3 p f.1) (nod3 u f.1) i := by
      rw [Finset.sum_eq_single i]
      · rw [if_pos hik]
      · intro b _ hb
        rw [if_neg]
        intro h
        exact hb (hinj f hf (h.trans hik.symm))
      · intro h; exact absurd (Finset.mem_univ i) h
    rw [e]
    have := C64_self_potential H f.2 (nod3 p f.1) (nod3 u f.1) (hS f hf) i
    have hpi : nod3 p f.1 i = p k := by unfold nod3; rw [hik]
    rw [hpi] at this
    exact this
  · rw [if_neg hex]
    have e : (∑ i', if f.1.ind i' = k then TriElem.correction H f.2 (nod3 p f.1) (nod3 u f.1) i' else 0) = 0 := by
      apply Finset.sum_eq_zero
      intro i _
      rw [if_neg fun h => hex ⟨i, h⟩]
    rw [e, add_zero]
    rfl

/-- the hypotheses are met: a right triangle -/
example : areaRatio ⟨0, 0, 0⟩ ⟨1, 0, 0⟩ ⟨0, 1, 0⟩ ≠ 0 := by
  simp [areaRatio, V3.norm, V3.nsq, V3.cross]

/-- a multipole algorithm as supposed exists: the sum itself -/
example (charges : List (V3 × ℝ)) : ∃ pot : V3 → ℝ, ∀ x, pot x = Fmm.coulomb charges x := ⟨_, fun _ => rfl⟩

end Verif.Potential
