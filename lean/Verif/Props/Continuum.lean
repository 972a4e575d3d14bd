import Verif.Proofs.ContinuumField
import Verif.Props.DemagEnergy
import Verif.Props.EnergyTable

/-!
# C94: refining the mesh

The nodes hold samples of a smooth magnetization (and potential). Volumes are Lebesgue volumes, and every energy column and every
average differs from its integral by at most a constant times the size `h` of the elements.
-/

namespace Verif.Continuum

open MeasureTheory Verif.Mesh Verif.MeshElem Verif.Tetra Verif.Rounded Verif.EnergyAll Verif.Llg Verif.MeshCheck

/-- a fine mesh of a body on which `u` is smooth: the elements `mtets` have the orientation given by the mesh reading (C34), are
well shaped and of size `h`; the derivatives of `u` may jump from region to region -/
structure Fine (p : ℕ → V3) (mtets : List Tet) (u : V3 → V3) (D : ℕ → Fin 3 → V3 → V3) (h κ M L : ℝ) : Prop where
  pos : 0 < h
  orient : ∀ t ∈ mtets, 0 < detJ (nod4 p t)
  shape : ∀ t ∈ mtets, Regular h κ (nod4 p t)
  smooth : ∀ t ∈ mtets, Smooth (InTet (nod4 p t)) u (D t.reg) M L

/-- errors of sums -/
theorem sum_near {α : Type} (l : List α) (f g c : α → ℝ) (h : ∀ t ∈ l, |f t - g t| ≤ c t) :
    |(l.map f).sum - (l.map g).sum| ≤ (l.map c).sum := by
  induction l with
  | nil => simp
  | cons t l ih =>
    simp only [List.map_cons, List.sum_cons]
    have h1 := abs_le.mp (h t (List.mem_cons_self ..))
    have h2 := abs_le.mp (ih fun s hs => h s (List.mem_cons_of_mem _ hs))
    rw [abs_le]
    constructor <;> linarith [h1.1, h1.2, h2.1, h2.2]

theorem tetIntegral_mul (p : Fin 4 → V3) (c : ℝ) (f : V3 → ℝ) : tetIntegral p (fun x => c * f x) = c * tetIntegral p f :=
  integral_const_mul _ _

theorem triIntegral_mul (p : Fin 3 → V3) (c : ℝ) (f : V3 → ℝ) : triIntegral p (fun x => c * f x) = c * triIntegral p f := by
  unfold triIntegral
  rw [integral_const_mul]
  ring

variable {G : Rule} (hG : Compiled G) {H : TriElem.Rule} {mu0 : ℝ} {p : ℕ → V3} {prm : ℕ → Prm} {sprm : ℕ → Llg.SurfPrm}

include hG

/-- **C94** The volume computed for an element is the Lebesgue volume of the solid tetrahedron. -/
theorem C94_volume (q : Fin 4 → V3) (hq : 0 < detJ q) : calcVol G q = (volume (tetSet q)).toReal := calcVol_lebesgue hG hq

/-- **C94** The column `E_ex` converges to `Σ A ∫ |∇u|²` when the mesh is refined; the error is at most proportional to the size
of the elements. -/
theorem C94_exchange (mag : ℕ → Bool) (tets : List Tet) (mtris : List (Tri × ℝ)) (u : V3 → V3) (D : ℕ → Fin 3 → V3 → V3)
    {h κ M L : ℝ} (hf : Fine p (magTet mag tets) u D h κ M L) (phi : ℕ → ℝ) (a : Applied G.n) :
    |(terms G H mu0 p prm sprm (magTet mag tets) mtris (fun i => u (p i)) phi a).exchange
        - ((magTet mag tets).map fun t => (prm t.reg).A * tetIntegral (nod4 p t) (gradSq (D t.reg))).sum| ≤
      ((magTet mag tets).map fun t => |(prm t.reg).A| * tetVolume (nod4 p t)).sum *
        ((6 * M * L + 39 / 20 * κ * L * (2 * M + κ / 4 * L * h)) * h) := by
  rw [(C82_terms mag tets mtris _ phi a).1, ← List.sum_map_mul_right]
  refine sum_near _ _ _ _ fun t ht => ?_
  refine (exchange_near hG (hf.orient t ht) (hf.smooth t ht) (fun _ hx => hx) hf.pos (hf.shape t ht) (prm t.reg)).trans
    (le_of_eq ?_)
  rw [exchangeRate]
  ring

/-- **C94** The column `E_aniso` converges to the integrals of the uniaxial and cubic densities over the regions and of the surface
density over the surfaces. -/
theorem C94_anisotropy (hH : H = TriElem.rule1 ∨ H = TriElem.rule4) (mag : ℕ → Bool) (tets : List Tet) (mtris : List (Tri × ℝ))
    (u : V3 → V3) (D : ℕ → Fin 3 → V3 → V3) {h κ M L : ℝ} (hf : Fine p (magTet mag tets) u D h κ M L) (hM : 0 ≤ M)
    (haxes : ∀ t ∈ magTet mag tets, (prm t.reg).uk.norm ≤ 1 ∧ (prm t.reg).ex.norm ≤ 1 ∧ (prm t.reg).ey.norm ≤ 1 ∧
      (prm t.reg).ez.norm ≤ 1)
    (hsurf : ∀ f ∈ mtris, (sprm f.1.reg).uk.norm ≤ 1 ∧ (∀ i j, (nod3 p f.1 i - nod3 p f.1 j).norm ≤ h) ∧
      Gentle (InTri (nod3 p f.1)) u 1 M)
    (phi : ℕ → ℝ) (a : Applied G.n) :
    |(terms G H mu0 p prm sprm (magTet mag tets) mtris (fun i => u (p i)) phi a).anisotropy
        - (((magTet mag tets).map fun t =>
            tetIntegral (nod4 p t) (fun x => uniaxialDensity (prm t.reg).K (prm t.reg).uk (u x))
            + tetIntegral (nod4 p t) (fun x => cubicDensity (prm t.reg).K3 (prm t.reg).ex (prm t.reg).ey (prm t.reg).ez (u x))).sum
          + (mtris.map fun f => triIntegral (nod3 p f.1) (fun x => uniaxialDensity (sprm f.1.reg).Ks (sprm f.1.reg).uk (u x))).sum)| ≤
      (((magTet mag tets).map fun t => (36 / 5 * |(prm t.reg).K| + 216 / 5 * |(prm t.reg).K3|) * tetVolume (nod4 p t)).sum
        + (mtris.map fun f => 25 / 4 * |(sprm f.1.reg).Ks| * triArea (nod3 p f.1)).sum) * (M * h) := by
  rw [(C82_terms mag tets mtris _ phi a).2.1, add_mul, ← List.sum_map_mul_right, ← List.sum_map_mul_right]
  have h1 := sum_near (magTet mag tets)
    (fun t => (if (prm t.reg).K ≠ 0 then uniaxialEnergy G (prm t.reg) (nod4 p t) (nod4 (fun i => u (p i)) t) else 0)
      + (if (prm t.reg).K3 ≠ 0 then cubicEnergy G (prm t.reg) (nod4 p t) (nod4 (fun i => u (p i)) t) else 0))
    (fun t => tetIntegral (nod4 p t) (fun x => uniaxialDensity (prm t.reg).K (prm t.reg).uk (u x))
      + tetIntegral (nod4 p t) (fun x => cubicDensity (prm t.reg).K3 (prm t.reg).ex (prm t.reg).ey (prm t.reg).ez (u x)))
    (fun t => (36 / 5 * |(prm t.reg).K| + 216 / 5 * |(prm t.reg).K3|) * tetVolume (nod4 p t) * (M * h))
    (fun t ht => by
      obtain ⟨k1, k2, k3, k4⟩ := haxes t ht
      have d1 := density_near hG (hf.orient t ht) (hf.smooth t ht) (fun _ hx => hx) (hf.shape t ht).edge
        (fun m => (prm t.reg).uk.dot m * (prm t.reg).uk.dot m) 2 (by norm_num) (uniaxial_lip k1)
      have d2 := density_near hG (hf.orient t ht) (hf.smooth t ht) (fun _ hx => hx) (hf.shape t ht).edge
        (fun m => (m.dot (prm t.reg).ex * m.dot (prm t.reg).ey) * (m.dot (prm t.reg).ex * m.dot (prm t.reg).ey)
          + (m.dot (prm t.reg).ey * m.dot (prm t.reg).ez) * (m.dot (prm t.reg).ey * m.dot (prm t.reg).ez)
          + (m.dot (prm t.reg).ez * m.dot (prm t.reg).ex) * (m.dot (prm t.reg).ez * m.dot (prm t.reg).ex)) 12 (by norm_num)
        (cubic_lip k2 k3 k4)
      have e1 : (if (prm t.reg).K ≠ 0 then uniaxialEnergy G (prm t.reg) (nod4 p t) (nod4 (fun i => u (p i)) t) else 0) =
          -(prm t.reg).K * ∑ j, weight G (nod4 p t) j * ((prm t.reg).uk.dot (interpV G (fun i => u (nod4 p t i)) j)
            * (prm t.reg).uk.dot (interpV G (fun i => u (nod4 p t i)) j)) := by
        split_ifs with hk
        · rfl
        · rw [not_not] at hk
          rw [hk]
          simp
      have e2 : (if (prm t.reg).K3 ≠ 0 then cubicEnergy G (prm t.reg) (nod4 p t) (nod4 (fun i => u (p i)) t) else 0) =
          (prm t.reg).K3 * ∑ j, weight G (nod4 p t) j *
            ((fun m : V3 => (m.dot (prm t.reg).ex * m.dot (prm t.reg).ey) * (m.dot (prm t.reg).ex * m.dot (prm t.reg).ey)
            + (m.dot (prm t.reg).ey * m.dot (prm t.reg).ez) * (m.dot (prm t.reg).ey * m.dot (prm t.reg).ez)
            + (m.dot (prm t.reg).ez * m.dot (prm t.reg).ex) * (m.dot (prm t.reg).ez * m.dot (prm t.reg).ex))
            (interpV G (fun i => u (nod4 p t i)) j)) := by
        split_ifs with hk
        · rfl
        · rw [not_not] at hk
          rw [hk]
          simp
      have i1 : tetIntegral (nod4 p t) (fun x => uniaxialDensity (prm t.reg).K (prm t.reg).uk (u x)) =
          -(prm t.reg).K * tetIntegral (nod4 p t) (fun x => (prm t.reg).uk.dot (u x) * (prm t.reg).uk.dot (u x)) := by
        rw [← tetIntegral_mul]
        congr 1
        funext x
        rw [uniaxialDensity]
        ring
      have i2 : tetIntegral (nod4 p t) (fun x => cubicDensity (prm t.reg).K3 (prm t.reg).ex (prm t.reg).ey (prm t.reg).ez (u x)) =
          (prm t.reg).K3 * tetIntegral (nod4 p t) (fun x => (fun m : V3 =>
            (m.dot (prm t.reg).ex * m.dot (prm t.reg).ey) * (m.dot (prm t.reg).ex * m.dot (prm t.reg).ey)
            + (m.dot (prm t.reg).ey * m.dot (prm t.reg).ez) * (m.dot (prm t.reg).ey * m.dot (prm t.reg).ez)
            + (m.dot (prm t.reg).ez * m.dot (prm t.reg).ex) * (m.dot (prm t.reg).ez * m.dot (prm t.reg).ex)) (u x)) := by
        rw [← tetIntegral_mul]
        congr 1
        funext x
        rw [cubicDensity]
        ring
      rw [e1, e2, i1, i2]
      dsimp only
      have a1 := mul_le_mul_of_nonneg_left d1 (abs_nonneg (-(prm t.reg).K))
      have a2 := mul_le_mul_of_nonneg_left d2 (abs_nonneg (prm t.reg).K3)
      rw [← abs_mul, mul_sub] at a1 a2
      rw [abs_neg] at a1
      have a3 := abs_add_le _ _ |>.trans (add_le_add a1 a2)
      refine le_trans (le_of_eq ?_) (a3.trans (le_of_eq ?_))
      · congr 1
        ring
      · ring)
  have h2 := sum_near mtris
    (fun f => if (sprm f.1.reg).Ks ≠ 0 then
      TriElem.anisotropyEnergy H (sprm f.1.reg).Ks (sprm f.1.reg).uk (nod3 p f.1) (nod3 (fun i => u (p i)) f.1) else 0)
    (fun f => triIntegral (nod3 p f.1) (fun x => uniaxialDensity (sprm f.1.reg).Ks (sprm f.1.reg).uk (u x)))
    (fun f => 25 / 4 * |(sprm f.1.reg).Ks| * triArea (nod3 p f.1) * (M * h))
    (fun f hf' => by
      obtain ⟨k1, k2, k3⟩ := hsurf f hf'
      have d1 := tri_density_near hH k3 hM k2 (fun m => m.dot (sprm f.1.reg).uk * m.dot (sprm f.1.reg).uk) 2 (by norm_num)
        (fun a b ha hb => by
          have := uniaxial_lip k1 a b ha hb
          simp only [V3.dot_comm (sprm f.1.reg).uk] at this
          exact this)
      have e1 : (if (sprm f.1.reg).Ks ≠ 0 then
          TriElem.anisotropyEnergy H (sprm f.1.reg).Ks (sprm f.1.reg).uk (nod3 p f.1) (nod3 (fun i => u (p i)) f.1) else 0) =
          -(sprm f.1.reg).Ks * ∑ j, TriElem.weight H (nod3 p f.1) j *
            ((TriElem.interpV H (fun i => u (nod3 p f.1 i)) j).dot (sprm f.1.reg).uk
              * (TriElem.interpV H (fun i => u (nod3 p f.1 i)) j).dot (sprm f.1.reg).uk) := by
        split_ifs with hk
        · rfl
        · rw [not_not] at hk
          rw [hk]
          simp
      have i1 : triIntegral (nod3 p f.1) (fun x => uniaxialDensity (sprm f.1.reg).Ks (sprm f.1.reg).uk (u x)) =
          -(sprm f.1.reg).Ks * triIntegral (nod3 p f.1) (fun x => (u x).dot (sprm f.1.reg).uk * (u x).dot (sprm f.1.reg).uk) := by
        rw [← triIntegral_mul]
        congr 1
        funext x
        rw [uniaxialDensity, V3.dot_comm]
        ring
      rw [e1, i1]
      have a1 := mul_le_mul_of_nonneg_left d1 (abs_nonneg (-(sprm f.1.reg).Ks))
      rw [← abs_mul, mul_sub] at a1
      rw [abs_neg] at a1
      exact a1.trans (le_of_eq (by ring)))
  have q1 := abs_le.mp h1
  have q2 := abs_le.mp h2
  unfold volAnisoEnergy surfAniso
  rw [abs_le]
  constructor <;> linarith [q1.1, q1.2, q2.1, q2.2]

/-- **C94** The column `E_zeeman` converges to `-mu0 Σ Ms ∫ u·H`, for a field which may depend on the position. -/
theorem C94_zeeman (mtets : List Tet) (mtris : List (Tri × ℝ)) (u : V3 → V3) (D : ℕ → Fin 3 → V3 → V3)
    {h κ M L : ℝ} (hf : Fine p mtets u D h κ M L) (phi : ℕ → ℝ) (a : Applied G.n) (F : V3 → V3) {P N : ℝ} (hN : 0 ≤ N)
    (ha : fieldAt a = some fun t j => F (ptGauss G (nod4 p t) j)) (hF : ∀ t ∈ mtets, Gentle (InTet (nod4 p t)) F P N) :
    ∃ z, (terms G H mu0 p prm sprm mtets mtris (fun i => u (p i)) phi a).zeeman = .fin z ∧
      |z - (mtets.map fun t => -(mu0 * (prm t.reg).Ms) * tetIntegral (nod4 p t) (fun x => (u x).dot (F x))).sum| ≤
        (mtets.map fun t => |mu0 * (prm t.reg).Ms| * tetVolume (nod4 p t)).sum * (18 / 5 * ((M * P + N) * h)) := by
  refine ⟨_, C82_zeeman_term _ _ _ _ _ _ ha, ?_⟩
  rw [← List.sum_map_mul_right]
  refine sum_near _ _ _ _ fun t ht => ?_
  have hz := zeeman_near hG (hf.orient t ht) (hf.smooth t ht) (hf.shape t ht).edge (hF t ht) hN
  have a1 := mul_le_mul_of_nonneg_left hz (abs_nonneg (-(mu0 * (prm t.reg).Ms)))
  rw [← abs_mul, mul_sub] at a1
  rw [abs_neg] at a1
  exact a1.trans (le_of_eq (by ring))

omit hG in
/-- **C94** The demagnetizing field computed on an element is close to the field at every point of the element. -/
theorem C94_field {q : Fin 4 → V3} (hq : 0 < detJ q) {h κ : ℝ} (h0 : 0 < h) (hr : Regular h κ q) {phi : V3 → ℝ} {g : V3 → V3}
    {P N : ℝ} (hφ : SmoothPot (InTet q) phi g P N) (hN : 0 ≤ N) (x : V3) (hx : InTet q x) :
    (interpField q (fun i => phi (q i)) - -g x).norm ≤ (κ / 4 + 1) * N * h := by
  have h1 := grad_near hq h0 hr hφ hN
  have h3 : (q 0 - x).norm ≤ h := by
    rw [norm_sub_comm]
    exact inTet_near hr.edge hx
  have h2 := (hφ.lip _ _ hx (inTet_vertex q 0)).trans (mul_le_mul_of_nonneg_left h3 hN)
  have e : interpField q (fun i => phi (q i)) - -g x = (interpField q (fun i => phi (q i)) - -g (q 0)) - (g (q 0) - g x) := by
    ext <;> simp <;> ring
  rw [e]
  refine (norm_sub_le' _ _).trans ?_
  linarith

/-- **C94** The column `E_demag` of an accepted mesh converges to `-1/2 mu0 Σ Ms ∫ u·H`, with `H` minus the gradient of the
potential whose values are at the nodes. -/
theorem C94_demag {π : Type} (u : V3 → V3) (D : ℕ → Fin 3 → V3 → V3) (phi : V3 → ℝ) (g : ℕ → V3 → V3) {h κ M L P N : ℝ}
    (volName : ℕ → String) (nod : ℕ) (tets : List Tet) (tris : List Tri) (regs : List (MeshCheck.SurfPrm π)) (sorted : List BasicTri)
    (suppress : ℕ → Bool) (hsort : IsSortOf sorted (allTri tets tris)) (r : Result ℝ π)
    (hr : control volName (fun r => (prm r).Ms) tets tris regs sorted = some r)
    (hnod : ∀ t ∈ tets, ∀ i, t.ind i < nod) (hpos : ∀ t ∈ tets, 0 < Geom.mixedProd p t) (hov : NoOverlap p tets)
    (hMs : ∀ t ∈ tets, 0 ≤ (prm t.reg).Ms) (hsup : ∀ f ∈ r.tris, suppress f.1.reg = false) (mag : ℕ → Bool)
    (hmag : ∀ i, mag i = true ↔ 0 < (prm i).Ms) (hf : Fine p (magTet mag tets) u D h κ M L)
    (hφ : ∀ t ∈ magTet mag tets, SmoothPot (InTet (nod4 p t)) phi (g t.reg) P N) (hN : 0 ≤ N) (a : Applied G.n) :
    |(terms G TriElem.rule4 mu0 p prm sprm (magTet mag tets) (magTriJ suppress (magNode mag nod tets) r.tris) (fun i => u (p i))
          (fun i => phi (p i)) a).demag
        - -(1 / 2) * mu0 * ((magTet mag tets).map fun t =>
            (prm t.reg).Ms * tetIntegral (nod4 p t) (fun x => (u x).dot (-g t.reg x))).sum| ≤
      1 / 2 * |mu0| * ((magTet mag tets).map fun t => |(prm t.reg).Ms| * tetVolume (nod4 p t)).sum *
        (18 / 5 * ((M * P + (κ / 4 + 1) * N) * h)) := by
  rw [(C82_terms mag tets _ _ _ a).2.2,
    C67_demag_energy G hG mu0 p _ _ (fun r => (prm r).Ms) volName nod tets tris regs sorted suppress hsort r hr hnod hpos hov hMs hsup
      mag hmag, ← mul_sub, abs_mul, mul_assoc (1 / 2 * |mu0|)]
  have e : |-(1 / 2) * mu0| = 1 / 2 * |mu0| := by
    rw [abs_mul, abs_neg, abs_of_pos (by norm_num : (0 : ℝ) < 1 / 2)]
  rw [e]
  refine mul_le_mul_of_nonneg_left ?_ (by positivity)
  rw [← List.sum_map_mul_right]
  refine sum_near _ _ _ _ fun t ht => ?_
  have hd := demag_near hG (hf.orient t ht) (hf.smooth t ht) hf.pos (hf.shape t ht) (hφ t ht) hN
  have a1 := mul_le_mul_of_nonneg_left hd (abs_nonneg (prm t.reg).Ms)
  rw [← abs_mul, mul_sub] at a1
  exact a1.trans (le_of_eq (by ring))

/-- **C94** The averages of the components of the magnetization converge to the means of the continuous magnetization, over all
magnetic regions or over one of them. -/
theorem C94_average (mag : ℕ → Bool) (nreg : ℕ) (tets : List Tet) (u : V3 → V3) (D : ℕ → Fin 3 → V3 → V3)
    {h κ M L : ℝ} (hf : Fine p (magTet mag tets) u D h κ M L) (region : Option ℕ)
    (hreg : ∀ r, region = some r → r < nreg ∧ mag r = true) (hne : selected mag tets region ≠ []) (d : Fin 3) :
    |avg G p mag nreg tets (fun i => (u (p i)).comp d) region
        - ((selected mag tets region).map fun t => tetIntegral (nod4 p t) (fun x => (u x).comp d)).sum /
          ((selected mag tets region).map fun t => tetVolume (nod4 p t)).sum| ≤ 18 / 5 * (M * h) := by
  have hsub : ∀ t ∈ selected mag tets region, t ∈ magTet mag tets := by
    intro t ht
    rw [selected, List.mem_filter] at ht
    rw [magTet, List.mem_filter]
    refine ⟨ht.1, ?_⟩
    have := ht.2
    rw [Bool.and_eq_true] at this
    exact this.1
  have hv : ((selected mag tets region).map (tetVol G p)).sum = ((selected mag tets region).map fun t => tetVolume (nod4 p t)).sum :=
    congrArg List.sum (List.map_congr_left fun t ht => calcVol_lebesgue hG (hf.orient t (hsub t ht)))
  have hV : 0 < ((selected mag tets region).map fun t => tetVolume (nod4 p t)).sum := by
    refine List.sum_pos _ (fun x hx => ?_) (by simpa using hne)
    obtain ⟨t, ht, rfl⟩ := List.mem_map.mp hx
    rw [tetVolume_eq]
    have := hf.orient t (hsub t ht)
    positivity
  rw [avg_eq G hG p mag nreg tets _ region hreg, hv, ← sub_div, abs_div, abs_of_pos hV, div_le_iff₀ hV, ← List.sum_map_mul_left]
  refine sum_near _ _ _ _ fun t ht => ?_
  have ht' := hsub t ht
  have hd := density_near hG (hf.orient t ht') (hf.smooth t ht') (fun _ hx => hx) (hf.shape t ht').edge (fun m => m.comp d) 1
    (by norm_num) (fun a b _ _ => by
      have e : a.comp d - b.comp d = (a - b).comp d := by fin_cases d <;> rfl
      rw [e, one_mul]
      exact comp_le _ _)
  have e : tetVol G p t * ((∑ i, (u (p (t.ind i))).comp d) / 4) =
      ∑ j, weight G (nod4 p t) j * (interpV G (fun i => u (nod4 p t i)) j).comp d := by
    have h1 := Tetra.sum_weight_interpS hG.ok (nod4 p t) (fun i => (u (nod4 p t i)).comp d)
    refine Eq.trans ?_ (h1.symm.trans ?_)
    · rfl
    · refine Finset.sum_congr rfl fun j _ => ?_
      congr 1
      rw [interpS, interpV]
      simp only [Fin.sum_univ_four]
      fin_cases d <;> simp [V3.comp] <;> ring
  rw [e]
  exact hd.trans (le_of_eq (by ring))

/-- **C94** For every precision there is a size of element below which the exchange, anisotropy and Zeeman columns of every mesh of
well shaped elements are that close to the continuous energies. `W` bounds the material constants times the volumes and areas. -/
theorem C94_refine (hH : H = TriElem.rule1 ∨ H = TriElem.rule4) (u F : V3 → V3) (D : ℕ → Fin 3 → V3 → V3) {κ M L P N W : ℝ}
    (hκ : 0 ≤ κ) (hM : 0 ≤ M) (hL : 0 ≤ L) (hP : 0 ≤ P) (hN : 0 ≤ N) (hW : 0 ≤ W) (ε : ℝ) (hε : 0 < ε) :
    ∃ h0 > 0, ∀ (p : ℕ → V3) (mag : ℕ → Bool) (tets : List Tet) (mtris : List (Tri × ℝ)) (h : ℝ) (phi : ℕ → ℝ) (a : Applied G.n),
      h ≤ h0 → Fine p (magTet mag tets) u D h κ M L →
      (∀ t ∈ magTet mag tets, (prm t.reg).uk.norm ≤ 1 ∧ (prm t.reg).ex.norm ≤ 1 ∧ (prm t.reg).ey.norm ≤ 1 ∧
        (prm t.reg).ez.norm ≤ 1) →
      (∀ f ∈ mtris, (sprm f.1.reg).uk.norm ≤ 1 ∧ (∀ i j, (nod3 p f.1 i - nod3 p f.1 j).norm ≤ h) ∧
        Gentle (InTri (nod3 p f.1)) u 1 M) →
      (fieldAt a = some fun t j => F (ptGauss G (nod4 p t) j)) → (∀ t ∈ magTet mag tets, Gentle (InTet (nod4 p t)) F P N) →
      ((magTet mag tets).map fun t => |(prm t.reg).A| * tetVolume (nod4 p t)).sum ≤ W →
      ((magTet mag tets).map fun t => (36 / 5 * |(prm t.reg).K| + 216 / 5 * |(prm t.reg).K3|) * tetVolume (nod4 p t)).sum
        + (mtris.map fun f => 25 / 4 * |(sprm f.1.reg).Ks| * triArea (nod3 p f.1)).sum ≤ W →
      ((magTet mag tets).map fun t => |mu0 * (prm t.reg).Ms| * tetVolume (nod4 p t)).sum ≤ W →
      let e := terms G H mu0 p prm sprm (magTet mag tets) mtris (fun i => u (p i)) phi a
      |e.exchange - ((magTet mag tets).map fun t => (prm t.reg).A * tetIntegral (nod4 p t) (gradSq (D t.reg))).sum| ≤ ε ∧
      |e.anisotropy - (((magTet mag tets).map fun t =>
            tetIntegral (nod4 p t) (fun x => uniaxialDensity (prm t.reg).K (prm t.reg).uk (u x))
            + tetIntegral (nod4 p t) (fun x => cubicDensity (prm t.reg).K3 (prm t.reg).ex (prm t.reg).ey (prm t.reg).ez (u x))).sum
          + (mtris.map fun f => triIntegral (nod3 p f.1) (fun x => uniaxialDensity (sprm f.1.reg).Ks (sprm f.1.reg).uk (u x))).sum)| ≤ ε ∧
      ∃ z, e.zeeman = .fin z ∧ |z - ((magTet mag tets).map fun t =>
        -(mu0 * (prm t.reg).Ms) * tetIntegral (nod4 p t) (fun x => (u x).dot (F x))).sum| ≤ ε := by
  set C1 := 6 * M * L + 39 / 20 * κ * L * (2 * M + κ / 4 * L) with hC1
  set C3 := 18 / 5 * (M * P + N) with hC3
  have n1 : 0 ≤ C1 := by positivity
  have n3 : 0 ≤ C3 := by positivity
  set C := W * (C1 + M + C3) + 1 with hC
  have nC : 0 < C := by positivity
  refine ⟨min 1 (ε / C), lt_min one_pos (div_pos hε nC), ?_⟩
  intro p mag tets mtris h phi a hh hf haxes hsurf ha hF w1 w2 w3 e
  have h1 : h ≤ 1 := hh.trans (min_le_left _ _)
  have h2 : h * C ≤ ε := by
    rw [← le_div_iff₀ nC]
    exact hh.trans (min_le_right _ _)
  have hp := hf.pos
  refine ⟨(C94_exchange hG mag tets mtris u D hf phi a).trans ?_, (C94_anisotropy hG hH mag tets mtris u D hf hM haxes hsurf phi a).trans ?_, ?_⟩
  · calc _ ≤ W * (C1 * h) := by
          refine mul_le_mul w1 ?_ (by positivity) hW
          refine mul_le_mul_of_nonneg_right ?_ hp.le
          rw [hC1]
          have : κ / 4 * L * h ≤ κ / 4 * L := mul_le_of_le_one_right (by positivity) h1
          gcongr
      _ ≤ ε := by
          refine le_trans ?_ h2
          rw [hC]
          have : 0 ≤ W * M * h := by positivity
          have : 0 ≤ W * C3 * h := by positivity
          nlinarith
  · calc _ ≤ W * (M * h) := mul_le_mul_of_nonneg_right w2 (by positivity)
      _ ≤ ε := by
          refine le_trans ?_ h2
          rw [hC]
          have : 0 ≤ W * C1 * h := by positivity
          have : 0 ≤ W * C3 * h := by positivity
          nlinarith
  · obtain ⟨z, hz, hz'⟩ := C94_zeeman (H := H) (mu0 := mu0) (prm := prm) (sprm := sprm) hG (magTet mag tets) mtris u D hf phi a F hN
      ha hF
    refine ⟨z, hz, hz'.trans ?_⟩
    calc _ ≤ W * (C3 * h) := by
          refine mul_le_mul w3 (le_of_eq ?_) (by positivity) hW
          rw [hC3]
          ring
      _ ≤ ε := by
          refine le_trans ?_ h2
          rw [hC]
          have : 0 ≤ W * C1 * h := by positivity
          have : 0 ≤ W * M * h := by positivity
          nlinarith

omit hG

/-! ## example: a magnetization turning around `z` along `x`, on the two elements `exT2` shrunk by any factor -/

/-- the magnetization and its derivatives -/
noncomputable def turn (x : V3) : V3 := ⟨Real.cos x.x, Real.sin x.x, 0⟩

noncomputable def turnD (d : Fin 3) (x : V3) : V3 := ![⟨-Real.sin x.x, Real.cos x.x, 0⟩, 0, 0] d

theorem turn_nsq (a b : ℝ) : (⟨Real.cos a - Real.cos b, Real.sin a - Real.sin b, 0⟩ : V3).nsq ≤ (a - b) ^ 2 := by
  have h := Real.one_sub_sq_div_two_le_cos (x := a - b)
  rw [Real.cos_sub] at h
  simp only [V3.nsq]
  nlinarith [Real.sin_sq_add_cos_sq a, Real.sin_sq_add_cos_sq b]

theorem abs_sub_sin (t : ℝ) : |Real.sin t - t| ≤ 2 * t ^ 2 := by
  wlog h : 0 ≤ t generalizing t
  · have := this (-t) (by linarith)
    rw [Real.sin_neg, neg_sq, ← abs_neg] at this
    convert this using 2
    ring
  · rw [abs_sub_comm, abs_of_nonneg (by linarith [Real.sin_le h])]
    rcases le_or_gt t 1 with h1 | h1
    · rcases h.eq_or_lt with rfl | h0
      · simp
      · have := Real.sin_gt_sub_cube h0
        have : t ^ 3 ≤ t ^ 2 := pow_le_pow_of_le_one h h1 (by norm_num)
        nlinarith
    · nlinarith [Real.neg_one_le_sin t]

theorem x_le (a : V3) : a.x ^ 2 ≤ a.norm ^ 2 := by
  rw [norm_sq]
  simp only [V3.nsq]
  nlinarith [mul_self_nonneg a.y, mul_self_nonneg a.z]

theorem turn_nsq' (x y : V3) : (turn y - turn x).nsq ≤ (y - x).x ^ 2 := by
  refine le_trans (le_of_eq ?_) (turn_nsq y.x x.x)
  simp [turn, V3.nsq]

theorem turn_smooth (B : V3 → Prop) : Smooth B turn turnD 1 6 where
  unit x _ := by
    have : (turn x).nsq = 1 := by
      simp only [turn, V3.nsq]
      nlinarith [Real.sin_sq_add_cos_sq x.x]
    rw [V3.norm, this, Real.sqrt_one]
  slope x y _ _ := by
    rw [one_mul]
    refine norm_le (norm_nonneg _) ((turn_nsq' x y).trans (x_le (y - x)))
  bound d x _ := by
    fin_cases d
    · have : (turnD 0 x).nsq = 1 := by
        simp only [turnD, V3.nsq, Matrix.cons_val_zero]
        nlinarith [Real.sin_sq_add_cos_sq x.x]
      show (turnD 0 x).norm ≤ 1
      rw [V3.norm, this, Real.sqrt_one]
    · exact norm_le zero_le_one (by simp [turnD, V3.nsq])
    · exact norm_le zero_le_one (by simp [turnD, V3.nsq])
  taylor x y _ _ := by
    set t := (y - x).x with ht
    have hy : y.x = x.x + t := by
      rw [ht, V3.sub_x]
      ring
    have h1 : (turn y - (turn x + t * turnD 0 x + (y - x).y * turnD 1 x + (y - x).z * turnD 2 x)).nsq =
        (Real.cos t - 1) ^ 2 + (Real.sin t - t) ^ 2 := by
      simp only [turn, turnD, hy, V3.nsq, V3.sub_x, V3.sub_y, V3.sub_z, V3.add_x, V3.add_y, V3.add_z, V3.smul_x, V3.smul_y,
        V3.smul_z, Matrix.cons_val_zero, Matrix.cons_val_one, Matrix.cons_val, Real.cos_add, Real.sin_add]
      have h0 := Real.sin_sq_add_cos_sq x.x
      simp only [V3.zero_x, V3.zero_y, V3.zero_z]
      linear_combination ((Real.cos t - 1) ^ 2 + (Real.sin t - t) ^ 2) * h0
    have h2 := Real.one_sub_sq_div_two_le_cos (x := t)
    have h3 := Real.cos_le_one t
    have h4 := abs_le.mp (abs_sub_sin t)
    have h5 := x_le (y - x)
    have h6 : (Real.cos t - 1) ^ 2 ≤ (t ^ 2) ^ 2 := by
      apply sq_le_sq'
      · nlinarith
      · nlinarith
    have h7 : (Real.sin t - t) ^ 2 ≤ (2 * t ^ 2) ^ 2 := sq_le_sq' (by linarith [h4.1]) h4.2
    refine norm_le (by positivity) ?_
    rw [h1]
    have h8 : (t ^ 2) ^ 2 ≤ ((y - x).norm ^ 2) ^ 2 := pow_le_pow_left₀ (sq_nonneg t) h5 2
    nlinarith
  lip d x y _ _ := by
    fin_cases d
    · show (turnD 0 y - turnD 0 x).norm ≤ _
      refine norm_le (mul_nonneg (by norm_num) (norm_nonneg _)) ?_
      have h := turn_nsq' x y
      have h' : (turnD 0 y - turnD 0 x).nsq = (turn y - turn x).nsq := by
        simp only [turn, turnD, V3.nsq, V3.sub_x, V3.sub_y, V3.sub_z, Matrix.cons_val_zero]
        ring
      rw [h']
      nlinarith [x_le (y - x), sq_nonneg (y - x).norm]
    · refine norm_le (mul_nonneg (by norm_num) (norm_nonneg _)) ?_
      simp [turnD, V3.nsq]
      positivity
    · refine norm_le (mul_nonneg (by norm_num) (norm_nonneg _)) ?_
      simp [turnD, V3.nsq]
      positivity

/-- the mesh `exT2` shrunk by `s` -/
noncomputable def exShrunk (s : ℝ) (i : ℕ) : V3 := s * exP2 i

theorem exShrunk_detJ (s : ℝ) (t : Tet) : detJ (nod4 (exShrunk s) t) = s ^ 3 * detJ (nod4 exP2 t) := by
  rw [detJ_eq, detJ_eq]
  simp only [nod4, exShrunk, V3.dot, V3.cross, V3.sub_x, V3.sub_y, V3.sub_z, V3.smul_x, V3.smul_y, V3.smul_z]
  ring

/-- the two elements of `exT2` and `exTets`, whatever their regions -/
def IsEx (t : Tet) : Prop := t.ind = ![0, 1, 2, 3] ∨ t.ind = ![4, 1, 3, 2]

theorem ex2_detJ (t : Tet) (ht : IsEx t) : 1 ≤ detJ (nod4 exP2 t) := by
  rw [detJ_eq]
  unfold nod4
  rcases ht with ht | ht <;> rw [ht]
  · show (1 : ℝ) ≤ ((exP2 1) - (exP2 0)).dot ((exP2 2 - exP2 0).cross (exP2 3 - exP2 0))
    norm_num [exP2, V3.dot, V3.cross]
  · show (1 : ℝ) ≤ ((exP2 1) - (exP2 4)).dot ((exP2 3 - exP2 4).cross (exP2 2 - exP2 4))
    norm_num [exP2, V3.dot, V3.cross]

theorem ex2_edge : ∀ i j, i < 5 → j < 5 → (exP2 i - exP2 j).nsq ≤ 3 := by
  intro i j hi hj
  interval_cases i <;> interval_cases j <;> norm_num [exP2, V3.nsq]

theorem ex2_ind (t : Tet) (ht : IsEx t) : ∀ i, t.ind i < 5 := by
  rcases ht with ht | ht <;> rw [ht] <;> decide

theorem exT2_isEx : ∀ t ∈ exT2, IsEx t := by
  intro t ht
  simp only [exT2, List.mem_cons, List.not_mem_nil, or_false] at ht
  rcases ht with rfl | rfl
  · exact Or.inl rfl
  · exact Or.inr rfl

theorem ex_fine' (s : ℝ) (hs : 0 < s) (mag : ℕ → Bool) (tets : List Tet) (hex : ∀ t ∈ tets, IsEx t) :
    Fine (exShrunk s) (magTet mag tets) turn (fun _ => turnD) (2 * s) 48 1 6 where
  pos := by linarith
  orient t ht := by
    rw [exShrunk_detJ]
    have := ex2_detJ t (hex t (List.mem_of_mem_filter ht))
    have : 0 < detJ (nod4 exP2 t) := by linarith
    positivity
  shape t ht := by
    have ht := hex t (List.mem_of_mem_filter ht)
    constructor
    · intro i j
      have e : nod4 (exShrunk s) t i - nod4 (exShrunk s) t j = s * (exP2 (t.ind i) - exP2 (t.ind j)) := by
        ext <;> simp [nod4, exShrunk] <;> ring
      rw [e, norm_smul', abs_of_pos hs]
      have h1 : (exP2 (t.ind i) - exP2 (t.ind j)).norm ≤ 2 :=
        norm_le (by norm_num) ((ex2_edge _ _ (ex2_ind t ht i) (ex2_ind t ht j)).trans (by norm_num))
      nlinarith
    · rw [tetVolume_eq, exShrunk_detJ, abs_of_nonneg]
      · have := ex2_detJ t ht
        have h3 : 0 < s ^ 3 := by positivity
        nlinarith
      · have := ex2_detJ t ht
        have : 0 ≤ detJ (nod4 exP2 t) := by linarith
        positivity
  smooth t _ := turn_smooth _

theorem ex_fine (s : ℝ) (hs : 0 < s) :
    Fine (exShrunk s) (magTet (fun _ => true) exT2) turn (fun _ => turnD) (2 * s) 48 1 6 :=
  ex_fine' s hs _ _ exT2_isEx

/-- the continuous density is not zero: `|∇u|² = 1` -/
example (x : V3) : gradSq turnD x = 1 := by
  simp only [gradSq, norm_sq, Fin.sum_univ_three, turnD, V3.nsq, Matrix.cons_val_zero, Matrix.cons_val_one, Matrix.cons_val,
    V3.zero_x, V3.zero_y, V3.zero_z]
  nlinarith [Real.sin_sq_add_cos_sq x.x]

/-- C94: exchange energy of the shrunk mesh -/
example (s : ℝ) (hs : 0 < s) (prm : ℕ → Prm) (sprm : ℕ → Llg.SurfPrm) (phi : ℕ → ℝ) (a : Applied rule5.n) :=
  C94_exchange (H := TriElem.rule4) (mu0 := 1) (prm := prm) (sprm := sprm) (Or.inr rfl) (fun _ => true) exT2 [] turn _ (ex_fine s hs) phi a

/-- C94: averages of the shrunk mesh -/
example (s : ℝ) (hs : 0 < s) : |avg rule5 (exShrunk s) (fun _ => true) 2 exT2 (fun i => (turn (exShrunk s i)).comp 1) (some 1)
    - ((selected (fun _ => true) exT2 (some 1)).map fun t => tetIntegral (nod4 (exShrunk s) t) (fun x => (turn x).comp 1)).sum /
      ((selected (fun _ => true) exT2 (some 1)).map fun t => tetVolume (nod4 (exShrunk s) t)).sum| ≤ 18 / 5 * (1 * (2 * s)) :=
  C94_average (Or.inr rfl) _ 2 exT2 turn _ (ex_fine s hs) (some 1) (fun r h => by cases h; exact ⟨by norm_num, rfl⟩)
    (by decide) 1

/-- C94: Zeeman energy in a field growing along `x` -/
example (s : ℝ) (hs : 0 < s) (hs1 : s ≤ 1) (prm : ℕ → Prm) (sprm : ℕ → Llg.SurfPrm) (phi : ℕ → ℝ) :
    ∃ z, (terms rule5 TriElem.rule4 1 (exShrunk s) prm sprm (magTet (fun _ => true) exT2) [] (fun i => turn (exShrunk s i)) phi
        (.space 1 fun t j => ⟨0, (ptGauss rule5 (nod4 (exShrunk s) t) j).x, 0⟩)).zeeman = .fin z ∧
      |z - ((magTet (fun _ => true) exT2).map fun t => -(1 * (prm t.reg).Ms) *
          tetIntegral (nod4 (exShrunk s) t) (fun x => (turn x).dot ⟨0, x.x, 0⟩)).sum| ≤
        ((magTet (fun _ => true) exT2).map fun t => |1 * (prm t.reg).Ms| * tetVolume (nod4 (exShrunk s) t)).sum *
          (18 / 5 * ((1 * 1 + 1) * (2 * s))) := by
  refine C94_zeeman (Or.inr rfl) _ _ turn _ (ex_fine s hs) phi _ (fun x => ⟨0, x.x, 0⟩) zero_le_one ?_ ?_
  · simp only [fieldAt, Option.some.injEq]
    funext t j
    ext <;> simp
  · intro t ht
    have ht := exT2_isEx t (List.mem_of_mem_filter ht)
    constructor
    · rintro x ⟨l, h0, h1, rfl⟩
      refine norm_le zero_le_one ?_
      have hx : ∀ i, i < 5 → 0 ≤ (exP2 i).x ∧ (exP2 i).x ≤ 1 := by
        intro i hi
        interval_cases i <;> norm_num [exP2]
      have hb : ∀ i, 0 ≤ l i * (s * (exP2 (t.ind i)).x) ∧ l i * (s * (exP2 (t.ind i)).x) ≤ l i := by
        intro i
        obtain ⟨h2, h3⟩ := hx _ (ex2_ind t ht i)
        have h4 : s * (exP2 (t.ind i)).x ≤ 1 := by nlinarith
        exact ⟨mul_nonneg (h0 i) (mul_nonneg hs.le h2), mul_le_of_le_one_right (h0 i) h4⟩
      have hn : 0 ≤ (∑ i, l i * nod4 (exShrunk s) t i).x ∧ (∑ i, l i * nod4 (exShrunk s) t i).x ≤ 1 := by
        rw [V3.sum_x]
        constructor
        · exact Finset.sum_nonneg fun i _ => (hb i).1
        · exact (Finset.sum_le_sum fun i _ => (hb i).2).trans h1.le
      simp only [V3.nsq]
      nlinarith
    · intro x y _ _
      rw [one_mul]
      refine norm_le (norm_nonneg _) ?_
      refine le_trans (le_of_eq ?_) (x_le (y - x))
      simp only [V3.nsq, V3.sub_x, V3.sub_y, V3.sub_z]
      ring

/-- C94: a quadratic potential on a small element -/
example (s : ℝ) (hs : 0 < s) (x : V3) (hx : InTet (nod4 (exShrunk s) ⟨![0, 1, 2, 3], 0⟩) x) :
    ((interpField (nod4 (exShrunk s) ⟨![0, 1, 2, 3], 0⟩) fun i => (nod4 (exShrunk s) ⟨![0, 1, 2, 3], 0⟩ i).x ^ 2)
      - -(⟨2 * x.x, 0, 0⟩ : V3)).norm ≤ (48 / 4 + 1) * 2 * (2 * s) := by
  have ht : (⟨![0, 1, 2, 3], 0⟩ : Tet) ∈ magTet (fun _ => true) exT2 := List.mem_cons_self ..
  have hf := ex_fine s hs
  refine C94_field (hf.orient _ ht) hf.pos (hf.shape _ ht) (phi := fun x => x.x ^ 2) (g := fun x => ⟨2 * x.x, 0, 0⟩)
    (P := 4 * s) ?_ (by norm_num) x hx
  constructor
  · intro y hy
    have h1 := inTet_near (hf.shape _ ht).edge hy
    have h2 := x_le (y - nod4 (exShrunk s) ⟨![0, 1, 2, 3], 0⟩ 0)
    have e : (y - nod4 (exShrunk s) ⟨![0, 1, 2, 3], 0⟩ 0).x = y.x := by
      simp [nod4, exShrunk, exP2]
    rw [e] at h2
    refine norm_le (by linarith) ?_
    simp only [V3.nsq]
    nlinarith [norm_nonneg (y - nod4 (exShrunk s) ⟨![0, 1, 2, 3], 0⟩ 0)]
  · intro x y _ _
    have h2 := x_le (y - x)
    have e : y.x ^ 2 - (x.x ^ 2 + (⟨2 * x.x, 0, 0⟩ : V3).dot (y - x)) = (y - x).x ^ 2 := by
      simp only [V3.dot, V3.sub_x, V3.sub_y, V3.sub_z]
      ring
    rw [e, abs_of_nonneg (sq_nonneg _)]
    linarith
  · intro x y _ _
    refine norm_le (mul_nonneg (by norm_num) (norm_nonneg _)) ?_
    have h2 := x_le (y - x)
    have e : ((⟨2 * y.x, 0, 0⟩ : V3) - ⟨2 * x.x, 0, 0⟩).nsq = 4 * (y - x).x ^ 2 := by
      simp only [V3.nsq, V3.sub_x, V3.sub_y, V3.sub_z]
      ring
    rw [e]
    nlinarith

/-- C94: anisotropy of the shrunk mesh with its interface, whatever the axes and constants -/
example (s : ℝ) (hs : 0 < s) (prm : ℕ → Prm) (sprm : ℕ → Llg.SurfPrm) (phi : ℕ → ℝ) (a : Applied rule5.n)
    (h1 : ∀ r, (prm r).uk.norm ≤ 1 ∧ (prm r).ex.norm ≤ 1 ∧ (prm r).ey.norm ≤ 1 ∧ (prm r).ez.norm ≤ 1)
    (h2 : ∀ r, (sprm r).uk.norm ≤ 1) :=
  C94_anisotropy (H := TriElem.rule4) (mu0 := 1) (prm := prm) (sprm := sprm) (Or.inr rfl) (Or.inr rfl) (fun _ => true) exT2
    [(⟨![1, 2, 3], 1⟩, 5)] turn _ (ex_fine s hs) zero_le_one (fun t _ => h1 t.reg) (by
      intro f hf
      rw [List.mem_singleton] at hf
      subst hf
      refine ⟨h2 _, ?_, fun x _ => ((turn_smooth (fun _ => True)).unit x trivial).le, fun x y _ _ =>
        (turn_smooth (fun _ => True)).slope x y trivial trivial⟩
      intro i j
      have e : nod3 (exShrunk s) ⟨![1, 2, 3], 1⟩ i - nod3 (exShrunk s) ⟨![1, 2, 3], 1⟩ j =
          s * (exP2 (![1, 2, 3] i) - exP2 (![1, 2, 3] j)) := by
        ext <;> simp [nod3, exShrunk] <;> ring
      rw [e, norm_smul', abs_of_pos hs]
      have hi : ∀ k : Fin 3, (![1, 2, 3] : Fin 3 → ℕ) k < 5 := by decide
      have h3 : (exP2 (![1, 2, 3] i) - exP2 (![1, 2, 3] j)).norm ≤ 2 :=
        norm_le (by norm_num) ((ex2_edge _ _ (hi i) (hi j)).trans (by norm_num))
      nlinarith) phi a

/-- C94: demagnetizing energy of the mesh `exTets` with the potential `x²` -/
example (prm : ℕ → Prm) (hprm : ∀ r, (prm r).Ms = exMs r) (sprm : ℕ → Llg.SurfPrm) (a : Applied rule5.n) :
    ∃ r, control exVol (fun i => (prm i).Ms) exTets exTris exRegs (exSort exTets exTris) = some r ∧
    |(terms rule5 TriElem.rule4 1 (exShrunk 1) prm sprm (magTet (fun i => decide (0 < exMs i)) exTets)
          (magTriJ (fun _ => false) (magNode (fun i => decide (0 < exMs i)) 5 exTets) r.tris) (fun i => turn (exShrunk 1 i))
          (fun i => (exShrunk 1 i).x ^ 2) a).demag
        - -(1 / 2) * 1 * ((magTet (fun i => decide (0 < exMs i)) exTets).map fun t =>
            (prm t.reg).Ms * tetIntegral (nod4 (exShrunk 1) t) (fun x => (turn x).dot (-⟨2 * x.x, 0, 0⟩))).sum| ≤
      1 / 2 * |1| * ((magTet (fun i => decide (0 < exMs i)) exTets).map fun t => |(prm t.reg).Ms| * tetVolume (nod4 (exShrunk 1) t)).sum *
        (18 / 5 * ((1 * 2 + (48 / 4 + 1) * 2) * (2 * 1))) := by
  have hp : exShrunk 1 = exPos := by
    funext i
    have : exP2 i = exPos i := by
      match i with
      | 0 | 1 | 2 | 3 => rfl
      | _ + 4 => rfl
    rw [exShrunk, this]
    ext <;> simp
  have hex : ∀ t ∈ exTets, IsEx t := by
    intro t ht
    simp only [exTets, List.mem_cons, List.not_mem_nil, or_false] at ht
    rcases ht with rfl | rfl
    · exact Or.inl rfl
    · exact Or.inr rfl
  obtain ⟨r, hr⟩ := (C23_check_iff exVol (fun i => (prm i).Ms) exTets exTris exRegs _ (exSort_ok _ _) rfl).mpr ex_consistent
  refine ⟨r, hr, C94_demag (Or.inr rfl) turn (fun _ => turnD) (fun x => x.x ^ 2) (fun _ x => ⟨2 * x.x, 0, 0⟩) _ 5 _ _ _ _ _
    (exSort_ok _ _) r hr ?_ (hp ▸ exPos_pos) (hp ▸ ex_noOverlap) ?_ (fun _ _ => rfl) _ ?_ (ex_fine' 1 one_pos _ _ hex) ?_ (by norm_num) a⟩
  · decide
  · intro t _
    rw [hprm]
    unfold exMs
    split_ifs <;> norm_num
  · intro i
    rw [hprm]
    simp
  · intro t ht
    have ht := hex t (List.mem_of_mem_filter ht)
    constructor
    · rintro x ⟨l, h0, h1, rfl⟩
      refine norm_le (by norm_num) ?_
      have hx : ∀ i, i < 5 → 0 ≤ (exP2 i).x ∧ (exP2 i).x ≤ 1 := by
        intro i hi
        interval_cases i <;> norm_num [exP2]
      have hb : ∀ i, 0 ≤ l i * (1 * (exP2 (t.ind i)).x) ∧ l i * (1 * (exP2 (t.ind i)).x) ≤ l i := by
        intro i
        obtain ⟨h2, h3⟩ := hx _ (ex2_ind t ht i)
        exact ⟨mul_nonneg (h0 i) (by linarith), mul_le_of_le_one_right (h0 i) (by linarith)⟩
      have hn : 0 ≤ (∑ i, l i * nod4 (exShrunk 1) t i).x ∧ (∑ i, l i * nod4 (exShrunk 1) t i).x ≤ 1 := by
        rw [V3.sum_x]
        constructor
        · exact Finset.sum_nonneg fun i _ => (hb i).1
        · exact (Finset.sum_le_sum fun i _ => (hb i).2).trans h1.le
      simp only [V3.nsq]
      nlinarith
    · intro x y _ _
      have h2 := x_le (y - x)
      have e : y.x ^ 2 - (x.x ^ 2 + (⟨2 * x.x, 0, 0⟩ : V3).dot (y - x)) = (y - x).x ^ 2 := by
        simp only [V3.dot, V3.sub_x, V3.sub_y, V3.sub_z]
        ring
      rw [e, abs_of_nonneg (sq_nonneg _)]
      linarith
    · intro x y _ _
      refine norm_le (mul_nonneg (by norm_num) (norm_nonneg _)) ?_
      have h2 := x_le (y - x)
      have e : ((⟨2 * y.x, 0, 0⟩ : V3) - ⟨2 * x.x, 0, 0⟩).nsq = 4 * (y - x).x ^ 2 := by
        simp only [V3.nsq, V3.sub_x, V3.sub_y, V3.sub_z]
        ring
      rw [e]
      nlinarith

/-- C94: no element larger than the size found for a given precision -/
example (prm : ℕ → Prm) (sprm : ℕ → Llg.SurfPrm) (mu0 W ε : ℝ) (hW : 0 ≤ W) (hε : 0 < ε) :=
  C94_refine (G := rule5) (H := TriElem.rule4) (mu0 := mu0) (prm := prm) (sprm := sprm) (Or.inr rfl) (Or.inr rfl) turn (fun _ => ⟨0, 0, 1⟩)
    (fun _ => turnD) (κ := 48) (M := 1) (L := 6) (P := 1) (N := 0) (W := W) (by norm_num) (by norm_num) (by norm_num) (by norm_num)
    le_rfl hW ε hε

end Verif.Continuum
