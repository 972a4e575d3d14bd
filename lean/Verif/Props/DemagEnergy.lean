import Verif.Props.Charge
import Verif.Proofs.WeakForm

/-!
# C67: the demagnetizing energy
-/

namespace Verif.MeshCheck

open Verif.Mesh Verif.Geom Verif.MeshElem

variable {π : Type}

/-- 24 times the flux of the product of the interpolated fields `phi` and `u` through an oriented triangle -/
def flux2 (p u : ℕ → V3) (phi : ℕ → ℝ) (a b c : ℕ) : ℝ :=
  (phi a * u a + phi b * u b + phi c * u c + (phi a + phi b + phi c) * (u a + u b + u c)).dot
    (V3.cross (p b - p a) (p c - p a))

theorem flux2_alternating (p u : ℕ → V3) (phi : ℕ → ℝ) : Alternating (flux2 p u phi) := by
  intro a b c
  constructor <;> simp only [flux2, V3.dot, V3.cross, V3.add_x, V3.add_y, V3.add_z, V3.sub_x, V3.sub_y, V3.sub_z, V3.smul_x,
    V3.smul_y, V3.smul_z] <;> ring

/-- integration by parts on one tetrahedron -/
theorem tet_demag {G : Tetra.Rule} (hG : G.Ok) (mu0 : ℝ) (Ms : ℕ → ℝ) (p u : ℕ → V3) (phi : ℕ → ℝ) (t : Tet)
    (ht : 0 < mixedProd p t) :
    Tetra.demagEnergy G mu0 (Ms t.reg) (nod4 p t) (nod4 u t) (fun i => phi (t.ind i))
      + 1 / 2 * mu0 * (Ms t.reg * WeakForm.work G (nod4 p t)
        (fun _ => Tetra.interpField (nod4 p t) (fun i => phi (t.ind i))) (nod4 u t)) =
      -(1 / 48 * mu0) * ((faces t).map fun b => Ms b.reg * (sg b.flipped * kflux (flux2 p u phi) b.nodes)).sum := by
  have hd : Tetra.detJ (nod4 p t) ≠ 0 := by rw [Tetra.detJ_nod]; exact ht.ne'
  rw [faces_sum (flux2_alternating p u phi)]
  unfold Tetra.demagEnergy WeakForm.work
  have e1 : ∑ j, Tetra.weight G (nod4 p t) j * (((Tetra.deriv (nod4 p t) 0 (nod4 u t)).x
      + (Tetra.deriv (nod4 p t) 1 (nod4 u t)).y + (Tetra.deriv (nod4 p t) 2 (nod4 u t)).z)
        * Tetra.interpS G (fun i => phi (t.ind i)) j) =
      ((Tetra.deriv (nod4 p t) 0 (nod4 u t)).x + (Tetra.deriv (nod4 p t) 1 (nod4 u t)).y
        + (Tetra.deriv (nod4 p t) 2 (nod4 u t)).z) * (Tetra.calcVol G (nod4 p t) * ((∑ i, phi (t.ind i)) / 4)) := by
    rw [← Tetra.sum_weight_interpS hG, Finset.mul_sum]
    exact Finset.sum_congr rfl fun j _ => by ring
  simp only [Tetra.dot_interpV]
  rw [e1, Tetra.sum_weight_interpS hG, Tetra.calcVol_eq hG]
  unfold Tetra.deriv Tetra.interpField
  simp only [Fin.sum_univ_four, V3.add_x, V3.add_y, V3.add_z, V3.smul_x, V3.smul_y, V3.smul_z, V3.neg_x, V3.neg_y, V3.neg_z,
    V3.dot, Tetra.daRow_x, Tetra.daRow_y, Tetra.daRow_z, Tetra.daRow_eq]
  simp only [Tetra.gradNum, nod4, flux2]
  field_simp
  simp [V3.dot, V3.cross]
  ring

/-- the integral on a triangle is exact for the product of two affine fields -/
theorem tri_demag (mu0 d : ℝ) (p u : ℕ → V3) (phi : ℕ → ℝ) (f : Tri) :
    TriElem.demagEnergy TriElem.rule4 mu0 d (nod3 p f) (nod3 u f) (fun i => phi (f.ind i)) =
      1 / 48 * mu0 * (d * flux2 p u phi (f.ind 0) (f.ind 1) (f.ind 2)) := by
  unfold TriElem.demagEnergy
  have e : ∑ j, (TriElem.interpV TriElem.rule4 (nod3 u f) j).dot (TriElem.unitNormal (nod3 p f))
      * TriElem.interpS TriElem.rule4 (fun i => phi (f.ind i)) j * TriElem.weight TriElem.rule4 (nod3 p f) j =
      2 * TriElem.surf (nod3 p f) * ∑ i, ∑ k, (nod3 u f i).dot (TriElem.unitNormal (nod3 p f)) * phi (f.ind k)
        * ∑ j, TriElem.rule4.pds j * (TriElem.rule4.a i j * TriElem.rule4.a k j) := by
    simp only [TriElem.interpV_dot, TriElem.interpS, TriElem.weight, Finset.mul_sum, Fin.sum_univ_three,
      ← Finset.sum_add_distrib]
    exact Finset.sum_congr rfl fun j _ => by ring
  rw [e]
  have h : flux2 p u phi (f.ind 0) (f.ind 1) (f.ind 2) = 2 * TriElem.surf (nod3 p f) *
      (phi (f.ind 0) * u (f.ind 0) + phi (f.ind 1) * u (f.ind 1) + phi (f.ind 2) * u (f.ind 2)
        + (phi (f.ind 0) + phi (f.ind 1) + phi (f.ind 2)) * (u (f.ind 0) + u (f.ind 1) + u (f.ind 2))).dot
      (TriElem.unitNormal (nod3 p f)) := by
    rw [← WeakForm.dot_smul, TriElem.surf_normal]
    rfl
  rw [h]
  simp only [TriElem.rule4_hat2, Fin.sum_univ_three, nod3]
  simp [V3.dot]
  ring

/-- **C67** The demagnetizing energy reported for an accepted mesh is `-1/2 mu0 ∫ M·H`, where `H` is minus the gradient of
the potential: the volume and surface terms of the code are the integration by parts of this integral, whatever the
magnetization and the potential, if surfaces keep their charges. -/
theorem C67_demag_energy (G : Tetra.Rule) (hG : Tetra.Compiled G) (mu0 : ℝ) (p u : ℕ → V3) (phi : ℕ → ℝ) (Ms : ℕ → ℝ)
    (volName : ℕ → String) (nod : ℕ) (tets : List Tet) (tris : List Tri) (regs : List (SurfPrm π)) (sorted : List BasicTri)
    (suppress : ℕ → Bool) (h : IsSortOf sorted (allTri tets tris)) (r : Result ℝ π)
    (hr : control volName Ms tets tris regs sorted = some r)
    (hnod : ∀ t ∈ tets, ∀ i, t.ind i < nod) (hpos : ∀ t ∈ tets, 0 < mixedProd p t) (hov : NoOverlap p tets)
    (hMs : ∀ t ∈ tets, 0 ≤ Ms t.reg) (hsup : ∀ f ∈ r.tris, suppress f.1.reg = false) (mag : ℕ → Bool)
    (hmag : ∀ i, mag i = true ↔ 0 < Ms i) :
    demagEnergy G TriElem.rule4 mu0 p Ms (magTet mag tets) (magTriJ suppress (magNode mag nod tets) r.tris) u phi =
      -(1 / 2) * mu0 * ((magTet mag tets).map fun t => Ms t.reg * WeakForm.work G (nod4 p t)
        (fun _ => Tetra.interpField (nod4 p t) (fun i => phi (t.ind i))) (nod4 u t)).sum := by
  have e := gauss (flux2_alternating p u phi) (1 / 48 * mu0) p Ms volName nod tets tris regs sorted suppress h r hr hnod hpos
    hov hMs hsup mag hmag _ _ (fun t ht => tet_demag hG.ok mu0 Ms p u phi t (hpos t ht))
    fun f _ => tri_demag mu0 f.2 p u phi f.1
  rw [List.sum_map_add, List.sum_map_mul_left] at e
  unfold demagEnergy
  linear_combination e

/-- **C67** It is also half the sum over the charges, as they are given to the multipole library, of charge times `mu0`
times potential at the place of the charge. -/
theorem C67_charges (G : Tetra.Rule) (H : TriElem.Rule) (mu0 : ℝ) (p u : ℕ → V3) (phi : ℕ → ℝ) (Ms : ℕ → ℝ)
    (mtets : List Tet) (mtris : List (Tri × ℝ)) :
    demagEnergy G H mu0 p Ms mtets mtris u phi =
      1 / 2 * mu0 * ((mtets.map fun t => ∑ j, Tetra.charges G (Ms t.reg) (nod4 p t) (nod4 u t) j
          * Tetra.interpS G (fun i => phi (t.ind i)) j).sum
        + (mtris.map fun f => ∑ j, TriElem.charges H f.2 (nod3 p f.1) (nod3 u f.1) j
          * TriElem.interpS H (fun i => phi (f.1.ind i)) j).sum) := by
  unfold demagEnergy
  rw [mul_add, ← List.sum_map_mul_left, ← List.sum_map_mul_left]
  congr 2
  · apply List.map_congr_left
    intro t _
    unfold Tetra.demagEnergy Tetra.charges Tetra.deriv
    rw [Finset.mul_sum, Finset.mul_sum]
    refine Finset.sum_congr rfl fun j _ => ?_
    simp only [Fin.sum_univ_four, V3.add_x, V3.add_y, V3.add_z, V3.smul_x, V3.smul_y, V3.smul_z]
    ring
  · apply List.map_congr_left
    intro f _
    unfold TriElem.demagEnergy TriElem.charges
    rw [Finset.mul_sum, Finset.mul_sum]
    refine Finset.sum_congr rfl fun j _ => ?_
    split_ifs with h0
    · ring
    · rw [not_not] at h0
      rw [h0]
      ring

/-- C67: all hypotheses hold on the mesh `exTets` with magnetizations 8 and 3 -/
example (u : ℕ → V3) (phi : ℕ → ℝ) : ∃ r, control exVol (fun i => (exMs i : ℝ)) exTets exTris exRegs (exSort exTets exTris) = some r ∧
    demagEnergy Tetra.rule5 TriElem.rule4 1 exPos (fun i => (exMs i : ℝ)) (magTet (fun i => decide (0 < exMs i)) exTets)
      (magTriJ (fun _ => false) (magNode (fun i => decide (0 < exMs i)) 5 exTets) r.tris) u phi =
      -(1 / 2) * 1 * ((magTet (fun i => decide (0 < exMs i)) exTets).map fun t => (exMs t.reg : ℝ) *
        WeakForm.work Tetra.rule5 (nod4 exPos t) (fun _ => Tetra.interpField (nod4 exPos t) (fun i => phi (t.ind i)))
          (nod4 u t)).sum := by
  obtain ⟨r, hr⟩ := (C23_check_iff exVol (fun i => (exMs i : ℝ)) exTets exTris exRegs _ (exSort_ok _ _) rfl).mpr ex_consistent
  refine ⟨r, hr, C67_demag_energy _ (Or.inr rfl) _ _ _ _ _ _ _ _ _ _ _ _ (exSort_ok _ _) r hr ?_ exPos_pos
    ex_noOverlap ?_ (fun _ _ => rfl) _ ?_⟩
  · decide
  · intro t _
    show (0 : ℝ) ≤ (exMs t.reg : ℝ)
    unfold exMs
    split_ifs <;> norm_num
  · intro i
    simp

end Verif.MeshCheck
