import Verif.Proofs.SimilarEnergy
import Verif.Proofs.MirrorRun
import Verif.Props.Charge

/-!
# C91, C92, C93: the same sample described in another way, seen in a mirror, or with other lengths
-/

namespace Verif.Similarity

open Verif.Mesh Verif.Tetra Verif.MeshElem Verif.MeshCheck Verif.Potential Verif.Geom

section
variable {n : ℕ} (S : Similarity n)

/-! ## Lists of elements -/

theorem sense_eq (f : Tri × ℝ) : S.sense f * sg (S.tri f) * |S.ratio| = S.ratio := by
  have h : (SignType.sign S.ratio : ℝ) * |S.ratio| = S.ratio := sign_mul_abs _
  have h2 := sg_sq (S.tri f)
  unfold sense
  unfold sg at h2 ⊢
  linear_combination (((Equiv.Perm.sign (S.tri f) : ℤ) : ℝ) * ((Equiv.Perm.sign (S.tri f) : ℤ) : ℝ)) * h + S.ratio * h2

theorem sense_cube (f : Tri × ℝ) : S.sense f * sg (S.tri f) * S.ratio ^ 3 = |S.ratio| ^ 3 := by
  have h := S.sense_eq f
  have h1 := sg_sq (S.tri f)
  have h2 : S.sense f * S.sense f = 1 := by rcases Run.sense_cases S f with h | h <;> rw [h] <;> norm_num
  have h3 : S.sense f * sg (S.tri f) * S.ratio = |S.ratio| := by
    calc S.sense f * sg (S.tri f) * S.ratio
        = (S.sense f * S.sense f) * (sg (S.tri f) * sg (S.tri f)) * |S.ratio| := by
          linear_combination -(S.sense f * sg (S.tri f)) * h
      _ = |S.ratio| := by rw [h1, h2]; ring
  have h4 : S.ratio ^ 2 = |S.ratio| ^ 2 := (sq_abs _).symm
  calc S.sense f * sg (S.tri f) * S.ratio ^ 3 = (S.sense f * sg (S.tri f) * S.ratio) * S.ratio ^ 2 := by ring
    _ = |S.ratio| ^ 3 := by rw [h3, h4]; ring

theorem nod4_described {p p' : ℕ → V3} (hp : ∀ i, p' (S.num i) = S.ratio * p i) (t : Tet) :
    nod4 p' (S.tetOf t) = scaled S.ratio (S.tet t) (nod4 p t) := funext fun _ => hp _

theorem nod4_described' {α : Type} {u u' : ℕ → α} (hu : ∀ i, u' (S.num i) = u i) (t : Tet) :
    nod4 u' (S.tetOf t) = fun k => nod4 u t (S.tet t k) := funext fun _ => hu _

theorem nod3_described {p p' : ℕ → V3} (hp : ∀ i, p' (S.num i) = S.ratio * p i) (f : Tri × ℝ) :
    nod3 p' (S.triOf f).1 = scaled S.ratio (S.tri f) (nod3 p f.1) := funext fun _ => hp _

theorem nod3_described' {α : Type} {u u' : ℕ → α} (hu : ∀ i, u' (S.num i) = u i) (f : Tri × ℝ) :
    nod3 u' (S.triOf f).1 = fun k => nod3 u f.1 (S.tri f k) := funext fun _ => hu _

theorem orient_pos {p p' : ℕ → V3} (hp : ∀ i, p' (S.num i) = S.ratio * p i) {t : Tet} (h : 0 < detJ (nod4 p t))
    (h' : 0 < detJ (nod4 p' (S.tetOf t))) : 0 < S.ratio ^ 3 * sg (S.tet t) := by
  rw [S.nod4_described hp, detJ_scaled] at h'
  exact (mul_pos_iff_of_pos_right h).mp h'

theorem magTet_described {mag : ℕ → Bool} {tets tets' : List Tet} (h : tets'.Perm (tets.map S.tetOf)) :
    (magTet mag tets').Perm ((magTet mag tets).map S.tetOf) := by
  refine (h.filter fun t => mag t.reg).trans (List.Perm.of_eq ?_)
  unfold magTet
  rw [List.filter_map]
  rfl

/-- a sum over the elements, when each term is multiplied by `k` -/
theorem sum_described {α : Type} {l l' : List α} {φ : α → α} (h : l'.Perm (l.map φ)) {f f' : α → ℝ} {k : ℝ}
    (hf : ∀ t ∈ l, f' (φ t) = k * f t) : (l'.map f').sum = k * (l.map f).sum := by
  rw [(h.map _).sum_eq, List.map_map, ← List.sum_map_mul_left]
  exact congrArg List.sum (List.map_congr_left hf)

/-! ## C91: the sign of the jump -/

theorem verts_described (f : Tri × ℝ) : verts (S.triOf f).1 = (verts f.1).map S.num := by
  have key : ∀ τ : Equiv.Perm (Fin 3), ({τ 0, τ 1, τ 2} : Multiset (Fin 3)) = {0, 1, 2} := by decide
  have := congrArg (Multiset.map fun k => S.num (f.1.ind k)) (key (S.tri f))
  unfold verts triOf
  simpa using this

theorem face_described (t : Tet) (k : Fin 4) : face (S.tetOf t) k = (face t (S.tet t k)).map S.num := by
  have key : ∀ (τ : Equiv.Perm (Fin 4)) (k : Fin 4), (Finset.univ.erase k).val.map τ = (Finset.univ.erase (τ k)).val := by decide
  have := congrArg (Multiset.map fun k => S.num (t.ind k)) (key (S.tet t) k)
  unfold face tetOf
  simpa [Multiset.map_map, Function.comp_def] using this

theorem map_num_injective : Function.Injective (Multiset.map S.num) := Multiset.map_injective S.num.injective

open Classical in
/-- **C91, C93** The jump of magnetization the program computes for a relisted triangle is the jump of the original triangle, with
the sign of its sense of rotation: the vocabulary `triOf` says what the program does. -/
theorem C91_jump (p p' : ℕ → V3) (hp : ∀ i, p' (S.num i) = S.ratio * p i) (Ms : ℕ → ℝ) (tets tets' : List Tet)
    (tris tris' : List Tri) (ht : tets'.Perm (tets.map S.tetOf)) (hpos : ∀ t ∈ tets, 0 < mixedProd p t)
    (hpos' : ∀ t ∈ tets', 0 < mixedProd p' t) (sorted sorted' : List BasicTri) (h : IsSortOf sorted (allTri tets tris))
    (h' : IsSortOf sorted' (allTri tets' tris')) (f : Tri × ℝ) :
    dMs Ms sorted' (S.triOf f).1 = S.sense f * dMs Ms sorted f.1 := by
  rw [C26_jump p Ms tets tris sorted h hpos, C26_jump p' Ms tets' tris' sorted' h' hpos']
  refine sum_described ht fun t htt => ?_
  have h0 := hpos t htt
  rw [Finset.mul_sum, ← Equiv.sum_comp (S.tet t) fun k => S.sense f * _]
  refine Finset.sum_congr rfl fun k _ => ?_
  have hiff : face (S.tetOf t) k = verts (S.triOf f).1 ↔ face t (S.tet t k) = verts f.1 := by
    rw [S.face_described, S.verts_described]
    exact S.map_num_injective.eq_iff
  by_cases hf : face t (S.tet t k) = verts f.1
  swap
  · rw [if_neg hf, if_neg (fun h => hf (hiff.mp h)), mul_zero]
  rw [if_pos hf, if_pos (hiff.mpr hf)]
  -- the side of the triangle on which the tetrahedron is
  have hne := side_ne_zero p t h0 f.1 _ hf
  have hn : Geom.normalVect p' (S.triOf f).1 = (S.ratio ^ 2 * sg (S.tri f)) * Geom.normalVect p f.1 := by
    have e := normalVect_scaled S.ratio (S.tri f) (nod3 p f.1)
    rw [← S.nod3_described hp f] at e
    exact e
  have hplane : V3.dot (Geom.normalVect p f.1) (p (f.1.ind (S.tri f 0)) - p (f.1.ind 0)) = 0 := by
    unfold Geom.normalVect
    generalize S.tri f 0 = j
    fin_cases j <;> simp [V3.dot, V3.cross] <;> ring
  have hside : V3.dot (Geom.normalVect p' (S.triOf f).1) (p' ((S.tetOf t).ind k) - p' ((S.triOf f).1.ind 0)) =
      (S.ratio ^ 3 * sg (S.tri f)) * V3.dot (Geom.normalVect p f.1) (p (t.ind (S.tet t k)) - p (f.1.ind 0)) := by
    have e1 : p' ((S.tetOf t).ind k) = S.ratio * p (t.ind (S.tet t k)) := hp _
    have e2 : p' ((S.triOf f).1.ind 0) = S.ratio * p (f.1.ind (S.tri f 0)) := hp _
    rw [hn, e1, e2]
    simp only [V3.dot, V3.sub_x, V3.sub_y, V3.sub_z, V3.smul_x, V3.smul_y, V3.smul_z] at hplane ⊢
    linear_combination (-(S.ratio ^ 3 * sg (S.tri f))) * hplane
  have hs : S.ratio ^ 3 * sg (S.tri f) = S.sense f * |S.ratio| ^ 3 := by
    have h2 : S.sense f * S.sense f = 1 := by rcases Run.sense_cases S f with h | h <;> rw [h] <;> norm_num
    linear_combination (-(S.ratio ^ 3 * sg (S.tri f))) * h2 + S.sense f * S.sense_cube f
  have habs : 0 < |S.ratio| ^ 3 := pow_pos (abs_pos.mpr S.ne) 3
  rw [hside, hs]
  set x := V3.dot (Geom.normalVect p f.1) (p (t.ind (S.tet t k)) - p (f.1.ind 0)) with hx
  have hreg : (S.tetOf t).reg = t.reg := rfl
  rw [hreg]
  rcases Run.sense_cases S f with e | e
  · rw [e, one_mul, one_mul]
    by_cases hlt : x < 0
    · rw [if_pos hlt, if_pos (mul_neg_of_pos_of_neg habs hlt)]
    · rw [if_neg hlt, if_neg (not_lt.mpr (mul_nonneg habs.le (not_lt.mp hlt)))]
  · rw [e]
    by_cases hlt : x < 0
    · rw [if_pos hlt, if_neg (not_lt.mpr (by nlinarith [mul_neg_of_pos_of_neg habs hlt]))]
      ring
    · have hgt : 0 < x := lt_of_le_of_ne (not_lt.mp hlt) (Ne.symm hne)
      rw [if_neg hlt, if_pos (by nlinarith [mul_pos habs hgt])]
      ring

/-! ## C93: energies, averages, potentials -/

/-- **C93** With the exchange constants multiplied by the square of the ratio of lengths and the surface anisotropies by its
absolute value, all energies are multiplied by its cube, whatever the numbering of the nodes and the order of the elements and of
their vertices; the senses in which triangles are listed have no effect. -/
theorem C93_energy {G : Tetra.Rule} (hG : Compiled G) {H : TriElem.Rule} (hH : H = TriElem.rule1 ∨ H = TriElem.rule4) (mu0 : ℝ)
    (p p' u u' : ℕ → V3) (phi phi' : ℕ → ℝ) (hp : ∀ i, p' (S.num i) = S.ratio * p i) (hu : ∀ i, u' (S.num i) = u i)
    (hphi : ∀ i, phi' (S.num i) = S.ratio * phi i) (mag : ℕ → Bool) (prm : ℕ → Prm) (Ms Ks : ℕ → ℝ) (uk : ℕ → V3) (Hext : V3)
    (tets tets' : List Tet) (mtris mtris' : List (Tri × ℝ)) (ht : tets'.Perm (tets.map S.tetOf))
    (hf : mtris'.Perm (mtris.map S.triOf)) (hpos : ∀ t ∈ tets, 0 < detJ (nod4 p t)) (hpos' : ∀ t ∈ tets', 0 < detJ (nod4 p' t)) :
    MeshElem.exchangeEnergy G p' mag (fun r => S.prm (prm r)) tets' u' =
      |S.ratio| ^ 3 * MeshElem.exchangeEnergy G p mag prm tets u ∧
    MeshElem.volAnisoEnergy G p' mag (fun r => S.prm (prm r)) tets' u' =
      |S.ratio| ^ 3 * MeshElem.volAnisoEnergy G p mag prm tets u ∧
    MeshElem.demagEnergy G H mu0 p' Ms (magTet mag tets') mtris' u' phi' =
      |S.ratio| ^ 3 * MeshElem.demagEnergy G H mu0 p Ms (magTet mag tets) mtris u phi ∧
    ((magTet mag tets').map fun t => Tetra.zeemanEnergy G mu0 (Ms t.reg) (nod4 p' t) (nod4 u' t) Hext).sum =
      |S.ratio| ^ 3 * ((magTet mag tets).map fun t => Tetra.zeemanEnergy G mu0 (Ms t.reg) (nod4 p t) (nod4 u t) Hext).sum ∧
    (mtris'.map fun f => TriElem.anisotropyEnergy H (|S.ratio| * Ks f.1.reg) (uk f.1.reg) (nod3 p' f.1) (nod3 u' f.1)).sum =
      |S.ratio| ^ 3 * (mtris.map fun f =>
        TriElem.anisotropyEnergy H (Ks f.1.reg) (uk f.1.reg) (nod3 p f.1) (nod3 u f.1)).sum := by
  have hm := S.magTet_described (mag := mag) ht
  have ho : ∀ t ∈ magTet mag tets, S.ratio ^ 3 * sg (S.tet t) = |S.ratio| ^ 3 := fun t htt => by
    have htt := (List.mem_filter.mp htt).1
    exact Run.cube_sg (sg_cases _)
      (S.orient_pos hp (hpos t htt) (hpos' _ (ht.mem_iff.mpr (List.mem_map.mpr ⟨t, htt, rfl⟩))))
  refine ⟨?_, ?_, ?_, ?_, ?_⟩
  · refine sum_described hm fun t htt => ?_
    obtain ⟨π, hπ⟩ := gaussT G hG (S.tet t)
    rw [S.nod4_described hp, S.nod4_described' hu, ← ho t htt]
    exact exchangeEnergy_scaled S.ne hπ (prm t.reg) _ _
  · refine sum_described hm fun t htt => ?_
    obtain ⟨π, hπ⟩ := gaussT G hG (S.tet t)
    rw [S.nod4_described hp, S.nod4_described' hu, ← ho t htt]
    have h1 := uniaxialEnergy_scaled S.ratio hπ (prm t.reg) (nod4 p t) (nod4 u t)
    have h2 := cubicEnergy_scaled S.ratio hπ (prm t.reg) (nod4 p t) (nod4 u t)
    change (if (prm t.reg).K ≠ 0 then Tetra.uniaxialEnergy G (mat S.ratio (prm t.reg)) _ _ else 0)
      + (if (prm t.reg).K3 ≠ 0 then Tetra.cubicEnergy G (mat S.ratio (prm t.reg)) _ _ else 0) = _
    rw [h1, h2, mul_add, mul_ite, mul_ite, mul_zero]
  · have e : ∀ (i : ℕ), phi' (S.num i) = S.ratio * phi i := hphi
    unfold MeshElem.demagEnergy
    rw [mul_add]
    congr 1
    · refine sum_described hm fun t htt => ?_
      obtain ⟨π, hπ⟩ := gaussT G hG (S.tet t)
      have e2 : (fun i => phi' ((S.tetOf t).ind i)) = fun k => S.ratio * (fun k => phi (t.ind k)) (S.tet t k) :=
        funext fun k => hphi _
      rw [S.nod4_described hp, S.nod4_described' hu, ← ho t htt, e2]
      exact demagEnergy_scaled S.ne hπ mu0 (Ms t.reg) (nod4 p t) (nod4 u t) fun k => phi (t.ind k)
    · refine sum_described hf fun f hff => ?_
      obtain ⟨π, hπ⟩ := gaussF H hH (S.tri f)
      have e2 : (fun i => phi' ((S.triOf f).1.ind i)) = fun k => S.ratio * (fun k => phi (f.1.ind k)) (S.tri f k) :=
        funext fun k => hphi _
      rw [S.nod3_described hp, S.nod3_described' hu, e2, ← S.sense_cube f]
      exact triDemagEnergy_scaled S.ne hπ (S.sense f) mu0 f.2 (nod3 p f.1) (nod3 u f.1) fun k => phi (f.1.ind k)
  · refine sum_described hm fun t htt => ?_
    obtain ⟨π, hπ⟩ := gaussT G hG (S.tet t)
    rw [S.nod4_described hp, S.nod4_described' hu, ← ho t htt]
    exact zeemanEnergy_scaled S.ratio hπ mu0 (Ms t.reg) _ _ Hext
  · refine sum_described hf fun f hff => ?_
    obtain ⟨π, hπ⟩ := gaussF H hH (S.tri f)
    rw [S.nod3_described hp, S.nod3_described' hu]
    exact triAniso_scaled S.ratio hπ (Ks f.1.reg) (uk f.1.reg) _ _

/-- **C93** The averages written in the table, over all magnetic regions or over one of them, are the same. -/
theorem C93_average {G : Tetra.Rule} (hG : Compiled G) (p p' : ℕ → V3) (g g' : ℕ → ℝ)
    (hp : ∀ i, p' (S.num i) = S.ratio * p i) (hg : ∀ i, g' (S.num i) = g i) (mag : ℕ → Bool) (nreg : ℕ) (tets tets' : List Tet)
    (ht : tets'.Perm (tets.map S.tetOf)) (hpos : ∀ t ∈ tets, 0 < detJ (nod4 p t)) (hpos' : ∀ t ∈ tets', 0 < detJ (nod4 p' t))
    (region : Option ℕ) (hreg : ∀ r, region = some r → r < nreg ∧ mag r = true) :
    avg G p' mag nreg tets' g' region = avg G p mag nreg tets g region := by
  rw [avg_eq G hG p' mag nreg tets' g' region hreg, avg_eq G hG p mag nreg tets g region hreg]
  have hm : (selected mag tets' region).Perm ((selected mag tets region).map S.tetOf) := by
    refine (ht.filter _).trans (List.Perm.of_eq ?_)
    unfold selected
    rw [List.filter_map]
    rfl
  have hvol : ∀ t ∈ selected mag tets region, tetVol G p' (S.tetOf t) = |S.ratio| ^ 3 * tetVol G p t := fun t htt => by
    have htt := (List.mem_filter.mp htt).1
    obtain ⟨π, hπ⟩ := gaussT G hG (S.tet t)
    unfold tetVol
    rw [S.nod4_described hp, calcVol_scaled hπ, Run.cube_sg (sg_cases _)
      (S.orient_pos hp (hpos t htt) (hpos' _ (ht.mem_iff.mpr (List.mem_map.mpr ⟨t, htt, rfl⟩))))]
  rw [sum_described hm hvol, sum_described (k := |S.ratio| ^ 3)
    (f := fun t => tetVol G p t * ((∑ i, g (t.ind i)) / 4)) hm fun t htt => ?_]
  · exact mul_div_mul_left _ _ (pow_ne_zero 3 (abs_ne_zero.mpr S.ne))
  · rw [hvol t htt]
    have : ∑ i, g' ((S.tetOf t).ind i) = ∑ i, g (t.ind i) := by
      rw [← Equiv.sum_comp (S.tet t) fun i => g (t.ind i)]
      exact Finset.sum_congr rfl fun k _ => hg _
    rw [this]
    ring

/-- **C93** The potential at a node is multiplied by the ratio of lengths (the field, its gradient, is the same), when the
sum over the charges is exact; with a ratio of 1, the potential does not depend on the listing, nor on the senses in which
triangles are listed. -/
theorem C93_potential {G : Tetra.Rule} (hG : Compiled G) {H : TriElem.Rule} (hH : H = TriElem.rule1 ∨ H = TriElem.rule4)
    (p p' u u' : ℕ → V3) (hp : ∀ i, p' (S.num i) = S.ratio * p i) (hu : ∀ i, u' (S.num i) = u i) (Ms : ℕ → ℝ)
    (mtets mtets' : List Tet) (mtris mtris' : List (Tri × ℝ)) (ht : mtets'.Perm (mtets.map S.tetOf))
    (hf : mtris'.Perm (mtris.map S.triOf)) (hpos : ∀ t ∈ mtets, 0 < detJ (nod4 p t)) (hpos' : ∀ t ∈ mtets', 0 < detJ (nod4 p' t))
    (harea : ∀ f ∈ mtris, areaRatio (p (f.1.ind 0)) (p (f.1.ind 1)) (p (f.1.ind 2)) ≠ 0) (i : ℕ) :
    Run.directPot G H p' Ms mtets' mtris' u' (S.num i) = S.ratio * Run.directPot G H p Ms mtets mtris u i := by
  have harea' : ∀ f ∈ mtris', areaRatio (p' (f.1.ind 0)) (p' (f.1.ind 1)) (p' (f.1.ind 2)) ≠ 0 := by
    intro f' hf'
    obtain ⟨f, hff, rfl⟩ := List.mem_map.mp (hf.mem_iff.mp hf')
    have e := areaRatio_scaled S.ratio (S.tri f) (nod3 p f.1)
    rw [← S.nod3_described hp f] at e
    change areaRatio (nod3 p' (S.triOf f).1 0) (nod3 p' (S.triOf f).1 1) (nod3 p' (S.triOf f).1 2) ≠ 0
    rw [e]
    exact mul_ne_zero (pow_ne_zero 2 S.ne) (harea f hff)
  unfold Run.directPot
  rw [corr_eq H p' u' mtris' fun f hff => ind_injective p' f.1 (harea' f hff),
    corr_eq H p u mtris fun f hff => ind_injective p f.1 (harea f hff)]
  rw [sum_described (k := S.ratio) (f := fun t => ∑ j, Tetra.charges G (Ms t.reg) (nod4 p t) (nod4 u t) j
      / (p i - Tetra.ptGauss G (nod4 p t) j).norm) ht fun t htt => ?_,
    sum_described (k := S.ratio) (f := fun f : Tri × ℝ => ∑ j, TriElem.charges H f.2 (nod3 p f.1) (nod3 u f.1) j
      / (p i - TriElem.ptGauss H (nod3 p f.1) j).norm) hf fun f hff => ?_,
    sum_described (k := S.ratio) (f := fun f : Tri × ℝ => ∑ k, if f.1.ind k = i then
      TriElem.correction H f.2 (nod3 p f.1) (nod3 u f.1) k else 0) hf fun f hff => ?_]
  · ring
  · obtain ⟨π, hπ⟩ := gaussF H hH (S.tri f)
    rw [S.nod3_described hp, S.nod3_described' hu, Finset.mul_sum,
      ← Equiv.sum_comp (S.tri f) fun k => S.ratio * if f.1.ind k = i then
        TriElem.correction H f.2 (nod3 p f.1) (nod3 u f.1) k else 0]
    refine Finset.sum_congr rfl fun k _ => ?_
    have hiff : (S.triOf f).1.ind k = S.num i ↔ f.1.ind (S.tri f k) = i := S.num.injective.eq_iff
    by_cases hk : f.1.ind (S.tri f k) = i
    · rw [if_pos hk, if_pos (hiff.mpr hk)]
      exact correction_scaled S.ne hπ (S.sense f) (Run.sense_cases S f) (S.sense_eq f) f.2 _ _ (harea f hff) k
    · rw [if_neg hk, if_neg (fun h => hk (hiff.mp h)), mul_zero]
  · obtain ⟨π, hπ⟩ := gaussF H hH (S.tri f)
    rw [S.nod3_described hp, S.nod3_described' hu, hp]
    exact triPot_scaled S.ne hπ (S.sense f) (Run.sense_cases S f) (S.sense_eq f) f.2 _ _ (p i)
  · obtain ⟨π, hπ⟩ := gaussT G hG (S.tet t)
    rw [S.nod4_described hp, S.nod4_described' hu, hp]
    exact tetPot_scaled S.ne hπ (S.orient_pos hp (hpos t htt) (hpos' _ (ht.mem_iff.mpr (List.mem_map.mpr ⟨t, htt, rfl⟩))))
      (Ms t.reg) _ _ (p i)

end

end Verif.Similarity
