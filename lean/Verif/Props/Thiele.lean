import Verif.Model.Thiele
import Verif.Props.MeshElem
import Verif.Props.BoundingBox

/-!
# C77: the Thiele length
-/

namespace Verif.Thiele

open Verif.Mesh Verif.MeshElem

/-- the integral of the square of the derivative along z of the interpolated magnetization, over the elements of the
region -/
noncomputable def gradSum (G : Tetra.Rule) (p u : ℕ → V3) (mag : ℕ → Bool) (tets : List Tet) (region : Option ℕ) : ℝ :=
  ((selected mag tets region).map fun t => tetVol G p t * (Tetra.deriv (nod4 p t) 2 (nod4 u t)).nsq).sum

/-- the volume of the elements of the region -/
noncomputable def volSum (G : Tetra.Rule) (p : ℕ → V3) (mag : ℕ → Bool) (tets : List Tet) (region : Option ℕ) : ℝ :=
  ((selected mag tets region).map (tetVol G p)).sum

theorem term_eq (G : Tetra.Rule) (p u : ℕ → V3) (mag : ℕ → Bool) (tets : List Tet) (region : Option ℕ) :
    ((magTet mag tets).map (term G p u region)).sum = gradSum G p u mag tets region := by
  unfold gradSum
  induction tets with
  | nil => rfl
  | cons t ts ih =>
    by_cases hm : mag t.reg = true
    · have e : magTet mag (t :: ts) = t :: magTet mag ts := List.filter_cons_of_pos hm
      rw [e, List.map_cons, List.sum_cons, ih]
      unfold selected
      by_cases hs : region = none ∨ region = some t.reg
      · rw [List.filter_cons_of_pos (by simpa [hm] using hs), List.map_cons, List.sum_cons]
        congr 1
        unfold term
        rw [if_pos hs.symm, ← Finset.mul_sum, mul_comm]
        rfl
      · rw [List.filter_cons_of_neg (by simpa [hm] using hs)]
        unfold term
        rw [if_neg (fun h => hs h.symm), zero_add]
    · have e : magTet mag (t :: ts) = magTet mag ts := List.filter_cons_of_neg hm
      rw [e, ih]
      unfold selected
      rw [List.filter_cons_of_neg (by simp [hm])]

theorem thiele_eq (G : Tetra.Rule) (p u : ℕ → V3) (mag : ℕ → Bool) (nreg : ℕ) (tets : List Tet) (lz : ℝ)
    (region : Option ℕ) (hreg : ∀ r, region = some r → r < nreg ∧ mag r = true) :
    thiele G p u mag nreg tets lz region =
      ratio (2 * (volSum G p mag tets region / lz)) (gradSum G p u mag tets region) := by
  unfold thiele volSum
  rw [term_eq]
  cases region with
  | none =>
    show ratio (2 * ((volumes G p mag nreg tets).2 / lz)) _ = _
    rw [magVol_eq]
    congr 5
    unfold magTet selected
    apply List.filter_congr
    intro t _
    simp [Tet.isMagnetic]
  | some r =>
    show ratio (2 * ((volumes G p mag nreg tets).1.getD r 0 / lz)) _ = _
    rw [C55_region _ _ _ _ _ _ (hreg r rfl).1]
    congr 5
    unfold selected
    apply List.filter_congr
    intro t _
    by_cases h : t.reg = r
    · simp [h, (hreg r rfl).2]
    · have h1 : (t.reg == r) = false := by simpa using h
      have h2 : (r == t.reg) = false := by simpa using Ne.symm h
      simp [h1, h2]

theorem volSum_pos {G : Tetra.Rule} (hG : Tetra.Compiled G) {p : ℕ → V3} {mag : ℕ → Bool} {tets : List Tet}
    {region : Option ℕ} (hp : ∀ t ∈ tets, 0 < Tetra.detJ (nod4 p t)) (hne : selected mag tets region ≠ []) :
    0 < volSum G p mag tets region := by
  unfold volSum
  apply List.sum_pos
  · intro x hx
    obtain ⟨t, ht, rfl⟩ := List.mem_map.mp hx
    exact C55_positive G hG p t (hp t (List.mem_filter.mp ht).1)
  · simpa using hne

theorem gradSum_zero_iff {G : Tetra.Rule} (hG : Tetra.Compiled G) {p u : ℕ → V3} {mag : ℕ → Bool} {tets : List Tet}
    {region : Option ℕ} (hp : ∀ t ∈ tets, 0 < Tetra.detJ (nod4 p t)) :
    (gradSum G p u mag tets region = 0 ↔ ∀ t ∈ selected mag tets region, Tetra.deriv (nod4 p t) 2 (nod4 u t) = 0) ∧
    0 ≤ gradSum G p u mag tets region := by
  have hnn : ∀ x ∈ (selected mag tets region).map fun t => tetVol G p t * (Tetra.deriv (nod4 p t) 2 (nod4 u t)).nsq,
      0 ≤ x := by
    intro x hx
    obtain ⟨t, ht, rfl⟩ := List.mem_map.mp hx
    exact mul_nonneg (C55_positive G hG p t (hp t (List.mem_filter.mp ht).1)).le (Tetra.nsq_nonneg _)
  refine ⟨⟨fun h t ht => ?_, fun h => ?_⟩, List.sum_nonneg hnn⟩
  · have h0 := List.all_zero_of_le_zero_le_of_sum_eq_zero hnn h (List.mem_map.mpr ⟨t, ht, rfl⟩)
    have hv := C55_positive G hG p t (hp t (List.mem_filter.mp ht).1)
    exact Tetra.nsq_eq_zero ((mul_eq_zero.mp h0).resolve_left hv.ne')
  · unfold gradSum
    apply List.sum_eq_zero
    intro x hx
    obtain ⟨t, ht, rfl⟩ := List.mem_map.mp hx
    rw [h t ht]
    simp [V3.nsq]

/-- **C77** When the magnetization varies linearly in every element of the region (`c t + x M t 0 + y M t 1 + z M t 2`,
the field being interpolated this way), the column holds `2 S / I`: `S` is the volume of the region divided by the length
of the mesh along z, and `I` the integral over the region of the square of the derivative along z. -/
theorem C77_value (G : Tetra.Rule) (hG : Tetra.Compiled G) (p u : ℕ → V3) (mag : ℕ → Bool) (nreg : ℕ)
    (tets : List Tet) (lz : ℝ) (region : Option ℕ) (hreg : ∀ r, region = some r → r < nreg ∧ mag r = true)
    (hp : ∀ t ∈ tets, 0 < Tetra.detJ (nod4 p t)) (c : Tet → V3) (M : Tet → Fin 3 → V3)
    (hu : ∀ t ∈ selected mag tets region, ∀ i, u (t.ind i) =
      c t + (p (t.ind i)).x * M t 0 + (p (t.ind i)).y * M t 1 + (p (t.ind i)).z * M t 2) :
    let V := ((selected mag tets region).map fun t => Tetra.detJ (nod4 p t) / 6).sum
    let I := ((selected mag tets region).map fun t => Tetra.detJ (nod4 p t) / 6 * (M t 2).dot (M t 2)).sum
    (I ≠ 0 → thiele G p u mag nreg tets lz region = .val (2 * (V / lz) / I)) ∧
    (I = 0 → 0 < lz → selected mag tets region ≠ [] → thiele G p u mag nreg tets lz region = .inf) := by
  intro V I
  have hV : volSum G p mag tets region = V := by
    unfold volSum tetVol
    congr 1
    exact List.map_congr_left fun t _ => Tetra.calcVol_eq hG.ok _
  have hI : gradSum G p u mag tets region = I := by
    unfold gradSum tetVol
    congr 1
    refine List.map_congr_left fun t ht => ?_
    have e : nod4 u t = fun i => c t + (nod4 p t i).x * M t 0 + (nod4 p t i).y * M t 1 + (nod4 p t i).z * M t 2 := by
      funext i
      exact hu t ht i
    rw [Tetra.calcVol_eq hG.ok, e, (Tetra.C35_affine_vector G (nod4 p t) (hp t (List.mem_filter.mp ht).1).ne' (c t) (M t)).2]
    rfl
  rw [thiele_eq G p u mag nreg tets lz region hreg, hI, hV]
  unfold ratio
  refine ⟨fun h => by rw [if_pos h], fun h hl hne => ?_⟩
  have hpos := volSum_pos hG hp hne
  rw [hV] at hpos
  rw [if_neg (by simpa using h), if_neg (by positivity)]

/-- **C77** The result is a positive number as soon as the magnetization varies along z somewhere in the region, and
infinite otherwise. -/
theorem C77_finite (G : Tetra.Rule) (hG : Tetra.Compiled G) (p u : ℕ → V3) (mag : ℕ → Bool) (nreg : ℕ)
    (tets : List Tet) (lz : ℝ) (hlz : 0 < lz) (region : Option ℕ)
    (hreg : ∀ r, region = some r → r < nreg ∧ mag r = true) (hp : ∀ t ∈ tets, 0 < Tetra.detJ (nod4 p t))
    (hne : selected mag tets region ≠ []) :
    ((∃ t ∈ selected mag tets region, Tetra.deriv (nod4 p t) 2 (nod4 u t) ≠ 0) →
      ∃ x, 0 < x ∧ thiele G p u mag nreg tets lz region = .val x) ∧
    ((∀ t ∈ selected mag tets region, Tetra.deriv (nod4 p t) 2 (nod4 u t) = 0) →
      thiele G p u mag nreg tets lz region = .inf) := by
  have hV := volSum_pos hG hp hne
  obtain ⟨h0, hnn⟩ := gradSum_zero_iff (u := u) (region := region) hG hp (mag := mag)
  rw [thiele_eq G p u mag nreg tets lz region hreg]
  unfold ratio
  constructor
  · rintro ⟨t, ht, hd⟩
    have hI : gradSum G p u mag tets region ≠ 0 := fun h => hd (h0.mp h t ht)
    refine ⟨_, ?_, if_pos hI⟩
    have := lt_of_le_of_ne hnn hI.symm
    positivity
  · intro h
    rw [if_neg (by simpa using h0.mpr h), if_neg (by positivity)]

/-- **C77** Rotating (or reflecting) the magnetization does not change the result: `R` is linear and keeps the norms. -/
theorem C77_rotation (G : Tetra.Rule) (p u : ℕ → V3) (mag : ℕ → Bool) (nreg : ℕ) (tets : List Tet) (lz : ℝ)
    (region : Option ℕ) (hreg : ∀ r, region = some r → r < nreg ∧ mag r = true)
    (R : V3 → V3) (hadd : ∀ a b, R (a + b) = R a + R b) (hmul : ∀ (k : ℝ) a, R (k * a) = k * R a)
    (hR : ∀ a, (R a).nsq = a.nsq) :
    thiele G p (fun i => R (u i)) mag nreg tets lz region = thiele G p u mag nreg tets lz region := by
  rw [thiele_eq _ _ _ _ _ _ _ _ hreg, thiele_eq _ _ _ _ _ _ _ _ hreg]
  congr 1
  unfold gradSum
  congr 1
  refine List.map_congr_left fun t _ => ?_
  congr 1
  rw [← hR (Tetra.deriv (nod4 p t) 2 (nod4 u t))]
  congr 1
  unfold Tetra.deriv nod4
  simp only [Fin.sum_univ_four, hadd, hmul]

theorem detJ_scale (k : ℝ) (p : Fin 4 → V3) : Tetra.detJ (fun i => k * p i) = k ^ 3 * Tetra.detJ p := by
  rw [Tetra.detJ_eq, Tetra.detJ_eq]
  simp [V3.dot, V3.cross]
  ring

theorem deriv_scale (k : ℝ) (hk : k ≠ 0) (p : Fin 4 → V3) (hp : Tetra.detJ p ≠ 0) (u : Fin 4 → V3) (d : Fin 3) :
    Tetra.deriv (fun i => k * p i) d u = (k⁻¹ : ℝ) * Tetra.deriv p d u := by
  have h : ∀ i, Tetra.da (fun i => k * p i) i d = k⁻¹ * Tetra.da p i d := by
    intro i
    have e : Tetra.daRow (fun i => k * p i) i = (k⁻¹ : ℝ) * Tetra.daRow p i := by
      rw [Tetra.daRow_eq, Tetra.daRow_eq, detJ_scale]
      fin_cases i <;> ext <;> simp [Tetra.gradNum, V3.cross] <;> field_simp
    fin_cases d
    · exact congrArg V3.x e
    · exact congrArg V3.y e
    · exact congrArg V3.z e
  unfold Tetra.deriv
  ext <;> simp [h, Fin.sum_univ_four] <;> ring

/-- **C77** The result is a length: scaling the mesh by `k` multiplies it by `k`. -/
theorem C77_scale (G : Tetra.Rule) (hG : Tetra.Compiled G) (p u : ℕ → V3) (mag : ℕ → Bool) (nreg : ℕ) (tets : List Tet)
    (lz : ℝ) (hlz : 0 < lz) (region : Option ℕ) (hreg : ∀ r, region = some r → r < nreg ∧ mag r = true)
    (hp : ∀ t ∈ tets, 0 < Tetra.detJ (nod4 p t)) (k : ℝ) (hk : 0 < k) (x : ℝ)
    (hx : thiele G p u mag nreg tets lz region = .val x) :
    thiele G (fun i => k * p i) u mag nreg tets (k * lz) region = .val (k * x) := by
  have hV : volSum G (fun i => k * p i) mag tets region = k ^ 3 * volSum G p mag tets region := by
    unfold volSum
    rw [← List.sum_map_mul_left]
    congr 1
    refine List.map_congr_left fun t _ => ?_
    unfold tetVol
    rw [Tetra.calcVol_eq hG.ok, Tetra.calcVol_eq hG.ok]
    have := detJ_scale k (nod4 p t)
    change Tetra.detJ (fun i => k * nod4 p t i) / 6 = _
    rw [this]
    ring
  have hI : gradSum G (fun i => k * p i) u mag tets region = k * gradSum G p u mag tets region := by
    unfold gradSum
    rw [← List.sum_map_mul_left]
    congr 1
    refine List.map_congr_left fun t ht => ?_
    have ht' := (hp t (List.mem_filter.mp ht).1).ne'
    unfold tetVol
    rw [Tetra.calcVol_eq hG.ok, Tetra.calcVol_eq hG.ok]
    change Tetra.detJ (fun i => k * nod4 p t i) / 6 * (Tetra.deriv (fun i => k * nod4 p t i) 2 _).nsq = _
    rw [detJ_scale, deriv_scale k hk.ne' _ ht']
    simp only [V3.nsq, V3.smul_x, V3.smul_y, V3.smul_z]
    field_simp
  rw [thiele_eq _ _ _ _ _ _ _ _ hreg] at hx ⊢
  rw [hV, hI]
  unfold ratio at hx ⊢
  by_cases h0 : gradSum G p u mag tets region = 0
  · rw [if_neg (by simpa using h0)] at hx
    split_ifs at hx
  · rw [if_pos h0] at hx
    rw [if_pos (mul_ne_zero hk.ne' h0)]
    have hx' := Ratio.val.inj hx
    rw [← hx']
    congr 1
    field_simp

/-- the contribution of a result to the sums below: `1 / x`, and 0 for infinity -/
noncomputable def Ratio.inv : Ratio → ℝ
  | .val x => 1 / x
  | _ => 0

theorem inv_eq {G : Tetra.Rule} (hG : Tetra.Compiled G) {p : ℕ → V3} (u : ℕ → V3) {mag : ℕ → Bool} (nreg : ℕ)
    {tets : List Tet} {lz : ℝ} (hlz : 0 < lz) {region : Option ℕ}
    (hreg : ∀ r, region = some r → r < nreg ∧ mag r = true) (hp : ∀ t ∈ tets, 0 < Tetra.detJ (nod4 p t)) :
    volSum G p mag tets region * (thiele G p u mag nreg tets lz region).inv = lz * gradSum G p u mag tets region / 2 := by
  rw [thiele_eq _ _ _ _ _ _ _ _ hreg]
  by_cases hne : selected mag tets region = []
  · simp [volSum, gradSum, hne]
  have hV := volSum_pos hG hp hne
  unfold ratio
  by_cases h0 : gradSum G p u mag tets region = 0
  · rw [if_neg (by simpa using h0), if_neg (by positivity), h0]
    simp [Ratio.inv]
  · rw [if_pos h0]
    unfold Ratio.inv
    field_simp

/-- **C77** The regions combine: the volume divided by the Thiele length adds up over the magnetic regions (a region
without variation along z counts for nothing). -/
theorem C77_regions (G : Tetra.Rule) (hG : Tetra.Compiled G) (p u : ℕ → V3) (mag : ℕ → Bool) (nreg : ℕ)
    (tets : List Tet) (lz : ℝ) (hlz : 0 < lz) (hp : ∀ t ∈ tets, 0 < Tetra.detJ (nod4 p t))
    (hr : ∀ t ∈ tets, t.reg < nreg) :
    (volumes G p mag nreg tets).2 * (thiele G p u mag nreg tets lz none).inv =
      ∑ r ∈ (Finset.range nreg).filter fun r => mag r = true,
        (volumes G p mag nreg tets).1.getD r 0 * (thiele G p u mag nreg tets lz (some r)).inv := by
  have hsel : ∀ r, mag r = true → selected mag tets (some r) = tets.filter fun t => t.reg == r := by
    intro r hm
    unfold selected
    apply List.filter_congr
    intro t _
    by_cases h : t.reg = r
    · simp [h, hm]
    · have h1 : (t.reg == r) = false := by simpa using h
      have h2 : (r == t.reg) = false := by simpa using Ne.symm h
      simp [h1, h2]
  have e0 : (volumes G p mag nreg tets).2 = volSum G p mag tets none := by
    rw [magVol_eq]
    unfold volSum
    congr 2
    unfold magTet selected
    apply List.filter_congr
    intro t _
    simp [Tet.isMagnetic]
  rw [e0, inv_eq hG u nreg hlz (by simp) hp]
  have e1 : ∀ r ∈ (Finset.range nreg).filter fun r => mag r = true,
      (volumes G p mag nreg tets).1.getD r 0 * (thiele G p u mag nreg tets lz (some r)).inv =
      lz * gradSum G p u mag tets (some r) / 2 := by
    intro r hr'
    obtain ⟨h1, h2⟩ := Finset.mem_filter.mp hr'
    have h1' := Finset.mem_range.mp h1
    rw [← inv_eq hG u nreg hlz (by rintro _ ⟨⟩; exact ⟨h1', h2⟩) hp, C55_region _ _ _ _ _ _ h1']
    unfold volSum
    rw [hsel r h2]
  rw [Finset.sum_congr rfl e1, ← Finset.sum_div, ← Finset.mul_sum]
  congr 2
  clear e1 e0
  rw [Finset.sum_congr rfl fun r hr' => by
    unfold gradSum
    rw [hsel r (Finset.mem_filter.mp hr').2]]
  clear hsel
  unfold gradSum
  generalize (fun t => tetVol G p t * (Tetra.deriv (nod4 p t) 2 (nod4 u t)).nsq) = F
  clear hp
  induction tets with
  | nil => simp [selected]
  | cons t ts ih =>
    have ih' := ih fun t' h' => hr t' (List.mem_cons_of_mem _ h')
    have e : ∀ r, (((t :: ts).filter fun t => t.reg == r).map F).sum =
        (if r = t.reg then F t else 0) + ((ts.filter fun t => t.reg == r).map F).sum := by
      intro r
      by_cases hr : t.reg = r
      · rw [List.filter_cons_of_pos (by simpa using hr), List.map_cons, List.sum_cons, if_pos hr.symm]
      · rw [List.filter_cons_of_neg (by simpa using hr), if_neg (Ne.symm hr), zero_add]
    simp only [e]
    rw [Finset.sum_add_distrib, ← ih', Finset.sum_ite_eq']
    have ht := hr t (by simp)
    by_cases hm : mag t.reg = true
    · rw [if_pos (by simp [ht, hm])]
      unfold selected
      rw [List.filter_cons_of_pos (by simp [hm]), List.map_cons, List.sum_cons]
    · rw [if_neg (by simp [hm]), zero_add]
      unfold selected
      rw [List.filter_cons_of_neg (by simp [hm])]

/-! ## the cross-section -/

/-- specification: `h` is the length along z of the part of the mesh made of the elements `sel` -/
def LengthZ (p : ℕ → V3) (sel : List Tet) (h : ℝ) : Prop :=
  ∃ a b, b - a = h ∧ (∃ t ∈ sel, ∃ i, (p (t.ind i)).z = a) ∧ (∃ t ∈ sel, ∃ i, (p (t.ind i)).z = b) ∧
    ∀ t ∈ sel, ∀ i, a ≤ (p (t.ind i)).z ∧ (p (t.ind i)).z ≤ b

/-- what holds of the property: if the region reaches the lowest and the highest node of the mesh, the cross-section is
the volume of the region divided by its own length. -/
theorem C77_cross_section_partial (G : Tetra.Rule) (p u : ℕ → V3) (mag : ℕ → Bool) (nreg : ℕ)
    (tets : List Tet) (n : ℕ) (region : Option ℕ) (hreg : ∀ r, region = some r → r < nreg ∧ mag r = true)
    (hidx : ∀ t ∈ tets, ∀ i, t.ind i < n) (hfin : BoundingBox.Finite ((List.range n).map p))
    (hpos : ∃ i < n, BoundingBox.dblMin ≤ (p i).z)
    (h : ℝ) (hh : LengthZ p (selected mag tets region) h)
    (hspan : ∀ i < n, (∃ t ∈ selected mag tets region, ∃ k, (p (t.ind k)).z ≤ (p i).z) ∧
      ∃ t ∈ selected mag tets region, ∃ k, (p i).z ≤ (p (t.ind k)).z) :
    thiele G p u mag nreg tets (BoundingBox.lengths ((List.range n).map p)).z region =
      ratio (2 * (volSum G p mag tets region / h)) (gradSum G p u mag tets region) := by
  rw [thiele_eq _ _ _ _ _ _ _ _ hreg]
  congr 3
  obtain ⟨a, b, hab, ⟨ta, hta, ia, ea⟩, ⟨tb, htb, ib, eb⟩, hin⟩ := hh
  have hmem : ∀ t ∈ selected mag tets region, ∀ i, p (t.ind i) ∈ (List.range n).map p := fun t ht i =>
    List.mem_map.mpr ⟨_, List.mem_range.mpr (hidx t (List.mem_filter.mp ht).1 i), rfl⟩
  obtain ⟨i0, hi0, hz0⟩ := hpos
  have hne : (List.range n).map p ≠ [] := List.ne_nil_of_mem (List.mem_map.mpr ⟨i0, List.mem_range.mpr hi0, rfl⟩)
  have hlo : BoundingBox.minNodes 2 ((List.range n).map p) = a := by
    obtain ⟨q, hq, e⟩ := BoundingBox.min_attained _ hne hfin 2
    obtain ⟨i, hi, rfl⟩ := List.mem_map.mp hq
    obtain ⟨t, ht, k, hk⟩ := (hspan i (List.mem_range.mp hi)).1
    have h1 := (hin t ht k).1
    have h2 := (BoundingBox.fold_min 2 ((List.range n).map p) BoundingBox.dblMax).2.2 _ (hmem ta hta ia)
    change BoundingBox.minNodes 2 _ ≤ (p (ta.ind ia)).z at h2
    have e' : BoundingBox.minNodes 2 ((List.range n).map p) = (p i).z := e
    linarith
  have hhi : BoundingBox.maxNodes 2 ((List.range n).map p) = b := by
    obtain ⟨h1, h2, h3⟩ := BoundingBox.fold_max 2 ((List.range n).map p) BoundingBox.dblMin
    have h4 := h3 _ (hmem tb htb ib)
    have h5 := h3 _ (List.mem_map.mpr ⟨i0, List.mem_range.mpr hi0, rfl⟩)
    change (p (tb.ind ib)).z ≤ BoundingBox.maxNodes 2 _ at h4
    change (p i0).z ≤ BoundingBox.maxNodes 2 _ at h5
    apply le_antisymm _ (by linarith)
    rcases h1 with h1 | ⟨q, hq, h1⟩
    · change BoundingBox.maxNodes 2 _ = _ at h1
      obtain ⟨t, ht, k, hk⟩ := (hspan i0 hi0).2
      have := (hin t ht k).2
      linarith
    · obtain ⟨i, hi, rfl⟩ := List.mem_map.mp hq
      change BoundingBox.maxNodes 2 _ = (p i).z at h1
      obtain ⟨t, ht, k, hk⟩ := (hspan i (List.mem_range.mp hi)).2
      have := (hin t ht k).2
      linarith
  show BoundingBox.maxNodes 2 _ - BoundingBox.minNodes 2 _ = h
  rw [hlo, hhi, hab]

/-- a magnetic tetrahedron of height 1 under a non-magnetic one that reaches twice as high -/
def exP : ℕ → V3
  | 0 => ⟨0, 0, 0⟩
  | 1 => ⟨1, 0, 0⟩
  | 2 => ⟨0, 1, 0⟩
  | 3 => ⟨0, 0, 1⟩
  | _ => ⟨1, 1, 2⟩

def exTets : List Tet := [⟨![0, 1, 2, 3], 0⟩, ⟨![4, 1, 3, 2], 1⟩]

/-- along x on the base, along z at the summit -/
def exU : ℕ → V3
  | 3 => ⟨0, 0, 1⟩
  | _ => ⟨1, 0, 0⟩

theorem ex_pos : ∀ t ∈ exTets, 0 < Tetra.detJ (nod4 exP t) := by
  intro t ht
  simp only [exTets, List.mem_cons, List.not_mem_nil, or_false] at ht
  rcases ht with rfl | rfl <;> rw [Tetra.detJ_eq] <;> simp [nod4, exP, V3.dot, V3.cross] <;> norm_num

theorem ex_sel : selected (· == 0) exTets none = [⟨![0, 1, 2, 3], 0⟩] := rfl

theorem ex_det : Tetra.detJ (nod4 exP ⟨![0, 1, 2, 3], 0⟩) = 1 := by
  rw [Tetra.detJ_eq]
  simp [nod4, exP, V3.dot, V3.cross]

theorem ex_thiele (lz : ℝ) : thiele Tetra.rule5 exP exU (· == 0) 2 exTets lz none = .val (1 / lz) := by
  have h := (C77_value Tetra.rule5 (Or.inr rfl) exP exU (· == 0) 2 exTets lz none (by simp) ex_pos
    (fun _ => ⟨1, 0, 0⟩) (fun _ => ![0, 0, ⟨-1, 0, 1⟩]) (by
      intro t ht i
      rw [ex_sel] at ht
      simp only [List.mem_cons, List.not_mem_nil, or_false] at ht
      subst ht
      fin_cases i <;> ext <;> simp [exP, exU])).1
  simp only [ex_sel, List.map_cons, List.map_nil, List.sum_cons, List.sum_nil, ex_det, Matrix.cons_val, V3.dot] at h
  rw [h (by norm_num)]
  congr 1
  ring

theorem ex_lz : (BoundingBox.lengths ((List.range 5).map exP)).z = 2 := by
  have hd := BoundingBox.dblMin_pos
  have hM := BoundingBox.two_le_dblMax
  have hl : (List.range 5).map exP = [⟨0, 0, 0⟩, ⟨1, 0, 0⟩, ⟨0, 1, 0⟩, ⟨0, 0, 1⟩, ⟨1, 1, 2⟩] := rfl
  have hd1 : BoundingBox.dblMin ≤ 1 := by
    unfold BoundingBox.dblMin
    rw [div_le_one (by positivity)]
    exact one_le_pow₀ (by norm_num)
  have e1 : BoundingBox.maxNodes 2 ((List.range 5).map exP) = 2 := by
    rw [hl]
    obtain ⟨h1, h2, h3⟩ := BoundingBox.fold_max 2 [⟨0, 0, 0⟩, ⟨1, 0, 0⟩, ⟨0, 1, 0⟩, ⟨0, 0, 1⟩, ⟨1, 1, 2⟩] BoundingBox.dblMin
    have h4 := h3 ⟨1, 1, 2⟩ (by simp)
    change (2 : ℝ) ≤ _ at h4
    unfold BoundingBox.maxNodes
    rcases h1 with h1 | ⟨p, hp, h1⟩
    · linarith
    · rw [h1] at h4 ⊢
      simp only [List.mem_cons, List.not_mem_nil, or_false] at hp
      rcases hp with rfl | rfl | rfl | rfl | rfl <;> simp only [V3.comp] at h4 ⊢ <;> linarith
  have e2 : BoundingBox.minNodes 2 ((List.range 5).map exP) = 0 := by
    rw [hl]
    obtain ⟨h1, h2, h3⟩ := BoundingBox.fold_min 2 [⟨0, 0, 0⟩, ⟨1, 0, 0⟩, ⟨0, 1, 0⟩, ⟨0, 0, 1⟩, ⟨1, 1, 2⟩] BoundingBox.dblMax
    have h4 := h3 ⟨0, 0, 0⟩ (by simp)
    change _ ≤ (0 : ℝ) at h4
    unfold BoundingBox.minNodes
    rcases h1 with h1 | ⟨p, hp, h1⟩
    · linarith
    · rw [h1] at h4 ⊢
      simp only [List.mem_cons, List.not_mem_nil, or_false] at hp
      rcases hp with rfl | rfl | rfl | rfl | rfl <;> simp only [V3.comp] at h4 ⊢ <;> linarith
  show BoundingBox.maxNodes 2 _ - BoundingBox.minNodes 2 _ = 2
  rw [e1, e2]
  norm_num

/-- **C77** In general the cross-section is not the one of the magnetic region: the length along z is that of the whole
mesh, parts that are not magnetic included. Here the magnetic part has height 1 and Thiele length 1, half of it is
reported. -/
theorem C77_negation : ∃ (p u : ℕ → V3) (tets : List Tet) (n : ℕ) (h : ℝ),
    (∀ t ∈ tets, 0 < Tetra.detJ (nod4 p t)) ∧ (∀ i, (u i).nsq = 1) ∧
    LengthZ p (selected (· == 0) tets none) h ∧
    thiele Tetra.rule5 p u (· == 0) 2 tets h none = .val 1 ∧
    thiele Tetra.rule5 p u (· == 0) 2 tets (BoundingBox.lengths ((List.range n).map p)).z none = .val (1 / 2) := by
  refine ⟨exP, exU, exTets, 5, 1, ex_pos, ?_, ?_, ?_, ?_⟩
  · intro i
    unfold exU
    split <;> norm_num [V3.nsq]
  · refine ⟨0, 1, by norm_num, ⟨_, by rw [ex_sel]; exact List.mem_singleton_self _, 0, rfl⟩,
      ⟨_, by rw [ex_sel]; exact List.mem_singleton_self _, 3, rfl⟩, ?_⟩
    intro t ht i
    rw [ex_sel, List.mem_singleton] at ht
    subst ht
    fin_cases i <;> simp [exP]
  · rw [ex_thiele]
    norm_num
  · rw [ex_lz, ex_thiele]

/-- the hypotheses of `C77_cross_section_partial` are met by the magnetic tetrahedron alone -/
example : ∃ h, LengthZ exP (selected (· == 0) [⟨![0, 1, 2, 3], 0⟩] none) h ∧ h = 1 ∧
    ∀ i < 4, (∃ t ∈ selected (· == 0) [(⟨![0, 1, 2, 3], 0⟩ : Tet)] none, ∃ k, (exP (t.ind k)).z ≤ (exP i).z) ∧
      ∃ t ∈ selected (· == 0) [(⟨![0, 1, 2, 3], 0⟩ : Tet)] none, ∃ k, (exP i).z ≤ (exP (t.ind k)).z := by
  have e : selected (· == 0) [(⟨![0, 1, 2, 3], 0⟩ : Tet)] none = [⟨![0, 1, 2, 3], 0⟩] := rfl
  rw [e]
  refine ⟨1, ⟨0, 1, by norm_num, ⟨_, List.mem_singleton_self _, 0, rfl⟩, ⟨_, List.mem_singleton_self _, 3, rfl⟩, ?_⟩,
    rfl, ?_⟩
  · intro t ht i
    rw [List.mem_singleton] at ht
    subst ht
    fin_cases i <;> simp [exP]
  · intro i hi
    refine ⟨⟨_, List.mem_singleton_self _, 0, ?_⟩, ⟨_, List.mem_singleton_self _, 3, ?_⟩⟩ <;>
      interval_cases i <;> simp [exP]

end Verif.Thiele
