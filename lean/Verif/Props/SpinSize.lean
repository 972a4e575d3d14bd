import Verif.Proofs.Similar
import Verif.Props.SpinTurn

/-!
# C118: potential and spin accumulation of an enlarged sample
-/

namespace Verif.Electro

open Verif.Mesh Verif.MeshElem Verif.Tetra Verif.Llg

/-! ## Specification -/

/-- the body enlarged `k` times: positions and lengths of the materials multiplied by `k`; under the potential `V` and other settings of
the surfaces -/
def SpinData.enlarged (d : SpinData) (k : ℝ) (V : ℕ → ℝ) (surf : ℕ → SurfPrm) : SpinData :=
  { d with
    p := fun i => k * d.p i
    vol := fun r => { d.vol r with lsd := k * (d.vol r).lsd, lsf := k * (d.vol r).lsf }
    V := V
    surf := surf }

/-! ## Lemmas -/

section
variable {G : Rule} {H : TriElem.Rule} {nod : ℕ}

theorem daRow_smul {k : ℝ} (hk : k ≠ 0) (p : Fin 4 → V3) (i : Fin 4) : daRow (fun i => k * p i) i = k⁻¹ * daRow p i :=
  Similarity.daRow_scaled hk 1 p i

theorem surf_smul (k : ℝ) (p : Fin 3 → V3) : TriElem.surf (fun i => k * p i) = k ^ 2 * TriElem.surf p :=
  Similarity.surf_scaled k 1 p

theorem gradV_smul {k : ℝ} (hk : k ≠ 0) (p : Fin 4 → V3) (f : Fin 4 → ℝ) : gradV (fun i => k * p i) f = k⁻¹ * gradV p f := by
  unfold gradV
  simp only [daRow_smul hk, Fin.sum_univ_four]
  ext <;> simp only [V3.add_x, V3.add_y, V3.add_z, V3.smul_x, V3.smul_y, V3.smul_z] <;> ring

theorem gradV_mul (p : Fin 4 → V3) (k : ℝ) (f : Fin 4 → ℝ) : gradV p (fun i => k * f i) = k * gradV p f := by
  unfold gradV
  simp only [Fin.sum_univ_four]
  ext <;> simp only [V3.add_x, V3.add_y, V3.add_z, V3.smul_x, V3.smul_y, V3.smul_z] <;> ring

theorem comp4_smul (k : ℝ) (x : ℕ → V3) (a : Fin 3) (t : Tet) : comp4 (fun i => k * x i) a t = fun i => k * comp4 x a t i := by
  funext i
  unfold comp4
  fin_cases a <;> simp [V3.comp]

theorem dot_smul2 (a b : ℝ) (u v : V3) : (a * u).dot (b * v) = a * b * u.dot v := by
  simp only [V3.dot, V3.smul_x, V3.smul_y, V3.smul_z]; ring

theorem dot_smul1 (b : ℝ) (u v : V3) : u.dot (b * v) = b * u.dot v := by
  simp only [V3.dot, V3.smul_x, V3.smul_y, V3.smul_z]; ring

theorem smul_dot1 (a : ℝ) (u v : V3) : (a * u).dot v = a * u.dot v := by
  simp only [V3.dot, V3.smul_x, V3.smul_y, V3.smul_z]; ring

theorem cross_smul1 (b : ℝ) (u v : V3) : (b * u).cross v = b * u.cross v := by
  ext <;> simp only [V3.cross, V3.smul_x, V3.smul_y, V3.smul_z] <;> ring

theorem weakForm_enlarged {k : ℝ} (hk : k ≠ 0) (p : ℕ → V3) (sigma J : ℕ → ℝ) (tets : List Tet) (tris : List Tri) (w V : ℕ → ℝ) :
    weakForm (fun i => k * p i) sigma J tets tris w (fun i => k * V i) = k ^ 2 * weakForm p sigma J tets tris w V := by
  unfold weakForm
  rw [mul_add, ← List.sum_map_mul_left, ← List.sum_map_mul_left]
  congr 2
  · refine List.map_congr_left fun t _ => ?_
    have ep : nod4 (fun i => k * p i) t = fun i => k * nod4 p t i := rfl
    have eV : nod4 (fun i => k * V i) t = fun i => k * nod4 V t i := rfl
    rw [ep, eV, gradV_smul hk, gradV_smul hk, gradV_mul, dot_smul2, dot_smul1, Similarity.detJ_smul]
    field_simp
  · refine List.map_congr_left fun f _ => ?_
    have ep : nod3 (fun i => k * p i) f = fun i => k * nod3 p f i := rfl
    rw [ep, surf_smul]
    ring

theorem enlarged_potential {p : ℕ → V3} {sigma : ℕ → ℝ} {tets : List Tet} {tris : List Tri} (h : Problem G H nod p sigma tets tris) {k : ℝ} (hk : 0 < k) :
    Problem G H nod (fun i => k * p i) sigma tets tris := ⟨h.rule, h.ruleT, h.valid, h.validT, fun t ht => by
  have ep : nod4 (fun i => k * p i) t = fun i => k * nod4 p t i := rfl
  rw [ep, Similarity.detJ_smul]
  have := h.oriented t ht
  positivity, h.cond⟩

theorem enlarged_problem {d : SpinData} (h : SpinProblem G H nod d) {k : ℝ} (hk : 0 < k) (V : ℕ → ℝ) (q : ℕ → SurfPrm) :
    SpinProblem G H nod (d.enlarged k V q) :=
  ⟨h.rule, h.ruleT, h.valid, h.validT, fun t ht => by
    have ep : nod4 (d.enlarged k V q).p t = fun i => k * nod4 d.p t i := rfl
    rw [ep, Similarity.detJ_smul]
    have := h.oriented t ht
    positivity⟩

theorem enlarged_material {d : SpinData} (hm : ∀ t ∈ d.tets, Material d.c (d.vol t.reg)) {k : ℝ} (hk : 0 < k) (V : ℕ → ℝ) (q : ℕ → SurfPrm) :
    ∀ t ∈ (d.enlarged k V q).tets, Material (d.enlarged k V q).c ((d.enlarged k V q).vol t.reg) :=
  fun t ht => ⟨(hm t ht).e, (hm t ht).sigma, (hm t ht).N0, mul_ne_zero hk.ne' (hm t ht).lsf⟩

theorem spinWeak_enlarged (d : SpinData) {k : ℝ} (hk : k ≠ 0) {V : ℕ → ℝ}
    (hV : ∀ t ∈ d.tets, gradV (nod4 d.p t) (nod4 V t) = k * gradV (nod4 d.p t) (nod4 d.V t)) {q : ℕ → SurfPrm}
    (hq : ∀ f ∈ d.tris, ∀ a, flow d.c (q f.reg) a = flow d.c (d.surf f.reg) a) (m n w x : ℕ → V3) :
    spinWeak (d.enlarged k V q) m n w (fun i => k * x i) = k ^ 2 * spinWeak d m n w x := by
  rw [spinWeak_terms, spinWeak_terms]
  have e1 : (d.enlarged k V q).tets = d.tets := rfl
  have e2 : (d.enlarged k V q).tris = d.tris := rfl
  rw [e1, e2, mul_add, ← List.sum_map_mul_left, ← List.sum_map_mul_left]
  congr 2
  · refine List.map_congr_left fun t ht => ?_
    have ep : nod4 (d.enlarged k V q).p t = fun i => k * nod4 d.p t i := rfl
    have eD : diffusivity (d.enlarged k V q).c ((d.enlarged k V q).vol t.reg) = diffusivity d.c (d.vol t.reg) := rfl
    have eV : (d.enlarged k V q).V = V := rfl
    have el : ((d.enlarged k V q).vol t.reg).lsf = k * (d.vol t.reg).lsf := rfl
    have ed : ((d.enlarged k V q).vol t.reg).lsd = k * (d.vol t.reg).lsd := rfl
    have eP : ((d.enlarged k V q).vol t.reg).P = (d.vol t.reg).P := rfl
    have es : ((d.enlarged k V q).vol t.reg).sigma = (d.vol t.reg).sigma := rfl
    have ec : (d.enlarged k V q).c = d.c := rfl
    have em : (d.enlarged k V q).mag = d.mag := rfl
    unfold volTerm
    rw [eD, ep, eV, el, ed, eP, es, ec, em]
    simp only [gradV_smul hk, hV t ht, comp4_smul, gradV_mul, daRow_smul hk, Similarity.detJ_smul, smul_dot1, dot_smul1, cross_smul1, mul_assoc, ← Finset.mul_sum]
    have hl : (k * ((d.vol t.reg).lsf * (k * (d.vol t.reg).lsf))) = k ^ 2 * ((d.vol t.reg).lsf * (d.vol t.reg).lsf) := by ring
    have hd : (k * ((d.vol t.reg).lsd * (k * (d.vol t.reg).lsd))) = k ^ 2 * ((d.vol t.reg).lsd * (d.vol t.reg).lsd) := by ring
    have hk1 : k * k⁻¹ = 1 := mul_inv_cancel₀ hk
    rw [hl, hd, div_mul_eq_div_div, div_mul_eq_div_div]
    by_cases hmag : t.isMagnetic d.mag = true
    · simp only [hmag, if_true]
      field_simp
    · simp only [hmag, Bool.false_eq_true, if_false]
      field_simp
      ring
  · refine List.map_congr_left fun f hf => ?_
    have ep : nod3 (d.enlarged k V q).p f = fun i => k * nod3 d.p f i := rfl
    have es : ∀ a, flow (d.enlarged k V q).c ((d.enlarged k V q).surf f.reg) a = flow d.c (q f.reg) a := fun _ => rfl
    unfold surfTerm
    rw [ep, surf_smul]
    simp only [es, hq f hf]
    ring

/-! ## Properties -/

/-- **C118** With the same current densities and conductivities the voltages are proportional to the size of the sample. -/
theorem C118_potential {p : ℕ → V3} {sigma : ℕ → ℝ} {tets : List Tet} {tris : List Tri} (h : Problem G H nod p sigma tets tris) {k : ℝ} (hk : 0 < k)
    {prm prm' : ℕ → SurfPrm} (hj : ∀ r, (prm' r).jn = (prm r).jn) (he : ∀ r, (prm' r).V.IsNan ↔ (prm r).V.IsNan) (v : ℝ) (V : ℕ → ℝ) :
    Solved G H nod (fun i => k * p i) sigma prm' tets tris (k * v) (fun i => k * V i) ↔ Solved G H nod p sigma prm tets tris v V := by
  have h' := enlarged_potential h hk
  obtain ⟨K, L, h1, h2⟩ := pot_solved h prm
  obtain ⟨K', L', h3, h4⟩ := pot_solved h' prm'
  have hJ : (fun r => currentDensity (prm' r)) = fun r => currentDensity (prm r) := funext fun r => by unfold currentDensity; rw [hj]
  have hS : OnPotential prm' tris = OnPotential prm tris := funext fun i => by unfold OnPotential; simp only [he]
  have hw : WeakPotential (fun i => k * p i) sigma (fun r => currentDensity (prm' r)) tets tris (OnPotential prm' tris) (fun i => k * V i) ↔
      WeakPotential p sigma (fun r => currentDensity (prm r)) tets tris (OnPotential prm tris) V := by
    rw [hJ, hS]
    refine forall_congr' fun w => forall_congr' fun _ => ?_
    rw [weakForm_enlarged hk.ne']
    exact ⟨fun e => (mul_eq_zero.mp e).resolve_left (pow_ne_zero 2 hk.ne'), fun e => by rw [e, mul_zero]⟩
  constructor
  · rintro ⟨hE, K'', L'', h5, h6⟩
    rw [h3] at h5
    cases h5
    exact ⟨fun i hi => mul_left_cancel₀ hk.ne' (hE i (hS ▸ hi)), K, L, h1, (h2 _ _).mpr (hw.mp ((h4 _ _).mp h6))⟩
  · rintro ⟨hE, K'', L'', h5, h6⟩
    rw [h1] at h5
    cases h5
    exact ⟨fun i hi => by rw [hE i (hS ▸ hi)], K', L', h3, (h4 _ _).mpr (hw.mpr ((h2 _ _).mp h6))⟩

/-- **C118** The spin accumulation is proportional to the size of the sample, if the lengths `lsf` and `lsd` are changed with it and the field
`-∇V` and the currents are the same. -/
theorem C118_spin {d : SpinData} (h : SpinProblem G H nod d) (hm : ∀ t ∈ d.tets, Material d.c (d.vol t.reg)) {k : ℝ} (hk : 0 < k) {V : ℕ → ℝ}
    (hV : ∀ t ∈ d.tets, gradV (nod4 (fun i => k * d.p i) t) (nod4 V t) = gradV (nod4 d.p t) (nod4 d.V t)) {q : ℕ → SurfPrm}
    (hq : ∀ f ∈ d.tris, ∀ a, flow d.c (q f.reg) a = flow d.c (d.surf f.reg) a) {hs : List MagState} (hne : hs ≠ []) {S : ℕ → Prop} {x y : ℕ → V3}
    (hx : Computed G H nod d hs S x) (hy : Computed G H nod (d.enlarged k V q) hs S y) (hS : ∀ i, S i → y i = k * x i) :
    ∀ t ∈ d.tets, ∀ i, y (t.ind i) = k * x (t.ind i) := by
  have h' := enlarged_problem h hk V q
  have hV' : ∀ t ∈ d.tets, gradV (nod4 d.p t) (nod4 V t) = k * gradV (nod4 d.p t) (nod4 d.V t) := fun t ht => by
    have ep : nod4 (fun i => k * d.p i) t = fun i => k * nod4 d.p t i := rfl
    rw [← hV t ht, ep, gradV_smul hk.ne']
    ext <;> simp only [V3.smul_x, V3.smul_y, V3.smul_z] <;> rw [mul_inv_cancel_left₀ hk.ne']
  -- the multiple of the spin accumulation solves the system of the enlarged sample
  have hkx : Computed G H nod (d.enlarged k V q) hs S fun i => k * x i := by
    obtain ⟨sys, h1, h2⟩ := C45_history h' hs
    refine ⟨sys, h1, (h2 S _).mpr fun w hw => ?_⟩
    have e := Computed.weak (V := d.V) (q := d.surf) h hx w hw
    have e2 : (fun s : MagState => spinWeak (d.enlarged k V q) s.cur s.next w fun i => k * x i) = fun s => k ^ 2 * spinWeak d s.cur s.next w x :=
      funext fun s => spinWeak_enlarged d hk.ne' hV' hq s.cur s.next w x
    rw [e2, List.sum_map_mul_left]
    have e3 : (hs.map fun s => spinWeak d s.cur s.next w x).sum = 0 := e
    rw [e3, mul_zero]
  have z : ∀ u : V3, (1 : ℝ) * u + (0 : ℝ) * u = u := fun u => by ext <;> simp
  have := C116_superposition (d := d.enlarged k V q) (V := V) (V₁ := V) (V₂ := V) (q := q) (q₁ := q) (q₂ := q) (a := 1) (b := 0) h' (enlarged_material hm hk V q)
    (fun t _ => by rw [z]) (fun f _ c => by ring) hne hy hkx hkx fun i hi => by rw [z, hS i hi]
  intro t ht i
  rw [this t ht i, z]

/-- **C118** The field by which the spin accumulation acts on the magnetization is inversely proportional to the size. -/
theorem C118_torque {d : SpinData} (h : SpinProblem G H nod d) (hm : ∀ t ∈ d.tets, Material d.c (d.vol t.reg)) {k : ℝ} (hk : 0 < k) {V : ℕ → ℝ}
    (hV : ∀ t ∈ d.tets, gradV (nod4 (fun i => k * d.p i) t) (nod4 V t) = gradV (nod4 d.p t) (nod4 d.V t)) {q : ℕ → SurfPrm}
    (hq : ∀ f ∈ d.tris, ∀ a, flow d.c (q f.reg) a = flow d.c (d.surf f.reg) a) {hs : List MagState} (hne : hs ≠ []) {S : ℕ → Prop} {x y : ℕ → V3}
    (hx : Computed G H nod d hs S x) (hy : Computed G H nod (d.enlarged k V q) hs S y) (hS : ∀ i, S i → y i = k * x i)
    (gamma0 : ℝ) (Ms : ℕ → ℝ) (on : Bool) : ∀ t ∈ d.tets, ∀ j,
      k * SpinTorque.extraField G on d.c d.mag (d.enlarged k V q).vol gamma0 Ms y t j = SpinTorque.extraField G on d.c d.mag d.vol gamma0 Ms x t j := by
  intro t ht j
  have e : nod4 y t = fun i => k * nod4 x t i := funext (C118_spin h hm hk hV hq hne hx hy hS t ht)
  have ei : Tetra.interpV G (fun i => k * nod4 x t i) j = k * Tetra.interpV G (nod4 x t) j := by
    ext <;> simp only [Tetra.interpV, V3.smul_x, V3.smul_y, V3.smul_z, Fin.sum_univ_four] <;> simp <;> ring
  have ep : k * (k * SpinTorque.prefactor d.c ((d.enlarged k V q).vol t.reg) gamma0 (Ms t.reg)) = SpinTorque.prefactor d.c (d.vol t.reg) gamma0 (Ms t.reg) := by
    have el : ((d.enlarged k V q).vol t.reg).lsd = k * (d.vol t.reg).lsd := rfl
    have eD : diffusionCst d.c ((d.enlarged k V q).vol t.reg) = diffusionCst d.c (d.vol t.reg) := rfl
    unfold SpinTorque.prefactor
    rw [el, eD]
    have : k * (d.vol t.reg).lsd * (k * (d.vol t.reg).lsd) * gamma0 * Ms t.reg = k ^ 2 * ((d.vol t.reg).lsd * (d.vol t.reg).lsd * gamma0 * Ms t.reg) := by ring
    rw [this, div_mul_eq_div_div]
    have := hk.ne'
    field_simp
  unfold SpinTorque.extraField SpinTorque.calcHst
  split_ifs
  · rw [e, ei, ← ep]
    ext <;> simp only [V3.smul_x, V3.smul_y, V3.smul_z] <;> ring
  · ext <;> simp

end

/-! ## Example: the tetrahedron of C116, twice as large -/

example (s : MagState) : ∃ x y : ℕ → V3, Computed Tetra.rule5 TriElem.rule4 4 exMag [s] (fun i => i = 1 ∨ i = 2 ∨ i = 3) x ∧
    Computed Tetra.rule5 TriElem.rule4 4 (exMag.enlarged 2 (fun _ => 0) (exCur 2)) [s] (fun i => i = 1 ∨ i = 2 ∨ i = 3) y ∧ ∀ t ∈ exMag.tets, ∀ i, y (t.ind i) = (2 : ℝ) * x (t.ind i) := by
  have hlt : ∀ i, (i = 1 ∨ i = 2 ∨ i = 3) → i < 4 := by omega
  obtain ⟨x, hx, hx0⟩ := computed_exists exMag_problem exMag_material s (exMag_covered _) hlt
  obtain ⟨y, hy, hy0⟩ := computed_exists (enlarged_problem exMag_problem zero_lt_two (fun _ => 0) (exCur 2))
    (enlarged_material exMag_material zero_lt_two _ _) s (exMag_covered _) hlt
  have hg : ∀ (p : Fin 4 → V3) (t : Tet), gradV p (nod4 (fun _ => (0 : ℝ)) t) = 0 := fun p t => gradV_const p 0
  refine ⟨x, y, hx, hy, C118_spin exMag_problem exMag_material zero_lt_two (fun t _ => ?_) (fun _ _ _ => rfl) (List.cons_ne_nil _ _) hx hy fun i hi => ?_⟩
  · rw [hg]
    exact (hg _ t).symm
  · rw [hx0 i hi, hy0 i hi]
    ext <;> simp

example : ∃ V : ℕ → ℝ, Solved Tetra.rule5 TriElem.rule4 4 (fun i => (2 : ℝ) * Tetra.exP i) (fun _ => 1) (exCur 2) [Tetra.exT] exTris ((2 : ℝ) * 0) fun i => 2 * V i := by
  obtain ⟨V, h⟩ := solved_exists ex_problem (exCur 2) (exCur_connected 2) 0
  exact ⟨V, (C118_potential ex_problem zero_lt_two (fun _ => rfl) (fun _ => Iff.rfl) 0 V).mpr h⟩

end Verif.Electro
