import Verif.Model.EnergyAll
import Verif.Spec.Aniso
import Verif.Props.MeshElem
import Verif.Props.Aniso
import Verif.Proofs.Node
import Verif.Proofs.TriElem

/-!
# C82: the energy columns of the table and the warning
-/

namespace Verif.EnergyAll

open Verif.Mesh Verif.MeshElem Verif.Llg Verif.Tetra

variable {G : Tetra.Rule} {H : TriElem.Rule} {mu0 : ℝ} {p : ℕ → V3} {prm : ℕ → Tetra.Prm} {sprm : ℕ → SurfPrm}

/-! ## the loops are sums -/

theorem tri_fold (u : ℕ → V3) (phi : ℕ → ℝ) (mtris : List (Tri × ℝ)) (e : Terms) :
    mtris.foldl (triStep H mu0 p sprm u phi) e =
      ⟨e.exchange, e.anisotropy + surfAniso H sprm p u mtris,
        e.demag + (mtris.map fun f => TriElem.demagEnergy H mu0 f.2 (nod3 p f.1) (nod3 u f.1) (fun i => phi (f.1.ind i))).sum,
        e.zeeman⟩ := by
  induction mtris generalizing e with
  | nil => simp [surfAniso]
  | cons f l ih =>
    rw [List.foldl_cons, ih]
    unfold triStep surfAniso
    simp only [List.map_cons, List.sum_cons]
    congr 1
    · split_ifs <;> ring
    · unfold nod3
      ring

theorem tet_fold (u : ℕ → V3) (phi : ℕ → ℝ) (a : Applied G.n) (mtets : List Tet) (e : Terms) :
    (mtets.foldl (tetStep G mu0 p prm u phi a) e).exchange
      = e.exchange + (mtets.map fun t => Tetra.exchangeEnergy G (prm t.reg) (nod4 p t) (nod4 u t)).sum ∧
    (mtets.foldl (tetStep G mu0 p prm u phi a) e).anisotropy = e.anisotropy + (mtets.map fun t =>
      (if (prm t.reg).K ≠ 0 then Tetra.uniaxialEnergy G (prm t.reg) (nod4 p t) (nod4 u t) else 0)
      + (if (prm t.reg).K3 ≠ 0 then Tetra.cubicEnergy G (prm t.reg) (nod4 p t) (nod4 u t) else 0)).sum ∧
    (mtets.foldl (tetStep G mu0 p prm u phi a) e).demag = e.demag + (mtets.map fun t =>
      Tetra.demagEnergy G mu0 (prm t.reg).Ms (nod4 p t) (nod4 u t) (fun i => phi (t.ind i))).sum := by
  induction mtets generalizing e with
  | nil => simp
  | cons t l ih =>
    rw [List.foldl_cons]
    obtain ⟨h1, h2, h3⟩ := ih (tetStep G mu0 p prm u phi a e t)
    rw [h1, h2, h3]
    unfold tetStep
    simp only [List.map_cons, List.sum_cons]
    refine ⟨by ring, ?_, ?_⟩
    · split_ifs <;> ring
    · unfold nod4
      ring

theorem zeeman_fold (u : ℕ → V3) (phi : ℕ → ℝ) (a : Applied G.n) (z : Tet → ℝ)
    (hz : ∀ e t, (tetStep G mu0 p prm u phi a e t).zeeman = e.zeeman + .fin (z t)) (mtets : List Tet) (e : Terms) (x : ℝ)
    (he : e.zeeman = .fin x) : (mtets.foldl (tetStep G mu0 p prm u phi a) e).zeeman = .fin (x + (mtets.map z).sum) := by
  induction mtets generalizing e x with
  | nil => simpa using he
  | cons t l ih =>
    rw [List.foldl_cons, ih _ (x + z t) (by rw [hz, he]; rfl), List.map_cons, List.sum_cons, add_assoc]

/-- energy of the magnetization in the applied field, over the magnetic tetrahedrons -/
noncomputable def zeemanSum (G : Tetra.Rule) (mu0 : ℝ) (p : ℕ → V3) (prm : ℕ → Tetra.Prm) (u : ℕ → V3) (mtets : List Tet)
    (h : Tet → Fin G.n → V3) : ℝ :=
  (mtets.map fun t => -(mu0 * (prm t.reg).Ms) * ∑ j, weight G (nod4 p t) j * (h t j).dot (interpV G (nod4 u t) j)).sum

/-- the applied field at the Gauss points -/
noncomputable def fieldAt : Applied G.n → Option (Tet → Fin G.n → V3)
  | .undef => none
  | .uniform h => some fun _ _ => h
  | .space amp h => some fun t j => amp * h t j

/-- **C82** The columns `E_ex`, `E_aniso`, `E_demag`: the energies of `magTet` and `magTri` studied in C41, C42, C67 and below,
each element and each contribution counted once. -/
theorem C82_terms (mag : ℕ → Bool) (tets : List Tet) (mtris : List (Tri × ℝ)) (u : ℕ → V3) (phi : ℕ → ℝ) (a : Applied G.n) :
    (terms G H mu0 p prm sprm (magTet mag tets) mtris u phi a).exchange = MeshElem.exchangeEnergy G p mag prm tets u ∧
    (terms G H mu0 p prm sprm (magTet mag tets) mtris u phi a).anisotropy =
      volAnisoEnergy G p mag prm tets u + surfAniso H sprm p u mtris ∧
    (terms G H mu0 p prm sprm (magTet mag tets) mtris u phi a).demag =
      MeshElem.demagEnergy G H mu0 p (fun r => (prm r).Ms) (magTet mag tets) mtris u phi := by
  obtain ⟨h1, h2, h3⟩ := tet_fold (G := G) (mu0 := mu0) (p := p) (prm := prm) u phi a (magTet mag tets) ⟨0, 0, 0, 0⟩
  unfold terms
  rw [tri_fold]
  dsimp only
  rw [h1, h2, h3]
  refine ⟨?_, ?_, ?_⟩
  · simp [MeshElem.exchangeEnergy]
  · simp [volAnisoEnergy]
  · simp [MeshElem.demagEnergy]

/-- **C82** The column `E_zeeman` is `-mu0` times the integral of the magnetization times the applied field over the magnetic
regions, computed at the Gauss points. -/
theorem C82_zeeman_term (mtets : List Tet) (mtris : List (Tri × ℝ)) (u : ℕ → V3) (phi : ℕ → ℝ) (a : Applied G.n)
    (h : Tet → Fin G.n → V3) (ha : fieldAt a = some h) :
    (terms G H mu0 p prm sprm mtets mtris u phi a).zeeman = .fin (zeemanSum G mu0 p prm u mtets h) := by
  unfold terms
  rw [tri_fold]
  dsimp only
  rw [zeeman_fold u phi a (fun t => -(mu0 * (prm t.reg).Ms) * ∑ j, weight G (nod4 p t) j * (h t j).dot (interpV G (nod4 u t) j))
    ?_ mtets _ 0 rfl, zero_add]
  · rfl
  intro e t
  unfold tetStep
  cases a with
  | undef => simp [fieldAt] at ha
  | uniform h' =>
    cases (Option.some.inj ha)
    dsimp only
    congr 2
    unfold zeemanEnergy
    rw [neg_mul]
    congr 1
    exact Finset.sum_congr rfl fun j _ => by rw [V3.dot_comm]
  | space amp h' =>
    cases (Option.some.inj ha)
    dsimp only
    congr 2
    unfold zeemanEnergySpace
    rw [neg_mul, mul_assoc, Finset.mul_sum]
    congr 1
    refine Finset.sum_congr rfl fun j _ => ?_
    rw [V3.dot_comm (interpV G (nod4 u t) j)]
    simp only [V3.dot, V3.smul_x, V3.smul_y, V3.smul_z]
    ring

/-- **C82** `E_tot` is the sum of the four other columns. -/
theorem C82_total (mtets : List Tet) (mtris : List (Tri × ℝ)) (u : ℕ → V3) (phi : ℕ → ℝ) (a : Applied G.n)
    (h : Tet → Fin G.n → V3) (ha : fieldAt a = some h) :
    let e := terms G H mu0 p prm sprm mtets mtris u phi a
    ∃ z, e.zeeman = .fin z ∧ e.total = .fin (e.exchange + e.anisotropy + e.demag + z) := by
  intro e
  refine ⟨_, C82_zeeman_term mtets mtris u phi a h ha, ?_⟩
  unfold Terms.total
  rw [show e.zeeman = _ from C82_zeeman_term mtets mtris u phi a h ha]
  rfl

/-- **C82** Without an applied field of either kind (which the built-in defaults exclude) the sum would be NaN. -/
theorem C82_undef (t : Tet) (mtets : List Tet) (mtris : List (Tri × ℝ)) (u : ℕ → V3) (phi : ℕ → ℝ) :
    (terms G H mu0 p prm sprm (t :: mtets) mtris u phi .undef).total = .nan := by
  have hz : ∀ (l : List Tet) (e : Terms), e.zeeman = .nan →
      (l.foldl (tetStep G mu0 p prm u phi .undef) e).zeeman = .nan := by
    intro l
    induction l with
    | nil => exact fun e h => h
    | cons t l ih => exact fun e _ => ih _ rfl
  unfold Terms.total
  have : (terms G H mu0 p prm sprm (t :: mtets) mtris u phi .undef).zeeman = .nan := by
    unfold terms
    rw [tri_fold]
    exact hz mtets _ rfl
  rw [this]
  rfl

/-! ## the Zeeman energy and the averages -/

theorem interp_dot_sum (hG : Tetra.Compiled G) (t : Tet) (u : ℕ → V3) (h : V3) :
    ∑ j, weight G (nod4 p t) j * h.dot (interpV G (nod4 u t) j) =
      tetVol G p t * ((∑ i, h.dot (u (t.ind i))) / 4) := by
  simp only [dot_interpV]
  exact sum_weight_interpS hG.ok _ _

theorem sum_split (mag : ℕ → Bool) (nreg : ℕ) (tets : List Tet) (hreg : ∀ t ∈ tets, t.reg < nreg) (g : ℕ → ℝ) (f : Tet → ℝ) :
    ((magTet mag tets).map fun t => g t.reg * f t).sum =
      ∑ r ∈ (Finset.range nreg).filter fun r => mag r = true, g r * ((tets.filter fun t => t.reg == r).map f).sum := by
  induction tets with
  | nil => simp [magTet]
  | cons t ts ih =>
    have e : ∀ r, (((t :: ts).filter fun t => t.reg == r).map f).sum =
        (if r = t.reg then f t else 0) + ((ts.filter fun t => t.reg == r).map f).sum := by
      intro r
      by_cases hr : t.reg = r
      · rw [List.filter_cons_of_pos (by simpa using hr), List.map_cons, List.sum_cons, if_pos hr.symm]
      · rw [List.filter_cons_of_neg (by simpa using hr), if_neg (Ne.symm hr), zero_add]
    simp only [e, mul_add, Finset.sum_add_distrib, mul_ite, mul_zero]
    rw [← ih fun t' h' => hreg t' (List.mem_cons_of_mem _ h'), Finset.sum_ite_eq']
    have ht := hreg t (by simp)
    by_cases hm : mag t.reg = true
    · have e : magTet mag (t :: ts) = t :: magTet mag ts := List.filter_cons_of_pos hm
      rw [e, List.map_cons, List.sum_cons, if_pos (by simp [ht, hm])]
    · have e : magTet mag (t :: ts) = magTet mag ts := List.filter_cons_of_neg hm
      rw [e, if_neg (by simp [hm]), zero_add]

theorem avg_volume (hG : Tetra.Compiled G) (mag : ℕ → Bool) (nreg : ℕ) (tets : List Tet) (f : ℕ → ℝ) (r : ℕ) (hr : r < nreg)
    (hm : mag r = true) (hpos : ∀ t ∈ tets, 0 < Tetra.detJ (nod4 p t)) :
    avg G p mag nreg tets f (some r) * (volumes G p mag nreg tets).1.getD r 0 =
      ((tets.filter fun t => t.reg == r).map fun t => tetVol G p t * ((∑ i, f (t.ind i)) / 4)).sum := by
  have hsel : selected mag tets (some r) = tets.filter fun t => t.reg == r := by
    unfold selected
    apply List.filter_congr
    intro t _
    by_cases h : t.reg = r
    · simp [h, hm]
    · have h1 : (t.reg == r) = false := by simpa using h
      have h2 : (r == t.reg) = false := by simpa using Ne.symm h
      simp [h1, h2]
  rw [avg_eq G hG p mag nreg tets f (some r) (by rintro _ ⟨⟩; exact ⟨hr, hm⟩), C55_region _ _ _ _ _ _ hr, hsel]
  by_cases h0 : ((tets.filter fun t => t.reg == r).map (tetVol G p)).sum = 0
  · have hnil : (tets.filter fun t => t.reg == r) = [] := by
      by_contra hnn
      have : 0 < ((tets.filter fun t => t.reg == r).map (tetVol G p)).sum := by
        apply List.sum_pos
        · intro x hx
          obtain ⟨t, ht, rfl⟩ := List.mem_map.mp hx
          exact C55_positive G hG p t (hpos t (List.mem_filter.mp ht).1)
        · simpa using hnn
      exact this.ne' h0
    rw [hnil]
    simp
  · rw [div_mul_cancel₀ _ h0]

/-- **C82** With a field uniform in space, the column `E_zeeman` is determined by the columns `Hx`, `Hy`, `Hz` and the averages of
the magnetization over the regions: `-mu0 Ms V (Hx <Mx> + Hy <My> + Hz <Mz>)`, added over the magnetic regions. -/
theorem C82_zeeman (hG : Tetra.Compiled G) (mag : ℕ → Bool) (nreg : ℕ) (tets : List Tet) (hreg : ∀ t ∈ tets, t.reg < nreg)
    (hpos : ∀ t ∈ tets, 0 < Tetra.detJ (nod4 p t)) (mtris : List (Tri × ℝ)) (u : ℕ → V3) (phi : ℕ → ℝ) (h : V3) :
    (terms G H mu0 p prm sprm (magTet mag tets) mtris u phi (.uniform h)).zeeman =
      .fin (∑ r ∈ (Finset.range nreg).filter fun r => mag r = true,
        -(mu0 * (prm r).Ms) * (volumes G p mag nreg tets).1.getD r 0 *
          (h.x * avg G p mag nreg tets (fun i => (u i).x) (some r) + h.y * avg G p mag nreg tets (fun i => (u i).y) (some r)
            + h.z * avg G p mag nreg tets (fun i => (u i).z) (some r))) := by
  rw [C82_zeeman_term _ _ _ _ _ (fun _ _ => h) rfl]
  congr 1
  unfold zeemanSum
  simp only [interp_dot_sum hG]
  rw [sum_split mag nreg tets hreg (fun r => -(mu0 * (prm r).Ms)) fun t => tetVol G p t * ((∑ i, h.dot (u (t.ind i))) / 4)]
  refine Finset.sum_congr rfl fun r hr => ?_
  obtain ⟨hr1, hr2⟩ := Finset.mem_filter.mp hr
  have hr1 := Finset.mem_range.mp hr1
  have e := fun f => avg_volume (G := G) (p := p) hG mag nreg tets f r hr1 hr2 hpos
  rw [mul_assoc]
  congr 1
  rw [mul_comm, add_mul, add_mul, mul_assoc, mul_assoc, mul_assoc, e, e, e]
  generalize tets.filter (fun t => t.reg == r) = l
  induction l with
  | nil => simp
  | cons t l ih =>
    simp only [List.map_cons, List.sum_cons]
    rw [ih]
    simp only [V3.dot, Fin.sum_univ_four]
    ring

/-- **C82** A field given as an amplitude times a function of the position which happens to be uniform has the same energy as the
uniform field. -/
theorem C82_zeeman_space (mtets : List Tet) (mtris : List (Tri × ℝ)) (u : ℕ → V3) (phi : ℕ → ℝ) (amp : ℝ) (h : V3) :
    terms G H mu0 p prm sprm mtets mtris u phi (.space amp fun _ _ => h) =
      terms G H mu0 p prm sprm mtets mtris u phi (.uniform (amp * h)) := by
  unfold terms
  congr 2
  funext e t
  unfold tetStep
  dsimp only
  congr 2
  unfold zeemanEnergySpace zeemanEnergy
  rw [mul_assoc (-mu0 * _), Finset.mul_sum]
  congr 2
  refine Finset.sum_congr rfl fun j _ => ?_
  simp only [V3.dot, V3.smul_x, V3.smul_y, V3.smul_z]
  ring

/-! ## uniform magnetization -/

theorem interpV_uniform (f : Fin 4 → V3) (c : V3) (h : ∀ i, f i = c) (j : Fin G.n) :
    interpV G f j = c := by
  have hs : ∑ i, G.a i j = 1 := by
    unfold Rule.a
    simp [Fin.sum_univ_four]
    ring
  unfold interpV
  simp only [h]
  simp only [Fin.sum_univ_four] at hs ⊢
  ext
  · simp only [V3.add_x, V3.smul_x]
    linear_combination c.x * hs
  · simp only [V3.add_y, V3.smul_y]
    linear_combination c.y * hs
  · simp only [V3.add_z, V3.smul_z]
    linear_combination c.z * hs

theorem triInterpV_uniform (f : Fin 3 → V3) (c : V3) (h : ∀ i, f i = c) (j : Fin H.n) : TriElem.interpV H f j = c := by
  have hs : ∑ i, H.a i j = 1 := by
    unfold TriElem.Rule.a
    simp [Fin.sum_univ_three]
    ring
  unfold TriElem.interpV
  simp only [h]
  simp only [Fin.sum_univ_three] at hs ⊢
  ext
  · simp only [V3.add_x, V3.smul_x]
    linear_combination c.x * hs
  · simp only [V3.add_y, V3.smul_y]
    linear_combination c.y * hs
  · simp only [V3.add_z, V3.smul_z]
    linear_combination c.z * hs

theorem deriv_uniform (q f : Fin 4 → V3) (c : V3) (h : ∀ i, f i = c) (d : Fin 3) : Tetra.deriv q d f = 0 := by
  have hs := daRow_sum q
  simp only [Fin.sum_univ_four] at hs
  have hx := congrArg V3.x hs
  have hy := congrArg V3.y hs
  have hz := congrArg V3.z hs
  simp only [V3.add_x, V3.add_y, V3.add_z, ← daRow_x, ← daRow_y, ← daRow_z] at hx hy hz
  have e : ∑ i, da q i d = 0 := by
    rw [Fin.sum_univ_four]
    fin_cases d
    · exact hx
    · exact hy
    · exact hz
  rw [Fin.sum_univ_four] at e
  unfold Tetra.deriv
  simp only [h, Fin.sum_univ_four]
  ext
  · simp only [V3.add_x, V3.smul_x]
    show _ = (0 : ℝ)
    linear_combination c.x * e
  · simp only [V3.add_y, V3.smul_y]
    show _ = (0 : ℝ)
    linear_combination c.y * e
  · simp only [V3.add_z, V3.smul_z]
    show _ = (0 : ℝ)
    linear_combination c.z * e

/-- **C82** For a uniform magnetization the columns are those of a single moment: no exchange energy, the anisotropy energy
densities times the volumes and the areas, and the Zeeman energy of the total moment. -/
theorem C82_uniform (hH : H.Ok) (mtets : List Tet) (mtris : List (Tri × ℝ)) (u : ℕ → V3)
    (phi : ℕ → ℝ) (h m : V3) (hu : ∀ t ∈ mtets, ∀ i, u (t.ind i) = m) (hu' : ∀ f ∈ mtris, ∀ i, u (f.1.ind i) = m) :
    let e := terms G H mu0 p prm sprm mtets mtris u phi (.uniform h)
    e.exchange = 0 ∧
    e.anisotropy = (mtets.map fun t => tetVol G p t * (Aniso.uniax (prm t.reg).K (prm t.reg).uk m
        + Aniso.cubic (prm t.reg).K3 (prm t.reg).ex (prm t.reg).ey (prm t.reg).ez m)).sum
      + (mtris.map fun f => TriElem.surf (nod3 p f.1) * Aniso.uniax (sprm f.1.reg).Ks (sprm f.1.reg).uk m).sum ∧
    e.zeeman = .fin (-mu0 * m.dot h * (mtets.map fun t => (prm t.reg).Ms * tetVol G p t).sum) := by
  intro e
  obtain ⟨h1, h2, -⟩ := tet_fold (G := G) (mu0 := mu0) (p := p) (prm := prm) u phi (.uniform h) mtets ⟨0, 0, 0, 0⟩
  refine ⟨?_, ?_, ?_⟩
  · show (terms G H mu0 p prm sprm mtets mtris u phi (.uniform h)).exchange = 0
    unfold terms
    rw [tri_fold]
    dsimp only
    rw [h1, zero_add]
    apply List.sum_eq_zero
    intro x hx
    obtain ⟨t, ht, rfl⟩ := List.mem_map.mp hx
    unfold Tetra.exchangeEnergy
    simp only [deriv_uniform (nod4 p t) (nod4 u t) m (hu t ht)]
    simp [V3.nsq]
  · show (terms G H mu0 p prm sprm mtets mtris u phi (.uniform h)).anisotropy = _
    unfold terms
    rw [tri_fold]
    dsimp only
    rw [h2, zero_add]
    congr 1
    · congr 1
      refine List.map_congr_left fun t ht => ?_
      have hv : tetVol G p t = ∑ j, weight G (nod4 p t) j := rfl
      have h1 : uniaxialEnergy G (prm t.reg) (nod4 p t) (nod4 u t) =
          tetVol G p t * Aniso.uniax (prm t.reg).K (prm t.reg).uk m := by
        unfold uniaxialEnergy Aniso.uniax
        simp only [interpV_uniform (nod4 u t) m (hu t ht)]
        rw [← Finset.sum_mul, hv]
        ring
      have h2 : cubicEnergy G (prm t.reg) (nod4 p t) (nod4 u t) =
          tetVol G p t * Aniso.cubic (prm t.reg).K3 (prm t.reg).ex (prm t.reg).ey (prm t.reg).ez m := by
        unfold cubicEnergy Aniso.cubic
        simp only [interpV_uniform (nod4 u t) m (hu t ht)]
        rw [← Finset.sum_mul, hv]
        ring
      rw [h1, h2, mul_add]
      congr 1
      · by_cases hK : (prm t.reg).K = 0
        · simp [hK, Aniso.uniax]
        · rw [if_pos hK]
      · by_cases hK : (prm t.reg).K3 = 0
        · simp [hK, Aniso.cubic]
        · rw [if_pos hK]
    · unfold surfAniso
      congr 1
      refine List.map_congr_left fun f hf => ?_
      by_cases hK : (sprm f.1.reg).Ks = 0
      · simp [hK, Aniso.uniax]
      · rw [if_pos hK]
        unfold TriElem.anisotropyEnergy Aniso.uniax
        simp only [triInterpV_uniform (nod3 u f.1) m (hu' f hf)]
        rw [← Finset.sum_mul, TriElem.sum_weight hH, V3.dot_comm]
        ring
  · show (terms G H mu0 p prm sprm mtets mtris u phi (.uniform h)).zeeman = _
    rw [C82_zeeman_term _ _ _ _ _ (fun _ _ => h) rfl]
    congr 1
    unfold zeemanSum
    clear h1 h2 e hu'
    induction mtets with
    | nil => simp
    | cons t l ih =>
      rw [List.map_cons, List.sum_cons, ih fun t' h' => hu t' (List.mem_cons_of_mem _ h')]
      rw [List.map_cons, List.sum_cons]
      have hv : tetVol G p t = ∑ j, weight G (nod4 p t) j := rfl
      simp only [interpV_uniform (nod4 u t) m (hu t (by simp))]
      rw [← Finset.sum_mul, hv, V3.dot_comm]
      ring

/-! ## cubic anisotropy -/

/-- **C82** (cubic) the energy is the energy density at the Gauss points times the weights -/
theorem cubic_density (m : Tetra.Prm) (q u : Fin 4 → V3) :
    cubicEnergy G m q u = ∑ j, weight G q j * Aniso.cubic m.K3 m.ex m.ey m.ez (interpV G u j) := by
  unfold cubicEnergy Aniso.cubic
  rw [Finset.mul_sum]
  refine Finset.sum_congr rfl fun j _ => ?_
  dsimp only
  ring

/-- for a vector of norm at most one the cubic energy density lies between 0 and `K3 / 3` -/
theorem cubic_bounds {K3 : ℝ} (hK : 0 ≤ K3) {ex ey ez U : V3} (hax : DirectOrthonormal ex ey ez) (hU : U.nsq ≤ 1) :
    0 ≤ Aniso.cubic K3 ex ey ez U ∧ Aniso.cubic K3 ex ey ez U ≤ K3 / 3 := by
  have d := (Aniso.axes_of_direct hax).decomp U U
  have hn : U.dot U ≤ 1 := by
    unfold V3.dot
    unfold V3.nsq at hU
    linarith
  unfold Aniso.cubic
  generalize U.dot ex = a at *
  generalize U.dot ey = b at *
  generalize U.dot ez = c at *
  rw [d] at hn
  refine ⟨by positivity, ?_⟩
  have : a ^ 2 * b ^ 2 + b ^ 2 * c ^ 2 + c ^ 2 * a ^ 2 ≤ 1 / 3 := by
    nlinarith [sq_nonneg (a ^ 2 - b ^ 2), sq_nonneg (b ^ 2 - c ^ 2), sq_nonneg (c ^ 2 - a ^ 2), sq_nonneg a, sq_nonneg b,
      sq_nonneg c]
  nlinarith

/-- a convex combination of vectors of norm at most one has norm at most one -/
theorem nsq_convex (a : Fin 4 → ℝ) (ha : ∀ i, 0 ≤ a i) (hs : ∑ i, a i = 1) (u : Fin 4 → V3) (hu : ∀ i, (u i).nsq ≤ 1) :
    (∑ i, a i * u i).nsq ≤ 1 := by
  have hd : ∀ i k, (u i).dot (u k) ≤ 1 := by
    intro i k
    have h1 := hu i
    have h2 := hu k
    unfold V3.nsq at h1 h2
    unfold V3.dot
    nlinarith [sq_nonneg ((u i).x - (u k).x), sq_nonneg ((u i).y - (u k).y), sq_nonneg ((u i).z - (u k).z)]
  have e : (∑ i, a i * u i).nsq = ∑ i, ∑ k, a i * a k * (u i).dot (u k) := by
    simp only [Fin.sum_univ_four, V3.nsq, V3.dot, V3.add_x, V3.add_y, V3.add_z, V3.smul_x, V3.smul_y, V3.smul_z]
    ring
  rw [e]
  calc ∑ i, ∑ k, a i * a k * (u i).dot (u k) ≤ ∑ i, ∑ k, a i * a k :=
        Finset.sum_le_sum fun i _ => Finset.sum_le_sum fun k _ =>
          mul_le_of_le_one_right (mul_nonneg (ha i) (ha k)) (hd i k)
    _ = 1 := by
        rw [← Finset.sum_mul_sum, hs, one_mul]

theorem hat_nonneg (hG : Tetra.Compiled G) (i : Fin 4) (j : Fin G.n) : 0 ≤ G.a i j := by
  rcases hG with rfl | rfl
  · change Fin 1 at j
    fin_cases j
    unfold Rule.a rule1
    fin_cases i <;> norm_num
  · change Fin 5 at j
    fin_cases j
    · exact (rule5_a0 i).symm ▸ by fin_cases i <;> norm_num
    · exact (rule5_a1 i).symm ▸ by fin_cases i <;> norm_num
    · exact (rule5_a2 i).symm ▸ by fin_cases i <;> norm_num
    · exact (rule5_a3 i).symm ▸ by fin_cases i <;> norm_num
    · exact (rule5_a4 i).symm ▸ by fin_cases i <;> norm_num

theorem hat_sum (j : Fin G.n) : ∑ i, G.a i j = 1 := by
  unfold Rule.a
  simp [Fin.sum_univ_four]
  ring

/-- **C82** (cubic) What is guaranteed on the cubic anisotropy energy of a tetrahedron, `K3` not negative and the magnetization of
norm at most one at the nodes. The density lies between 0 and `K3 / 3`; so does the energy over the volume with one Gauss point,
but not with the default five, where the bounds are wider. -/
theorem C82_cubic_partial (m : Tetra.Prm) (hK : 0 ≤ m.K3) (hax : DirectOrthonormal m.ex m.ey m.ez) (q u : Fin 4 → V3)
    (hq : 0 < Tetra.detJ q) (hu : ∀ i, (u i).nsq ≤ 1) :
    (0 ≤ cubicEnergy rule1 m q u ∧ cubicEnergy rule1 m q u ≤ calcVol rule1 q * (m.K3 / 3)) ∧
    (-(4 / 15) * (m.K3 * calcVol rule5 q) ≤ cubicEnergy rule5 m q u ∧
      cubicEnergy rule5 m q u ≤ 3 / 5 * (m.K3 * calcVol rule5 q)) := by
  have hb : ∀ (G : Tetra.Rule), Tetra.Compiled G → ∀ j : Fin G.n, _ := fun G hG j =>
    cubic_bounds hK hax (nsq_convex (fun i => G.a i j) (fun i => hat_nonneg hG i j) (hat_sum j) u hu)
  rw [cubic_density, cubic_density, calcVol_eq rule5_ok]
  constructor
  · have h := hb rule1 (Or.inl rfl) (0 : Fin 1)
    have hw : weight rule1 q (0 : Fin 1) = calcVol rule1 q := by
      unfold calcVol
      exact (Fin.sum_univ_one (fun j : Fin 1 => weight rule1 q j)).symm
    have hv : 0 < calcVol rule1 q := by
      rw [calcVol_eq (Tetra.Compiled.ok (Or.inl rfl))]
      positivity
    have e : ∀ f : Fin rule1.n → ℝ, ∑ j, weight rule1 q j * f j = calcVol rule1 q * f (0 : Fin 1) := by
      intro f
      rw [← hw]
      exact Fin.sum_univ_one (fun j : Fin 1 => weight rule1 q j * f j)
    rw [e]
    exact ⟨mul_nonneg hv.le h.1, mul_le_mul_of_nonneg_left h.2 hv.le⟩
  · have h0 := hb rule5 (Or.inr rfl) (0 : Fin 5)
    have h1 := hb rule5 (Or.inr rfl) (1 : Fin 5)
    have h2 := hb rule5 (Or.inr rfl) (2 : Fin 5)
    have h3 := hb rule5 (Or.inr rfl) (3 : Fin 5)
    have h4 := hb rule5 (Or.inr rfl) (4 : Fin 5)
    unfold weight
    simp only [mul_assoc]
    rw [← Finset.mul_sum, rule5_sum_pds]
    unfold interpV
    constructor <;> nlinarith

/-- **C82** (cubic) The energy of a tetrahedron computed with the default quadrature can be negative although the energy density
is not negative anywhere: the central Gauss point has a negative weight and the density is of degree four. -/
theorem C82_cubic_negation (K3 : ℝ) (hK : 0 < K3) (q : Fin 4 → V3) (hq : 0 < Tetra.detJ q) :
    ∃ (m : Tetra.Prm) (u : Fin 4 → V3), m.K3 = K3 ∧ DirectOrthonormal m.ex m.ey m.ez ∧ (∀ i, (u i).nsq = 1) ∧
      (∀ U, 0 ≤ Aniso.cubic m.K3 m.ex m.ey m.ez U) ∧ cubicEnergy rule5 m q u < 0 := by
  obtain ⟨s, hs⟩ : ∃ s : ℝ, s * s = 1 / 5 := ⟨√(1 / 5), Real.mul_self_sqrt (by norm_num)⟩
  refine ⟨{ alpha := 1, A := 0, Ms := 0, K := 0, uk := 0, K3 := K3, ex := ⟨1, 0, 0⟩, ey := ⟨0, 1, 0⟩, ez := ⟨0, 0, 1⟩ },
    ![⟨-s, 2 * s, 0⟩, ⟨-s, 2 * s, 0⟩, ⟨2 * s, -s, 0⟩, ⟨2 * s, -s, 0⟩], rfl, ?_, ?_, ?_, ?_⟩
  · constructor <;> simp [V3.dot, V3.nsq, V3.cross]
  · intro i
    fin_cases i <;> simp only [V3.nsq] <;> simp <;> linarith
  · intro U
    unfold Aniso.cubic
    positivity
  · rw [cubic_density]
    unfold weight
    simp only [mul_assoc]
    rw [← Finset.mul_sum, rule5_sum_pds]
    unfold interpV
    simp only [rule5_a0, rule5_a1, rule5_a2, rule5_a3, rule5_a4, Fin.sum_univ_four]
    simp [Aniso.cubic, V3.dot]
    have h4 : 0 < Tetra.detJ q * K3 * (s * s) * (s * s) := by
      rw [hs]
      positivity
    ring_nf
    nlinarith

/-! ## the warning -/

theorem warnings_get (verbose : Bool) (l : List Fl) : ∀ (x : Fl) (k : ℕ) (hk : k < l.length),
    (warnings verbose x l)[k]? = some (warned verbose ((x :: l)[k]'(by simp; omega)) l[k]) := by
  induction l with
  | nil => intro x k hk; simp at hk
  | cons y l ih =>
    intro x k hk
    cases k with
    | zero => simp [warnings]
    | succ k =>
      have h := ih y k (by simpa using hk)
      simpa [warnings] using h

/-- **C82** With finite energies `E 0, E 1, …` computed one after the other, a warning is printed for number `k` if and only if
the verbose mode is on and the energy is larger than the one before; there is none for the first. -/
theorem C82_warning (verbose : Bool) (E : ℕ → ℝ) (n k : ℕ) (hk : k < n) :
    ∃ w ∈ (runWarnings verbose ((List.range n).map fun i => Fl.fin (E i)))[k]?,
      (w ↔ verbose = true ∧ 0 < k ∧ E (k - 1) < E k) := by
  refine ⟨_, warnings_get verbose _ _ k (by simpa using hk), ?_⟩
  unfold warned
  cases k with
  | zero => simp [Fl.gt, Fl.le]
  | succ k => simp [Fl.gt, Fl.le]

/-- **C82** An energy that is not a number is never reported as an increase, nor the energy computed after it. -/
theorem C82_warning_nan (verbose : Bool) (l : List Fl) (k : ℕ) (h : l[k]? = some .nan ∨ (0 < k ∧ l[k - 1]? = some .nan)) (w : Prop)
    (hw : w ∈ (runWarnings verbose l)[k]?) : ¬ w := by
  have hk : k < l.length := by
    by_contra hc
    have : (runWarnings verbose l)[k]? = none := by
      rw [List.getElem?_eq_none_iff]
      have hlen : ∀ (l : List Fl) (e : Fl), (warnings verbose e l).length = l.length := by
        intro l
        induction l with
        | nil => intro e; rfl
        | cons a l ih => intro e; simp [warnings, ih]
      unfold runWarnings
      rw [hlen]
      omega
    rw [this] at hw
    cases hw
  have e := warnings_get verbose l (.inf false) k hk
  unfold runWarnings at hw
  rw [e] at hw
  cases hw
  unfold warned
  rintro ⟨-, hg⟩
  rcases h with h | ⟨hp, h⟩
  · rw [List.getElem?_eq_getElem hk] at h
    rw [Option.some.inj h] at hg
    simp [Fl.gt] at hg
  · cases k with
    | zero => omega
    | succ k =>
      have hk' : k < l.length := by omega
      rw [Nat.add_sub_cancel, List.getElem?_eq_getElem hk'] at h
      simp only [List.getElem_cons_succ] at hg
      rw [Option.some.inj h] at hg
      unfold Fl.gt at hg
      split at hg <;> simp_all

/-! ## cases meeting the hypotheses -/

/-- a uniform magnetization along z in the first tetrahedron of the mesh of C55, of volume 1/6, and a field along z -/
example (prm : ℕ → Tetra.Prm) (sprm : ℕ → SurfPrm) (phi : ℕ → ℝ) (mu0 : ℝ) :
    (terms rule5 TriElem.rule4 mu0 exP2 prm sprm (magTet (· == 0) exT2) [] (fun _ => ⟨0, 0, 1⟩) phi (.uniform ⟨0, 0, 2⟩)).zeeman =
      .fin (-mu0 * (prm 0).Ms / 3) := by
  obtain ⟨-, -, h⟩ := C82_uniform (G := rule5) (H := TriElem.rule4) (mu0 := mu0) (p := exP2) (prm := prm) (sprm := sprm)
    TriElem.rule4_ok (magTet (· == 0) exT2) [] (fun _ => ⟨0, 0, 1⟩) phi ⟨0, 0, 2⟩ ⟨0, 0, 1⟩ (fun _ _ _ => rfl) (by simp)
  rw [h]
  have v0 : tetVol Tetra.rule5 exP2 ⟨![0, 1, 2, 3], 0⟩ = 1 / 6 := by
    unfold tetVol
    rw [Tetra.calcVol_eq Tetra.rule5_ok, Tetra.detJ_eq]
    simp [nod4, exP2, V3.dot, V3.cross]
  have e : magTet (· == 0) exT2 = [⟨![0, 1, 2, 3], 0⟩] := by
    rfl
  rw [e]
  simp only [List.map_cons, List.map_nil, List.sum_cons, List.sum_nil, v0, V3.dot]
  congr 1
  ring

/-- the hypotheses of `C82_zeeman` hold for the two tetrahedrons of C55 -/
example (u : ℕ → V3) (phi : ℕ → ℝ) (prm : ℕ → Tetra.Prm) (sprm : ℕ → SurfPrm) (mu0 : ℝ) (h : V3) :
    ∃ z, (terms rule5 TriElem.rule4 mu0 exP2 prm sprm (magTet (· == 0) exT2) [] u phi (.uniform h)).zeeman = .fin z :=
  ⟨_, C82_zeeman (Or.inr rfl) (· == 0) 2 exT2 (by simp [exT2]) ex2_pos [] u phi h⟩

/-- energies 3, 1, 2: one warning, for the third -/
example : ∃ w ∈ (runWarnings true ((List.range 3).map fun i => Fl.fin ((![3, 1, 2] : Fin 3 → ℝ) (Fin.ofNat 3 i))))[2]?, w := by
  obtain ⟨w, hw, h⟩ := C82_warning true (fun i => (![3, 1, 2] : Fin 3 → ℝ) (Fin.ofNat 3 i)) 3 2 (by norm_num)
  exact ⟨w, hw, h.mpr ⟨rfl, by norm_num, by norm_num [Fin.ofNat]⟩⟩

end Verif.EnergyAll
