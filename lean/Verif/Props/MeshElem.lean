import Verif.Props.Tetra

/-!
# C33 and C55: averages and volumes
-/

namespace Verif.MeshElem

open Verif.Mesh

theorem volumes_length (G : Tetra.Rule) (p : ℕ → V3) (mag : ℕ → Bool) (nreg : ℕ) (tets : List Tet) :
    (volumes G p mag nreg tets).1.length = nreg := by
  unfold volumes
  have : ∀ s : List ℝ × ℝ, (tets.foldl (fun s t => (s.1.modify t.reg (· + tetVol G p t),
      if t.isMagnetic mag then s.2 + tetVol G p t else s.2)) s).1.length = s.1.length := by
    induction tets with
    | nil => intro s; rfl
    | cons t ts ih =>
      intro s
      rw [List.foldl_cons, ih]
      simp
  rw [this]
  simp

theorem getD_modify (l : List ℝ) (i r : ℕ) (v : ℝ) :
    (l.modify i (· + v)).getD r 0 = l.getD r 0 + if i = r ∧ r < l.length then v else 0 := by
  rw [List.getD_eq_getElem?_getD, List.getElem?_modify, List.getD_eq_getElem?_getD]
  by_cases h : i = r
  · subst h
    by_cases h2 : i < l.length
    · simp [h2]
    · simp [h2]
  · simp [h]

/-- **C55** The volume of a region is the sum of the volumes of its tetrahedrons. -/
theorem C55_region (G : Tetra.Rule) (p : ℕ → V3) (mag : ℕ → Bool) (nreg : ℕ) (tets : List Tet) (r : ℕ) (hr : r < nreg) :
    (volumes G p mag nreg tets).1.getD r 0 = ((tets.filter fun t => t.reg == r).map (tetVol G p)).sum := by
  unfold volumes
  have : ∀ s : List ℝ × ℝ, s.1.length = nreg → (tets.foldl (fun s t => (s.1.modify t.reg (· + tetVol G p t),
      if t.isMagnetic mag then s.2 + tetVol G p t else s.2)) s).1.getD r 0 =
      s.1.getD r 0 + ((tets.filter fun t => t.reg == r).map (tetVol G p)).sum := by
    induction tets with
    | nil => intro s _; simp
    | cons t ts ih =>
      intro s hs
      rw [List.foldl_cons, ih _ (by simpa using hs), getD_modify, hs]
      by_cases h : t.reg = r
      · rw [List.filter_cons_of_pos (by simpa using h), List.map_cons, List.sum_cons, if_pos ⟨h, hr⟩]
        ring
      · rw [List.filter_cons_of_neg (by simpa using h), if_neg (fun e => h e.1)]
        ring
  rw [this _ (by simp)]
  simp [List.getD_eq_getElem?_getD, hr]

theorem sum_modify (l : List ℝ) (i : ℕ) (v : ℝ) (hi : i < l.length) : (l.modify i (· + v)).sum = l.sum + v := by
  induction l generalizing i with
  | nil => simp at hi
  | cons a l ih =>
    cases i with
    | zero =>
      simp
      ring
    | succ i =>
      have := ih i (by simpa using hi)
      simp [this]
      ring

/-- **C55** The total volume, computed as the sum of the volumes of the regions, is the sum of the volumes of
the tetrahedrons. -/
theorem C55_total (G : Tetra.Rule) (p : ℕ → V3) (mag : ℕ → Bool) (nreg : ℕ) (tets : List Tet)
    (h : ∀ t ∈ tets, t.reg < nreg) : totalVol G p mag nreg tets = (tets.map (tetVol G p)).sum := by
  unfold totalVol volumes
  have : ∀ s : List ℝ × ℝ, s.1.length = nreg → (tets.foldl (fun s t => (s.1.modify t.reg (· + tetVol G p t),
      if t.isMagnetic mag then s.2 + tetVol G p t else s.2)) s).1.sum = s.1.sum + (tets.map (tetVol G p)).sum := by
    induction tets with
    | nil => intro s _; simp
    | cons t ts ih =>
      intro s hs
      rw [List.foldl_cons, ih (fun t' h' => h t' (List.mem_cons_of_mem _ h')) _ (by simpa using hs),
        sum_modify _ _ _ (by rw [hs]; exact h t (by simp)), List.map_cons, List.sum_cons]
      ring
  rw [this _ (by simp)]
  simp

/-- the total magnetic volume is the sum over the magnetic tetrahedrons -/
theorem magVol_eq (G : Tetra.Rule) (p : ℕ → V3) (mag : ℕ → Bool) (nreg : ℕ) (tets : List Tet) :
    (volumes G p mag nreg tets).2 = ((magTet mag tets).map (tetVol G p)).sum := by
  unfold volumes
  have : ∀ s : List ℝ × ℝ, (tets.foldl (fun s t => (s.1.modify t.reg (· + tetVol G p t),
      if t.isMagnetic mag then s.2 + tetVol G p t else s.2)) s).2 = s.2 + ((magTet mag tets).map (tetVol G p)).sum := by
    induction tets with
    | nil => intro s; simp [magTet]
    | cons t ts ih =>
      intro s
      rw [List.foldl_cons, ih]
      by_cases h : t.isMagnetic mag = true
      · have e : magTet mag (t :: ts) = t :: magTet mag ts := List.filter_cons_of_pos h
        rw [e, List.map_cons, List.sum_cons, if_pos h]
        ring
      · have e : magTet mag (t :: ts) = magTet mag ts := List.filter_cons_of_neg h
        rw [e, if_neg h]
  rw [this]
  simp

/-- **C55** The total magnetic volume is the sum of the volumes of the magnetic regions. -/
theorem C55_magnetic (G : Tetra.Rule) (p : ℕ → V3) (mag : ℕ → Bool) (nreg : ℕ) (tets : List Tet)
    (h : ∀ t ∈ tets, t.reg < nreg) :
    (volumes G p mag nreg tets).2 =
      ∑ r ∈ (Finset.range nreg).filter fun r => mag r = true, (volumes G p mag nreg tets).1.getD r 0 := by
  rw [magVol_eq]
  have : ∀ r ∈ (Finset.range nreg).filter fun r => mag r = true, (volumes G p mag nreg tets).1.getD r 0 =
      ((tets.filter fun t => t.reg == r).map (tetVol G p)).sum := fun r hr =>
    C55_region G p mag nreg tets r (Finset.mem_range.mp (Finset.mem_filter.mp hr).1)
  rw [Finset.sum_congr rfl this]
  clear this
  induction tets with
  | nil => simp [magTet]
  | cons t ts ih =>
    have ih' := ih fun t' h' => h t' (List.mem_cons_of_mem _ h')
    have e : ∀ r, (((t :: ts).filter fun t => t.reg == r).map (tetVol G p)).sum =
        (if r = t.reg then tetVol G p t else 0) + ((ts.filter fun t => t.reg == r).map (tetVol G p)).sum := by
      intro r
      by_cases hr : t.reg = r
      · rw [List.filter_cons_of_pos (by simpa using hr), List.map_cons, List.sum_cons, if_pos hr.symm]
      · rw [List.filter_cons_of_neg (by simpa using hr), if_neg (Ne.symm hr), zero_add]
    simp only [e]
    rw [Finset.sum_add_distrib, ← ih', Finset.sum_ite_eq']
    have ht := h t (by simp)
    by_cases hm : mag t.reg = true
    · have e : magTet mag (t :: ts) = t :: magTet mag ts := List.filter_cons_of_pos hm
      rw [e, List.map_cons, List.sum_cons, if_pos (by simp [ht, hm])]
    · have e : magTet mag (t :: ts) = magTet mag ts := List.filter_cons_of_neg hm
      rw [e, if_neg (by simp [hm]), zero_add]

/-- **C55** After loading, every volume above is positive. -/
theorem C55_positive (G : Tetra.Rule) (hG : Tetra.Compiled G) (p : ℕ → V3) (t : Tet) (ht : 0 < Tetra.detJ (nod4 p t)) :
    0 < tetVol G p t := by
  unfold tetVol
  rw [Tetra.calcVol_eq hG.ok]
  positivity

/-! ## averages -/

/-- the elements an average runs over -/
def selected (mag : ℕ → Bool) (tets : List Tet) (region : Option ℕ) : List Tet :=
  tets.filter fun t => mag t.reg && (region == none || region == some t.reg)

/-- numerator and denominator of the average -/
theorem avg_eq (G : Tetra.Rule) (hG : Tetra.Compiled G) (p : ℕ → V3) (mag : ℕ → Bool) (nreg : ℕ) (tets : List Tet)
    (f : ℕ → ℝ) (region : Option ℕ) (hreg : ∀ r, region = some r → r < nreg ∧ mag r = true) :
    avg G p mag nreg tets f region =
      ((selected mag tets region).map fun t => tetVol G p t * ((∑ i, f (t.ind i)) / 4)).sum /
      ((selected mag tets region).map (tetVol G p)).sum := by
  have num : ((magTet mag tets).map fun t => if region ≠ some t.reg ∧ region ≠ none then 0
      else ∑ j, Tetra.weight G (nod4 p t) j * Tetra.interpS G (nod4 f t) j).sum =
      ((selected mag tets region).map fun t => tetVol G p t * ((∑ i, f (t.ind i)) / 4)).sum := by
    induction tets with
    | nil => rfl
    | cons t ts ih =>
      by_cases hm : mag t.reg = true
      · have e : magTet mag (t :: ts) = t :: magTet mag ts := List.filter_cons_of_pos hm
        rw [e, List.map_cons, List.sum_cons, ih]
        unfold selected
        by_cases hs : region = none ∨ region = some t.reg
        · rw [List.filter_cons_of_pos (by simpa [hm] using hs), List.map_cons, List.sum_cons,
            if_neg (by rcases hs with h | h <;> simp [h]), Tetra.sum_weight_interpS hG.ok]
          rfl
        · rw [List.filter_cons_of_neg (by simpa [hm] using hs), if_pos, zero_add]
          exact ⟨fun h => hs (Or.inr h), fun h => hs (Or.inl h)⟩
      · have e : magTet mag (t :: ts) = magTet mag ts := List.filter_cons_of_neg hm
        rw [e, ih]
        unfold selected
        rw [List.filter_cons_of_neg (by simp [hm])]
  unfold avg
  rw [num]
  cases region with
  | none =>
    show _ / (volumes G p mag nreg tets).2 = _
    rw [magVol_eq]
    congr 3
    unfold magTet selected
    apply List.filter_congr
    intro t _
    simp [Tet.isMagnetic]
  | some r =>
    show _ / (volumes G p mag nreg tets).1.getD r 0 = _
    rw [C55_region _ _ _ _ _ _ (hreg r rfl).1]
    congr 3
    unfold selected
    apply List.filter_congr
    intro t _
    by_cases h : t.reg = r
    · simp [h, (hreg r rfl).2]
    · have h1 : (t.reg == r) = false := by simpa using h
      have h2 : (r == t.reg) = false := by simpa using Ne.symm h
      simp [h1, h2]

/-- **C33** The average over the magnetic regions, or over one magnetic region, lies between any bounds of the
values at the nodes of the elements concerned. -/
theorem C33_between (G : Tetra.Rule) (hG : Tetra.Compiled G) (p : ℕ → V3) (mag : ℕ → Bool) (nreg : ℕ) (tets : List Tet)
    (f : ℕ → ℝ) (region : Option ℕ) (hreg : ∀ r, region = some r → r < nreg ∧ mag r = true)
    (hpos : ∀ t ∈ tets, 0 < Tetra.detJ (nod4 p t)) (lo hi : ℝ)
    (hne : ∃ t ∈ tets, mag t.reg = true ∧ (region = none ∨ region = some t.reg))
    (hb : ∀ t ∈ tets, mag t.reg = true → (region = none ∨ region = some t.reg) →
      ∀ i, lo ≤ f (t.ind i) ∧ f (t.ind i) ≤ hi) :
    lo ≤ avg G p mag nreg tets f region ∧ avg G p mag nreg tets f region ≤ hi := by
  rw [avg_eq G hG p mag nreg tets f region hreg]
  have hmem : ∀ t, t ∈ selected mag tets region ↔ t ∈ tets ∧ mag t.reg = true ∧ (region = none ∨ region = some t.reg) := by
    intro t
    unfold selected
    rw [List.mem_filter]
    simp
  have hv : ∀ t ∈ selected mag tets region, 0 < tetVol G p t := fun t ht =>
    C55_positive G hG p t (hpos t ((hmem t).mp ht).1)
  have hvpos : 0 < ((selected mag tets region).map (tetVol G p)).sum := by
    obtain ⟨t, h1, h2, h3⟩ := hne
    apply List.sum_pos
    · intro x hx
      obtain ⟨t, ht, rfl⟩ := List.mem_map.mp hx
      exact hv t ht
    · intro e
      have : t ∈ selected mag tets region := (hmem t).mpr ⟨h1, h2, h3⟩
      rw [List.map_eq_nil_iff.mp e] at this
      simp at this
  have hmean : ∀ t ∈ selected mag tets region, lo ≤ (∑ i, f (t.ind i)) / 4 ∧ (∑ i, f (t.ind i)) / 4 ≤ hi := by
    intro t ht
    obtain ⟨h1, h2, h3⟩ := (hmem t).mp ht
    have b := hb t h1 h2 h3
    rw [Fin.sum_univ_four]
    have := b 0; have := b 1; have := b 2; have := b 3
    constructor <;> linarith
  have low : lo * ((selected mag tets region).map (tetVol G p)).sum ≤
      ((selected mag tets region).map fun t => tetVol G p t * ((∑ i, f (t.ind i)) / 4)).sum := by
    rw [← List.sum_map_mul_left]
    apply List.sum_le_sum
    intro t ht
    nlinarith [hv t ht, (hmean t ht).1]
  have up : ((selected mag tets region).map fun t => tetVol G p t * ((∑ i, f (t.ind i)) / 4)).sum ≤
      hi * ((selected mag tets region).map (tetVol G p)).sum := by
    rw [← List.sum_map_mul_left]
    apply List.sum_le_sum
    intro t ht
    nlinarith [hv t ht, (hmean t ht).2]
  exact ⟨(le_div_iff₀ hvpos).mpr low, (div_le_iff₀ hvpos).mpr up⟩

/-- **C33** The average of a quantity that is uniform over the elements concerned is its value. -/
theorem C33_uniform (G : Tetra.Rule) (hG : Tetra.Compiled G) (p : ℕ → V3) (mag : ℕ → Bool) (nreg : ℕ) (tets : List Tet)
    (f : ℕ → ℝ) (region : Option ℕ) (hreg : ∀ r, region = some r → r < nreg ∧ mag r = true)
    (hpos : ∀ t ∈ tets, 0 < Tetra.detJ (nod4 p t)) (c : ℝ)
    (hne : ∃ t ∈ tets, mag t.reg = true ∧ (region = none ∨ region = some t.reg))
    (hc : ∀ t ∈ tets, mag t.reg = true → (region = none ∨ region = some t.reg) → ∀ i, f (t.ind i) = c) :
    avg G p mag nreg tets f region = c := by
  obtain ⟨h1, h2⟩ := C33_between G hG p mag nreg tets f region hreg hpos c c hne
    (fun t a b d i => by rw [hc t a b d i]; exact ⟨le_refl _, le_refl _⟩)
  exact le_antisymm h2 h1

/-- **C33** The average over all magnetic regions is the mean of the averages over the regions weighted by
their volumes. -/
theorem C33_total (G : Tetra.Rule) (hG : Tetra.Compiled G) (p : ℕ → V3) (mag : ℕ → Bool) (nreg : ℕ) (tets : List Tet)
    (f : ℕ → ℝ) (hreg : ∀ t ∈ tets, t.reg < nreg) (hpos : ∀ t ∈ tets, 0 < Tetra.detJ (nod4 p t))
    (hne : ∃ t ∈ tets, mag t.reg = true) :
    avg G p mag nreg tets f none * (volumes G p mag nreg tets).2 =
      ∑ r ∈ (Finset.range nreg).filter fun r => mag r = true,
        avg G p mag nreg tets f (some r) * (volumes G p mag nreg tets).1.getD r 0 := by
  have hmv : 0 < (volumes G p mag nreg tets).2 := by
    rw [magVol_eq]
    obtain ⟨t, h1, h2⟩ := hne
    apply List.sum_pos
    · intro x hx
      obtain ⟨t, ht, rfl⟩ := List.mem_map.mp hx
      exact C55_positive G hG p t (hpos t (List.mem_filter.mp ht).1)
    · intro e
      have : t ∈ magTet mag tets := List.mem_filter.mpr ⟨h1, h2⟩
      rw [List.map_eq_nil_iff.mp e] at this
      simp at this
  have hnone : ((selected mag tets none).map (tetVol G p)).sum = (volumes G p mag nreg tets).2 := by
    rw [magVol_eq]
    congr 2
    unfold magTet selected
    apply List.filter_congr
    intro t _
    simp [Tet.isMagnetic]
  rw [avg_eq G hG p mag nreg tets f none (by simp), hnone, div_mul_cancel₀ _ hmv.ne']
  have each : ∀ r ∈ (Finset.range nreg).filter fun r => mag r = true,
      avg G p mag nreg tets f (some r) * (volumes G p mag nreg tets).1.getD r 0 =
      ((tets.filter fun t => t.reg == r).map fun t => tetVol G p t * ((∑ i, f (t.ind i)) / 4)).sum := by
    intro r hr
    obtain ⟨hr1, hr2⟩ := Finset.mem_filter.mp hr
    have hr1 := Finset.mem_range.mp hr1
    have hsel : selected mag tets (some r) = tets.filter fun t => t.reg == r := by
      unfold selected
      apply List.filter_congr
      intro t _
      by_cases h : t.reg = r
      · simp [h, hr2]
      · have h1 : (t.reg == r) = false := by simpa using h
        have h2 : (r == t.reg) = false := by simpa using Ne.symm h
        simp [h1, h2]
    rw [avg_eq G hG p mag nreg tets f (some r) (by rintro _ ⟨⟩; exact ⟨hr1, hr2⟩), C55_region _ _ _ _ _ _ hr1, hsel]
    by_cases h0 : ((tets.filter fun t => t.reg == r).map (tetVol G p)).sum = 0
    · have hnil : (tets.filter fun t => t.reg == r) = [] := by
        by_contra hnn
        have : 0 < ((tets.filter fun t => t.reg == r).map (tetVol G p)).sum := by
          apply List.sum_pos
          · intro x hx
            obtain ⟨t, ht, rfl⟩ := List.mem_map.mp hx
            exact C55_positive G hG p t (hpos t (List.mem_filter.mp ht).1)
          · simpa using hnn
        exact this.ne' h0
      rw [hnil]
      simp
    · rw [div_mul_cancel₀ _ h0]
  rw [Finset.sum_congr rfl each]
  clear each hmv hnone hne hpos
  induction tets with
  | nil => simp [selected]
  | cons t ts ih =>
    have ih' := ih fun t' h' => hreg t' (List.mem_cons_of_mem _ h')
    have e : ∀ r, (((t :: ts).filter fun t => t.reg == r).map fun t => tetVol G p t * ((∑ i, f (t.ind i)) / 4)).sum =
        (if r = t.reg then tetVol G p t * ((∑ i, f (t.ind i)) / 4) else 0) +
          ((ts.filter fun t => t.reg == r).map fun t => tetVol G p t * ((∑ i, f (t.ind i)) / 4)).sum := by
      intro r
      by_cases hr : t.reg = r
      · rw [List.filter_cons_of_pos (by simpa using hr), List.map_cons, List.sum_cons, if_pos hr.symm]
      · rw [List.filter_cons_of_neg (by simpa using hr), if_neg (Ne.symm hr), zero_add]
    simp only [e]
    rw [Finset.sum_add_distrib, ← ih', Finset.sum_ite_eq']
    have ht := hreg t (by simp)
    by_cases hm : mag t.reg = true
    · have e : selected mag (t :: ts) none = t :: selected mag ts none := List.filter_cons_of_pos (by simp [hm])
      rw [e, List.map_cons, List.sum_cons, if_pos (by simp [ht, hm])]
    · have e : selected mag (t :: ts) none = selected mag ts none := List.filter_cons_of_neg (by simp [hm])
      rw [e, if_neg (by simp [hm]), zero_add]

/-- The restriction to magnetic regions matters: over a region that is not magnetic the code returns zero
whatever the field. -/
theorem C33_nonmagnetic (G : Tetra.Rule) (p : ℕ → V3) (mag : ℕ → Bool) (nreg : ℕ) (tets : List Tet) (f : ℕ → ℝ) (r : ℕ)
    (hr : mag r = false) : avg G p mag nreg tets f (some r) = 0 := by
  unfold avg
  have : ((magTet mag tets).map fun t => if some r ≠ some t.reg ∧ some r ≠ none then 0
      else ∑ j, Tetra.weight G (nod4 p t) j * Tetra.interpS G (nod4 f t) j).sum = 0 := by
    apply List.sum_eq_zero
    intro x hx
    obtain ⟨t, ht, rfl⟩ := List.mem_map.mp hx
    have hm : mag t.reg = true := (List.mem_filter.mp ht).2
    rw [if_pos]
    refine ⟨?_, by simp⟩
    intro e
    injection e with e
    rw [← e, hr] at hm
    simp at hm
  simp only
  rw [this, zero_div]

/-! ## concrete cases -/

/-- two regions, the second one not magnetic -/
def exT2 : List Tet := [⟨![0, 1, 2, 3], 0⟩, ⟨![4, 1, 3, 2], 1⟩]

def exP2 : ℕ → V3
  | 0 => ⟨0, 0, 0⟩
  | 1 => ⟨1, 0, 0⟩
  | 2 => ⟨0, 1, 0⟩
  | 3 => ⟨0, 0, 1⟩
  | _ => ⟨1, 1, 1⟩

theorem ex2_pos : ∀ t ∈ exT2, 0 < Tetra.detJ (nod4 exP2 t) := by
  intro t ht
  simp only [exT2, List.mem_cons, List.not_mem_nil, or_false] at ht
  rcases ht with rfl | rfl <;> rw [Tetra.detJ_eq] <;> simp [nod4, exP2, V3.dot, V3.cross]

/-- C55: the volumes are 1/6 and 1/3 -/
example : totalVol Tetra.rule5 exP2 (· == 0) 2 exT2 = 1 / 2 ∧ (volumes Tetra.rule5 exP2 (· == 0) 2 exT2).2 = 1 / 6 := by
  have v0 : tetVol Tetra.rule5 exP2 ⟨![0, 1, 2, 3], 0⟩ = 1 / 6 := by
    unfold tetVol
    rw [Tetra.calcVol_eq Tetra.rule5_ok, Tetra.detJ_eq]
    simp [nod4, exP2, V3.dot, V3.cross]
  have v1 : tetVol Tetra.rule5 exP2 ⟨![4, 1, 3, 2], 1⟩ = 1 / 3 := by
    unfold tetVol
    have e : nod4 exP2 ⟨![4, 1, 3, 2], 1⟩ = ![⟨1, 1, 1⟩, ⟨1, 0, 0⟩, ⟨0, 0, 1⟩, ⟨0, 1, 0⟩] := by
      funext i
      fin_cases i <;> rfl
    rw [Tetra.calcVol_eq Tetra.rule5_ok, Tetra.detJ_eq, e]
    simp [V3.dot, V3.cross]
    norm_num
  constructor
  · rw [C55_total _ _ _ _ _ (by decide)]
    simp only [exT2, List.map_cons, List.map_nil, List.sum_cons, List.sum_nil, v0, v1]
    norm_num
  · rw [magVol_eq]
    have : magTet (· == 0) exT2 = [⟨![0, 1, 2, 3], 0⟩] := rfl
    rw [this]
    simp only [List.map_cons, List.map_nil, List.sum_cons, List.sum_nil, v0]
    norm_num

/-- C33: the average over the magnetic region of the rank of the node is between 0 and 3; node 4, outside this
region, does not count -/
example : 0 ≤ avg Tetra.rule5 exP2 (· == 0) 2 exT2 (fun i => (i : ℝ)) (some 0) ∧
    avg Tetra.rule5 exP2 (· == 0) 2 exT2 (fun i => (i : ℝ)) (some 0) ≤ 3 := by
  apply C33_between _ (Or.inr rfl) _ _ _ _ _ _ (by rintro _ ⟨⟩; simp) ex2_pos
  · exact ⟨⟨![0, 1, 2, 3], 0⟩, by simp [exT2], rfl, Or.inr rfl⟩
  · intro t ht hm _ i
    simp only [exT2, List.mem_cons, List.not_mem_nil, or_false] at ht
    rcases ht with rfl | rfl
    · fin_cases i <;> norm_num
    · simp at hm

end Verif.MeshElem
