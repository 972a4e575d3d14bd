import Verif.Props.Separate

/-!
# C122: potential and spin accumulation do not depend on the numbering of nodes and elements
-/

namespace Verif.Electro

open Verif.Mesh Verif.MeshElem Verif.Tetra Verif.Llg

/-! ## Specification -/

/-- an element with its nodes renumbered -/
def tetTo (π : Equiv.Perm ℕ) (t : Tet) : Tet := ⟨fun k => π (t.ind k), t.reg⟩

/-- a triangle with its nodes renumbered -/
def triTo (π : Equiv.Perm ℕ) (f : Tri) : Tri := ⟨fun k => π (f.ind k), f.reg⟩

/-- a nodal field after renumbering: the node `i` has become `π i` -/
def fieldTo {α : Type} (π : Equiv.Perm ℕ) (x : ℕ → α) (i : ℕ) : α := x (π.symm i)

/-- a sample with its nodes renumbered and its elements listed as `tets`, `tris` -/
def SpinData.listed (d : SpinData) (π : Equiv.Perm ℕ) (tets : List Tet) (tris : List Tri) : SpinData :=
  { d with p := fieldTo π d.p, V := fieldTo π d.V, tets := tets, tris := tris }

/-- magnetizations after renumbering -/
def magTo (π : Equiv.Perm ℕ) (s : MagState) : MagState := ⟨fieldTo π s.cur, fieldTo π s.next⟩

/-! ## Lemmas -/

theorem fieldTo_apply {α : Type} (π : Equiv.Perm ℕ) (x : ℕ → α) (i : ℕ) : fieldTo π x (π i) = x i := by
  unfold fieldTo
  rw [Equiv.symm_apply_apply]

theorem nod4_to {α : Type} (π : Equiv.Perm ℕ) (x : ℕ → α) (t : Tet) : nod4 (fieldTo π x) (tetTo π t) = nod4 x t :=
  funext fun k => fieldTo_apply π x (t.ind k)

theorem nod3_to {α : Type} (π : Equiv.Perm ℕ) (x : ℕ → α) (f : Tri) : nod3 (fieldTo π x) (triTo π f) = nod3 x f :=
  funext fun k => fieldTo_apply π x (f.ind k)

theorem spinWeak_listed (d : SpinData) (π : Equiv.Perm ℕ) {tets : List Tet} {tris : List Tri} (ht : tets.Perm (d.tets.map (tetTo π)))
    (hf : tris.Perm (d.tris.map (triTo π))) (s : MagState) (w x : ℕ → V3) :
    spinWeak (d.listed π tets tris) (magTo π s).cur (magTo π s).next (fieldTo π w) (fieldTo π x) = spinWeak d s.cur s.next w x := by
  rw [spinWeak_terms, spinWeak_terms]
  have e1 : (d.listed π tets tris).tets = tets := rfl
  have e2 : (d.listed π tets tris).tris = tris := rfl
  rw [e1, e2, (ht.map _).sum_eq, (hf.map _).sum_eq, List.map_map, List.map_map]
  congr 2
  · refine List.map_congr_left fun t _ => ?_
    have n1 : nod4 (d.listed π tets tris).p (tetTo π t) = nod4 d.p t := nod4_to π d.p t
    have n2 : nod4 (d.listed π tets tris).V (tetTo π t) = nod4 d.V t := nod4_to π d.V t
    have n3 : ∀ (y : ℕ → V3) (a : Fin 3), comp4 (fieldTo π y) a (tetTo π t) = comp4 y a t := fun y a => funext fun k => by
      unfold comp4
      exact congrArg (fun v => V3.comp v a) (fieldTo_apply π y (t.ind k))
    have n4 : ∀ (y : ℕ → V3) (k : Fin 4), fieldTo π y ((tetTo π t).ind k) = y (t.ind k) := fun y k => fieldTo_apply π y (t.ind k)
    show volTerm _ _ _ _ _ (tetTo π t) = _
    unfold volTerm
    rw [n1, n2]
    simp only [n3, n4, magTo]
    rfl
  · refine List.map_congr_left fun f _ => ?_
    have n1 : nod3 (d.listed π tets tris).p (triTo π f) = nod3 d.p f := nod3_to π d.p f
    have n4 : ∀ (y : ℕ → V3) (k : Fin 3), fieldTo π y ((triTo π f).ind k) = y (f.ind k) := fun y k => fieldTo_apply π y (f.ind k)
    show surfTerm _ _ (triTo π f) = _
    unfold surfTerm
    rw [n1]
    simp only [n4]
    rfl

theorem weakForm_listed (π : Equiv.Perm ℕ) (p : ℕ → V3) (sigma J : ℕ → ℝ) {tets tets' : List Tet} {tris tris' : List Tri} (ht : tets'.Perm (tets.map (tetTo π)))
    (hf : tris'.Perm (tris.map (triTo π))) (w V : ℕ → ℝ) :
    weakForm (fieldTo π p) sigma J tets' tris' (fieldTo π w) (fieldTo π V) = weakForm p sigma J tets tris w V := by
  unfold weakForm
  rw [(ht.map _).sum_eq, (hf.map _).sum_eq, List.map_map, List.map_map]
  congr 2
  · refine List.map_congr_left fun t _ => ?_
    simp only [Function.comp_apply, nod4_to]
    rfl
  · refine List.map_congr_left fun f _ => ?_
    have n4 : ∀ (y : ℕ → ℝ) (k : Fin 3), fieldTo π y ((triTo π f).ind k) = y (f.ind k) := fun y k => fieldTo_apply π y (f.ind k)
    simp only [Function.comp_apply, nod3_to, n4]
    rfl

theorem listed_problem {G : Rule} {H : TriElem.Rule} {nod : ℕ} {d : SpinData} (h : SpinProblem G H nod d) {π : Equiv.Perm ℕ} (hπ : ∀ i, i < nod → π i < nod)
    {tets : List Tet} {tris : List Tri} (ht : tets.Perm (d.tets.map (tetTo π))) (hf : tris.Perm (d.tris.map (triTo π))) :
    SpinProblem G H nod (d.listed π tets tris) := by
  refine ⟨h.rule, h.ruleT, fun t hm k => ?_, fun f hm k => ?_, fun t hm => ?_⟩
  · obtain ⟨t₀, h0, rfl⟩ := List.mem_map.mp (ht.mem_iff.mp hm)
    exact hπ _ (h.valid t₀ h0 k)
  · obtain ⟨f₀, h0, rfl⟩ := List.mem_map.mp (hf.mem_iff.mp hm)
    exact hπ _ (h.validT f₀ h0 k)
  · obtain ⟨t₀, h0, rfl⟩ := List.mem_map.mp (ht.mem_iff.mp hm)
    show 0 < detJ (nod4 (fieldTo π d.p) (tetTo π t₀))
    rw [nod4_to]
    exact h.oriented t₀ h0

section
variable {G : Rule} {H : TriElem.Rule} {nod : ℕ}

/-! ## Properties -/

/-- **C122** Renumbering the nodes and listing the elements in another order renumbers the spin accumulation and does not change it. -/
theorem C122_spin {d : SpinData} (h : SpinProblem G H nod d) (hm : ∀ t ∈ d.tets, Material d.c (d.vol t.reg)) {π : Equiv.Perm ℕ} (hπ : ∀ i, i < nod → π i < nod)
    {tets : List Tet} {tris : List Tri} (ht : tets.Perm (d.tets.map (tetTo π))) (hf : tris.Perm (d.tris.map (triTo π))) {hs : List MagState} (hne : hs ≠ [])
    {S : ℕ → Prop} {x y : ℕ → V3} (hx : Computed G H nod d hs S x) (hy : Computed G H nod (d.listed π tets tris) (hs.map (magTo π)) (fieldTo π S) y)
    (hS : ∀ i, S i → y (π i) = x i) : ∀ t ∈ d.tets, ∀ k, y (π (t.ind k)) = x (t.ind k) := by
  have h' := listed_problem h hπ ht hf
  have hy' : Computed G H nod d hs S fun i => y (π i) := by
    obtain ⟨sys, h1, h2⟩ := C45_history h hs
    refine ⟨sys, h1, (h2 S _).mpr fun w hw => ?_⟩
    have e := Computed.weak (d := d.listed π tets tris) (V := fieldTo π d.V) (q := d.surf) h' hy (fieldTo π w) fun i hi => hw _ hi
    have e2 : y = fieldTo π fun i => y (π i) := funext fun i => (congrArg y (Equiv.apply_symm_apply π i)).symm
    rw [← e, List.map_map]
    congr 1
    refine List.map_congr_left fun s _ => ?_
    refine (spinWeak_listed d π ht hf s w fun i => y (π i)).symm.trans ?_
    rw [← e2]
    rfl
  have z : ∀ v : V3, (1 : ℝ) * v + (0 : ℝ) * v = v := fun v => by ext <;> simp
  have := C116_superposition (d := d) (V := d.V) (V₁ := d.V) (V₂ := d.V) (q := d.surf) (q₁ := d.surf) (q₂ := d.surf) (a := 1) (b := 0) h hm
    (fun t _ => by rw [z]) (fun f _ c => by ring) hne hy' hx hx fun i hi => by rw [z, hS i hi]
  intro t ht' k
  have e := this t ht' k
  rwa [z] at e

/-- **C122** The same for the electric potential. -/
theorem C122_potential {p : ℕ → V3} {sigma : ℕ → ℝ} {prm : ℕ → SurfPrm} {tets tets' : List Tet} {tris tris' : List Tri} (h : Problem G H nod p sigma tets tris)
    {π : Equiv.Perm ℕ} (hπ : ∀ i, i < nod → π i < nod) (ht : tets'.Perm (tets.map (tetTo π))) (hf : tris'.Perm (tris.map (triTo π))) (v : ℝ) (V : ℕ → ℝ) :
    Solved G H nod (fieldTo π p) sigma prm tets' tris' v (fieldTo π V) ↔ Solved G H nod p sigma prm tets tris v V := by
  have h' : Problem G H nod (fieldTo π p) sigma tets' tris' := by
    refine ⟨h.rule, h.ruleT, fun t hm k => ?_, fun f hm k => ?_, fun t hm => ?_, fun t hm => ?_⟩
    · obtain ⟨t₀, h0, rfl⟩ := List.mem_map.mp (ht.mem_iff.mp hm)
      exact hπ _ (h.valid t₀ h0 k)
    · obtain ⟨f₀, h0, rfl⟩ := List.mem_map.mp (hf.mem_iff.mp hm)
      exact hπ _ (h.validT f₀ h0 k)
    · obtain ⟨t₀, h0, rfl⟩ := List.mem_map.mp (ht.mem_iff.mp hm)
      rw [nod4_to]
      exact h.oriented t₀ h0
    · obtain ⟨t₀, h0, rfl⟩ := List.mem_map.mp (ht.mem_iff.mp hm)
      exact h.cond t₀ h0
  have hon : ∀ i, OnPotential prm tris' (π i) ↔ OnPotential prm tris i := by
    intro i
    constructor
    · rintro ⟨f, hm, h1, k, h2⟩
      obtain ⟨f₀, h0, rfl⟩ := List.mem_map.mp (hf.mem_iff.mp hm)
      exact ⟨f₀, h0, h1, k, π.injective h2⟩
    · rintro ⟨f, hm, h1, k, h2⟩
      exact ⟨triTo π f, hf.mem_iff.mpr (List.mem_map.mpr ⟨f, hm, rfl⟩), h1, k, by rw [← h2]; rfl⟩
  obtain ⟨K, L, h1, h2⟩ := pot_solved h prm
  obtain ⟨K', L', h3, h4⟩ := pot_solved h' prm
  have hw : WeakPotential (fieldTo π p) sigma (fun r => currentDensity (prm r)) tets' tris' (OnPotential prm tris') (fieldTo π V) ↔
      WeakPotential p sigma (fun r => currentDensity (prm r)) tets tris (OnPotential prm tris) V := by
    constructor
    · intro hW w hw
      rw [← weakForm_listed π p sigma _ ht hf]
      refine hW (fieldTo π w) fun i hi => hw _ ((hon _).mp ?_)
      rwa [Equiv.apply_symm_apply]
    · intro hW w hw
      have e : w = fieldTo π fun i => w (π i) := funext fun i => (congrArg w (Equiv.apply_symm_apply π i)).symm
      rw [e, weakForm_listed π p sigma _ ht hf]
      exact hW _ fun i hi => hw _ ((hon i).mpr hi)
  constructor
  · rintro ⟨hE, K'', L'', h5, h6⟩
    rw [h3] at h5
    cases h5
    refine ⟨fun i hi => ?_, K, L, h1, (h2 _ _).mpr (hw.mp ((h4 _ _).mp h6))⟩
    have := hE (π i) ((hon i).mpr hi)
    rwa [fieldTo_apply] at this
  · rintro ⟨hE, K'', L'', h5, h6⟩
    rw [h1] at h5
    cases h5
    refine ⟨fun i hi => hE _ ((hon _).mp ?_), K', L', h3, (h4 _ _).mpr (hw.mpr ((h2 _ _).mp h6))⟩
    rwa [Equiv.apply_symm_apply]

end

/-! ## Example: the two bodies of C121, the second one listed first and with two nodes exchanged -/

theorem exSwap_lt (i : ℕ) (hi : i < 8) : Equiv.swap 0 7 i < 8 := by
  rw [Equiv.swap_apply_def]
  split_ifs <;> omega

example (s : MagState) : ∃ x y : ℕ → V3, Computed Tetra.rule5 TriElem.rule4 8 exMag2 [s] (fun i => i = 1) x ∧
    Computed Tetra.rule5 TriElem.rule4 8 (exMag2.listed (Equiv.swap 0 7) (exMag2.tets.map (tetTo (Equiv.swap 0 7))).reverse
      (exMag2.tris.map (triTo (Equiv.swap 0 7))).reverse) [magTo (Equiv.swap 0 7) s] (fieldTo (Equiv.swap 0 7) fun i => i = 1) y ∧
    y 7 = x 0 := by
  have hcov : ∀ S, Covered 8 exMag2.tets S := fun S i hi _ => by
    by_cases h4 : i < 4
    · exact ⟨Tetra.exT, by simp [exMag2], ⟨i, h4⟩, by interval_cases i <;> rfl⟩
    · exact ⟨exT2, by simp [exMag2], ⟨i - 4, by omega⟩, by interval_cases i <;> rfl⟩
  have hp := listed_problem exMag2_problem exSwap_lt (List.reverse_perm (exMag2.tets.map (tetTo (Equiv.swap 0 7))))
    (List.reverse_perm (exMag2.tris.map (triTo (Equiv.swap 0 7))))
  obtain ⟨x, hx, hx0⟩ := computed_exists exMag2_problem exMag2_material s (hcov fun i => i = 1) (by omega)
  obtain ⟨y, hy, hy0⟩ := computed_exists hp (fun t ht => by
      obtain ⟨t₀, h0, rfl⟩ := List.mem_map.mp (List.mem_reverse.mp ht)
      exact exMag2_material t₀ h0) (magTo (Equiv.swap 0 7) s) (S := fieldTo (Equiv.swap 0 7) fun i => i = 1) (fun i hi hS => by
      obtain ⟨t, ht, k, hk⟩ := hcov (fun i => i = 1) (Equiv.swap 0 7 i) (exSwap_lt i hi) hS
      refine ⟨tetTo (Equiv.swap 0 7) t, List.mem_reverse.mpr (List.mem_map.mpr ⟨t, ht, rfl⟩), k, ?_⟩
      show Equiv.swap 0 7 (t.ind k) = i
      rw [hk, Equiv.swap_apply_self]) (fun i hi => by
      have h1 : Equiv.swap 0 7 i = 1 := hi
      have h2 : i = Equiv.swap 0 7 1 := by rw [← h1, Equiv.swap_apply_self]
      rw [h2]
      exact exSwap_lt 1 (by omega))
  refine ⟨x, y, hx, hy, ?_⟩
  have := C122_spin exMag2_problem exMag2_material exSwap_lt (List.reverse_perm _) (List.reverse_perm _) (List.cons_ne_nil _ _) hx hy (fun i hi => by
    rw [hx0 i hi, hy0 _ ?_]
    show Equiv.swap 0 7 (Equiv.swap 0 7 i) = 1
    rw [Equiv.swap_apply_self]
    exact hi) Tetra.exT (by simp [exMag2]) 0
  have e : Equiv.swap 0 7 (Tetra.exT.ind 0) = 7 := Equiv.swap_apply_left 0 7
  rw [e] at this
  exact this

example : ∃ V : ℕ → ℝ, Solved Tetra.rule5 TriElem.rule4 8 (fieldTo (Equiv.swap 0 7) exP2) exSigma2 exCur2
    ([Tetra.exT, exT2].map (tetTo (Equiv.swap 0 7))).reverse (exTris2.map (triTo (Equiv.swap 0 7))).reverse 0 (fieldTo (Equiv.swap 0 7) V) := by
  obtain ⟨V, hV⟩ := solved_exists ex2_problem exCur2 ex2_connected 0
  exact ⟨V, (C122_potential ex2_problem exSwap_lt (List.reverse_perm _) (List.reverse_perm _) 0 V).mpr hV⟩

end Verif.Electro
