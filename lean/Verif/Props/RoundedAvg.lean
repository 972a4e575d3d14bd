import Verif.Proofs.RoundedAvg
import Verif.Props.Rounded

/-!
# C89: the averages in the table do not depend on the number of threads, up to rounding
-/

namespace Verif.Rounded

open Verif.Mesh Verif.MeshElem

/-- number of magnetic elements -/
def magCount (mag : ℕ → Bool) (tets : List Tet) : ℕ := (tets.filter fun t => mag t.reg).length

/-- However the threads share and order the elements, and whatever the rounding of each operation, the average differs from the exact one by at most
`1.02 (N + 13) ε` times the bound of the quantity times the sum of the moduli of the weights over the volume (`N` magnetic elements). -/
theorem C89_accuracy {ε : ℝ} (hε : 0 ≤ ε) (G : Tetra.Rule) (hG : Tetra.Compiled G) (wt : Tet → Fin G.n → ℝ) (V : ℝ) (hV : 0 < V) (mag : ℕ → Bool)
    (tets : List Tet) (f : ℕ → ℝ) (region : Option ℕ) (M : ℝ) (hM : 0 ≤ M) (hf : ∀ t ∈ tets, Counts mag region t → ∀ i, |f (t.ind i)| ≤ M)
    (hN : ((magCount mag tets + 13 : ℕ) : ℝ) * ε ≤ 1 / 100) (r : ℝ) (h : RAvg ε G wt V mag tets f region r) :
    |r - TrueAvg G wt V mag tets f region| ≤ 1.02 * (((magCount mag tets + 13 : ℕ) : ℝ) * ε) * (AbsWeight G wt mag tets region / V * M) := by
  have h1 := avg_near hε hG hV hM hf h
  have h2 := gam_le hε hN
  have h0 : 0 ≤ AbsWeight G wt mag tets region / V * M := by
    refine mul_nonneg (div_nonneg ?_ hV.le) hM
    unfold AbsWeight
    apply List.sum_nonneg
    intro x hx
    obtain ⟨t, -, rfl⟩ := List.mem_map.mp hx
    split_ifs
    · exact Finset.sum_nonneg fun j _ => abs_nonneg _
    · exact le_refl _
  have e : AbsWeight G wt mag tets region * M / V = AbsWeight G wt mag tets region / V * M := by ring
  rw [e] at h1
  exact h1.trans (mul_le_mul_of_nonneg_right h2 h0)

/-- Two evaluations with other numbers of threads, or another order, give the same average up to rounding. -/
theorem C89_threads {ε : ℝ} (hε : 0 ≤ ε) (G : Tetra.Rule) (hG : Tetra.Compiled G) (wt : Tet → Fin G.n → ℝ) (V : ℝ) (hV : 0 < V) (mag : ℕ → Bool)
    (tets : List Tet) (f : ℕ → ℝ) (region : Option ℕ) (M : ℝ) (hM : 0 ≤ M) (hf : ∀ t ∈ tets, Counts mag region t → ∀ i, |f (t.ind i)| ≤ M)
    (hN : ((magCount mag tets + 13 : ℕ) : ℝ) * ε ≤ 1 / 100) (r r' : ℝ) (h : RAvg ε G wt V mag tets f region r)
    (h' : RAvg ε G wt V mag tets f region r') :
    |r - r'| ≤ 2.04 * (((magCount mag tets + 13 : ℕ) : ℝ) * ε) * (AbsWeight G wt mag tets region / V * M) := by
  have a := C89_accuracy hε G hG wt V hV mag tets f region M hM hf hN r h
  have b := C89_accuracy hε G hG wt V hV mag tets f region M hM hf hN r' h'
  have := abs_sub_le r (TrueAvg G wt V mag tets f region) r'
  rw [abs_sub_comm (TrueAvg G wt V mag tets f region) r'] at this
  linarith

/-- The exact average of `C33` is `TrueAvg` for the exact weights and volume. -/
theorem C89_reference (G : Tetra.Rule) (p : ℕ → V3) (mag : ℕ → Bool) (nreg : ℕ) (tets : List Tet) (f : ℕ → ℝ) (region : Option ℕ) :
    avg G p mag nreg tets f region = TrueAvg G (fun t => Tetra.weight G (nod4 p t))
      (volumeOf G p mag nreg tets region) mag tets f region := by
  have hv : avg G p mag nreg tets f region = ((magTet mag tets).map fun t => if region ≠ some t.reg ∧ region ≠ none then 0
      else ∑ j, Tetra.weight G (nod4 p t) j * Tetra.interpS G (nod4 f t) j).sum / volumeOf G p mag nreg tets region := by
    cases region <;> rfl
  rw [hv]
  unfold TrueAvg
  congr 1
  clear hv
  induction tets with
  | nil => rfl
  | cons t ts ih =>
    have ih' := ih
    by_cases hm : mag t.reg = true
    · rw [show magTet mag (t :: ts) = t :: magTet mag ts from List.filter_cons_of_pos hm]
      rw [List.map_cons, List.sum_cons, ih', List.map_cons, List.sum_cons]
      congr 1
      by_cases hc : Counts mag region t
      · rw [if_pos hc, if_neg (by rintro ⟨h1, h2⟩; exact hc.2.elim h2 h1)]
        refine Finset.sum_congr rfl fun j _ => ?_
        congr 1
        exact Finset.sum_congr rfl fun i _ => mul_comm _ _
      · rw [if_neg hc, if_pos ⟨fun e => hc ⟨hm, Or.inr e⟩, fun e => hc ⟨hm, Or.inl e⟩⟩]
    · rw [show magTet mag (t :: ts) = magTet mag ts from List.filter_cons_of_neg hm]
      rw [ih', List.map_cons, List.sum_cons, if_neg (fun hc => hm hc.1), zero_add]

/-- The components of the average magnetization (columns `<Mx>`, `<My>`, `<Mz>`): if the weights and the volume are exact and the magnetization is of
length 1 up to rounding (`C88`), the error is at most `2.7 (N + 13) ε`. In double precision this is below 10⁻⁹ for meshes of up to three
million elements. -/
theorem C89_magnetization {ε : ℝ} (hε : 0 ≤ ε) (hε1 : ε ≤ 1 / 1000) (G : Tetra.Rule) (hG : Tetra.Compiled G) (p : ℕ → V3) (mag : ℕ → Bool)
    (nreg : ℕ) (tets : List Tet) (hpos : ∀ t ∈ tets, 0 < Tetra.detJ (nod4 p t)) (u : ℕ → V3) (region : Option ℕ)
    (hreg : ∀ r, region = some r → r < nreg ∧ mag r = true) (hne : ∃ t ∈ tets, Counts mag region t)
    (hu : ∀ t ∈ tets, mag t.reg = true → ∀ i, NearUnit (4 * ε) (u (t.ind i)))
    (hN : ((magCount mag tets + 13 : ℕ) : ℝ) * ε ≤ 1 / 100) (f : ℕ → ℝ)
    (hf : f = (fun i => (u i).x) ∨ f = (fun i => (u i).y) ∨ f = (fun i => (u i).z)) (r : ℝ)
    (h : RAvg ε G (fun t => Tetra.weight G (nod4 p t))
      (volumeOf G p mag nreg tets region) mag tets f region r) :
    |r - avg G p mag nreg tets f region| ≤ 2.7 * (((magCount mag tets + 13 : ℕ) : ℝ) * ε) := by
  have hVW := volume_weight G hG p mag nreg tets region hreg hpos hne
  obtain ⟨hV, hW⟩ := hVW
  have hf' : ∀ t ∈ tets, Counts mag region t → ∀ i, |f (t.ind i)| ≤ 1 + 4 * ε := by
    intro t ht hc i
    obtain ⟨c1, c2, c3⟩ := C88_components _ _ (hu t ht hc.1 i)
    rcases hf with rfl | rfl | rfl
    · exact c1
    · exact c2
    · exact c3
  have key := C89_accuracy hε G hG _ _ hV mag tets f region (1 + 4 * ε) (by linarith) hf' hN r h
  rw [C89_reference]
  refine key.trans ?_
  have hq : AbsWeight G (fun t => Tetra.weight G (nod4 p t)) mag tets region /
      (volumeOf G p mag nreg tets region) ≤ 13 / 5 := by
    rw [div_le_iff₀ hV]
    exact hW
  have hx : 0 ≤ ((magCount mag tets + 13 : ℕ) : ℝ) * ε := by positivity
  have hm := mul_le_mul hq (by linarith : 1 + 4 * ε ≤ 1.004) (by linarith) (by norm_num)
  have := mul_le_mul_of_nonneg_left hm (by positivity : 0 ≤ 1.02 * (((magCount mag tets + 13 : ℕ) : ℝ) * ε))
  refine this.trans ?_
  nlinarith

/-! ### existence, example -/

/-- The exact result is among those allowed: the relation is not empty. -/
theorem C89_exact {ε : ℝ} (hε : 0 ≤ ε) (G : Tetra.Rule) (hG : Tetra.Compiled G) (wt : Tet → Fin G.n → ℝ) (V : ℝ) (mag : ℕ → Bool) (tets : List Tet)
    (f : ℕ → ℝ) (region : Option ℕ) : RAvg ε G wt V mag tets f region (TrueAvg G wt V mag tets f region) := by
  classical
  have hn : 0 < G.n := by rcases hG with rfl | rfl <;> decide
  set X : Tet → ℝ := fun t => if Counts mag region t then ∑ j, wt t j * ∑ i, G.a i j * f (t.ind i) else 0 with hX
  refine ⟨(magTet mag tets).map X, 0 + ((magTet mag tets).map X).sum, ?_, ?_, ?_⟩
  · have : ∀ l : List Tet, (∀ t ∈ l, mag t.reg = true) → List.Forall₂ (RElem ε G wt f region) l (l.map X) := by
      intro l
      induction l with
      | nil => intro _; exact .nil
      | cons t ts ih =>
        intro hl
        refine .cons ?_ (ih fun t ht => hl t (by simp [ht]))
        have hm := hl t (by simp)
        unfold RElem
        by_cases hc : Counts mag region t
        · rw [if_neg (by rintro ⟨h1, h2⟩; exact hc.2.elim h2 h1)]
          refine ⟨fun j => ∑ i, nod4 f t i * G.a i j, fun j => RDot.exact (by norm_num) hε _ _, ?_⟩
          have e : X t = ∑ j, wt t j * ∑ i, nod4 f t i * G.a i j := by
            rw [hX]
            dsimp only
            rw [if_pos hc]
            refine Finset.sum_congr rfl fun j _ => ?_
            congr 1
            exact Finset.sum_congr rfl fun i _ => mul_comm _ _
          rw [e]
          exact RDot.exact hn hε _ _
        · rw [if_pos ⟨fun e => hc ⟨hm, Or.inr e⟩, fun e => hc ⟨hm, Or.inl e⟩⟩, hX]
          dsimp only
          rw [if_neg hc]
    exact this _ fun t ht => (List.mem_filter.mp ht).2
  · have := RSum.exact hε (((magTet mag tets).map X : List ℝ) : Multiset ℝ) 0
    rwa [Multiset.sum_coe] at this
  · have e : TrueAvg G wt V mag tets f region = (0 + ((magTet mag tets).map X).sum) / V := by
      unfold TrueAvg
      rw [zero_add, sum_magTet]
    rw [e]
    exact Rnd.refl hε _

/-- a tetrahedron -/
def exTet : Tet := ⟨fun i => i, 1⟩

/-- the hypotheses of `C89_magnetization` hold in double precision for one tetrahedron with a magnetization that is not uniform -/
example : ∃ (p u : ℕ → V3), (∀ t ∈ [exTet], 0 < Tetra.detJ (nod4 p t)) ∧ (∃ t ∈ [exTet], Counts (fun r => r == 1) none t) ∧
    (∀ t ∈ [exTet], (fun r => r == 1) t.reg = true → ∀ i, NearUnit (4 * 2⁻¹ ^ 53) (u (t.ind i))) ∧
    (((magCount (fun r => r == 1) [exTet] + 13 : ℕ) : ℝ) * 2⁻¹ ^ 53 ≤ 1 / 100) ∧ u 0 ≠ u 1 := by
  refine ⟨fun i => if i = 1 then ⟨1, 0, 0⟩ else if i = 2 then ⟨0, 1, 0⟩ else if i = 3 then ⟨0, 0, 1⟩ else ⟨0, 0, 0⟩,
    fun i => if i = 0 then ⟨1, 0, 0⟩ else ⟨0, 3 / 5, 4 / 5⟩, ?_, ⟨exTet, by simp, ?_⟩, ?_, ?_, ?_⟩
  · intro t ht
    rw [List.mem_singleton] at ht
    subst ht
    simp [Tetra.detJ, Tetra.jac, nod4, exTet, Matrix.det_fin_three]
  · simp [Counts, exTet]
  · intro t ht _ i
    rw [List.mem_singleton] at ht
    subst ht
    fin_cases i <;> simp [exTet, NearUnit] <;> norm_num
  · have : magCount (fun r => r == 1) [exTet] = 1 := by decide
    rw [this]
    norm_num
  · simp

end Verif.Rounded
