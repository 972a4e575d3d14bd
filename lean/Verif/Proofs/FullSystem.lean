import Mathlib.LinearAlgebra.Matrix.ToLin
import Mathlib.LinearAlgebra.Matrix.NonsingularInverse
import Verif.Props.LlgElem

/-!
# Systems assembled from all tetrahedrons without clearing (electrostatics, spin diffusion)
-/

namespace Verif.Assembly

open Verif.Mesh Verif.SparseMat Verif.Llg

/-- a bilinear form of the contribution of an element is a form on its nodes -/
theorem contribution_form' (D : ℕ) {N : ℕ} (e : Elem N ℝ) (nod : ℕ) (h : ∀ k, e.ind k < nod) (f g : ℕ → ℝ) :
    ∑ r ∈ Finset.range (D * nod), ∑ c ∈ Finset.range (D * nod), f r * e.contribution D r c * g c =
      ∑ i : Fin N, ∑ k : Fin N, ∑ a : Fin D, ∑ b : Fin D,
        f (D * e.ind i + a) * e.Ke ((a : ℕ) * N + i) ((b : ℕ) * N + k) * g (D * e.ind k + b) := by
  have e1 : ∀ r c, e.contribution D r c = ∑ q : (Fin N × Fin N) × (Fin D × Fin D),
      if D * e.ind q.1.1 + q.2.1 = r ∧ D * e.ind q.1.2 + q.2.2 = c then
        e.Ke ((q.2.1 : ℕ) * N + q.1.1) ((q.2.2 : ℕ) * N + q.1.2) else 0 := by
    intro r c
    unfold Elem.contribution
    rw [Fintype.sum_prod_type, Fintype.sum_prod_type]
    refine Finset.sum_congr rfl fun i _ => Finset.sum_congr rfl fun k _ => ?_
    rw [Fintype.sum_prod_type, Finset.sum_range]
    refine Finset.sum_congr rfl fun a _ => ?_
    rw [Finset.sum_range]
  have lt : ∀ (i : Fin N) (a : Fin D), D * e.ind i + a < D * nod := fun i a =>
    lt_of_lt_of_le (Nat.add_lt_add_left a.2 _) (block_le (h i))
  simp only [e1]
  rw [sum_point Finset.univ (D * nod) (fun q : (Fin N × Fin N) × (Fin D × Fin D) => D * e.ind q.1.1 + q.2.1)
    (fun q => D * e.ind q.1.2 + q.2.2) (fun q => e.Ke ((q.2.1 : ℕ) * N + q.1.1) ((q.2.2 : ℕ) * N + q.1.2))]
  · rw [Fintype.sum_prod_type, Fintype.sum_prod_type]
    refine Finset.sum_congr rfl fun i _ => Finset.sum_congr rfl fun k _ => ?_
    rw [Fintype.sum_prod_type]
  · intro q _; exact lt _ _
  · intro q _; exact lt _ _

/-- coefficients of a system assembled from all tetrahedrons -/
noncomputable def fullCoef (D : ℕ) (tets : List Tet) (elem : Tet → Elem 4 ℝ) (r c : ℕ) : ℝ :=
  (tets.map fun t => (elem t).contribution D r c).sum

/-- several assemblies one after the other, never cleared: the coefficients add up -/
theorem full_matrix (D nod : ℕ) (tets : List Tet) (hv : IndicesValid nod tets) (calls : List (Tet → Elem 4 ℝ))
    (hind : ∀ el ∈ calls, ∀ t, (el t).ind = t.ind) :
    ∃ m, (ofShape (fullShape D nod tets) : Sp ℝ).run (calls.flatMap fun el => fullOps D (elems el tets)) = some m ∧
      m.WF (fullShape D nod tets) ∧
      ∀ a b, a < D * nod → m.get a b = some ((calls.map fun el => fullCoef D tets el a b).sum) := by
  have hin : ∀ o ∈ calls.flatMap (fun el => fullOps D (elems el tets)), o.InShape (fullShape D nod tets) := by
    intro o ho
    obtain ⟨el, hel, ho⟩ := List.mem_flatMap.mp ho
    exact (C21_full D nod tets hv el (hind el hel) tets fun t h => h).1 o ho
  obtain ⟨m, hm, hget, _⟩ := C18_refines_table (α := ℝ) (fullShape D nod tets) _ hin
  refine ⟨m, hm, reachable_wf _ _ hin m hm, ?_⟩
  intro a b ha
  rw [hget a b (by
    unfold fullShape
    rw [(buildShape_in D nod _ _ (edges_lt hv) a b).1]; exact ha)]
  congr 1
  have hadd : AllAdd (calls.flatMap fun el => fullOps D (elems el tets)) := by
    intro o ho
    obtain ⟨el, _, ho⟩ := List.mem_flatMap.mp ho
    exact allAdd_flatMap _ o ho
  rw [run_adds _ hadd, zero_add, sum_map_flatMap]
  congr 1
  refine List.map_congr_left fun el _ => ?_
  unfold fullOps fullCoef elems
  rw [sum_map_flatMap]
  simp only [buildMat_sum]
  rw [List.map_map]
  rfl

/-- the product with the matrix -/
theorem mult_eq (D nod : ℕ) (tets : List Tet) (hv : IndicesValid nod tets) (m : Sp ℝ) (hw : m.WF (fullShape D nod tets))
    (M : ℕ → ℕ → ℝ) (hM : ∀ a b, a < D * nod → m.get a b = some (M a b)) (x : Fin (D * nod) → ℝ) :
    m.mult (ext x) = List.ofFn fun i : Fin (D * nod) => ∑ j : Fin (D * nod), M i j * x j := by
  have hlen : (fullShape D nod tets).length = D * nod := (buildShape_in D nod _ _ (edges_lt hv) 0 0).1
  have hsq : ∀ st ∈ fullShape D nod tets, ∀ j ∈ st, j < (fullShape D nod tets).length := by
    intro st hst j hj
    obtain ⟨i, hi, e⟩ := List.getElem_of_mem hst
    rw [hlen]
    exact (C21_columns D nod tets hv _ i j ⟨st, List.getElem?_eq_some_iff.mpr ⟨hi, e⟩, hj⟩).2
  obtain ⟨hl, hmul⟩ := C19_mult _ hsq m hw (ext x)
  apply List.ext_getElem?
  intro i
  by_cases hi : i < D * nod
  · rw [hmul i (by rw [hlen]; exact hi), List.getElem?_ofFn, dif_pos hi, hlen, Finset.sum_range]
    congr 1
    refine Finset.sum_congr rfl fun j _ => ?_
    rw [hM i j hi]
    unfold ext
    rw [dif_pos j.2]
    rfl
  · rw [List.getElem?_eq_none (by rw [hl, hlen]; omega), List.getElem?_eq_none (by simp; omega)]

open Classical in
/-- a linear system with some components prescribed and the equations of the others has exactly one solution when its
form only vanishes at 0 for vectors that vanish at the prescribed components -/
theorem dirichlet_unique {n : ℕ} (M : Fin n → Fin n → ℝ) (S : Fin n → Prop)
    (h : ∀ z : Fin n → ℝ, (∀ i, S i → z i = 0) → (∑ i, ∑ j, z i * M i j * z j) = 0 → ∀ i, z i = 0) (b v : Fin n → ℝ) :
    ∃! x : Fin n → ℝ, (∀ i, S i → x i = v i) ∧ ∀ i, ¬ S i → ∑ j, M i j * x j = b i := by
  let M' : Matrix (Fin n) (Fin n) ℝ := fun i j => if S i then (if i = j then 1 else 0) else M i j
  have hM' : ∀ (x : Fin n → ℝ) i, M'.mulVec x i = if S i then x i else ∑ j, M i j * x j := by
    intro x i
    show ∑ j, (if S i then (if i = j then (1 : ℝ) else 0) else M i j) * x j = _
    by_cases hi : S i
    · simp only [if_pos hi, ite_mul, one_mul, zero_mul, Finset.sum_ite_eq, Finset.mem_univ, if_true]
    · simp only [if_neg hi]
  have hinj : Function.Injective M'.mulVec := by
    intro x y hxy
    have h0 : M'.mulVec (x - y) = 0 := by rw [Matrix.mulVec_sub, hxy, sub_self]
    have hz := h (x - y) (fun i hi => by
      have := congrFun h0 i
      rw [hM', if_pos hi] at this
      exact this) (by
      apply Finset.sum_eq_zero
      intro i _
      have := congrFun h0 i
      rw [hM'] at this
      by_cases hi : S i
      · rw [if_pos hi] at this
        have this : (x - y) i = 0 := this
        simp [this]
      · rw [if_neg hi] at this
        simp only [mul_assoc]
        rw [← Finset.mul_sum, this]
        simp)
    funext i
    exact sub_eq_zero.mp (hz i)
  have hunit : IsUnit M' := Matrix.mulVec_injective_iff_isUnit.mp hinj
  have hdet := (Matrix.isUnit_iff_isUnit_det M').mp hunit
  let r : Fin n → ℝ := fun i => if S i then v i else b i
  have key : ∀ x : Fin n → ℝ, ((∀ i, S i → x i = v i) ∧ ∀ i, ¬ S i → ∑ j, M i j * x j = b i) ↔ M'.mulVec x = r := by
    intro x
    constructor
    · intro hx
      funext i
      rw [hM']
      show _ = if S i then v i else b i
      by_cases hi : S i
      · rw [if_pos hi, if_pos hi, hx.1 i hi]
      · rw [if_neg hi, if_neg hi, hx.2 i hi]
    · intro hx
      constructor
      · intro i hi
        have := congrFun hx i
        rw [hM', if_pos hi] at this
        rw [this]; exact if_pos hi
      · intro i hi
        have := congrFun hx i
        rw [hM', if_neg hi] at this
        rw [this]; exact if_neg hi
  refine ⟨M'⁻¹.mulVec r, (key _).mpr ?_, fun y hy => ?_⟩
  · rw [Matrix.mulVec_mulVec, Matrix.mul_nonsing_inv _ hdet, Matrix.one_mulVec]
  · apply hinj
    rw [(key y).mp hy, Matrix.mulVec_mulVec, Matrix.mul_nonsing_inv _ hdet, Matrix.one_mulVec]

/-- the form of the assembled matrix is the sum of the forms of the elements -/
theorem full_form (D nod : ℕ) (tets : List Tet) (hv : IndicesValid nod tets) (elem : Tet → Elem 4 ℝ)
    (hind : ∀ t, (elem t).ind = t.ind) (f g : ℕ → ℝ) :
    ∑ r ∈ Finset.range (D * nod), ∑ c ∈ Finset.range (D * nod), f r * fullCoef D tets elem r c * g c =
      (tets.map fun t => ∑ i : Fin 4, ∑ k : Fin 4, ∑ a : Fin D, ∑ b : Fin D,
        f (D * t.ind i + a) * (elem t).Ke ((a : ℕ) * 4 + i) ((b : ℕ) * 4 + k) * g (D * t.ind k + b)).sum := by
  have e : ∀ r c, f r * fullCoef D tets elem r c * g c =
      (tets.map fun t => f r * (elem t).contribution D r c * g c).sum := by
    intro r c
    unfold fullCoef
    rw [List.sum_map_mul_right, List.sum_map_mul_left]
  simp only [e]
  simp only [sum_list_comm]
  congr 1
  refine List.map_congr_left fun t ht => ?_
  have := contribution_form' D (elem t) nod (by rw [hind]; exact hv t ht) f g
  rw [this, hind]

/-- a linear form of the contribution of an element to the right hand side -/
theorem rhs_form (D : ℕ) {N : ℕ} (e : Elem N ℝ) (nod : ℕ) (h : ∀ k, e.ind k < nod) (f : ℕ → ℝ) :
    ∑ r ∈ Finset.range (D * nod), f r * e.rhsContribution D r =
      ∑ i : Fin N, ∑ a : Fin D, f (D * e.ind i + a) * e.Le ((a : ℕ) * N + i) := by
  unfold Elem.rhsContribution
  simp only [Finset.mul_sum]
  rw [Finset.sum_comm]
  refine Finset.sum_congr rfl fun i _ => ?_
  rw [Finset.sum_comm, Finset.sum_range]
  refine Finset.sum_congr rfl fun a _ => ?_
  have hlt : D * e.ind i + a < D * nod := lt_of_lt_of_le (Nat.add_lt_add_left a.2 _) (block_le (h i))
  rw [Finset.sum_eq_single (D * e.ind i + a)]
  · rw [if_pos rfl]
  · intro b _ hb
    rw [if_neg (Ne.symm hb), mul_zero]
  · intro hn
    exact absurd (Finset.mem_range.mpr hlt) hn

end Verif.Assembly
