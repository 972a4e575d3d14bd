import Mathlib.Data.Int.Basic
import Verif.Proofs.Assembly
import Verif.Props.SparseMat
import Verif.Props.SparseConc

/-!
# C21 (assembly stays in the shape) and C22 (assembly order)
-/

namespace Verif.Assembly

open Verif.Mesh Verif.SparseMat

variable {α : Type}

/-- the elements of a list of tetrahedrons, with arbitrary element matrices and vectors -/
def elems (elem : Tet → Elem 4 α) (tets : List Tet) : List (Elem 4 α) := tets.map elem

theorem magFilter_true {mag : ℕ → Bool} {nod : ℕ} {tets : List Tet} (hv : IndicesValid nod tets) (t : Tet)
    (ht : t ∈ magTet mag tets) (i j : Fin 4) :
    magFilter (magNode mag nod tets) (t.ind i, t.ind j) = true := by
  obtain ⟨ht1, ht2⟩ := List.mem_filter.mp ht
  have : ∀ k, (magNode mag nod tets).getD (t.ind k) false = true := fun k =>
    (magNode_iff mag nod tets _ (hv t ht1 k)).mpr ⟨t, ht1, ht2, k, rfl⟩
  unfold magFilter
  dsimp only
  rw [this i, this j]
  rfl

/-- every matrix operation of the LLG solver is in its shape -/
theorem llg_ops_inShape [One α] (mag : ℕ → Bool) (nod : ℕ) (tets : List Tet) (hv : IndicesValid nod tets)
    (elem : Tet → Elem 4 α) (hind : ∀ t, (elem t).ind = t.ind) (order : List Tet)
    (ho : ∀ t ∈ order, t ∈ magTet mag tets) :
    ∀ o ∈ llgOps (magNode mag nod tets) nod (elems elem order), o.InShape (llgShape mag nod tets) := by
  intro o h
  rcases List.mem_cons.mp h with rfl | h
  · exact trivial
  rcases List.mem_append.mp h with h | h
  · obtain ⟨e, he, h⟩ := List.mem_flatMap.mp h
    obtain ⟨t, ht, rfl⟩ := List.mem_map.mp he
    exact buildMat_inShape hv _ t (List.mem_filter.mp (ho t ht)).1 (magFilter_true hv t (ho t ht)) _ (hind t) o h
  · obtain ⟨i, hi, rfl⟩ := List.mem_map.mp h
    obtain ⟨h1, _⟩ := (mem_lvd _ _ _).mp hi
    show InShape _ _ _
    unfold llgShape
    rw [(buildShape_in 2 nod _ _ (edges_lt hv) _ _).2]
    exact ⟨i / 2, i / 2, h1, Or.inl rfl, i % 2, Nat.mod_lt _ (by omega), i % 2, Nat.mod_lt _ (by omega),
      (Nat.div_add_mod i 2).symm, (Nat.div_add_mod i 2).symm⟩

/-- **C21** (magnetization solver): whatever the connectivity, the magnetic regions, the element matrices and
the order, the assembly of a time step, repeated any number of times, only touches the shape and has no
undefined behaviour. -/
theorem C21_llg [Zero α] [One α] [Add α] (mag : ℕ → Bool) (nod : ℕ) (tets : List Tet) (hv : IndicesValid nod tets)
    (steps : List ((Tet → Elem 4 α) × List Tet)) (hind : ∀ s ∈ steps, ∀ t, (s.1 t).ind = t.ind)
    (ho : ∀ s ∈ steps, ∀ t ∈ s.2, t ∈ magTet mag tets) :
    (∀ s ∈ steps, ∀ o ∈ llgOps (magNode mag nod tets) nod (elems s.1 s.2), o.InShape (llgShape mag nod tets)) ∧
    ∃ m, (ofShape (llgShape mag nod tets) : Sp α).run
      (steps.flatMap fun s => llgOps (magNode mag nod tets) nod (elems s.1 s.2)) = some m := by
  have h1 : ∀ s ∈ steps, ∀ o ∈ llgOps (magNode mag nod tets) nod (elems s.1 s.2),
      o.InShape (llgShape mag nod tets) :=
    fun s hs => llg_ops_inShape mag nod tets hv s.1 (hind s hs) s.2 (ho s hs)
  refine ⟨h1, ?_⟩
  obtain ⟨m, hm, _⟩ := C18_refines_table (α := α) (llgShape mag nod tets)
    (steps.flatMap fun s => llgOps (magNode mag nod tets) nod (elems s.1 s.2)) (by
      intro o hmem
      obtain ⟨s, hs, hmem⟩ := List.mem_flatMap.mp hmem
      exact h1 s hs o hmem)
  exact ⟨m, hm⟩

/-- **C21** (electrostatic solver, `D = 1`, and spin diffusion solver, `D = 3`) -/
theorem C21_full [Zero α] [Add α] (D nod : ℕ) (tets : List Tet) (hv : IndicesValid nod tets)
    (elem : Tet → Elem 4 α) (hind : ∀ t, (elem t).ind = t.ind) (order : List Tet) (ho : ∀ t ∈ order, t ∈ tets) :
    (∀ o ∈ fullOps D (elems elem order), o.InShape (fullShape D nod tets)) ∧
    ∃ m, (ofShape (fullShape D nod tets) : Sp α).run (fullOps D (elems elem order)) = some m := by
  have h1 : ∀ o ∈ fullOps D (elems elem order), o.InShape (fullShape D nod tets) := by
    intro o h
    obtain ⟨e, he, h⟩ := List.mem_flatMap.mp h
    obtain ⟨t, ht, rfl⟩ := List.mem_map.mp he
    exact buildMat_inShape hv _ t (ho t ht) (fun _ _ => rfl) _ (hind t) o h
  obtain ⟨m, hm, _⟩ := C18_refines_table (α := α) (fullShape D nod tets) _ h1
  exact ⟨h1, m, hm⟩

/-- **C21**: the diagonal is in every shape, as needed by the preconditioner and by C12-C16 -/
theorem C21_diagonal (D nod : ℕ) (tets : List Tet) (hv : IndicesValid nod tets) (filter : ℕ × ℕ → Bool) (i : ℕ)
    (hi : i < D * nod) : InShape (buildShape D nod (edges tets) filter) i i := by
  rw [(buildShape_in D nod _ _ (edges_lt hv) _ _).2]
  have hD : 0 < D := by
    rcases Nat.eq_zero_or_pos D with rfl | h
    · simp at hi
    · exact h
  exact ⟨i / D, i / D, Nat.div_lt_of_lt_mul hi, Or.inl rfl, i % D, Nat.mod_lt _ hD, i % D, Nat.mod_lt _ hD,
    (Nat.div_add_mod i D).symm, (Nat.div_add_mod i D).symm⟩

/-- **C21**: every column index is that of an unknown, so products never read outside the vector -/
theorem C21_columns (D nod : ℕ) (tets : List Tet) (hv : IndicesValid nod tets) (filter : ℕ × ℕ → Bool) (i j : ℕ)
    (h : InShape (buildShape D nod (edges tets) filter) i j) : i < D * nod ∧ j < D * nod := by
  rw [(buildShape_in D nod _ _ (edges_lt hv) _ _).2] at h
  obtain ⟨a, b, ha, hab, k, hk, l, hl, rfl, rfl⟩ := h
  have hb : b < nod := by
    rcases hab with rfl | ⟨h, _⟩ | ⟨h, _⟩
    · exact ha
    · exact (edges_lt hv _ h).2
    · exact (edges_lt hv _ h).1
  have h1 := block_le (D := D) ha
  have h2 := block_le (D := D) hb
  constructor <;> omega

/-- a mesh of two tetrahedrons sharing a face, one of them magnetic, meets the hypotheses -/
example : IndicesValid 5 [⟨![3, 0, 1, 2], 1⟩, ⟨![1, 2, 3, 4], 2⟩] ∧
    magTet (fun r => r == 2) [⟨![3, 0, 1, 2], 1⟩, ⟨![1, 2, 3, 4], 2⟩] = [⟨![1, 2, 3, 4], 2⟩] := by
  constructor
  · intro t ht k
    simp only [List.mem_cons, List.not_mem_nil, or_false] at ht
    rcases ht with rfl | rfl <;> fin_cases k <;> decide
  · rfl

/-- **C22**: the matrix of a time step is, for the unknowns of magnetic nodes, the sum of the contributions of
the magnetic tetrahedrons, and the identity row for the others; this for every order of the elements and
whatever the matrix held before. -/
theorem C22_matrix [AddCommMonoid α] [One α] (mag : ℕ → Bool) (nod : ℕ) (tets : List Tet)
    (hv : IndicesValid nod tets) (elem : Tet → Elem 4 α) (hind : ∀ t, (elem t).ind = t.ind) (order : List Tet)
    (ho : order.Perm (magTet mag tets)) (before : List (Op α))
    (hb : ∀ o ∈ before, o.InShape (llgShape mag nod tets)) :
    ∃ m, (ofShape (llgShape mag nod tets) : Sp α).run
        (before ++ llgOps (magNode mag nod tets) nod (elems elem order)) = some m ∧
      ∀ a b, a < 2 * nod → b < 2 * nod →
        m.get a b = some (if a = b ∧ (magNode mag nod tets).getD (a / 2) false = false then 1
          else ((magTet mag tets).map fun t => (elem t).contribution 2 a b).sum) := by
  obtain ⟨m, hm, hget, _⟩ := C18_refines_table (α := α) (llgShape mag nod tets)
    (before ++ llgOps (magNode mag nod tets) nod (elems elem order)) (by
      intro o h
      rcases List.mem_append.mp h with h | h
      · exact hb o h
      · exact llg_ops_inShape mag nod tets hv elem hind order (fun t ht => ho.mem_iff.mp ht) o h)
  refine ⟨m, hm, ?_⟩
  intro a b ha hb'
  rw [hget a b (by
    unfold llgShape
    rw [(buildShape_in 2 nod _ _ (edges_lt hv) a b).1]; exact ha), run_append]
  congr 1
  show Table.run (Table.exec _ Op.clear) _ a b = _
  rw [run_append, run_sets, run_adds _ (allAdd_flatMap _), sum_map_flatMap]
  simp only [buildMat_sum, Table.exec, zero_add, mem_lvd]
  have h2 : a / 2 < nod := by omega
  simp only [h2, true_and]
  congr 1
  unfold elems
  rw [List.map_map]
  exact (ho.map _).sum_eq

/-- **C22**: the same for assembly by any number of threads, each given any part of the magnetic elements, in
any interleaving of their elementary memory steps (before the diagonal is set for non-magnetic nodes). -/
theorem C22_concurrent [AddCommMonoid α] {T : ℕ} (mag : ℕ → Bool) (nod : ℕ) (tets : List Tet)
    (hv : IndicesValid nod tets) (elem : Tet → Elem 4 α) (hind : ∀ t, (elem t).ind = t.ind)
    (parts : Fin T → List Tet) (hp : ((List.finRange T).flatMap parts).Perm (magTet mag tets))
    (m : Sp α) (w : m.WF (llgShape mag nod tets)) (hz : m.Holds (llgShape mag nod tets) fun _ _ => 0)
    (prog : Fin T → List (SparseConc.Call α))
    (hprog : ∀ t, (prog t).map (fun c => Op.add c.i c.j c.v) = (elems elem (parts t)).flatMap (buildMat 2))
    (s : SparseConc.St α T)
    (hr : SparseConc.Reach (SparseConc.lookOf m) (SparseConc.start (SparseConc.memOf m) prog) s)
    (hd : SparseConc.Done s) (a b : ℕ) (hab : InShape (llgShape mag nod tets) a b) :
    (SparseConc.withMem m s.mem).get a b =
      some ((magTet mag tets).map fun t => (elem t).contribution 2 a b).sum := by
  have hin : ∀ t, ∀ c ∈ prog t, InShape (llgShape mag nod tets) c.i c.j := by
    intro t c hc
    have h1 : Op.add c.i c.j c.v ∈ (elems elem (parts t)).flatMap (buildMat 2) := by
      rw [← hprog]; exact List.mem_map.mpr ⟨c, hc, rfl⟩
    obtain ⟨e, he, h⟩ := List.mem_flatMap.mp h1
    obtain ⟨t', ht', rfl⟩ := List.mem_map.mp he
    have hmag : t' ∈ magTet mag tets :=
      hp.mem_iff.mp (List.mem_flatMap.mpr ⟨t, List.mem_finRange t, ht'⟩)
    exact buildMat_inShape hv _ t' (List.mem_filter.mp hmag).1 (magFilter_true hv t' hmag) _ (hind t') _ h
  obtain ⟨x, hx, hres⟩ := SparseConc.C20_matrix _ m w prog hin s hr hd a b hab
  have ha : a < (llgShape mag nod tets).length := by
    obtain ⟨st, hs, _⟩ := hab
    exact (List.getElem?_eq_some_iff.mp hs).1
  rw [hz a b ha] at hx
  cases hx
  rw [hres, zero_add]
  congr 1
  have hsum : ∀ t, SparseConc.addedTo (prog t) a b = ((parts t).map fun t' => (elem t').contribution 2 a b).sum := by
    intro t
    have h1 : SparseConc.addedTo (prog t) a b =
        (((elems elem (parts t)).flatMap (buildMat 2)).map (opVal a b)).sum := by
      rw [← hprog, List.map_map]
      unfold SparseConc.addedTo
      congr 1
      apply List.map_congr_left
      intro c _
      simp only [Function.comp, opVal, eq_comm]
    rw [h1, sum_map_flatMap]
    simp only [buildMat_sum]
    unfold elems
    rw [List.map_map]
    rfl
  simp only [hsum]
  rw [← sum_finRange, ← sum_map_flatMap]
  exact (hp.map _).sum_eq

/-- **C22** (right hand side): the vector of a time step is the sum of the contributions of the magnetic
tetrahedrons and triangles for the unknowns of magnetic nodes, zero for the others, for every order. `F` is the type
of the triangles (with their jump of magnetization). -/
theorem C22_rhs [AddCommMonoid α] (mag : ℕ → Bool) (nod : ℕ) (tets : List Tet) (hv : IndicesValid nod tets)
    (elem : Tet → Elem 4 α) (hind : ∀ t, (elem t).ind = t.ind) (order : List Tet)
    (ho : order.Perm (magTet mag tets)) {F : Type} (tris : List F) (elemT : F → Elem 3 α)
    (hvt : ∀ f ∈ tris, ∀ k, (elemT f).ind k < nod) (orderT : List F) (hoT : orderT.Perm tris) :
    ∃ v, llgRhs (magNode mag nod tets) nod (order.map elem) (orderT.map elemT) = some v ∧ v.length = 2 * nod ∧
      ∀ r, r < 2 * nod → v.getD r 0 =
        if (magNode mag nod tets).getD (r / 2) false = false then 0
        else ((magTet mag tets).map fun t => (elem t).rhsContribution 2 r).sum +
          (tris.map fun f => (elemT f).rhsContribution 2 r).sum := by
  have hlt : ∀ {N : ℕ} (e : Elem N α), (∀ k, e.ind k < nod) → ∀ p ∈ buildVectCalls 2 e, p.1 < 2 * nod := by
    intro N e he p hp
    simp only [buildVectCalls, List.mem_flatMap, List.mem_finRange, true_and, List.mem_map, List.mem_range] at hp
    obtain ⟨ie, di, hdi, rfl⟩ := hp
    have := block_le (D := 2) (he ie)
    dsimp only
    omega
  obtain ⟨w, h1, h2, h3⟩ := runVect_spec
    ((order.map elem).flatMap (buildVectCalls 2) ++ (orderT.map elemT).flatMap (buildVectCalls 2))
    (List.replicate (2 * nod) (0 : α)) (by
      intro p hp
      rw [List.length_replicate]
      rcases List.mem_append.mp hp with hp | hp
      · obtain ⟨e, he, hp⟩ := List.mem_flatMap.mp hp
        obtain ⟨t, ht, rfl⟩ := List.mem_map.mp he
        refine hlt _ ?_ p hp
        intro k
        rw [hind]
        exact hv t (List.mem_filter.mp (ho.mem_iff.mp ht)).1 k
      · obtain ⟨e, he, hp⟩ := List.mem_flatMap.mp hp
        obtain ⟨t, ht, rfl⟩ := List.mem_map.mp he
        refine hlt _ ?_ p hp
        intro k
        exact hvt t (hoT.mem_iff.mp ht) k)
  rw [List.length_replicate] at h2 h3
  obtain ⟨l1, l2⟩ := foldl_set_zero (lvd (magNode mag nod tets) nod) w
  refine ⟨_, ?_, l1.trans h2, ?_⟩
  · unfold llgRhs
    rw [h1]
    rfl
  · intro r hr
    rw [l2, h3 r hr]
    simp only [mem_lvd]
    have : r / 2 < nod := by omega
    simp only [this, true_and]
    congr 1
    rw [List.map_append, List.sum_append, sum_map_flatMap, sum_map_flatMap, List.map_map, List.map_map]
    simp only [Function.comp_def, buildVect_sum]
    have hz : (List.replicate (2 * nod) (0 : α)).getD r 0 = 0 := by
      simp [List.getD_eq_getElem?_getD, hr]
    rw [hz, zero_add, (ho.map _).sum_eq, (hoT.map _).sum_eq]

end Verif.Assembly
