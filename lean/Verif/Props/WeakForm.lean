import Verif.Proofs.WeakForm

/-!
# C65: the linear system of a time step is the weak form of the equation of motion
-/

namespace Verif.WeakForm

open Verif.Mesh Verif.Assembly Verif.Tetra Verif.SparseMat Verif.Llg

/-! ## triangles -/

/-- the two tangent vectors at a node of a triangle -/
def tang3 (ep eq : Fin 3 → V3) (a : Fin 2) (i : Fin 3) : V3 := if a = 0 then ep i else eq i

def vec3 (ep eq : Fin 3 → V3) (y : Fin 2 → Fin 3 → ℝ) (i : Fin 3) : V3 := y 0 i * ep i + y 1 i * eq i

theorem matP3_apply (ep eq : Fin 3 → V3) (r : Fin 2 × Fin 3) (c : Fin 3 × Fin 3) :
    matP3 ep eq r c = if r.2 = c.2 then (tang3 ep eq r.1 r.2).comp c.1 else 0 := by
  unfold matP3 tang3
  split_ifs <;> rfl

theorem proj_vec3 (ep eq : Fin 3 → V3) (B : Fin 3 → V3) (y : Fin 2 → Fin 3 → ℝ) :
    ∑ i, ∑ a, y a i * ∑ c : Fin 3 × Fin 3, matP3 ep eq (a, i) c * (B c.2).comp c.1 =
      ∑ i, (vec3 ep eq y i).dot (B i) := by
  refine Finset.sum_congr rfl fun i _ => ?_
  simp only [matP3_apply, Fintype.sum_prod_type, ite_mul, zero_mul, Finset.sum_ite_eq, Finset.mem_univ, if_true,
    Fin.sum_univ_two]
  rw [Fin.sum_univ_three, Fin.sum_univ_three]
  have t0 : tang3 ep eq 0 i = ep i := rfl
  have t1 : tang3 ep eq 1 i = eq i := rfl
  rw [t0, t1]
  unfold vec3
  simp only [V3.comp, V3.dot, V3.add_x, V3.add_y, V3.add_z, V3.smul_x, V3.smul_y, V3.smul_z]
  ring

theorem triBE_eq (H : TriElem.Rule) (sp : SurfPrm) (dMs : ℝ) (p u w : Fin 3 → V3) :
    ∑ i, (w i).dot (TriElem.BE H sp.Ks dMs sp.uk p u i) = surfaceWork H sp dMs p u w := by
  unfold surfaceWork TriElem.BE
  have e : ∀ j, sp.uk.dot (TriElem.interpV H w j) = ∑ i, H.a i j * sp.uk.dot (w i) := by
    intro j
    unfold TriElem.interpV
    rw [dot_sum]
    exact Finset.sum_congr rfl fun i _ => dot_smul _ _ _
  simp only [e, dot_sum, Finset.mul_sum]
  rw [Finset.sum_comm]
  refine Finset.sum_congr rfl fun j _ => Finset.sum_congr rfl fun i _ => ?_
  rw [dot_smul, V3.dot_comm (w i)]
  ring

/-- the vector of an element tested with a vector -/
theorem rhs_form {N : ℕ} (e : Elem N ℝ) (nod : ℕ) (h : ∀ k, e.ind k < nod) (f : ℕ → ℝ) :
    ∑ r ∈ Finset.range (2 * nod), f r * e.rhsContribution 2 r =
      ∑ i : Fin N, ∑ a : Fin 2, f (2 * e.ind i + a) * e.Le ((a : ℕ) * N + i) := by
  unfold Elem.rhsContribution
  simp only [Finset.mul_sum, mul_ite, mul_zero]
  rw [Finset.sum_comm]
  refine Finset.sum_congr rfl fun i _ => ?_
  rw [Finset.sum_comm, Finset.sum_range]
  refine Finset.sum_congr rfl fun a _ => ?_
  rw [Finset.sum_ite_eq, if_pos]
  have := h i
  have := a.2
  exact Finset.mem_range.mpr (by omega)

theorem tri_surface (H : TriElem.Rule) (sprm : ℕ → SurfPrm) (nodes : ℕ → Node) (f : Tri × ℝ) (nod : ℕ)
    (hf : ∀ k, f.1.ind k < nod) (z : ℕ → ℝ) :
    ∑ r ∈ Finset.range (2 * nod), z (other r) * (triElem H sprm nodes f).rhsContribution 2 r =
      surfaceWork H (sprm f.1.reg) f.2 (fun i => (nodes (f.1.ind i)).p) (fun i => (nodes (f.1.ind i)).cur.u)
        (fun i => z (2 * f.1.ind i) * (nodes (f.1.ind i)).ep + z (2 * f.1.ind i + 1) * (nodes (f.1.ind i)).eq) := by
  have hind : (triElem H sprm nodes f).ind = f.1.ind := rfl
  rw [rhs_form _ nod (by rw [hind]; exact hf) fun r => z (other r), hind]
  by_cases hK : (sprm f.1.reg).Ks = 0
  · have e : ∀ r, (triElem H sprm nodes f).Le r = 0 := fun r => if_neg (not_not.mpr hK)
    simp only [e, mul_zero, Finset.sum_const_zero]
    unfold surfaceWork
    rw [hK]
    simp
  · rw [← triBE_eq]
    refine Eq.trans ?_ (proj_vec3 (fun i => (nodes (f.1.ind i)).ep) (fun i => (nodes (f.1.ind i)).eq)
      (TriElem.BE H (sprm f.1.reg).Ks f.2 (sprm f.1.reg).uk (fun i => (nodes (f.1.ind i)).p)
        (fun i => (nodes (f.1.ind i)).cur.u)) fun a i => z (2 * f.1.ind i + a))
    refine Finset.sum_congr rfl fun i _ => ?_
    have e : ∀ a : Fin 2, (triElem H sprm nodes f).Le ((a : ℕ) * 3 + i) =
        ∑ c : Fin 3 × Fin 3, matP3 (fun i => (nodes (f.1.ind i)).ep) (fun i => (nodes (f.1.ind i)).eq) (1 - a, i) c *
          (TriElem.BE H (sprm f.1.reg).Ks f.2 (sprm f.1.reg).uk (fun i => (nodes (f.1.ind i)).p)
            (fun i => (nodes (f.1.ind i)).cur.u) c.2).comp c.1 := by
      intro a
      have a1 : Fin.ofNat 2 (((a : ℕ) * 3 + (i : ℕ)) / 3) = a := by
        ext
        simp only [Fin.ofNat]
        omega
      have a2 : Fin.ofNat 3 (((a : ℕ) * 3 + (i : ℕ)) % 3) = i := by
        ext
        simp only [Fin.ofNat]
        omega
      show (if (sprm f.1.reg).Ks ≠ 0 then _ else _) = _
      rw [if_pos hK, a1, a2]
      rfl
    have s0 : (1 : Fin 2) - 0 = 1 := rfl
    have s1 : (1 : Fin 2) - 1 = 0 := rfl
    simp only [e, other_add]
    simp only [Fin.sum_univ_two, s0, s1]
    exact add_comm _ _

/-! ## tetrahedrons -/

section
variable {G : Rule} {prm : ℕ → Prm} {s : Step} {mag : ℕ → Bool} {nod : ℕ} {tets : List Tet} {nodes : ℕ → Node}

/-- the field at the nodes with components `x` on the tangent vectors -/
def ofComp (nodes : ℕ → Node) (x : ℕ → ℝ) (i : ℕ) : V3 := x (2 * i) * (nodes i).ep + x (2 * i + 1) * (nodes i).eq

theorem tet_residual (hg : s.gamma0 ≠ 0) (Hext Hst : Tet → Fin G.n → V3) (dir : Option (Fin 3)) (V : ℝ) (t : Tet)
    (ht : ∀ k, t.ind k < nod) (z x : ℕ → ℝ) :
    (∑ r ∈ Finset.range (2 * nod), ∑ c ∈ Finset.range (2 * nod),
        z (other r) * (tetElem G prm s nodes Hext Hst dir V t).contribution 2 r c * x c)
      - ∑ r ∈ Finset.range (2 * nod), z (other r) * (tetElem G prm s nodes Hext Hst dir V t).rhsContribution 2 r =
    residual G (prm t.reg) s (nodalOf nodes t) (Hext t) (Hst t) dir V (fun i => ofComp nodes x (t.ind i))
      (fun i => ofComp nodes z (t.ind i)) := by
  have hind : (tetElem G prm s nodes Hext Hst dir V t).ind = t.ind := rfl
  rw [contribution_form _ nod (by rw [hind]; exact ht) (fun r => z (other r)) x,
    rhs_form _ nod (by rw [hind]; exact ht) fun r => z (other r), hind]
  refine Eq.trans ?_ (elem_residual G (prm t.reg) s hg (nodalOf nodes t) (Hext t) (Hst t) dir V
    (fun a i => z (2 * t.ind i + a)) (fun a i => x (2 * t.ind i + a)))
  have e : ∀ a b : Fin 2, ∀ i k : Fin 4, (tetElem G prm s nodes Hext Hst dir V t).Ke ((a : ℕ) * 4 + i) ((b : ℕ) * 4 + k) =
      Kp G (prm t.reg) s (nodalOf nodes t) (Hext t) (Hst t) (a, i) (b, k) := fun a b i k =>
    elem_Ke G prm s nodes Hext Hst dir V t a b a.2 b.2 i k
  have e2 : ∀ (a : Fin 2) (i : Fin 4), (tetElem G prm s nodes Hext Hst dir V t).Le ((a : ℕ) * 4 + i) =
      Lp G (prm t.reg) s (nodalOf nodes t) (Hext t) (Hst t) dir V (a, i) := by
    intro a i
    have a1 : Fin.ofNat 2 (((a : ℕ) * 4 + (i : ℕ)) / 4) = a := by
      ext
      simp only [Fin.ofNat]
      omega
    have a2 : Fin.ofNat 4 (((a : ℕ) * 4 + (i : ℕ)) % 4) = i := by
      ext
      simp only [Fin.ofNat]
      omega
    show Lp G (prm t.reg) s (nodalOf nodes t) (Hext t) (Hst t) dir V _ = _
    rw [a1, a2]
  simp only [e, e2, other_add]

/-! ## the assembled system -/

/-- a vector orthogonal to the first vector of an orthonormal basis -/
theorem expand {a b c w : V3} (h : DirectOrthonormal a b c) (hw : w.dot a = 0) : w.dot b * b + w.dot c * c = w := by
  obtain ⟨ha, hb, hc, hab, hbc, hca, hx⟩ := h
  obtain ⟨r, hr⟩ : ∃ r, r = w - (w.dot b * b + w.dot c * c) := ⟨_, rfl⟩
  have r1 : r.dot a = 0 := by
    have : r.dot a = w.dot a - w.dot b * a.dot b - w.dot c * c.dot a := by
      rw [hr]; simp only [V3.dot, V3.sub_x, V3.sub_y, V3.sub_z, V3.add_x, V3.add_y, V3.add_z, V3.smul_x, V3.smul_y, V3.smul_z]; ring
    rw [this, hw, hab, hca]; ring
  have r2 : r.dot b = 0 := by
    have : r.dot b = w.dot b - w.dot b * b.nsq - w.dot c * b.dot c := by
      rw [hr]; simp only [V3.dot, V3.nsq, V3.sub_x, V3.sub_y, V3.sub_z, V3.add_x, V3.add_y, V3.add_z, V3.smul_x, V3.smul_y, V3.smul_z]; ring
    rw [this, hb, hbc]; ring
  have r3 : r.dot c = 0 := by
    have : r.dot c = w.dot c - w.dot b * b.dot c - w.dot c * c.nsq := by
      rw [hr]; simp only [V3.dot, V3.nsq, V3.sub_x, V3.sub_y, V3.sub_z, V3.add_x, V3.add_y, V3.add_z, V3.smul_x, V3.smul_y, V3.smul_z]; ring
    rw [this, hc, hbc]; ring
  have hdet : (a.cross b).dot c = 1 := by rw [hx, ← V3.nsq_eq_dot, hc]
  have hcr : (a.cross b).dot c * r = r.dot a * b.cross c + r.dot b * c.cross a + r.dot c * a.cross b := by
    ext <;> simp only [V3.dot, V3.cross, V3.add_x, V3.add_y, V3.add_z, V3.smul_x, V3.smul_y, V3.smul_z] <;> ring
  have hr0 : r = 0 := by
    rw [hdet, r1, r2, r3] at hcr
    have : r = (1 : ℝ) * r := by ext <;> simp
    rw [this, hcr]
    ext <;> simp
  have : w = (w.dot b * b + w.dot c * c) + r := by
    rw [hr]
    ext <;> simp
  rw [hr0] at this
  conv_rhs => rw [this]
  ext <;> simp

/-- the assembled matrix multiplies by the coefficients of C22 -/
theorem assembled (hv : IndicesValid nod tets) (Hext Hst : Tet → Fin G.n → V3)
    (dir : Option (Fin 3)) (V : ℝ) (order : List Tet) (ho : order.Perm (magTet mag tets)) (before : List (Op ℝ))
    (hb : ∀ o ∈ before, o.InShape (llgShape mag nod tets)) :
    ∃ m, (ofShape (llgShape mag nod tets) : Sp ℝ).run (before ++ llgOps (magNode mag nod tets) nod
        (elems (tetElem G prm s nodes Hext Hst dir V) order)) = some m ∧
      ∀ x : ℕ → ℝ, m.mult x = (List.range (2 * nod)).map fun i =>
        ∑ j ∈ Finset.range (2 * nod), coef G prm s mag nod tets nodes Hext Hst dir V i j * x j := by
  obtain ⟨m, hm, hget⟩ := C22_matrix mag nod tets hv (tetElem G prm s nodes Hext Hst dir V) (fun _ => rfl) order ho
    before hb
  refine ⟨m, hm, ?_⟩
  have hw : m.WF (llgShape mag nod tets) := reachable_wf _ _ (by
    intro o hmem
    rcases List.mem_append.mp hmem with hmem | hmem
    · exact hb o hmem
    · exact llg_ops_inShape mag nod tets hv _ (fun _ => rfl) order (fun t ht => ho.mem_iff.mp ht) o hmem) m hm
  have hlen : (llgShape mag nod tets).length = 2 * nod := (buildShape_in 2 nod _ _ (edges_lt hv) 0 0).1
  have hsq : ∀ st ∈ llgShape mag nod tets, ∀ j ∈ st, j < (llgShape mag nod tets).length := by
    intro st hst j hj
    obtain ⟨i, hi, e⟩ := List.getElem_of_mem hst
    rw [hlen]
    exact (C21_columns 2 nod tets hv _ i j ⟨st, List.getElem?_eq_some_iff.mpr ⟨hi, e⟩, hj⟩).2
  intro x
  obtain ⟨hl, hmul⟩ := C19_mult _ hsq m hw x
  apply List.ext_getElem?
  intro i
  by_cases hi : i < 2 * nod
  · rw [hmul i (by rw [hlen]; exact hi), hlen, List.getElem?_map, List.getElem?_range hi]
    simp only [Option.map_some, Option.some.injEq]
    refine Finset.sum_congr rfl fun j hj => ?_
    rw [hget i j hi (Finset.mem_range.mp hj)]
    rfl
  · rw [List.getElem?_eq_none (by rw [hl, hlen]; omega), List.getElem?_eq_none (by simp; omega)]

/-- the right hand side given by C22 -/
noncomputable def rhs (G : Rule) (H : TriElem.Rule) (prm : ℕ → Prm) (sprm : ℕ → SurfPrm) (s : Step) (mag : ℕ → Bool)
    (nod : ℕ) (tets : List Tet) (tris : List (Tri × ℝ)) (nodes : ℕ → Node) (Hext Hst : Tet → Fin G.n → V3)
    (dir : Option (Fin 3)) (V : ℝ) (r : ℕ) : ℝ :=
  if (magNode mag nod tets).getD (r / 2) false = false then 0
    else ((magTet mag tets).map fun t => (tetElem G prm s nodes Hext Hst dir V t).rhsContribution 2 r).sum +
      (tris.map fun f => (triElem H sprm nodes f).rhsContribution 2 r).sum

theorem rhsContribution_zero {N : ℕ} {e : Elem N ℝ} {r : ℕ} (he : ∀ k, e.ind k ≠ r / 2) : e.rhsContribution 2 r = 0 := by
  unfold Elem.rhsContribution
  refine Finset.sum_eq_zero fun i _ => Finset.sum_eq_zero fun di hdi => ?_
  rw [if_neg]
  intro h1
  have := Finset.mem_range.mp hdi
  exact he i (by omega)

/-- the residual of the system tested with any vector is that of the weak form -/
theorem key (H : TriElem.Rule) (sprm : ℕ → SurfPrm) (hg : s.gamma0 ≠ 0) (hv : IndicesValid nod tets)
    (tris : List (Tri × ℝ)) (hvt : ∀ f ∈ tris, ∀ k, f.1.ind k < nod)
    (hmt : ∀ f ∈ tris, ∀ k, (magNode mag nod tets).getD (f.1.ind k) false = true)
    (Hext Hst : Tet → Fin G.n → V3) (dir : Option (Fin 3)) (V : ℝ) (z x : ℕ → ℝ)
    (hx : ∀ r, r < 2 * nod → (magNode mag nod tets).getD (r / 2) false = false → x r = 0) :
    ∑ r ∈ Finset.range (2 * nod), z (other r) *
        ((∑ c ∈ Finset.range (2 * nod), coef G prm s mag nod tets nodes Hext Hst dir V r c * x c)
          - rhs G H prm sprm s mag nod tets tris nodes Hext Hst dir V r) =
    ((magTet mag tets).map fun t => residual G (prm t.reg) s (nodalOf nodes t) (Hext t) (Hst t) dir V
        (fun i => ofComp nodes x (t.ind i)) (fun i => ofComp nodes z (t.ind i))).sum
      - (tris.map fun f => surfaceWork H (sprm f.1.reg) f.2 (fun i => (nodes (f.1.ind i)).p)
          (fun i => (nodes (f.1.ind i)).cur.u) (fun i => ofComp nodes z (f.1.ind i))).sum := by
  have row : ∀ r ∈ Finset.range (2 * nod), z (other r) *
        ((∑ c ∈ Finset.range (2 * nod), coef G prm s mag nod tets nodes Hext Hst dir V r c * x c)
          - rhs G H prm sprm s mag nod tets tris nodes Hext Hst dir V r) =
      ((magTet mag tets).map fun t => (∑ c ∈ Finset.range (2 * nod),
        z (other r) * (tetElem G prm s nodes Hext Hst dir V t).contribution 2 r c * x c)
          - z (other r) * (tetElem G prm s nodes Hext Hst dir V t).rhsContribution 2 r).sum
        - (tris.map fun f => z (other r) * (triElem H sprm nodes f).rhsContribution 2 r).sum := by
    intro r hr
    have hr := Finset.mem_range.mp hr
    by_cases hm : (magNode mag nod tets).getD (r / 2) false = false
    · have h1 : ∑ c ∈ Finset.range (2 * nod), coef G prm s mag nod tets nodes Hext Hst dir V r c * x c = 0 := by
        simp only [coef_nonmag Hext Hst dir V r _ hr hm, ite_mul, one_mul, zero_mul, Finset.sum_ite_eq,
          Finset.mem_range, hr, if_true]
        exact hx r hr hm
      have h2 : rhs G H prm sprm s mag nod tets tris nodes Hext Hst dir V r = 0 := if_pos hm
      rw [h1, h2, sub_zero, mul_zero]
      have z1 : ((magTet mag tets).map fun t => (∑ c ∈ Finset.range (2 * nod),
        z (other r) * (tetElem G prm s nodes Hext Hst dir V t).contribution 2 r c * x c)
          - z (other r) * (tetElem G prm s nodes Hext Hst dir V t).rhsContribution 2 r).sum = 0 := by
        apply List.sum_eq_zero
        intro y hy
        obtain ⟨t, ht, rfl⟩ := List.mem_map.mp hy
        obtain ⟨ht1, ht2⟩ := List.mem_filter.mp ht
        have hne : ∀ k, (tetElem G prm s nodes Hext Hst dir V t).ind k ≠ r / 2 := by
          intro k hk
          have : (magNode mag nod tets).getD (r / 2) false = true :=
            (magNode_iff mag nod tets _ (by omega)).mpr ⟨t, ht1, ht2, k, hk⟩
          rw [hm] at this
          simp at this
        rw [rhsContribution_zero hne]
        simp [contribution_zero hne]
      have z2 : (tris.map fun f => z (other r) * (triElem H sprm nodes f).rhsContribution 2 r).sum = 0 := by
        apply List.sum_eq_zero
        intro y hy
        obtain ⟨f, hf, rfl⟩ := List.mem_map.mp hy
        rw [rhsContribution_zero, mul_zero]
        intro k hk
        have := hmt f hf k
        have hk' : f.1.ind k = r / 2 := hk
        rw [hk', hm] at this
        simp at this
      rw [z1, z2, sub_zero]
    · have h2 : rhs G H prm sprm s mag nod tets tris nodes Hext Hst dir V r =
          ((magTet mag tets).map fun t => (tetElem G prm s nodes Hext Hst dir V t).rhsContribution 2 r).sum +
          (tris.map fun f => (triElem H sprm nodes f).rhsContribution 2 r).sum := if_neg hm
      have h1 : ∑ c ∈ Finset.range (2 * nod), coef G prm s mag nod tets nodes Hext Hst dir V r c * x c =
          ((magTet mag tets).map fun t => ∑ c ∈ Finset.range (2 * nod),
            (tetElem G prm s nodes Hext Hst dir V t).contribution 2 r c * x c).sum := by
        rw [← sum_list_comm]
        refine Finset.sum_congr rfl fun c _ => ?_
        unfold coef
        rw [if_neg (fun h => hm h.2), List.sum_map_mul_right]
      rw [h1, h2, mul_sub, mul_add, ← List.sum_map_mul_left, ← List.sum_map_mul_left, ← List.sum_map_mul_left]
      have : ∀ (l : List Tet) (A B : Tet → ℝ), (l.map fun t => A t - B t).sum = (l.map A).sum - (l.map B).sum := by
        intro l A B
        induction l with
        | nil => simp
        | cons a l ih => simp only [List.map_cons, List.sum_cons, ih]; ring
      rw [this]
      simp only [Finset.mul_sum, mul_assoc]
      ring
  rw [Finset.sum_congr rfl row, Finset.sum_sub_distrib, sum_list_comm]
  have hsw : ∀ (l : List (Tri × ℝ)) (F : Tri × ℝ → ℕ → ℝ),
      ∑ r ∈ Finset.range (2 * nod), (l.map fun t => F t r).sum = (l.map fun t => ∑ r ∈ Finset.range (2 * nod), F t r).sum :=
    fun l F => sum_list_comm l _ F
  rw [hsw]
  congr 1
  · congr 1
    apply List.map_congr_left
    intro t ht
    rw [Finset.sum_sub_distrib]
    exact tet_residual hg Hext Hst dir V t (hv t (List.mem_filter.mp ht).1) z x
  · congr 1
    apply List.map_congr_left
    intro f hf
    exact tri_surface H sprm nodes f nod (hvt f hf) z

theorem other_lt {r : ℕ} (h : r < 2 * nod) : other r < 2 * nod := by
  unfold other
  split_ifs <;> omega

theorem other_other (r : ℕ) : other (other r) = r := by
  unfold other
  split_ifs <;> omega

theorem other_div (r : ℕ) : other r / 2 = r / 2 := by
  unfold other
  split_ifs <;> omega

/-- **C65** The linear system assembled for a time step, whatever happened to the matrix before and in whatever order the
elements are added, is the weak form of the equation of motion in the tangent plane: a vector `x` solves it if and only
if it vanishes at the nodes that are not magnetic and the field with tangent components `x` satisfies, for every test
field orthogonal to the magnetization at the magnetic nodes, damping + gyration = work of the fields. -/
theorem C65_weak_form (h : TimeStep G prm s mag nod tets nodes) (H : TriElem.Rule) (sprm : ℕ → SurfPrm)
    (tris : List (Tri × ℝ)) (hvt : ∀ f ∈ tris, ∀ k, f.1.ind k < nod)
    (hmt : ∀ f ∈ tris, f.1.isMagnetic (magNode mag nod tets) = true)
    (Hext Hst : Tet → Fin G.n → V3) (dir : Option (Fin 3)) (V : ℝ)
    (order : List Tet) (ho : order.Perm (magTet mag tets)) (orderT : List (Tri × ℝ)) (hoT : orderT.Perm tris)
    (before : List (Op ℝ)) (hb : ∀ o ∈ before, o.InShape (llgShape mag nod tets)) :
    ∃ m b, (ofShape (llgShape mag nod tets) : Sp ℝ).run (before ++ llgOps (magNode mag nod tets) nod
        (elems (tetElem G prm s nodes Hext Hst dir V) order)) = some m ∧
      llgRhs (magNode mag nod tets) nod (order.map (tetElem G prm s nodes Hext Hst dir V))
        (orderT.map (triElem H sprm nodes)) = some b ∧
      ∀ x : ℕ → ℝ, m.mult x = b ↔
        (∀ i, i < nod → (magNode mag nod tets).getD i false = false → x (2 * i) = 0 ∧ x (2 * i + 1) = 0) ∧
        Holds G H prm sprm s (fun i => (magNode mag nod tets).getD i false = true) (magTet mag tets) tris nodes Hext Hst
          dir V fun i => x (2 * i) * (nodes i).ep + x (2 * i + 1) * (nodes i).eq := by
  obtain ⟨m, hm, hmul⟩ := assembled (prm := prm) (s := s) (nodes := nodes) h.valid Hext Hst dir V order ho before hb
  obtain ⟨b, hb1, hb2, hb3⟩ := C22_rhs mag nod tets h.valid (tetElem G prm s nodes Hext Hst dir V) (fun _ => rfl) order ho
    tris (triElem H sprm nodes) hvt orderT hoT
  refine ⟨m, b, hm, hb1, fun x => ?_⟩
  have hmt' : ∀ f ∈ tris, ∀ k, (magNode mag nod tets).getD (f.1.ind k) false = true := by
    intro f hf k
    have := hmt f hf
    unfold Tri.isMagnetic at this
    simp only [Bool.and_eq_true] at this
    fin_cases k
    · exact this.1.1
    · exact this.1.2
    · exact this.2
  -- the system row by row
  have hrows : m.mult x = b ↔ ∀ r, r < 2 * nod →
      (∑ c ∈ Finset.range (2 * nod), coef G prm s mag nod tets nodes Hext Hst dir V r c * x c)
        - rhs G H prm sprm s mag nod tets tris nodes Hext Hst dir V r = 0 := by
    rw [hmul]
    constructor
    · intro e r hr
      have := hb3 r hr
      rw [← e, List.getD_eq_getElem?_getD, List.getElem?_map, List.getElem?_range hr] at this
      simp only [Option.map_some, Option.getD_some] at this
      rw [this]
      exact sub_self _
    · intro e
      apply List.ext_getElem?
      intro r
      by_cases hr : r < 2 * nod
      · rw [List.getElem?_map, List.getElem?_range hr, List.getElem?_eq_getElem (by rw [hb2]; exact hr)]
        simp only [Option.map_some, Option.some.injEq]
        have h3 := hb3 r hr
        rw [List.getD_eq_getElem?_getD, List.getElem?_eq_getElem (by rw [hb2]; exact hr), Option.getD_some] at h3
        rw [h3]
        exact sub_eq_zero.mp (e r hr)
      · rw [List.getElem?_eq_none (by simp; omega), List.getElem?_eq_none (by rw [hb2]; omega)]
  rw [hrows]
  -- rows of the nodes that are not magnetic
  have hnon : ∀ r, r < 2 * nod → (magNode mag nod tets).getD (r / 2) false = false →
      (∑ c ∈ Finset.range (2 * nod), coef G prm s mag nod tets nodes Hext Hst dir V r c * x c)
        - rhs G H prm sprm s mag nod tets tris nodes Hext Hst dir V r = x r := by
    intro r hr hmr
    have h2 : rhs G H prm sprm s mag nod tets tris nodes Hext Hst dir V r = 0 := if_pos hmr
    rw [h2, sub_zero]
    simp only [coef_nonmag Hext Hst dir V r _ hr hmr, ite_mul, one_mul, zero_mul, Finset.sum_ite_eq,
      Finset.mem_range, hr, if_true]
  have hsupp : (∀ i, i < nod → (magNode mag nod tets).getD i false = false → x (2 * i) = 0 ∧ x (2 * i + 1) = 0) ↔
      ∀ r, r < 2 * nod → (magNode mag nod tets).getD (r / 2) false = false → x r = 0 := by
    constructor
    · intro e r hr hmr
      obtain ⟨e1, e2⟩ := e (r / 2) (by omega) hmr
      rcases Nat.mod_two_eq_zero_or_one r with h0 | h0
      · rwa [show 2 * (r / 2) = r by omega] at e1
      · rwa [show 2 * (r / 2) + 1 = r by omega] at e2
    · intro e i hi hmi
      exact ⟨e _ (by omega) (by rwa [show 2 * i / 2 = i by omega]), e _ (by omega) (by rwa [show (2 * i + 1) / 2 = i by omega])⟩
  have hortho : ∀ i, i < nod → (magNode mag nod tets).getD i false = true →
      DirectOrthonormal (nodes i).cur.u (nodes i).ep (nodes i).eq := by
    intro i hi hmi
    obtain ⟨t, ht1, ht2, k, hk⟩ := (magNode_iff mag nod tets _ hi).mp hmi
    have := h.ortho (List.mem_filter.mpr ⟨ht1, ht2⟩) k
    rwa [hk] at this
  rw [hsupp]
  constructor
  · intro e
    have hx : ∀ r, r < 2 * nod → (magNode mag nod tets).getD (r / 2) false = false → x r = 0 := by
      intro r hr hmr
      rw [← hnon r hr hmr]
      exact e r hr
    refine ⟨hx, fun w hw => ?_⟩
    have hk := key H sprm h.gamma0.ne' h.valid tris hvt hmt' Hext Hst dir V (prm := prm) (s := s) (nodes := nodes)
      (fun r => if r % 2 = 0 then (w (r / 2)).dot (nodes (r / 2)).ep else (w (r / 2)).dot (nodes (r / 2)).eq) x hx
    rw [Finset.sum_eq_zero (fun r hr => by rw [e r (Finset.mem_range.mp hr), mul_zero])] at hk
    have hwz : ∀ i, i < nod → (magNode mag nod tets).getD i false = true →
        ofComp nodes (fun r => if r % 2 = 0 then (w (r / 2)).dot (nodes (r / 2)).ep
          else (w (r / 2)).dot (nodes (r / 2)).eq) i = w i := by
      intro i hi hmi
      unfold ofComp
      have d1 : 2 * i / 2 = i := by omega
      have d2 : (2 * i + 1) / 2 = i := by omega
      have m1 : 2 * i % 2 = 0 := by omega
      have m2 : ¬ (2 * i + 1) % 2 = 0 := by omega
      simp only [d1, d2, m1, if_true]
      rw [if_neg m2]
      exact expand (hortho i hi hmi) (hw i hmi)
    have e1 : ∀ t ∈ magTet mag tets, (fun i => ofComp nodes (fun r => if r % 2 = 0 then (w (r / 2)).dot (nodes (r / 2)).ep
          else (w (r / 2)).dot (nodes (r / 2)).eq) (t.ind i)) = fun i => w (t.ind i) := by
      intro t ht
      obtain ⟨ht1, ht2⟩ := List.mem_filter.mp ht
      funext i
      exact hwz _ (h.valid t ht1 i) ((magNode_iff mag nod tets _ (h.valid t ht1 i)).mpr ⟨t, ht1, ht2, i, rfl⟩)
    have e2 : ∀ f ∈ tris, (fun i => ofComp nodes (fun r => if r % 2 = 0 then (w (r / 2)).dot (nodes (r / 2)).ep
          else (w (r / 2)).dot (nodes (r / 2)).eq) (f.1.ind i)) = fun i => w (f.1.ind i) := by
      intro f hf
      funext i
      exact hwz _ (hvt f hf i) (hmt' f hf i)
    refine Eq.trans (congrArg List.sum (List.map_congr_left fun t ht => ?_)) (Eq.trans (sub_eq_zero.mp hk.symm)
      (congrArg List.sum (List.map_congr_left fun f hf => ?_)))
    · rw [e1 t ht]
      rfl
    · rw [e2 f hf]
  · rintro ⟨hx, hw⟩ r hr
    by_cases hmr : (magNode mag nod tets).getD (r / 2) false = false
    · rw [hnon r hr hmr]
      exact hx r hr hmr
    · have hk := key H sprm h.gamma0.ne' h.valid tris hvt hmt' Hext Hst dir V (prm := prm) (s := s) (nodes := nodes)
        (fun q => if q = other r then 1 else 0) x hx
      have hz := hw (ofComp nodes (fun q => if q = other r then 1 else 0)) (by
        intro i hmi
        unfold ofComp
        by_cases hi : i = r / 2
        · have hi' : i < nod := by omega
          obtain ⟨-, -, -, h1, -, h3, -⟩ := hortho i hi' hmi
          rw [V3.dot_comm] at h1
          rw [add_dot, smul_dot, smul_dot, h1, h3]
          ring
        · have n1 : 2 * i ≠ other r := fun e => hi (by have := other_div r; omega)
          have n2 : 2 * i + 1 ≠ other r := fun e => hi (by have := other_div r; omega)
          simp [n1, n2, V3.dot])
      have : ((magTet mag tets).map fun t => residual G (prm t.reg) s (nodalOf nodes t) (Hext t) (Hst t) dir V
          (fun i => ofComp nodes x (t.ind i)) (fun i => ofComp nodes (fun q => if q = other r then 1 else 0) (t.ind i))).sum
        - (tris.map fun f => surfaceWork H (sprm f.1.reg) f.2 (fun i => (nodes (f.1.ind i)).p)
          (fun i => (nodes (f.1.ind i)).cur.u)
          (fun i => ofComp nodes (fun q => if q = other r then 1 else 0) (f.1.ind i))).sum = 0 := sub_eq_zero.mpr hz
      rw [this, Finset.sum_eq_single r] at hk
      · rw [if_pos rfl, one_mul] at hk
        exact hk
      · intro q _ hq
        rw [if_neg, zero_mul]
        intro e
        exact hq (by rw [← other_other q, e, other_other])
      · intro hn
        exact absurd (Finset.mem_range.mpr hr) hn

end

end Verif.WeakForm
