import Mathlib.LinearAlgebra.Matrix.ToLin
import Mathlib.LinearAlgebra.Matrix.NonsingularInverse
import Verif.Proofs.LlgElem
import Verif.Props.Node

/-!
# C39 and C40: the linear system of a time step
-/

namespace Verif.Llg

open Verif.Mesh Verif.Assembly Verif.Tetra Verif.SparseMat

/-- what the properties assume of a time step: indices in range and positively oriented elements (ensured by
the reading of the mesh, C34), unit magnetization at the magnetic nodes with the basis set by
`Node::setBasis`, and physical parameters -/
structure TimeStep (G : Rule) (prm : ℕ → Prm) (s : Step) (mag : ℕ → Bool) (nod : ℕ) (tets : List Tet)
    (nodes : ℕ → Node) : Prop where
  rule : Compiled G
  valid : IndicesValid nod tets
  oriented : ∀ t ∈ tets, 0 < detJ (MeshElem.nod4 (fun i => (nodes i).p) t)
  basis : ∀ t ∈ magTet mag tets, ∀ k, ∃ r n, nodes (t.ind k) = Node.setBasis r n ∧ IsUnit3 n.cur.u
  alpha : ∀ t ∈ magTet mag tets, 0 < (prm t.reg).alpha
  exchange : ∀ t ∈ magTet mag tets, 0 ≤ (prm t.reg).A
  magnetic : ∀ t ∈ magTet mag tets, 0 < (prm t.reg).Ms
  gamma0 : 0 < s.gamma0
  mu0 : 0 < s.mu0
  theta : 0 ≤ s.theta
  dt : 0 < s.dt
  pref : ∃ dtmax, 0 < dtmax ∧ s.prefactor = prefactor dtmax s.dt

theorem prefactor_pos {dtmax dt : ℝ} (h1 : 0 < dtmax) (h2 : 0 < dt) : 0 < prefactor dtmax dt := by
  unfold prefactor
  have : 0 < dt / (100 * dtmax) := by positivity
  positivity

section
variable {G : Rule} {prm : ℕ → Prm} {s : Step} {mag : ℕ → Bool} {nod : ℕ} {tets : List Tet} {nodes : ℕ → Node}

theorem TimeStep.ortho (h : TimeStep G prm s mag nod tets nodes) {t : Tet} (ht : t ∈ magTet mag tets) (k : Fin 4) :
    DirectOrthonormal (nodes (t.ind k)).cur.u (nodes (t.ind k)).ep (nodes (t.ind k)).eq := by
  obtain ⟨r, n, e, hu⟩ := h.basis t ht k
  rw [e]
  exact (Node.C37_tangent_basis r n hu).1

/-- the form of an element is not negative, and zero only when the components vanish at its nodes -/
theorem elem_form_pos (h : TimeStep G prm s mag nod tets nodes) (Hext Hst : Tet → Fin G.n → V3)
    (dir : Option (Fin 3)) (V : ℝ) (t : Tet) (ht : t ∈ magTet mag tets) (z : ℕ → ℝ) :
    0 ≤ ∑ r ∈ Finset.range (2 * nod), ∑ c ∈ Finset.range (2 * nod),
        z (other r) * (tetElem G prm s nodes Hext Hst dir V t).contribution 2 r c * z c ∧
    (∑ r ∈ Finset.range (2 * nod), ∑ c ∈ Finset.range (2 * nod),
        z (other r) * (tetElem G prm s nodes Hext Hst dir V t).contribution 2 r c * z c = 0 →
      ∀ k (a : Fin 2), z (2 * t.ind k + a) = 0) := by
  have ht1 := (List.mem_filter.mp ht).1
  obtain ⟨aeff, ha, e⟩ := elem_form G prm s nodes Hext Hst dir V t nod (h.valid t ht1) z
  rw [e]
  dsimp only
  have hdet : 0 < detJ (nodalOf nodes t).p := h.oriented t ht1
  have hc : ∀ i, 0 < contrib G (nodalOf nodes t).p aeff i := by
    refine contrib_pos h.rule _ hdet aeff _ (h.alpha t ht) fun j => ?_
    obtain ⟨x, hx⟩ := ha j
    rw [hx]
    exact C38_bounds _ _ _ _ h.gamma0 h.dt (h.alpha t ht)
  have hv : 0 < calcVol G (nodalOf nodes t).p := by
    rw [calcVol_eq h.rule.ok]
    positivity
  have hpref : 0 < s.prefactor := by
    obtain ⟨dm, h1, h2⟩ := h.pref
    rw [h2]
    exact prefactor_pos h1 h.dt
  have hcoef : 0 ≤ s.prefactor * sdt s * abis (prm t.reg) s * calcVol G (nodalOf nodes t).p := by
    have h1 : 0 ≤ sdt s := mul_nonneg (mul_nonneg h.theta h.dt.le) h.gamma0.le
    have h2 : 0 ≤ abis (prm t.reg) s :=
      div_nonneg (mul_nonneg (by norm_num) (h.exchange t ht)) (mul_nonneg h.mu0.le (h.magnetic t ht).le)
    positivity
  have hw : ∀ w : Fin 4 → V3, 0 ≤ (Tetra.deriv (nodalOf nodes t).p 0 w).nsq + (Tetra.deriv (nodalOf nodes t).p 1 w).nsq
      + (Tetra.deriv (nodalOf nodes t).p 2 w).nsq := fun w =>
    add_nonneg (add_nonneg (nsq_nonneg _) (nsq_nonneg _)) (nsq_nonneg _)
  generalize hwd : vec (nodalOf nodes t).ep (nodalOf nodes t).eq (fun a i => z (2 * t.ind i + a)) = w
  have h1 : 0 ≤ ∑ i, contrib G (nodalOf nodes t).p aeff i * (w i).nsq :=
    Finset.sum_nonneg fun i _ => mul_nonneg (hc i).le (nsq_nonneg _)
  have h2 := mul_nonneg hcoef (hw w)
  refine ⟨add_nonneg h1 h2, fun h0 k a => ?_⟩
  have h3 : ∑ i, contrib G (nodalOf nodes t).p aeff i * (w i).nsq = 0 := by linarith
  have h4 := (Finset.sum_eq_zero_iff_of_nonneg fun i _ => mul_nonneg (hc i).le (nsq_nonneg (w i))).mp h3 k (Finset.mem_univ _)
  have h5 : w k = 0 := nsq_eq_zero ((mul_eq_zero.mp h4).resolve_left (hc k).ne')
  rw [← hwd] at h5
  obtain ⟨-, b1, c1, -, bc, -, -⟩ := h.ortho ht k
  have h6 : z (2 * t.ind k + (0 : Fin 2)) * (nodes (t.ind k)).ep + z (2 * t.ind k + (1 : Fin 2)) * (nodes (t.ind k)).eq = 0 := h5
  have y0 : z (2 * t.ind k + (0 : Fin 2)) = 0 := by
    have := congrArg (fun q => q.dot (nodes (t.ind k)).ep) h6
    rw [V3.dot_comm] at bc
    simp only [V3.dot_add_left, V3.dot_smul_left, ← V3.nsq_eq_dot, b1, bc] at this
    simpa [V3.dot] using this
  have y1 : z (2 * t.ind k + (1 : Fin 2)) = 0 := by
    have := congrArg (fun q => q.dot (nodes (t.ind k)).eq) h6
    simp only [V3.dot_add_left, V3.dot_smul_left, ← V3.nsq_eq_dot, c1, bc] at this
    simpa [V3.dot] using this
  fin_cases a
  · exact y0
  · exact y1

/-- an element contributes nothing to the rows of nodes it does not have -/
theorem contribution_zero {e : Elem 4 ℝ} {r : ℕ} (he : ∀ k, e.ind k ≠ r / 2) (c : ℕ) : e.contribution 2 r c = 0 := by
  unfold Elem.contribution
  refine Finset.sum_eq_zero fun i _ => Finset.sum_eq_zero fun j _ => Finset.sum_eq_zero fun di hdi =>
    Finset.sum_eq_zero fun dj _ => ?_
  rw [if_neg]
  rintro ⟨h1, -⟩
  have := Finset.mem_range.mp hdi
  exact he i (by omega)

/-- the coefficients given by C22 -/
noncomputable def coef (G : Rule) (prm : ℕ → Prm) (s : Step) (mag : ℕ → Bool) (nod : ℕ) (tets : List Tet)
    (nodes : ℕ → Node) (Hext Hst : Tet → Fin G.n → V3) (dir : Option (Fin 3)) (V : ℝ) (r c : ℕ) : ℝ :=
  if r = c ∧ (magNode mag nod tets).getD (r / 2) false = false then 1
    else ((magTet mag tets).map fun t => (tetElem G prm s nodes Hext Hst dir V t).contribution 2 r c).sum

theorem coef_nonmag (Hext Hst : Tet → Fin G.n → V3) (dir : Option (Fin 3)) (V : ℝ) (r c : ℕ) (hr : r < 2 * nod)
    (hm : (magNode mag nod tets).getD (r / 2) false = false) :
    coef G prm s mag nod tets nodes Hext Hst dir V r c = if r = c then 1 else 0 := by
  unfold coef
  by_cases e : r = c
  · rw [if_pos ⟨e, hm⟩, if_pos e]
  · rw [if_neg (fun h => e h.1), if_neg e]
    apply List.sum_eq_zero
    intro x hx
    obtain ⟨t, ht, rfl⟩ := List.mem_map.mp hx
    obtain ⟨ht1, ht2⟩ := List.mem_filter.mp ht
    apply contribution_zero
    intro k hk
    have : (magNode mag nod tets).getD (r / 2) false = true :=
      (magNode_iff mag nod tets _ (by omega)).mpr ⟨t, ht1, ht2, k, hk⟩
    rw [hm] at this
    simp at this

theorem sum_list_comm {ι : Type} (l : List ι) (n : ℕ) (F : ι → ℕ → ℝ) :
    ∑ r ∈ Finset.range n, (l.map fun t => F t r).sum = (l.map fun t => ∑ r ∈ Finset.range n, F t r).sum := by
  induction l with
  | nil => simp
  | cons a l ih => simp [Finset.sum_add_distrib, ih]

theorem list_sum_zero {l : List ℝ} (h : ∀ x ∈ l, (0 : ℝ) ≤ x) (h0 : l.sum = 0) : ∀ x ∈ l, x = 0 := by
  induction l with
  | nil => simp
  | cons a l ih =>
    rw [List.sum_cons] at h0
    have h1 := h a (by simp)
    have h2 : 0 ≤ l.sum := List.sum_nonneg fun x hx => h x (List.mem_cons_of_mem _ hx)
    intro x hx
    rcases List.mem_cons.mp hx with rfl | hx
    · linarith
    · exact ih (fun y hy => h y (List.mem_cons_of_mem _ hy)) (by linarith) x hx

/-- the system has no kernel -/
theorem kernel (h : TimeStep G prm s mag nod tets nodes) (Hext Hst : Tet → Fin G.n → V3) (dir : Option (Fin 3)) (V : ℝ)
    (z : ℕ → ℝ) (hz : ∀ r, r < 2 * nod →
      ∑ c ∈ Finset.range (2 * nod), coef G prm s mag nod tets nodes Hext Hst dir V r c * z c = 0) :
    ∀ r, r < 2 * nod → z r = 0 := by
  have non : ∀ r, r < 2 * nod → (magNode mag nod tets).getD (r / 2) false = false → z r = 0 := by
    intro r hr hm
    have := hz r hr
    simp only [coef_nonmag Hext Hst dir V r _ hr hm, ite_mul, one_mul, zero_mul, Finset.sum_ite_eq, Finset.mem_range, hr,
      if_true] at this
    exact this
  -- the form summed over the elements
  have hform : ((magTet mag tets).map fun t => ∑ r ∈ Finset.range (2 * nod), ∑ c ∈ Finset.range (2 * nod),
      z (other r) * (tetElem G prm s nodes Hext Hst dir V t).contribution 2 r c * z c).sum = 0 := by
    rw [← sum_list_comm]
    apply Finset.sum_eq_zero
    intro r hr
    have hr := Finset.mem_range.mp hr
    rw [← sum_list_comm]
    by_cases hm : (magNode mag nod tets).getD (r / 2) false = false
    · apply Finset.sum_eq_zero
      intro c _
      apply List.sum_eq_zero
      intro x hx
      obtain ⟨t, ht, rfl⟩ := List.mem_map.mp hx
      obtain ⟨ht1, ht2⟩ := List.mem_filter.mp ht
      rw [contribution_zero]
      · ring
      · intro k hk
        have : (magNode mag nod tets).getD (r / 2) false = true :=
          (magNode_iff mag nod tets _ (by omega)).mpr ⟨t, ht1, ht2, k, hk⟩
        rw [hm] at this
        simp at this
    · have e : ∀ c, ((magTet mag tets).map fun t =>
          z (other r) * (tetElem G prm s nodes Hext Hst dir V t).contribution 2 r c * z c).sum =
          z (other r) * (coef G prm s mag nod tets nodes Hext Hst dir V r c * z c) := by
        intro c
        unfold coef
        rw [if_neg (fun h => hm h.2), List.sum_map_mul_right, List.sum_map_mul_left]
        ring
      simp only [e]
      rw [← Finset.mul_sum, hz r hr, mul_zero]
  have each : ∀ t ∈ magTet mag tets, ∑ r ∈ Finset.range (2 * nod), ∑ c ∈ Finset.range (2 * nod),
      z (other r) * (tetElem G prm s nodes Hext Hst dir V t).contribution 2 r c * z c = 0 := by
    have hnn : ∀ x ∈ (magTet mag tets).map (fun t => ∑ r ∈ Finset.range (2 * nod), ∑ c ∈ Finset.range (2 * nod),
        z (other r) * (tetElem G prm s nodes Hext Hst dir V t).contribution 2 r c * z c), (0 : ℝ) ≤ x := by
      intro x hx
      obtain ⟨t, ht, rfl⟩ := List.mem_map.mp hx
      exact (elem_form_pos h Hext Hst dir V t ht z).1
    intro t ht
    exact list_sum_zero hnn hform _ (List.mem_map.mpr ⟨t, ht, rfl⟩)
  intro r hr
  by_cases hm : (magNode mag nod tets).getD (r / 2) false = false
  · exact non r hr hm
  · have hm' : (magNode mag nod tets).getD (r / 2) false = true := by
      cases hb : (magNode mag nod tets).getD (r / 2) false
      · exact absurd hb hm
      · rfl
    obtain ⟨t, ht1, ht2, k, hk⟩ := (magNode_iff mag nod tets _ (by omega)).mp hm'
    have ht : t ∈ magTet mag tets := List.mem_filter.mpr ⟨ht1, ht2⟩
    have := (elem_form_pos h Hext Hst dir V t ht z).2 (each t ht) k ⟨r % 2, Nat.mod_lt _ (by omega)⟩
    rw [hk] at this
    dsimp only at this
    rwa [Nat.div_add_mod] at this

/-- a vector of unknowns read by the product -/
def ext {n : ℕ} (x : Fin n → ℝ) (k : ℕ) : ℝ := if h : k < n then x ⟨k, h⟩ else 0

/-- **C39** Whatever happened to the matrix before, in whatever order the elements are added, and whatever the
fields, the linear system assembled for a time step has exactly one solution for every right hand side. -/
theorem C39_unique_solution (h : TimeStep G prm s mag nod tets nodes) (Hext Hst : Tet → Fin G.n → V3)
    (dir : Option (Fin 3)) (V : ℝ) (order : List Tet) (ho : order.Perm (magTet mag tets)) (before : List (Op ℝ))
    (hb : ∀ o ∈ before, o.InShape (llgShape mag nod tets)) :
    ∃ m, (ofShape (llgShape mag nod tets) : Sp ℝ).run (before ++ llgOps (magNode mag nod tets) nod
        (elems (tetElem G prm s nodes Hext Hst dir V) order)) = some m ∧
      ∀ b : Fin (2 * nod) → ℝ, ∃! x : Fin (2 * nod) → ℝ, m.mult (ext x) = List.ofFn b := by
  obtain ⟨m, hm, hget⟩ := C22_matrix mag nod tets h.valid (tetElem G prm s nodes Hext Hst dir V) (fun _ => rfl) order ho
    before hb
  refine ⟨m, hm, ?_⟩
  have hw : m.WF (llgShape mag nod tets) := reachable_wf _ _ (by
    intro o hmem
    rcases List.mem_append.mp hmem with hmem | hmem
    · exact hb o hmem
    · exact llg_ops_inShape mag nod tets h.valid _ (fun _ => rfl) order (fun t ht => ho.mem_iff.mp ht) o hmem) m hm
  have hlen : (llgShape mag nod tets).length = 2 * nod := (buildShape_in 2 nod _ _ (edges_lt h.valid) 0 0).1
  have hsq : ∀ st ∈ llgShape mag nod tets, ∀ j ∈ st, j < (llgShape mag nod tets).length := by
    intro st hst j hj
    obtain ⟨i, hi, e⟩ := List.getElem_of_mem hst
    rw [hlen]
    exact (C21_columns 2 nod tets h.valid _ i j ⟨st, List.getElem?_eq_some_iff.mpr ⟨hi, e⟩, hj⟩).2
  obtain ⟨hl, hmul⟩ := C19_mult _ hsq m hw (fun _ => (0 : ℝ))
  let M : Matrix (Fin (2 * nod)) (Fin (2 * nod)) ℝ := fun i j => coef G prm s mag nod tets nodes Hext Hst dir V i j
  have hM : ∀ x : Fin (2 * nod) → ℝ, m.mult (ext x) = List.ofFn (M.mulVec x) := by
    intro x
    obtain ⟨hl, hmul⟩ := C19_mult _ hsq m hw (ext x)
    apply List.ext_getElem?
    intro i
    by_cases hi : i < 2 * nod
    · rw [hmul i (by rw [hlen]; exact hi), List.getElem?_ofFn, dif_pos hi, hlen, Finset.sum_range]
      congr 1
      refine Finset.sum_congr rfl fun j _ => ?_
      rw [hget i j hi j.2]
      unfold ext
      rw [dif_pos j.2]
      rfl
    · rw [List.getElem?_eq_none (by rw [hl, hlen]; omega), List.getElem?_eq_none (by simp; omega)]
  have hinj : Function.Injective M.mulVec := by
    intro x y hxy
    have h0 : M.mulVec (x - y) = 0 := by rw [Matrix.mulVec_sub, hxy, sub_self]
    have := kernel h Hext Hst dir V (ext (x - y)) (by
      intro r hr
      have e := congrFun h0 ⟨r, hr⟩
      rw [Finset.sum_range]
      refine Eq.trans (Finset.sum_congr rfl fun j _ => ?_) e
      unfold ext
      rw [dif_pos j.2])
    funext i
    have := this i i.2
    unfold ext at this
    rw [dif_pos i.2] at this
    exact sub_eq_zero.mp this
  have hunit : IsUnit M := Matrix.mulVec_injective_iff_isUnit.mp hinj
  intro b
  refine ⟨M⁻¹.mulVec b, ?_, ?_⟩
  · show m.mult _ = _
    rw [hM, Matrix.mulVec_mulVec, Matrix.mul_nonsing_inv _ ((Matrix.isUnit_iff_isUnit_det M).mp hunit), Matrix.one_mulVec]
  · intro y hy
    apply hinj
    have hy' : m.mult (ext y) = List.ofFn b := hy
    rw [hM] at hy'
    rw [List.ofFn_injective hy', Matrix.mulVec_mulVec,
      Matrix.mul_nonsing_inv _ ((Matrix.isUnit_iff_isUnit_det M).mp hunit), Matrix.one_mulVec]

/-! ## the diagonal -/

theorem ind_injective {p : ℕ → V3} {t : Tet} (ht : detJ (MeshElem.nod4 p t) ≠ 0) : Function.Injective t.ind := by
  intro i k hik
  by_contra hne
  apply ht
  rw [detJ_eq]
  unfold MeshElem.nod4
  fin_cases i <;> fin_cases k <;> first | exact absurd rfl hne | skip
  all_goals
    simp only [Fin.zero_eta, Fin.mk_one, Fin.reduceFinMk] at hik
    simp only [hik, V3.dot, V3.cross, V3.sub_x, V3.sub_y, V3.sub_z]
    ring

/-- diagonal coefficients of the element matrix -/
theorem elem_diag (h : TimeStep G prm s mag nod tets nodes) (Hext Hst : Tet → Fin G.n → V3) (dir : Option (Fin 3))
    (V : ℝ) (t : Tet) (ht : t ∈ magTet mag tets) (d : ℕ) (hd : d < 2) (i : Fin 4) :
    (tetElem G prm s nodes Hext Hst dir V t).Ke (d * 4 + i) (d * 4 + i) =
      (if d = 0 then 1 else -1) * (MeshElem.tetVol G (fun k => (nodes k).p) t / 4) := by
  rw [elem_Ke G prm s nodes Hext Hst dir V t d d hd hd i i]
  unfold Kp permRows
  dsimp only
  rw [proj_entry, if_pos rfl, aw_eq h.rule.ok]
  have hv : calcVol G (nodalOf nodes t).p = MeshElem.tetVol G (fun k => (nodes k).p) t := rfl
  rw [hv]
  obtain ⟨a1, b1, c1, ab, bc, ca, e⟩ := h.ortho ht i
  have t0 : tang (nodalOf nodes t).ep (nodalOf nodes t).eq 0 i = (nodes (t.ind i)).ep := rfl
  have t1 : tang (nodalOf nodes t).ep (nodalOf nodes t).eq 1 i = (nodes (t.ind i)).eq := rfl
  have hu : (nodalOf nodes t).u i = (nodes (t.ind i)).cur.u := rfl
  have s0 : (1 : Fin 2) - 0 = 1 := rfl
  have s1 : (1 : Fin 2) - 1 = 0 := rfl
  rw [hu]
  rcases Nat.lt_succ_iff_lt_or_eq.mp hd with hd0 | rfl
  · obtain rfl : d = 0 := by omega
    have z0 : (⟨0, hd⟩ : Fin 2) = 0 := rfl
    rw [z0, s0, t0, t1, e, V3.dot_comm, bc, ← V3.nsq_eq_dot, c1, if_pos rfl]
    ring
  · have z1 : (⟨1, hd⟩ : Fin 2) = 1 := rfl
    have hx : (nodes (t.ind i)).ep.dot ((nodes (t.ind i)).cur.u.cross (nodes (t.ind i)).eq) = -1 := by
      have hc : (nodes (t.ind i)).ep.dot ((nodes (t.ind i)).cur.u.cross (nodes (t.ind i)).eq) =
          -((nodes (t.ind i)).cur.u.cross (nodes (t.ind i)).ep).dot (nodes (t.ind i)).eq := by
        unfold V3.dot V3.cross
        ring
      rw [hc, e, ← V3.nsq_eq_dot, c1]
    rw [z1, s1, t0, t1, bc, hx, if_neg (by norm_num)]
    ring

open Classical in
/-- contribution of an element to a diagonal coefficient -/
theorem contribution_diag (h : TimeStep G prm s mag nod tets nodes) (Hext Hst : Tet → Fin G.n → V3)
    (dir : Option (Fin 3)) (V : ℝ) (t : Tet) (ht : t ∈ magTet mag tets) (r : ℕ) :
    (tetElem G prm s nodes Hext Hst dir V t).contribution 2 r r =
      if ∃ k, t.ind k = r / 2 then
        (if r % 2 = 0 then 1 else -1) * (MeshElem.tetVol G (fun k => (nodes k).p) t / 4) else 0 := by
  by_cases hk : ∃ k, t.ind k = r / 2
  · rw [if_pos hk]
    obtain ⟨k, hk⟩ := hk
    have hinj := ind_injective (h.oriented t (List.mem_filter.mp ht).1).ne'
    unfold Elem.contribution
    rw [Finset.sum_eq_single k, Finset.sum_eq_single k, Finset.sum_eq_single (r % 2), Finset.sum_eq_single (r % 2)]
    · have hi : (tetElem G prm s nodes Hext Hst dir V t).ind k = r / 2 := hk
      rw [if_pos ⟨by rw [hi]; omega, by rw [hi]; omega⟩]
      exact elem_diag h Hext Hst dir V t ht _ (Nat.mod_lt _ (by omega)) k
    · intro d hd hne
      have := Finset.mem_range.mp hd
      exact if_neg (fun hh => hne (by omega))
    · intro hh
      exact absurd (Finset.mem_range.mpr (Nat.mod_lt _ (by omega))) hh
    · intro d hd hne
      have := Finset.mem_range.mp hd
      exact Finset.sum_eq_zero fun d' _ => if_neg (fun hh => hne (by omega))
    · intro hh
      exact absurd (Finset.mem_range.mpr (Nat.mod_lt _ (by omega))) hh
    · intro j _ hne
      refine Finset.sum_eq_zero fun d _ => Finset.sum_eq_zero fun d' hd' => if_neg fun hh => hne ?_
      have := Finset.mem_range.mp hd'
      apply hinj
      rw [hk]
      have h2 : 2 * t.ind j + d' = r := hh.2
      omega
    · simp
    · intro j _ hne
      refine Finset.sum_eq_zero fun _ _ => Finset.sum_eq_zero fun d hd => Finset.sum_eq_zero fun d' _ => if_neg fun hh => hne ?_
      have := Finset.mem_range.mp hd
      apply hinj
      rw [hk]
      have h1 : 2 * t.ind j + d = r := hh.1
      omega
    · simp
  · rw [if_neg hk]
    exact contribution_zero (fun k e => hk ⟨k, e⟩) r

open Classical in
/-- volume of the magnetic elements around a node -/
noncomputable def nodeVol (G : Rule) (mag : ℕ → Bool) (tets : List Tet) (p : ℕ → V3) (i : ℕ) : ℝ :=
  (((magTet mag tets).filter fun t => ∃ k, t.ind k = i).map (MeshElem.tetVol G p)).sum

theorem nodeVol_pos (h : TimeStep G prm s mag nod tets nodes) (i : ℕ) (hi : i < nod)
    (hm : (magNode mag nod tets).getD i false = true) : 0 < nodeVol G mag tets (fun k => (nodes k).p) i := by
  obtain ⟨t, ht1, ht2, k, hk⟩ := (magNode_iff mag nod tets _ hi).mp hm
  unfold nodeVol
  apply List.sum_pos
  · intro x hx
    obtain ⟨t, ht, rfl⟩ := List.mem_map.mp hx
    have := h.oriented t (List.mem_filter.mp (List.mem_filter.mp ht).1).1
    unfold MeshElem.tetVol
    rw [calcVol_eq h.rule.ok]
    positivity
  · intro e
    have : t ∈ (magTet mag tets).filter fun t => ∃ k, t.ind k = i :=
      List.mem_filter.mpr ⟨List.mem_filter.mpr ⟨ht1, ht2⟩, by simpa using ⟨k, hk⟩⟩
    rw [List.map_eq_nil_iff.mp e] at this
    simp at this

/-- **C40** After the assembly of a time step the diagonal coefficients of a magnetic node are plus and minus a
quarter of the volume of the magnetic elements around it, those of the other nodes are 1; none is zero, and the
preconditioner holds their inverses. -/
theorem C40_diagonal (h : TimeStep G prm s mag nod tets nodes) (Hext Hst : Tet → Fin G.n → V3)
    (dir : Option (Fin 3)) (V : ℝ) (order : List Tet) (ho : order.Perm (magTet mag tets)) (before : List (Op ℝ))
    (hb : ∀ o ∈ before, o.InShape (llgShape mag nod tets)) :
    ∃ m, (ofShape (llgShape mag nod tets) : Sp ℝ).run (before ++ llgOps (magNode mag nod tets) nod
        (elems (tetElem G prm s nodes Hext Hst dir V) order)) = some m ∧
      ∀ r, r < 2 * nod → ∃ d, m.get r r = some d ∧ m.diagPrecond[r]? = some (some (1 / d)) ∧ d ≠ 0 ∧
        d = if (magNode mag nod tets).getD (r / 2) false = true then
          (if r % 2 = 0 then 1 else -1) * (nodeVol G mag tets (fun k => (nodes k).p) (r / 2) / 4) else 1 := by
  obtain ⟨m, hm, hget⟩ := C22_matrix mag nod tets h.valid (tetElem G prm s nodes Hext Hst dir V) (fun _ => rfl) order ho
    before hb
  refine ⟨m, hm, fun r hr => ?_⟩
  have hw : m.WF (llgShape mag nod tets) := reachable_wf _ _ (by
    intro o hmem
    rcases List.mem_append.mp hmem with hmem | hmem
    · exact hb o hmem
    · exact llg_ops_inShape mag nod tets h.valid _ (fun _ => rfl) order (fun t ht => ho.mem_iff.mp ht) o hmem) m hm
  have hlen : (llgShape mag nod tets).length = 2 * nod := (buildShape_in 2 nod _ _ (edges_lt h.valid) 0 0).1
  obtain ⟨d, hd1, hd2⟩ := C19_diag_precond _ m hw r (by rw [hlen]; exact hr)
  have hval := hget r r hr hr
  rw [hd1] at hval
  have hval := Option.some.inj hval
  have key : d = if (magNode mag nod tets).getD (r / 2) false = true then
      (if r % 2 = 0 then 1 else -1) * (nodeVol G mag tets (fun k => (nodes k).p) (r / 2) / 4) else 1 := by
    rw [hval]
    cases hmag : (magNode mag nod tets).getD (r / 2) false
    · simp
    · rw [if_neg (by simp), if_pos rfl]
      have e : ((magTet mag tets).map fun t => (tetElem G prm s nodes Hext Hst dir V t).contribution 2 r r) =
          (magTet mag tets).map fun t => open Classical in if ∃ k, t.ind k = r / 2 then
            (if r % 2 = 0 then 1 else -1) * (MeshElem.tetVol G (fun k => (nodes k).p) t / 4) else 0 :=
        List.map_congr_left fun t ht => contribution_diag h Hext Hst dir V t ht r
      rw [e]
      unfold nodeVol
      generalize magTet mag tets = l
      generalize (if r % 2 = 0 then (1 : ℝ) else -1) = sg
      induction l with
      | nil => simp
      | cons t ts ih =>
        rw [List.map_cons, List.sum_cons, ih]
        by_cases hk : ∃ k, t.ind k = r / 2
        · rw [if_pos hk, List.filter_cons_of_pos (by simpa using hk), List.map_cons, List.sum_cons]
          ring
        · rw [if_neg hk, List.filter_cons_of_neg (by simpa using hk), zero_add]
  refine ⟨d, hd1, hd2, ?_, key⟩
  rw [key]
  cases hmag : (magNode mag nod tets).getD (r / 2) false
  · simp
  · rw [if_pos rfl]
    have := nodeVol_pos h (r / 2) (by omega) hmag
    have : nodeVol G mag tets (fun k => (nodes k).p) (r / 2) / 4 ≠ 0 := by positivity
    split_ifs
    · simpa using this
    · simpa using this

end
/-! ## a concrete case: the reference tetrahedron, uniformly magnetized, with a non-magnetic copy -/

/-- nodes of the example, magnetization along z -/
noncomputable def exNodes : ℕ → Node := fun i => Node.setBasis i
  ⟨exP i, 0, 0, ⟨⟨0, 0, 1⟩, 0, 0, 0⟩, ⟨⟨0, 0, 1⟩, 0, 0, 0⟩⟩

example : TimeStep rule5 (fun _ => ⟨1 / 2, 1, 1, 0, 0, 0, 0, 0, 0⟩) ⟨1, 1, 1 / 2, 1, prefactor 1 1⟩ (· == 0) 5
    [exT, { exT with reg := 1 }] exNodes where
  rule := Or.inr rfl
  valid := by
    intro t ht k
    simp only [List.mem_cons, List.not_mem_nil, or_false] at ht
    rcases ht with rfl | rfl <;> fin_cases k <;> simp [exT]
  oriented := by
    intro t ht
    simp only [List.mem_cons, List.not_mem_nil, or_false] at ht
    rcases ht with rfl | rfl <;> exact lt_of_lt_of_eq one_pos ex_detJ.symm
  basis := fun t _ k => ⟨_, _, rfl, by simp [IsUnit3]⟩
  alpha := fun _ _ => by norm_num
  exchange := fun _ _ => by norm_num
  magnetic := fun _ _ => by norm_num
  gamma0 := by norm_num
  mu0 := by norm_num
  theta := by norm_num
  dt := by norm_num
  pref := ⟨1, by norm_num, rfl⟩

end Verif.Llg
