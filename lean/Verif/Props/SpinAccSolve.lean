import Verif.Props.SpinAcc

/-!
# C60: unique solvability of the spin diffusion problem; C45: what successive computations do wrong
-/

namespace Verif.Electro

open Verif.Mesh Verif.Assembly Verif.SparseMat Verif.Llg Verif.Krylov

theorem Material.pos {c : Consts} {m : VolPrm} (h : Material c m) : 0 < diffusionCst c m := by
  unfold diffusionCst
  have h1 := h.sigma
  have h2 := h.N0
  have h3 : 0 < c.e * c.e := mul_self_pos.mpr h.e
  positivity

theorem flat_field {n : ℕ} (x : Fin n → ℝ) (r : ℕ) : flat (field x) r = ext x r := by
  have h3 : r % 3 = 0 ∨ r % 3 = 1 ∨ r % 3 = 2 := by omega
  unfold flat
  rcases h3 with e | e | e <;> rw [e]
  · show ext x (3 * (r / 3)) = _
    rw [show 3 * (r / 3) = r by omega]
  · show ext x (3 * (r / 3) + 1) = _
    rw [show 3 * (r / 3) + 1 = r by omega]
  · show ext x (3 * (r / 3) + 2) = _
    rw [show 3 * (r / 3) + 2 = r by omega]

theorem dot_cross_self (w m : V3) : w.dot (w.cross m) = 0 := by
  simp only [V3.dot, V3.cross]
  ring

section
variable {G : Tetra.Rule} {H : TriElem.Rule} {nod : ℕ} {d : SpinData}

/-- the form is positive: when it vanishes, so does the field on every element -/
theorem spin_form_zero (h : SpinProblem G H nod d) (hm : ∀ t ∈ d.tets, Material d.c (d.vol t.reg)) (s : MagState)
    (z : ℕ → V3) (h0 : ∑ r ∈ Finset.range (3 * nod), ∑ q ∈ Finset.range (3 * nod),
      flat z r * spinCoef G d s r q * flat z q = 0) (t : Tet) (ht : t ∈ d.tets) (k : Fin 4) : z (t.ind k) = 0 := by
  rw [spinCoef_form h s z z] at h0
  simp only [dot_cross_self, Finset.sum_const_zero, zero_div, mul_zero, ite_self, add_zero] at h0
  have hnn : ∀ t ∈ d.tets, 0 ≤ diffusionCst d.c (d.vol t.reg) * (Tetra.detJ (MeshElem.nod4 d.p t) / 6) * (∑ a : Fin 3,
          (Tetra.gradV (MeshElem.nod4 d.p t) (comp4 z a t)).dot (Tetra.gradV (MeshElem.nod4 d.p t) (comp4 z a t))) := by
    intro t ht
    have h1 := (hm t ht).pos
    have h2 := h.oriented t ht
    exact mul_nonneg (by positivity) (Finset.sum_nonneg fun a _ => nsq_nonneg _)
  have hc : ∀ t ∈ d.tets, 0 < diffusionCst d.c (d.vol t.reg) / ((d.vol t.reg).lsf * (d.vol t.reg).lsf) *
          (Tetra.detJ (MeshElem.nod4 d.p t) / 6) := by
    intro t ht
    have h1 := (hm t ht).pos
    have h2 := h.oriented t ht
    have h3 : 0 < (d.vol t.reg).lsf * (d.vol t.reg).lsf := mul_self_pos.mpr (hm t ht).lsf
    positivity
  have hn2 : ∀ t : Tet, 0 ≤ (∑ i : Fin 4, (z (t.ind i)).dot (z (t.ind i))) / 4 := fun t =>
    div_nonneg (Finset.sum_nonneg fun i _ => nsq_nonneg _) (by norm_num)
  have := list_sum_zero (l := d.tets.map _) (by
    intro x hx
    obtain ⟨t, ht, rfl⟩ := List.mem_map.mp hx
    exact add_nonneg (hnn t ht) (mul_nonneg (hc t ht).le (hn2 t))) h0 _ (List.mem_map.mpr ⟨t, ht, rfl⟩)
  have h4 : (∑ i : Fin 4, (z (t.ind i)).dot (z (t.ind i))) / 4 = 0 := by
    have e1 := hnn t ht
    have e2 := mul_nonneg (hc t ht).le (hn2 t)
    have e3 : diffusionCst d.c (d.vol t.reg) / ((d.vol t.reg).lsf * (d.vol t.reg).lsf) *
          (Tetra.detJ (MeshElem.nod4 d.p t) / 6) * ((∑ i : Fin 4, (z (t.ind i)).dot (z (t.ind i))) / 4) = 0 := by
      linarith
    exact (mul_eq_zero.mp e3).resolve_left (hc t ht).ne'
  have h5 : ∑ i : Fin 4, (z (t.ind i)).dot (z (t.ind i)) = 0 := by linarith
  exact dot_self_eq_zero ((Finset.sum_eq_zero_iff_of_nonneg fun i _ => nsq_nonneg _).mp h5 k (Finset.mem_univ k))

theorem spinSolution_rows (h : SpinProblem G H nod d) (m n : ℕ → V3) (S : ℕ → Prop) (x : Fin (3 * nod) → ℝ) :
    SpinSolution d m n S (field x) ↔ ∀ r : Fin (3 * nod), ¬ S ((r : ℕ) / 3) →
      ∑ q : Fin (3 * nod), spinCoef G d ⟨m, n⟩ r q * x q = spinRhs G H d ⟨m, n⟩ r := by
  have e := rows_weak h [⟨m, n⟩] S (field x)
  simp only [List.map_cons, List.map_nil, List.sum_cons, List.sum_nil, add_zero, sub_eq_zero] at e
  refine Iff.trans e.symm ?_
  have e2 : ∀ r : ℕ, ∑ q ∈ Finset.range (3 * nod), spinCoef G d ⟨m, n⟩ r q * flat (field x) q =
      ∑ q : Fin (3 * nod), spinCoef G d ⟨m, n⟩ r q * x q := by
    intro r
    rw [Finset.sum_range]
    exact Finset.sum_congr rfl fun q _ => by rw [flat_field, ext_val]
  simp only [e2]
  exact ⟨fun hh r hr => hh r r.2 hr, fun hh r hr hS => hh ⟨r, hr⟩ hS⟩

/-- **C60** The spin diffusion problem has exactly one solution with prescribed spin vectors on the nodes of a set, whatever the
magnetization, these vectors, the potential and the surface terms, if and only if every other node belongs to an
element. -/
theorem C60_spin_unique (h : SpinProblem G H nod d) (hm : ∀ t ∈ d.tets, Material d.c (d.vol t.reg)) (m n : ℕ → V3)
    (S : ℕ → Prop) (v : ℕ → V3) :
    (∃! x : Fin (3 * nod) → ℝ, (∀ r : Fin (3 * nod), S ((r : ℕ) / 3) → x r = flat v r) ∧
      SpinSolution d m n S (field x)) ↔ Covered nod d.tets S := by
  simp only [spinSolution_rows h]
  constructor
  · rintro ⟨x, ⟨hx1, hx2⟩, huniq⟩ i hi hS
    by_contra hcon
    push Not at hcon
    -- the column of an unknown of this node is zero
    have hcol : ∀ r : Fin (3 * nod), spinCoef G d ⟨m, n⟩ r (3 * i) = 0 := by
      intro r
      have e1 := spinCoef_form h ⟨m, n⟩ (unit3 r) (unit3 (3 * i))
      have hz : ∀ t ∈ d.tets, ∀ k, unit3 (3 * i) (t.ind k) = 0 := by
        intro t ht k
        have := hcon t ht k
        unfold unit3
        rw [if_neg (by omega), if_neg (by omega), if_neg (by omega)]
        rfl
      rw [Finset.sum_eq_single (r : ℕ)] at e1
      · rw [Finset.sum_eq_single (3 * i)] at e1
        · rw [flat_unit3, flat_unit3, if_pos rfl, if_pos rfl, one_mul, mul_one] at e1
          rw [e1]
          apply List.sum_eq_zero
          intro y hy
          obtain ⟨t, ht, rfl⟩ := List.mem_map.mp hy
          have hc : ∀ a, comp4 (unit3 (3 * i)) a t = fun _ => 0 := by
            intro a
            funext k
            unfold comp4
            rw [hz t ht k]
            fin_cases a <;> rfl
          simp only [hc, gradV_const, hz t ht]
          simp [V3.dot, V3.cross]
        · intro b _ hb
          rw [flat_unit3 (3 * i) b, if_neg hb, mul_zero]
        · intro hn
          exact absurd (Finset.mem_range.mpr (by omega)) hn
      · intro b _ hb
        apply Finset.sum_eq_zero
        intro c _
        rw [flat_unit3, if_neg hb, zero_mul, zero_mul]
      · intro hn; exact absurd (Finset.mem_range.mpr r.2) hn
    have := huniq (fun q => x q + if (q : ℕ) = 3 * i then 1 else 0) ⟨fun r hr => by
        have hne : ¬ (r : ℕ) = 3 * i := by
          intro e
          rw [e, Nat.mul_div_cancel_left _ (by norm_num)] at hr
          exact hS hr
        simp only [if_neg hne, add_zero]
        exact hx1 r hr, fun r hr => by
        simp only [mul_add, Finset.sum_add_distrib]
        rw [hx2 r hr, add_eq_left]
        apply Finset.sum_eq_zero
        intro q _
        split_ifs with hq
        · rw [hq, hcol, zero_mul]
        · rw [mul_zero]⟩
    have := congrFun this ⟨3 * i, by omega⟩
    simp at this
  · intro hcov
    refine dirichlet_unique (fun r q : Fin (3 * nod) => spinCoef G d ⟨m, n⟩ r q) (fun r => S ((r : ℕ) / 3)) ?_
      (fun r => spinRhs G H d ⟨m, n⟩ r) (fun r => flat v r)
    intro z hz h0 r
    have h0' : ∑ r ∈ Finset.range (3 * nod), ∑ q ∈ Finset.range (3 * nod),
        flat (field z) r * spinCoef G d ⟨m, n⟩ r q * flat (field z) q = 0 := by
      rw [← h0, Finset.sum_range]
      refine Finset.sum_congr rfl fun i _ => ?_
      rw [Finset.sum_range]
      refine Finset.sum_congr rfl fun j _ => ?_
      rw [flat_field, flat_field, ext_val, ext_val]
    by_cases hS : S ((r : ℕ) / 3)
    · exact hz r hS
    · obtain ⟨t, ht, k, hk⟩ := hcov ((r : ℕ) / 3) (by omega) hS
      have := spin_form_zero h hm ⟨m, n⟩ (field z) h0' t ht k
      rw [hk] at this
      have e := flat_zero this
      rw [flat_field, ext_val] at e
      exact e

end

/-! ## a mesh that meets the hypotheses -/

/-- one magnetic tetrahedron, with a potential growing along x, no surface -/
noncomputable def exD : SpinData where
  c := ⟨1, 1⟩
  p := Tetra.exP
  mag := fun _ => true
  vol := fun _ => ⟨"a", 1, 1, .fin 1, .fin (1 / 2), 1, 1⟩
  surf := fun _ => ⟨"b", .nan, .nan, fun _ => .nan, fun _ => .nan⟩
  V := fun i => (Tetra.exP i).x
  tets := [Tetra.exT]
  tris := []

theorem exD_problem : SpinProblem Tetra.rule5 TriElem.rule4 4 exD where
  rule := Or.inr rfl
  ruleT := Or.inr rfl
  valid := by
    intro t ht k
    have ht : t ∈ [Tetra.exT] := ht
    rw [List.mem_singleton] at ht
    subst ht
    fin_cases k <;> decide
  validT := by
    intro f hf
    exact absurd hf (by simp [exD])
  oriented := by
    intro t ht
    have ht : t ∈ [Tetra.exT] := ht
    rw [List.mem_singleton] at ht
    subst ht
    show 0 < Tetra.detJ (MeshElem.nod4 Tetra.exP Tetra.exT)
    rw [Tetra.ex_detJ]; norm_num

theorem exD_material : ∀ t ∈ exD.tets, Material exD.c (exD.vol t.reg) := fun _ _ =>
  ⟨one_ne_zero, zero_lt_one, zero_lt_one, one_ne_zero⟩

theorem exD_covered (S : ℕ → Prop) : Covered 4 exD.tets S := by
  intro i hi _
  exact ⟨Tetra.exT, by simp [exD], ⟨i, hi⟩, by interval_cases i <;> rfl⟩

/-- the condition of C60 excludes something -/
example : ¬ Covered 5 exD.tets (fun _ => False) := by
  intro h
  obtain ⟨t, ht, k, hk⟩ := h 4 (by norm_num) id
  have ht : t ∈ [Tetra.exT] := ht
  rw [List.mem_singleton] at ht
  subst ht
  fin_cases k <;> simp [Tetra.exT] at hk

/-! ## C45: negations -/

/-- the weak form on the example -/
theorem exD_weak (m n w s : ℕ → V3) :
    spinWeak exD m n w s =
      2 * (1 / 6) * (∑ a : Fin 3, (Tetra.gradV (MeshElem.nod4 Tetra.exP Tetra.exT) (comp4 w a Tetra.exT)).dot
        (Tetra.gradV (MeshElem.nod4 Tetra.exP Tetra.exT) (comp4 s a Tetra.exT)))
      + 2 * (1 / 6) * ((∑ i : Fin 4, (w i).dot (s i)) / 4)
      + (2 * (1 / 6) * ((∑ i : Fin 4, (w i).dot ((s i).cross (m i))) / 4)
        - (1 / 2) * (1 / 6) * ((w 1).dot (n 1) - (w 0).dot (n 0))) := by
  have hind : ∀ i : Fin 4, Tetra.exT.ind i = i := by intro i; fin_cases i <;> rfl
  have hg : Tetra.gradV (MeshElem.nod4 Tetra.exP Tetra.exT) (MeshElem.nod4 (fun i => (Tetra.exP i).x) Tetra.exT) =
      ⟨1, 0, 0⟩ := by
    unfold Tetra.gradV
    simp only [Fin.sum_univ_four, Tetra.daRow_eq, Tetra.ex_detJ]
    simp [MeshElem.nod4, Tetra.exT, Tetra.exP, Tetra.gradNum, V3.cross]
    ext <;> simp
  have hd : ∑ i : Fin 4, (⟨1, 0, 0⟩ : V3).dot (Tetra.daRow (MeshElem.nod4 Tetra.exP Tetra.exT) i) *
      (w i).dot (n i) = (w 1).dot (n 1) - (w 0).dot (n 0) := by
    simp only [Fin.sum_univ_four, Tetra.daRow_eq, Tetra.ex_detJ]
    simp [MeshElem.nod4, Tetra.exT, Tetra.exP, Tetra.gradNum, V3.cross, V3.dot]
    ring
  rw [spinWeak_model]
  have e1 : diffusionCst exD.c (exD.vol Tetra.exT.reg) = 2 := by
    show 2 * (1 : ℝ) / (1 * 1 * 1) = 2
    norm_num
  show ([Tetra.exT].map _).sum + _ = _
  simp only [List.map_cons, List.map_nil, List.sum_cons, List.sum_nil, add_zero, e1]
  have e2 : Tetra.detJ (MeshElem.nod4 exD.p Tetra.exT) = 1 := Tetra.ex_detJ
  have e3 : Tetra.gradV (MeshElem.nod4 exD.p Tetra.exT) (MeshElem.nod4 exD.V Tetra.exT) = ⟨1, 0, 0⟩ := hg
  have e4 : (exD.vol Tetra.exT.reg).lsf = 1 := rfl
  have e5 : (exD.vol Tetra.exT.reg).lsd = 1 := rfl
  have e6 : exD.c.mub * (exD.vol Tetra.exT.reg).P.val * (exD.vol Tetra.exT.reg).sigma / exD.c.e = 1 / 2 := by
    show (1 : ℝ) * (1 / 2) * 1 / 1 = 1 / 2
    norm_num
  have e7 : Tetra.exT.isMagnetic exD.mag = true := rfl
  have e8 : exD.tris = [] := rfl
  have e9 : exD.p = Tetra.exP := rfl
  rw [e2, e3, e4, e5, e6, e7, e8, e9]
  simp only [hind, hd, if_true, List.map_nil, List.sum_nil, add_zero, mul_one, div_one]

/-- **C45 fails**: the matrix and the right hand side are never cleared. After a computation with some magnetization and one
with the opposite magnetization, the zero field solves the system, but it does not solve the problem of the current
magnetization. -/
theorem C45_negation :
    ∃ (G : Tetra.Rule) (H : TriElem.Rule) (nod : ℕ) (d : SpinData) (s1 s2 : MagState) (sys : SpinSys) (x : ℕ → V3),
      SpinProblem G H nod d ∧ (∀ t ∈ d.tets, Material d.c (d.vol t.reg)) ∧ s1.cur = s1.next ∧ s2.cur = s2.next ∧
      (SpinSys.new nod d.tets).history G H d.c d.p d.mag d.vol d.surf d.V d.tets d.tris [s1, s2] = some sys ∧
      sys.Solved nod (fun _ => False) x ∧ ¬ SpinSolution d s2.cur s2.next (fun _ => False) x := by
  let s1 : MagState := ⟨fun _ => ⟨1, 0, 0⟩, fun _ => ⟨1, 0, 0⟩⟩
  let s2 : MagState := ⟨fun _ => ⟨-1, 0, 0⟩, fun _ => ⟨-1, 0, 0⟩⟩
  obtain ⟨sys, h1, h2⟩ := C45_history exD_problem [s1, s2]
  have hz : ∀ w : ℕ → V3, ∑ a : Fin 3, (Tetra.gradV (MeshElem.nod4 Tetra.exP Tetra.exT) (comp4 w a Tetra.exT)).dot
        (Tetra.gradV (MeshElem.nod4 Tetra.exP Tetra.exT) (comp4 (fun _ => 0) a Tetra.exT)) = 0 := by
    intro w
    apply Finset.sum_eq_zero
    intro a _
    have : comp4 (fun _ => 0) a Tetra.exT = fun _ => 0 := by
      funext k
      fin_cases a <;> rfl
    rw [this, gradV_const]
    simp [V3.dot]
  refine ⟨_, _, 4, exD, s1, s2, sys, fun _ => 0, exD_problem, exD_material, rfl, rfl, h1, ?_, ?_⟩
  · rw [h2]
    intro w _
    simp only [List.map_cons, List.map_nil, List.sum_cons, List.sum_nil, add_zero, exD_weak, hz]
    simp only [s1, s2, V3.dot, V3.cross]
    simp
    ring
  · intro h
    have := h (fun i => if i = 1 then ⟨1, 0, 0⟩ else 0) (fun _ => False.elim)
    rw [exD_weak, hz] at this
    simp [s2, V3.dot, V3.cross] at this

/-- **C45 fails**, already for the first computation: the precession term is built with the magnetization of the start of
the step, the source with the new one. The solution of such a system does not solve the problem of the new
magnetization. -/
theorem C45_negation_stale :
    ∃ (G : Tetra.Rule) (H : TriElem.Rule) (nod : ℕ) (d : SpinData) (s : MagState) (sys : SpinSys) (x : ℕ → V3),
      SpinProblem G H nod d ∧ (∀ t ∈ d.tets, Material d.c (d.vol t.reg)) ∧
      (SpinSys.new nod d.tets).history G H d.c d.p d.mag d.vol d.surf d.V d.tets d.tris [s] = some sys ∧
      sys.Solved nod (fun _ => False) x ∧ ¬ SpinSolution d s.next s.next (fun _ => False) x := by
  let s : MagState := ⟨fun _ => ⟨0, 1, 0⟩, fun _ => ⟨1, 0, 0⟩⟩
  obtain ⟨sys, h1, h2⟩ := C45_first_partial exD_problem s
  obtain ⟨x0, ⟨-, hx⟩, -⟩ := (C60_spin_unique exD_problem exD_material s.cur s.next (fun _ => False) (fun _ => 0)).mpr
    (exD_covered _)
  refine ⟨_, _, 4, exD, s, sys, field x0, exD_problem, exD_material, h1, (h2 _ _).mpr hx, ?_⟩
  intro hx'
  generalize field x0 = x at hx hx'
  have hdiff : ∀ w : ℕ → V3, ∑ i : Fin 4, ((w i).dot ((x i).cross ⟨0, 1, 0⟩) - (w i).dot ((x i).cross ⟨1, 0, 0⟩)) = 0 := by
    intro w
    have e1 := hx w (fun _ => False.elim)
    have e2 := hx' w (fun _ => False.elim)
    rw [exD_weak] at e1 e2
    simp only [Finset.sum_sub_distrib]
    simp only [s] at e1 e2
    linarith
  have hpar : ∀ i : Fin 4, (x i).z = 0 ∧ (x i).x + (x i).y = 0 := by
    intro i
    have e1 := hdiff (fun k => if k = (i : ℕ) then ⟨1, 0, 0⟩ else 0)
    have e2 := hdiff (fun k => if k = (i : ℕ) then ⟨0, 0, 1⟩ else 0)
    rw [Fin.sum_univ_four] at e1 e2
    fin_cases i <;> simp [V3.dot, V3.cross] at e1 e2 <;> exact ⟨by simpa using e1, by simpa using e2⟩
  have hy : ∀ i : Fin 4, (x i).y = 0 := by
    have e := hx' (fun i => ⟨0, (x i).y, 0⟩) (fun _ => False.elim)
    rw [exD_weak, Fin.sum_univ_three] at e
    have c0 : comp4 (fun i => ⟨0, (x i).y, 0⟩) 0 Tetra.exT = fun _ => 0 := rfl
    have c2 : comp4 (fun i => ⟨0, (x i).y, 0⟩) 2 Tetra.exT = fun _ => 0 := rfl
    have c1 : comp4 (fun i => ⟨0, (x i).y, 0⟩) 1 Tetra.exT = comp4 x 1 Tetra.exT := rfl
    rw [c0, c1, c2, gradV_const] at e
    have hn := nsq_nonneg (Tetra.gradV (MeshElem.nod4 Tetra.exP Tetra.exT) (comp4 x 1 Tetra.exT))
    have hz3 : ∀ v : V3, (0 : V3).dot v = 0 := by intro v; simp [V3.dot]
    rw [hz3, hz3] at e
    have hp : ∀ i : Fin 4, (⟨0, (x i).y, 0⟩ : V3).dot ((x i).cross (s.next i)) = 0 := by
      intro i
      simp [V3.dot, V3.cross, s, (hpar i).1]
    have hs : ∀ i : ℕ, (⟨0, (x i).y, 0⟩ : V3).dot (s.next i) = 0 := by
      intro i
      simp [V3.dot, s]
    have hq : ∀ i : Fin 4, (⟨0, (x i).y, 0⟩ : V3).dot (x i) = (x i).y ^ 2 := by
      intro i
      simp [V3.dot]; ring
    simp only [hp, hs, hq, Finset.sum_const_zero] at e
    have hsq : ∑ i : Fin 4, (x i).y ^ 2 = 0 := by
      have : 0 ≤ ∑ i : Fin 4, (x i).y ^ 2 := Finset.sum_nonneg fun i _ => sq_nonneg _
      linarith
    intro i
    have := (Finset.sum_eq_zero_iff_of_nonneg fun i _ => sq_nonneg _).mp hsq i (Finset.mem_univ i)
    exact pow_eq_zero_iff (by norm_num) |>.mp this
  have hx0 : ∀ i : Fin 4, x i = 0 := by
    intro i
    ext
    · have := (hpar i).2; rw [hy i, add_zero] at this; exact this
    · exact hy i
    · exact (hpar i).1
  have e := hx' (fun i => if i = 1 then ⟨1, 0, 0⟩ else 0) (fun _ => False.elim)
  rw [exD_weak] at e
  have hc : ∀ a, comp4 x a Tetra.exT = fun _ => 0 := by
    intro a
    funext k
    unfold comp4
    have : x (Tetra.exT.ind k) = 0 := by
      have := hx0 k
      fin_cases k <;> exact this
    rw [this]
    fin_cases a <;> rfl
  simp only [hc, gradV_const, hx0] at e
  simp [s, V3.dot, V3.cross] at e

/-! ## C57: the prescribed spin vectors -/

section
variable {G : Tetra.Rule} {H : TriElem.Rule} {nod : ℕ} {d : SpinData}

theorem sqrt_isFin_inv {a : Fl} (h : a.sqrt.IsFin) : a.IsFin := by
  cases a with
  | nan => exact h
  | inf n => cases n <;> exact h
  | fin x => trivial

theorem Prescribes.value {c : Consts} {m : SurfPrm} {v : Fin 3 → ℝ} (h : Prescribes c m v) :
    spinValue c m = some fun a => .fin (v a) := by
  classical
  unfold spinValue
  rcases h with ⟨hj, hs⟩ | ⟨hs, j, hj, u, hu, hv⟩
  · have e : (norm3 m.s).IsFin := by
      unfold norm3
      rw [hs, hs, hs]
      show Fl.IsFin (Fl.sqrt (.fin (v 0 * v 0 + v 1 * v 1 + v 2 * v 2)))
      have : 0 ≤ v 0 * v 0 + v 1 * v 1 + v 2 * v 2 := by
        nlinarith [mul_self_nonneg (v 0), mul_self_nonneg (v 1), mul_self_nonneg (v 2)]
      show Fl.IsFin (if v 0 * v 0 + v 1 * v 1 + v 2 * v 2 < 0 then Fl.nan else _)
      rw [if_neg (by linarith)]
      trivial
    have e1 : ¬ (norm3 m.s).IsNan := by
      intro hn
      cases hc : norm3 m.s with
      | nan => rw [hc] at e; exact e
      | inf s => rw [hc] at e; exact e
      | fin x => rw [hc] at hn; exact hn
    rw [if_neg (fun hh => e1 hh.1), if_pos ⟨e, hj⟩]
    congr 1
    funext a
    exact hs a
  · rw [if_pos ⟨hs, by rw [hj]; trivial⟩]
    congr 1
    funext a
    rw [hj, hu a, hv a]
    rfl

theorem sum_list_fin {ι : Type} (l : List ι) (n : ℕ) (F : ι → Fin n → ℝ) :
    (l.map fun s => ∑ q, F s q).sum = ∑ q, (l.map fun s => F s q).sum := by
  induction l with
  | nil => simp
  | cons s l ih => simp only [List.map_cons, List.sum_cons, ih, Finset.sum_add_distrib]

/-- no other surface prescribes something else at the node -/
def Alone (d : SpinData) (i : ℕ) (v : Fin 3 → ℝ) : Prop :=
  ∀ f ∈ d.tris, (∃ k, f.ind k = i) → Prescribes d.c (d.surf f.reg) v ∨ spinValue d.c (d.surf f.reg) = none

/-- the vectors handed to the solver -/
theorem spinDirichlet_spec (nod : ℕ) (d : SpinData)
    (hp : ∀ f ∈ d.tris, (∃ v, Prescribes d.c (d.surf f.reg) v) ∨ spinValue d.c (d.surf f.reg) = none) :
    ∃ xd : Fin (3 * nod) → ℝ, vecOf (3 * nod) (spinDirichlet d.c nod d.surf d.tris).1 = lift xd ∧
      (∀ r : Fin (3 * nod), r ∈ idxOf (3 * nod) (suppressCopies (spinDirichlet d.c nod d.surf d.tris).2) ↔
        ∃ f ∈ d.tris, ∃ v, Prescribes d.c (d.surf f.reg) v ∧ ∃ k, f.ind k = (r : ℕ) / 3) ∧
      ∀ (r : Fin (3 * nod)) (a : Fin 3) (i : ℕ) (v : Fin 3 → ℝ), (r : ℕ) = 3 * i + a → Alone d i v →
        (∃ f ∈ d.tris, (∃ k, f.ind k = i) ∧ Prescribes d.c (d.surf f.reg) v) → xd r = v a := by
  rw [spinDirichlet_writes]
  set ws : List (ℕ × Fl) := d.tris.flatMap fun f => ((spinValue d.c (d.surf f.reg)).elim [] (triWrites f)) with hws
  obtain ⟨h1, h2, h3⟩ := writes_spec (0 : Fl) ws (List.replicate (3 * nod) 0, [])
  have hmem : ∀ (r : ℕ) (y : Fl), (r, y) ∈ ws ↔ ∃ f ∈ d.tris, ∃ v, Prescribes d.c (d.surf f.reg) v ∧
      ∃ k, ∃ a : Fin 3, r = 3 * f.ind k + a ∧ y = .fin (v a) := by
    intro r y
    rw [hws, List.mem_flatMap]
    constructor
    · rintro ⟨f, hf, hm⟩
      rcases hp f hf with ⟨v, hv⟩ | hn
      · rw [hv.value] at hm
        obtain ⟨k, a, e1, e2⟩ := mem_triWrites.mp hm
        exact ⟨f, hf, v, hv, k, a, e1, e2⟩
      · rw [hn] at hm
        simp at hm
    · rintro ⟨f, hf, v, hv, k, a, e1, e2⟩
      refine ⟨f, hf, ?_⟩
      rw [hv.value]
      exact mem_triWrites.mpr ⟨k, a, e1, e2⟩
  have hfst : ∀ r : ℕ, r ∈ ws.map Prod.fst ↔
      ∃ f ∈ d.tris, ∃ v, Prescribes d.c (d.surf f.reg) v ∧ ∃ k, f.ind k = r / 3 := by
    intro r
    rw [List.mem_map]
    constructor
    · rintro ⟨⟨r', y⟩, hm, rfl⟩
      obtain ⟨f, hf, v, hv, k, a, e1, -⟩ := (hmem r' y).mp hm
      refine ⟨f, hf, v, hv, k, ?_⟩
      show f.ind k = r' / 3
      omega
    · rintro ⟨f, hf, v, hv, k, e⟩
      refine ⟨(r, .fin (v (Fin.ofNat 3 (r % 3)))), (hmem _ _).mpr ⟨f, hf, v, hv, k, Fin.ofNat 3 (r % 3), ?_, rfl⟩, rfl⟩
      show r = 3 * f.ind k + r % 3 % 3
      omega
  have key : ∀ r : Fin (3 * nod), ∃ x : ℝ,
      vecOf (3 * nod) (writes (List.replicate (3 * nod) 0, []) ws).1 r = .fin x ∧
      ∀ (a : Fin 3) (i : ℕ) (v : Fin 3 → ℝ), (r : ℕ) = 3 * i + a → Alone d i v →
        (∃ f ∈ d.tris, (∃ k, f.ind k = i) ∧ Prescribes d.c (d.surf f.reg) v) → x = v a := by
    intro r
    rcases h3 r (by simp) with ⟨h4, h5⟩ | ⟨y, h4, h5⟩
    · refine ⟨0, ?_, ?_⟩
      · refine Eq.trans h5 ?_
        rw [List.getD_eq_getElem?_getD, List.getElem?_replicate, if_pos r.2]
        rfl
      · rintro a i v hr - ⟨f, hf, ⟨k, hk⟩, hv⟩
        refine absurd ((hfst r).mpr ⟨f, hf, v, hv, k, ?_⟩) h4
        omega
    · obtain ⟨f, hf, v, hv, k, a, e1, e2⟩ := (hmem _ _).mp h4
      refine ⟨v a, by rw [← e2]; exact h5, ?_⟩
      intro a' i v' hr hal _
      have hi : f.ind k = i := by omega
      have ha : a = a' := by apply Fin.ext; omega
      rcases hal f hf ⟨k, hi⟩ with hv' | hn
      · have := hv.value.symm.trans hv'.value
        injection this with this
        have := congrFun this a
        injection this with this
        rw [this, ha]
      · rw [hv.value] at hn
        cases hn
  choose xd hx1 hx2 using key
  refine ⟨xd, funext hx1, fun r => ?_, fun r a i v => hx2 r a i v⟩
  rw [mem_idxOf, (C56_suppress_copies _).2, h1, List.nil_append, hfst]

/-- **C57** The computation of the spin accumulation always ends, without leaving its arrays. When it reports convergence, a
node of a surface that prescribes a spin vector has exactly this vector, unless another surface touching the node
prescribes a different one; and the equations of the free nodes, summed over all computations so far (C45), hold up to the
tolerance of the solver. -/
theorem C57_spin (h : SpinProblem G H nod d) (hs : List MagState) (it : Iter) (tol : ℝ) (ht : it.resmax = .fin tol)
    (hp : ∀ f ∈ d.tris, (∃ v, Prescribes d.c (d.surf f.reg) v) ∨ spinValue d.c (d.surf f.reg) = none) :
    ∃ sys st, (SpinSys.new nod d.tets).history G H d.c d.p d.mag d.vol d.surf d.V d.tets d.tris hs = some sys ∧
      sys.solve it d.c nod d.surf d.tris = some st ∧ Decided st.iter.status ∧
      (st.iter.status = .CONVERGED → ∃ x x0 : Fin (3 * nod) → ℝ, st.x = lift x ∧
        (∀ f ∈ d.tris, ∀ k v, Prescribes d.c (d.surf f.reg) v → Alone d (f.ind k) v →
          field x (f.ind k) = ⟨v 0, v 1, v 2⟩) ∧
        ∀ D : List (Fin (3 * nod)),
          (∀ r, r ∈ D ↔ ∃ f ∈ d.tris, ∃ v, Prescribes d.c (d.surf f.reg) v ∧ ∃ k, f.ind k = (r : ℕ) / 3) →
          freeNorm D (fun r => (hs.map fun s => spinWeak d s.cur s.next (unit3 r) (field x)).sum) ≤
          tol * freeNorm D (fun r => (hs.map fun s => spinWeak d s.cur s.next (unit3 r) (field x0)).sum)) := by
  obtain ⟨sys, hsys, hw, hl, hK, hL⟩ := history_new h hs
  obtain ⟨xd, hxd, hidx, hval⟩ := spinDirichlet_spec nod d hp
  have hshape : (fullShape 3 nod d.tets).length = 3 * nod := (buildShape_in 3 nod _ _ (edges_lt h.valid) 0 0).1
  obtain ⟨hR, hD⟩ := represents (3 * nod) (fullShape 3 nod d.tets) hshape sys.K hw
    (fun a b => (hs.map fun s => spinCoef G d s a b).sum) hK (fun i hi => C21_diagonal 3 nod d.tets h.valid _ i hi)
  have hLv : vecOf (3 * nod) (sys.L.map .fin) = lift fun r => (hs.map fun s => spinRhs G H d s r).sum := by
    funext i
    have hi : (i : ℕ) < sys.L.length := by rw [hl]; exact i.2
    have := hL i i.2
    unfold vecOf lift
    rw [List.getD_eq_getElem?_getD, List.getElem?_map, List.getElem?_eq_getElem hi, Option.map_some, Option.getD_some]
    congr 1
    rw [List.getD_eq_getElem?_getD, List.getElem?_eq_getElem hi, Option.getD_some] at this
    exact this
  have hrun : sys.solve it d.c nod d.surf d.tris = bicgDir it.reset (rowsOf (3 * nod) (liftSp sys.K)) (lift 0)
      (lift fun r => (hs.map fun s => spinRhs G H d s r).sum) (lift xd)
      (idxOf (3 * nod) (suppressCopies (spinDirichlet d.c nod d.surf d.tris).2)) := by
    unfold SpinSys.solve
    dsimp only
    rw [hLv, hxd]
    rfl
  obtain ⟨st, hst, hdec, -⟩ := C14_bicg_dir it.reset rfl (rowsOf (3 * nod) (liftSp sys.K)) (lift 0)
    (lift fun r => (hs.map fun s => spinRhs G H d s r).sum) (lift xd)
    (idxOf (3 * nod) (suppressCopies (spinDirichlet d.c nod d.surf d.tris).2))
  refine ⟨sys, st, hsys, hrun.trans hst, hdec, fun hc => ?_⟩
  obtain ⟨x, hx, hres, -⟩ := C12_bicg_dir it.reset tol ht _ _ hR hD 0 _ xd _ st hst hc
  refine ⟨x, xd, hx, ?_, ?_⟩
  · intro f hf k v hv hal
    have hexact : ∀ a : Fin 3, ext x (3 * f.ind k + a) = v a := by
      intro a
      have hlt : 3 * f.ind k + (a : ℕ) < 3 * nod := by
        have := h.validT f hf k
        omega
      have hin := (hidx ⟨3 * f.ind k + a, hlt⟩).mpr ⟨f, hf, v, hv, k, by
        show f.ind k = (3 * f.ind k + (a : ℕ)) / 3
        omega⟩
      have := (C13_converged_exact it.reset tol ht _ _ hR hD 0
        (fun r : Fin (3 * nod) => (hs.map fun s => spinRhs G H d s r).sum) xd _ ⟨3 * f.ind k + a, hlt⟩ hin).1 st hst hc
      rw [hx] at this
      have this : Fl.fin (x ⟨3 * f.ind k + a, hlt⟩) = Fl.fin ((0 : Fin (3 * nod) → ℝ) ⟨3 * f.ind k + a, hlt⟩ +
        xd ⟨3 * f.ind k + a, hlt⟩) := this
      injection this with this
      rw [show ext x (3 * f.ind k + a) = x ⟨3 * f.ind k + a, hlt⟩ from ext_val x ⟨3 * f.ind k + a, hlt⟩, this,
        hval ⟨3 * f.ind k + a, hlt⟩ a (f.ind k) v rfl hal ⟨f, hf, ⟨k, rfl⟩, hv⟩]
      simp
    ext
    · exact hexact 0
    · exact hexact 1
    · exact hexact 2
  · intro D hDm
    have e : ∀ y : Fin (3 * nod) → ℝ,
        freeNorm (idxOf (3 * nod) (suppressCopies (spinDirichlet d.c nod d.surf d.tris).2))
          (Krylov.residual (fun i j : Fin (3 * nod) => (hs.map fun s => spinCoef G d s i j).sum)
            (fun r => (hs.map fun s => spinRhs G H d s r).sum) y) =
        freeNorm D (fun r => (hs.map fun s => spinWeak d s.cur s.next (unit3 r) (field y)).sum) := by
      intro y
      unfold freeNorm
      congr 1
      refine Finset.sum_congr rfl fun r _ => ?_
      have hm : r ∈ idxOf (3 * nod) (suppressCopies (spinDirichlet d.c nod d.surf d.tris).2) ↔ r ∈ D :=
        (hidx r).trans (hDm r).symm
      by_cases hr : r ∈ D
      · rw [if_pos hr, if_pos (hm.mpr hr)]
      · rw [if_neg hr, if_neg fun h' => hr (hm.mp h')]
        have e1 : ∀ s : MagState, spinWeak d s.cur s.next (unit3 r) (field y) =
            ∑ q : Fin (3 * nod), spinCoef G d s r q * y q - spinRhs G H d s r := by
          intro s
          rw [spinWeak_eq h s, Finset.sum_eq_single (r : ℕ)]
          · rw [flat_unit3, if_pos rfl, one_mul, Finset.sum_range]
            congr 1
            exact Finset.sum_congr rfl fun q _ => by rw [flat_field, ext_val]
          · intro b _ hb
            rw [flat_unit3, if_neg hb, zero_mul]
          · intro hn; exact absurd (Finset.mem_range.mpr r.2) hn
        simp only [e1]
        rw [sum_map_sub']
        have e2 : (hs.map fun s => ∑ q : Fin (3 * nod), spinCoef G d s r q * y q).sum =
            ∑ q : Fin (3 * nod), (hs.map fun s => spinCoef G d s r q).sum * y q := by
          rw [sum_list_fin]
          refine Finset.sum_congr rfl fun q _ => ?_
          rw [List.sum_map_mul_right]
        show ((hs.map fun s => spinRhs G H d s r).sum - ∑ q : Fin (3 * nod),
          (hs.map fun s => spinCoef G d s r q).sum * y q) ^ 2 = _
        rw [e2]
        ring
    rw [e, e] at hres
    exact hres

end

/-- a surface given by its spin vector and another by its current density prescribe spin vectors -/
example : Prescribes ⟨2, 1⟩ ⟨"a", .nan, .fin 0, fun _ => .nan, ![.fin 0, .fin 0, .fin 3]⟩ ![0, 0, 3] ∧
    Prescribes ⟨2, 1⟩ ⟨"b", .fin 5, .nan, ![.fin 1, .fin 0, .fin 0], fun _ => .nan⟩ ![-10, 0, 0] := by
  refine ⟨Or.inl ⟨trivial, ?_⟩, Or.inr ⟨trivial, 5, rfl, ![1, 0, 0], ?_, ?_⟩⟩
  · intro a; fin_cases a <;> rfl
  · intro a; fin_cases a <;> rfl
  · intro a; fin_cases a <;> norm_num

/-- a single surface with both a current density and a spin vector passes the check, but then no node of any mesh has
a prescribed value -/
theorem C57_spin_no_dirichlet :
    ∃ (vol : List VolPrm) (prms : List SurfPrm) (e : SurfPrm), checkS vol prms = true ∧
      ∀ (c : Consts) (nod : ℕ) (tris : List Tri), (∀ f ∈ tris, f.reg < prms.length) →
        (spinDirichlet c nod (fun r => prms.getD r e) tris).2 = [] := by
  classical
  let q0 : SurfPrm := ⟨"__default__", .nan, .nan, fun _ => .nan, fun _ => .nan⟩
  let q1 : SurfPrm := ⟨"a", .fin 1, .nan, fun _ => .fin 1, fun _ => .fin 0⟩
  refine ⟨[⟨"__default__", 0, 0, .nan, .nan, 0, 0⟩, ⟨"v", 1, 1, .fin 1, .fin (1 / 2), 1, 1⟩], [q0, q1], q0, ?_, ?_⟩
  · have hn : (norm3 q1.s).IsFin := by
      show Fl.IsFin (if (0 : ℝ) * 0 + 0 * 0 + 0 * 0 < 0 then Fl.nan else _)
      rw [if_neg (by norm_num)]
      trivial
    have h0 : ¬ (norm3 q0.s).IsFin := id
    have hN : (Fl.fin 1).IsFin ∧ (Fl.fin 1).val ≠ 0 := ⟨trivial, one_ne_zero⟩
    have hP : (Fl.fin (1 / 2)).IsFin ∧ 0 ≤ (Fl.fin (1 / 2)).val ∧ (Fl.fin (1 / 2)).val < 1 :=
      ⟨trivial, by show (0 : ℝ) ≤ 1 / 2; norm_num, by show (1 / 2 : ℝ) < 1; norm_num⟩
    have hj : q1.jn.IsFin := trivial
    have e1 : decide ((Fl.fin 1).IsFin ∧ (Fl.fin 1).val ≠ 0) = true := decide_eq_true hN
    have e2 : decide ((Fl.fin (1 / 2)).IsFin ∧ 0 ≤ (Fl.fin (1 / 2)).val ∧ (Fl.fin (1 / 2)).val < 1) = true :=
      decide_eq_true hP
    have e3 : decide q1.jn.IsFin = true := decide_eq_true hj
    have e4 : decide (norm3 q1.s).IsFin = true := decide_eq_true hn
    have r0 : (q0.regName != "__default__") = false := rfl
    have r1 : (q1.regName != "__default__") = true := rfl
    unfold checkS
    simp only [List.countP_cons, List.countP_nil, e1, e2, e3, e4, r0, r1]
    rfl
  · intro c nod tris htri
    rw [spinDirichlet_writes]
    obtain ⟨h1, -, -⟩ := writes_spec (0 : Fl) (tris.flatMap fun f =>
      ((spinValue c ((fun r => [q0, q1].getD r q0) f.reg)).elim [] (triWrites f))) (List.replicate (3 * nod) 0, [])
    rw [h1]
    have : ∀ f ∈ tris, spinValue c ([q0, q1].getD f.reg q0) = none := by
      intro f hf
      have := htri f hf
      have hl : f.reg = 0 ∨ f.reg = 1 := by
        simp at this; omega
      unfold spinValue
      rcases hl with e | e <;> rw [e]
      · show (if (norm3 q0.s).IsNan ∧ q0.jn.IsFin then _ else _) = _
        rw [if_neg (fun h => h.2)]
        show (if (norm3 q0.s).IsFin ∧ q0.jn.IsNan then _ else _) = _
        exact if_neg fun h => h.1
      · show (if (norm3 q1.s).IsNan ∧ q1.jn.IsFin then _ else _) = _
        have hnn : ¬ (norm3 q1.s).IsNan := by
          show ¬ Fl.IsNan (if (0 : ℝ) * 0 + 0 * 0 + 0 * 0 < 0 then Fl.nan else _)
          rw [if_neg (by norm_num)]
          exact id
        rw [if_neg (fun h => hnn h.1)]
        show (if (norm3 q1.s).IsFin ∧ q1.jn.IsNan then _ else _) = _
        exact if_neg fun h => h.2
    rw [List.nil_append, List.map_eq_nil_iff, List.flatMap_eq_nil_iff]
    intro f hf
    show (spinValue c ([q0, q1].getD f.reg q0)).elim [] (triWrites f) = []
    rw [this f hf]
    rfl

end Verif.Electro
