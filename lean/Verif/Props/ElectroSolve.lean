import Verif.Props.Electro

/-!
# C57, C59, C61: the solution of the electrostatic problem
-/

namespace Verif.Electro

open Verif.Mesh Verif.Assembly Verif.SparseMat Verif.Llg Verif.Krylov

/-- what is assumed of the mesh: valid indices, positively oriented elements (ensured by the reading of the mesh, C34),
conductivities not negative, and one of the compiled quadrature rules -/
structure Problem (G : Tetra.Rule) (H : TriElem.Rule) (nod : ℕ) (p : ℕ → V3) (sigma : ℕ → ℝ) (tets : List Tet)
    (tris : List Tri) : Prop where
  rule : Tetra.Compiled G
  ruleT : H = TriElem.rule1 ∨ H = TriElem.rule4
  valid : IndicesValid nod tets
  validT : ∀ f ∈ tris, ∀ k, f.ind k < nod
  oriented : ∀ t ∈ tets, 0 < Tetra.detJ (MeshElem.nod4 p t)
  cond : ∀ t ∈ tets, 0 ≤ sigma t.reg

section
variable {G : Tetra.Rule} {H : TriElem.Rule} {nod : ℕ} {p : ℕ → V3} {sigma : ℕ → ℝ} {tets : List Tet} {tris : List Tri}

theorem Problem.okT (h : Problem G H nod p sigma tets tris) : H.Ok := by
  rcases h.ruleT with rfl | rfl
  · exact TriElem.rule1_ok
  · exact TriElem.rule4_ok

theorem sum_map_neg' {α : Type} (l : List α) (f : α → ℝ) : (l.map fun a => -f a).sum = -(l.map f).sum := by
  induction l with
  | nil => simp
  | cons a l ih => simp only [List.map_cons, List.sum_cons, ih]; ring

/-- right hand side of the potential problem -/
noncomputable def potRhs (H : TriElem.Rule) (p : ℕ → V3) (prm : ℕ → SurfPrm) (tris : List Tri) (r : ℕ) : ℝ :=
  (tris.map fun f => (potTri H p prm f).rhsContribution 1 r).sum

theorem weakForm_eq (h : Problem G H nod p sigma tets tris) (prm : ℕ → SurfPrm) (w V : ℕ → ℝ) :
    weakForm p sigma (fun r => currentDensity (prm r)) tets tris w V =
      ∑ r ∈ Finset.range nod, w r *
        (∑ c ∈ Finset.range nod, fullCoef 1 tets (potTet G p sigma) r c * V c - potRhs H p prm tris r) := by
  have e1 := pot_form G h.rule p sigma nod tets h.valid w V
  have e2 : ∑ r ∈ Finset.range (1 * nod), w r * potRhs H p prm tris r =
      -(tris.map fun f => currentDensity (prm f.reg) * TriElem.surf (MeshElem.nod3 p f) *
        ((w (f.ind 0) + w (f.ind 1) + w (f.ind 2)) / 3)).sum := by
    unfold potRhs
    simp only [← List.sum_map_mul_left]
    rw [sum_list_comm]
    have : ∀ f ∈ tris, ∑ r ∈ Finset.range (1 * nod), w r * (potTri H p prm f).rhsContribution 1 r =
      -(currentDensity (prm f.reg) * TriElem.surf (MeshElem.nod3 p f) *
        ((w (f.ind 0) + w (f.ind 1) + w (f.ind 2)) / 3)) := fun f hf =>
      pot_rhs_form H h.okT p prm nod f (h.validT f hf) w
    rw [List.map_congr_left this]
    exact sum_map_neg' _ _
  rw [one_mul] at e1 e2
  unfold weakForm
  simp only [mul_sub, Finset.sum_sub_distrib, e2, Finset.mul_sum]
  rw [← e1]
  simp only [mul_assoc, sub_neg_eq_add]

/-- the equations of the free nodes are the weak form of the problem -/
theorem weak_iff (h : Problem G H nod p sigma tets tris) (prm : ℕ → SurfPrm) (S : ℕ → Prop) (V : ℕ → ℝ) :
    WeakPotential p sigma (fun r => currentDensity (prm r)) tets tris S V ↔
      ∀ i, i < nod → ¬ S i →
        ∑ c ∈ Finset.range nod, fullCoef 1 tets (potTet G p sigma) i c * V c = potRhs H p prm tris i := by
  classical
  constructor
  · intro hw i hi hS
    have := hw (hat i) (fun k hk => by
      unfold hat
      rw [if_neg]
      rintro rfl
      exact hS hk)
    rw [weakForm_eq h, Finset.sum_eq_single i] at this
    · unfold hat at this
      rw [if_pos rfl, one_mul] at this
      linarith
    · intro b _ hb
      unfold hat
      rw [if_neg hb, zero_mul]
    · intro hn; exact absurd (Finset.mem_range.mpr hi) hn
  · intro hr w hw
    rw [weakForm_eq h]
    apply Finset.sum_eq_zero
    intro r hr'
    by_cases hS : S r
    · rw [hw r hS, zero_mul]
    · rw [hr r (Finset.mem_range.mp hr') hS, sub_self, mul_zero]

theorem ext_val {n : ℕ} (x : Fin n → ℝ) (i : Fin n) : ext x i = x i := by
  unfold ext
  rw [dif_pos i.2]

/-- the value on a conducting tetrahedron is uniform when the form vanishes -/
theorem form_zero (h : Problem G H nod p sigma tets tris) (z : ℕ → ℝ)
    (h0 : ∑ r ∈ Finset.range nod, ∑ c ∈ Finset.range nod, z r * fullCoef 1 tets (potTet G p sigma) r c * z c = 0)
    {a b : ℕ} (hab : Conducts sigma tets a b) : z a = z b := by
  have e1 := pot_form G h.rule p sigma nod tets h.valid z z
  rw [one_mul, h0] at e1
  obtain ⟨t, ht, hs, ⟨i, rfl⟩, k, rfl⟩ := hab
  have := list_sum_zero (l := tets.map fun t => sigma t.reg * (Tetra.detJ (MeshElem.nod4 p t) / 6) *
        (Tetra.gradV (MeshElem.nod4 p t) (MeshElem.nod4 z t)).dot
          (Tetra.gradV (MeshElem.nod4 p t) (MeshElem.nod4 z t))) (by
    intro x hx
    obtain ⟨t, ht, rfl⟩ := List.mem_map.mp hx
    have h1 := h.cond t ht
    have h2 := h.oriented t ht
    exact mul_nonneg (by positivity) (nsq_nonneg _)) e1.symm _ (List.mem_map.mpr ⟨t, ht, rfl⟩)
  have hd := h.oriented t ht
  have hg := fun j => gradV_diff (MeshElem.nod4 p t) hd.ne' (MeshElem.nod4 z t) j
  rw [dot_self_eq_zero ((mul_eq_zero.mp this).resolve_left (by positivity))] at hg
  have h3 : ∀ j, z (t.ind j) = z (t.ind 0) := by
    intro j
    have := hg j
    simp [V3.dot, MeshElem.nod4] at this
    linarith
  rw [h3 i, h3 k]

open Classical in
/-- **C59** The potential problem assembled by the code has exactly one solution with prescribed values on the nodes of a
set, whatever these values and the injected currents, if and only if every node is joined to a node of the set through
conducting elements. -/
theorem C59_potential_unique (h : Problem G H nod p sigma tets tris) (prm : ℕ → SurfPrm) (S : ℕ → Prop) (v : ℕ → ℝ) :
    (∃! V : Fin nod → ℝ, (∀ i : Fin nod, S i → V i = v i) ∧
      WeakPotential p sigma (fun r => currentDensity (prm r)) tets tris S (ext V)) ↔ Connected nod sigma tets S := by
  have rows : ∀ V : Fin nod → ℝ, WeakPotential p sigma (fun r => currentDensity (prm r)) tets tris S (ext V) ↔
      ∀ i : Fin nod, ¬ S i → ∑ j : Fin nod, fullCoef 1 tets (potTet G p sigma) i j * V j = potRhs H p prm tris i := by
    intro V
    rw [weak_iff h prm S]
    have e : ∀ i : ℕ, ∑ c ∈ Finset.range nod, fullCoef 1 tets (potTet G p sigma) i c * ext V c =
        ∑ j : Fin nod, fullCoef 1 tets (potTet G p sigma) i j * V j := by
      intro i
      rw [Finset.sum_range]
      exact Finset.sum_congr rfl fun j _ => by rw [ext_val]
    simp only [e]
    exact ⟨fun hh i hi => hh i i.2 hi, fun hh i hi hS => hh ⟨i, hi⟩ hS⟩
  simp only [rows]
  constructor
  · rintro ⟨V, ⟨hV1, hV2⟩, huniq⟩ i0 hi0
    by_contra hcon
    push Not at hcon
    -- the indicator of the nodes joined to `i0`
    let z : ℕ → ℝ := fun k => if Relation.ReflTransGen (Conducts sigma tets) i0 k then 1 else 0
    have hz : ∀ t ∈ tets, 0 < sigma t.reg → ∀ i k, z (t.ind i) = z (t.ind k) := by
      intro t ht hs i k
      have hik : ∀ a b, Relation.ReflTransGen (Conducts sigma tets) i0 (t.ind a) →
          Relation.ReflTransGen (Conducts sigma tets) i0 (t.ind b) := fun a b hr =>
        hr.tail ⟨t, ht, hs, ⟨a, rfl⟩, b, rfl⟩
      show (if _ then (1 : ℝ) else 0) = if _ then 1 else 0
      by_cases hi : Relation.ReflTransGen (Conducts sigma tets) i0 (t.ind i)
      · rw [if_pos hi, if_pos (hik i k hi)]
      · rw [if_neg hi, if_neg fun hk => hi (hik k i hk)]
    have hMz : ∀ f : ℕ → ℝ, ∑ r ∈ Finset.range nod, ∑ c ∈ Finset.range nod,
        f r * fullCoef 1 tets (potTet G p sigma) r c * z c = 0 := by
      intro f
      have e1 := pot_form G h.rule p sigma nod tets h.valid f z
      rw [one_mul] at e1
      rw [e1]
      apply List.sum_eq_zero
      intro x hx
      obtain ⟨t, ht, rfl⟩ := List.mem_map.mp hx
      rcases (h.cond t ht).lt_or_eq with hs | hs
      · have : MeshElem.nod4 z t = fun _ => z (t.ind 0) := by
          funext k
          exact hz t ht hs k 0
        rw [this, gradV_const]
        simp [V3.dot]
      · rw [← hs]; simp
    have hrow : ∀ i : Fin nod, ∑ j : Fin nod, fullCoef 1 tets (potTet G p sigma) i j * z j = 0 := by
      intro i
      have := hMz (hat i)
      rw [Finset.sum_eq_single (i : ℕ)] at this
      · unfold hat at this
        simp only [if_true, one_mul] at this
        rw [← this, Finset.sum_range]
      · intro b _ hb
        apply Finset.sum_eq_zero
        intro c _
        unfold hat
        rw [if_neg hb]; ring
      · intro hn; exact absurd (Finset.mem_range.mpr i.2) hn
    have hne : z i0 = 1 := if_pos Relation.ReflTransGen.refl
    have := huniq (fun j => V j + z j) ⟨fun i hi => by
        have : z i = 0 := if_neg (hcon i i.2 hi)
        show V i + z i = v i
        rw [this, add_zero, hV1 i hi], fun i hi => by
        simp only [mul_add, Finset.sum_add_distrib]
        rw [hrow i, hV2 i hi, add_zero]⟩
    have := congrFun this ⟨i0, hi0⟩
    simp only at this
    linarith
  · intro hcon
    refine dirichlet_unique (fun i j : Fin nod => fullCoef 1 tets (potTet G p sigma) i j) (fun i => S i) ?_
      (fun i => potRhs H p prm tris i) (fun i => v i)
    intro z hz h0 i
    have h0' : ∑ r ∈ Finset.range nod, ∑ c ∈ Finset.range nod,
        ext z r * fullCoef 1 tets (potTet G p sigma) r c * ext z c = 0 := by
      rw [← h0, Finset.sum_range]
      refine Finset.sum_congr rfl fun i _ => ?_
      rw [Finset.sum_range]
      refine Finset.sum_congr rfl fun j _ => ?_
      rw [ext_val, ext_val]
    obtain ⟨k, hk, hS, hr⟩ := hcon i i.2
    have : ∀ b, Relation.ReflTransGen (Conducts sigma tets) i b → ext z i = ext z b := by
      intro b hb
      induction hb with
      | refl => rfl
      | tail _ hc ih => rw [ih]; exact form_zero h _ h0' hc
    have e := this k hr
    rw [ext_val, show ext z k = z ⟨k, hk⟩ from ext_val z ⟨k, hk⟩, hz ⟨k, hk⟩ hS] at e
    exact e

/-- **C61** Conservation of the current: for a solution of the potential problem, the current leaving through the nodes
with a prescribed potential (the defect of their equations) is the current injected through the surfaces, current
density times area. -/
theorem C61_current_conserved (h : Problem G H nod p sigma tets tris) (prm : ℕ → SurfPrm) (S : Finset ℕ)
    (hS : ∀ i ∈ S, i < nod) (V : ℕ → ℝ)
    (hV : WeakPotential p sigma (fun r => currentDensity (prm r)) tets tris (· ∈ S) V) :
    ∑ i ∈ S, weakForm p sigma (fun r => currentDensity (prm r)) tets tris (hat i) V =
      (tris.map fun f => currentDensity (prm f.reg) * TriElem.surf (MeshElem.nod3 p f)).sum := by
  have e1 : ∀ i, i < nod → weakForm p sigma (fun r => currentDensity (prm r)) tets tris (hat i) V =
      ∑ c ∈ Finset.range nod, fullCoef 1 tets (potTet G p sigma) i c * V c - potRhs H p prm tris i := by
    intro i hi
    rw [weakForm_eq h, Finset.sum_eq_single i]
    · unfold hat
      rw [if_pos rfl, one_mul]
    · intro b _ hb
      unfold hat
      rw [if_neg hb, zero_mul]
    · intro hn; exact absurd (Finset.mem_range.mpr hi) hn
  have e2 := weakForm_eq h prm (fun _ => 1) V
  have e3 : weakForm p sigma (fun r => currentDensity (prm r)) tets tris (fun _ => 1) V =
      (tris.map fun f => currentDensity (prm f.reg) * TriElem.surf (MeshElem.nod3 p f)).sum := by
    unfold weakForm
    have : ∀ t, MeshElem.nod4 (fun _ : ℕ => (1 : ℝ)) t = fun _ => 1 := fun _ => rfl
    simp only [this, gradV_const]
    have h0 : (tets.map fun t => sigma t.reg * (Tetra.detJ (MeshElem.nod4 p t) / 6) *
        (0 : V3).dot (Tetra.gradV (MeshElem.nod4 p t) (MeshElem.nod4 V t))).sum = 0 := by
      apply List.sum_eq_zero
      intro x hx
      obtain ⟨t, _, rfl⟩ := List.mem_map.mp hx
      simp [V3.dot]
    rw [h0, zero_add]
    congr 1
    refine List.map_congr_left fun f _ => ?_
    ring
  rw [← e3, e2, Finset.sum_congr rfl fun i hi => e1 i (hS i hi)]
  simp only [one_mul]
  refine Finset.sum_subset (fun i hi => Finset.mem_range.mpr (hS i hi)) fun i hi hn => ?_
  rw [(weak_iff h prm (· ∈ S) V).mp hV i (Finset.mem_range.mp hi) hn, sub_self]

/-! ## C57: the computed potential -/

theorem mem_idxOf {n : ℕ} {l : List ℕ} {i : Fin n} : i ∈ idxOf n l ↔ (i : ℕ) ∈ l := by
  unfold idxOf
  rw [List.mem_filterMap]
  constructor
  · rintro ⟨a, ha, h⟩
    split_ifs at h with hl
    simp only [Option.some.injEq] at h
    rw [← h]; exact ha
  · intro h
    exact ⟨i, h, by simp⟩

/-- the prescribed potentials -/
theorem potDirichlet_spec (prm : ℕ → SurfPrm)
    (hinf : ∀ f ∈ tris, (prm f.reg).V.IsNan ∨ (prm f.reg).V.IsFin) :
    ∃ xd : Fin nod → ℝ, vecOf nod (potDirichlet nod prm tris).1 = lift xd ∧
      (∀ i : Fin nod, i ∈ idxOf nod (suppressCopies (potDirichlet nod prm tris).2) ↔ OnPotential prm tris i) ∧
      ∀ i : Fin nod, (xd i = 0 ∧ ¬ OnPotential prm tris i) ∨
        ∃ f ∈ tris, (∃ k, f.ind k = i) ∧ (prm f.reg).V = .fin (xd i) := by
  rw [potDirichlet_writes]
  obtain ⟨h1, h2, h3⟩ := writes_spec (0 : Fl) (tris.flatMap (potWrites prm)) (List.replicate nod 0, [])
  have hon : ∀ i : ℕ, i ∈ (tris.flatMap (potWrites prm)).map Prod.fst ↔ OnPotential prm tris i := by
    intro i
    simp only [List.mem_map, List.mem_flatMap]
    constructor
    · rintro ⟨⟨a, v⟩, ⟨f, hf, hm⟩, rfl⟩
      obtain ⟨h1, h2, -⟩ := mem_potWrites.mp hm
      exact ⟨f, hf, h1, h2⟩
    · rintro ⟨f, hf, h1, h2⟩
      exact ⟨(i, (prm f.reg).V), ⟨f, hf, mem_potWrites.mpr ⟨h1, h2, rfl⟩⟩, rfl⟩
  have key : ∀ i : Fin nod, ∃ x : ℝ, vecOf nod (writes (List.replicate nod 0, []) (tris.flatMap (potWrites prm))).1 i = .fin x ∧
      ((x = 0 ∧ ¬ OnPotential prm tris i) ∨ ∃ f ∈ tris, (∃ k, f.ind k = i) ∧ (prm f.reg).V = .fin x) := by
    intro i
    rcases h3 i (by simp) with ⟨h4, h5⟩ | ⟨v, h4, h5⟩
    · refine ⟨0, ?_, Or.inl ⟨rfl, fun h => h4 ((hon i).mpr h)⟩⟩
      refine Eq.trans h5 ?_
      simp [List.getD_eq_getElem?_getD]
      rfl
    · obtain ⟨f, hf, hm⟩ := List.mem_flatMap.mp h4
      obtain ⟨hn, hk, rfl⟩ := mem_potWrites.mp hm
      rcases hinf f hf with h | h
      · exact absurd h hn
      · cases hV : (prm f.reg).V with
        | nan => rw [hV] at h; exact absurd h id
        | inf s => rw [hV] at h; exact absurd h id
        | fin x =>
          refine ⟨x, ?_, Or.inr ⟨f, hf, hk, hV⟩⟩
          rw [← hV]; exact h5
  choose xd hx1 hx2 using key
  refine ⟨xd, funext hx1, fun i => ?_, hx2⟩
  rw [mem_idxOf, (C56_suppress_copies _).2, h1, List.nil_append, hon]

/-- **C57** When the check passes, the computation of the potential never leaves its arrays, it always ends, and when it
reports convergence the nodes of the surface with a potential have exactly this potential, while the equations
of the other nodes hold up to the tolerance of the solver. -/
theorem C57_potential (h : Problem G H nod p sigma tets tris) (it : Iter) (tol : ℝ) (ht : it.resmax = .fin tol)
    (prms : List SurfPrm) (d : SurfPrm) (hreg : ∀ f ∈ tris, f.reg < prms.length)
    (hcheck : checkV prms = true) (hinf : ∀ q ∈ prms, q.V.IsNan ∨ q.V.IsFin) :
    ∃ st, potSolve it G H nod p sigma (fun r => prms.getD r d) tets tris = some st ∧ Decided st.iter.status ∧
      (st.iter.status = .CONVERGED → ∃ V : Fin nod → ℝ, st.x = lift V ∧
        (∀ f ∈ tris, ∀ v, (prms.getD f.reg d).V = .fin v → ∀ i : Fin nod, (∃ k, f.ind k = i) → V i = v) ∧
        ∃ V0 : Fin nod → ℝ, ∀ D : List (Fin nod), (∀ i, i ∈ D ↔ OnPotential (fun r => prms.getD r d) tris i) →
          (∀ i, (i ∈ D → V0 i = V i) ∧ (i ∉ D → V0 i = 0)) ∧
          freeNorm D (fun i => weakForm p sigma (fun r => currentDensity (prms.getD r d)) tets tris (hat i) (ext V)) ≤
          tol * freeNorm D (fun i => weakForm p sigma (fun r => currentDensity (prms.getD r d)) tets tris (hat i) (ext V0))) := by
  set prm : ℕ → SurfPrm := fun r => prms.getD r d with hprm
  have hmem : ∀ f ∈ tris, prm f.reg ∈ prms := by
    intro f hf
    rw [hprm]
    simp only [List.getD_eq_getElem?_getD, List.getElem?_eq_getElem (hreg f hf), Option.getD_some]
    exact List.getElem_mem _
  -- only one surface has a potential
  have huniq : ∀ f ∈ tris, ∀ g ∈ tris, ∀ v w, (prm f.reg).V = .fin v → (prm g.reg).V = .fin w → v = w := by
    obtain ⟨-, b, q, c, hl, hq, hn⟩ := (C57_start_potential prms).mp hcheck
    have one : ∀ f ∈ tris, ∀ v, (prm f.reg).V = .fin v → q.V = .fin v := by
      intro f hf v hv
      have hm := hmem f hf
      rw [hl] at hm
      have hcase : prm f.reg ∈ b ++ c ∨ prm f.reg = q := by
        rcases List.mem_append.mp hm with h | h
        · exact Or.inl (List.mem_append_left _ h)
        · rcases List.mem_cons.mp h with h | h
          · exact Or.inr h
          · exact Or.inl (List.mem_append_right _ h)
      rcases hcase with h | h
      · exact absurd (show Fl.IsFin (prm f.reg).V by rw [hv]; trivial) (hn _ h)
      · rw [← h]; exact hv
    intro f hf g hg v w h1 h2
    have := (one f hf v h1).symm.trans (one g hg w h2)
    injection this
  obtain ⟨K, hK, hw, hget⟩ := full_matrix 1 nod tets h.valid [potTet G p sigma] (fun el hel t => by
    rw [List.mem_singleton] at hel; rw [hel]; rfl)
  obtain ⟨L, hL, hLl, hLget⟩ := vect_run 1 nod (tris.map (potTri H p prm)) (by
    intro e he k
    obtain ⟨f, hf, rfl⟩ := List.mem_map.mp he
    exact h.validT f hf k) (List.replicate (1 * nod) (0 : ℝ)) (by simp)
  obtain ⟨xd, hxd, hidx, hval⟩ := potDirichlet_spec (nod := nod) prm (fun f hf => hinf _ (hmem f hf))
  have hshape : (fullShape 1 nod tets).length = nod := by
    have := (buildShape_in 1 nod _ (fun _ => true) (edges_lt h.valid) 0 0).1
    rw [one_mul] at this
    exact this
  obtain ⟨hR, hD⟩ := represents nod (fullShape 1 nod tets) hshape K hw (fullCoef 1 tets (potTet G p sigma)) (by
    intro i j hi
    rw [hget i j (by rw [one_mul]; exact hi)]
    simp) (by
    intro i hi
    exact C21_diagonal 1 nod tets h.valid _ i (by rw [one_mul]; exact hi))
  have hLv : vecOf nod (L.map .fin) = lift fun i => potRhs H p prm tris i := by
    funext i
    have hi : (i : ℕ) < L.length := by rw [hLl, one_mul]; exact i.2
    have := hLget i (by rw [one_mul]; exact i.2)
    unfold vecOf lift
    rw [List.getD_eq_getElem?_getD, List.getElem?_map, List.getElem?_eq_getElem hi, Option.map_some, Option.getD_some]
    congr 1
    rw [List.getD_eq_getElem?_getD, List.getElem?_eq_getElem hi, Option.getD_some] at this
    rw [this, List.map_map]
    have hz : (List.replicate (1 * nod) (0 : ℝ)).getD i 0 = 0 := by
      simp [List.getD_eq_getElem?_getD]
    rw [hz, zero_add]
    rfl
  have hrun : potSolve it G H nod p sigma prm tets tris = cgDir it.reset (rowsOf nod (liftSp K)) (lift 0)
      (lift fun i => potRhs H p prm tris i) (lift xd) (idxOf nod (suppressCopies (potDirichlet nod prm tris).2)) := by
    have hK' : (ofShape (fullShape 1 nod tets) : Sp ℝ).run (fullOps 1 (tets.map (potTet G p sigma))) = some K := by
      rw [← hK]
      simp [elems]
    have hsys : potSystem G H nod p sigma prm tets tris = some (K, L) := by
      unfold potSystem
      rw [hK']
      show (runVect _ _).bind _ = _
      rw [hL]
      rfl
    unfold potSolve
    rw [hsys]
    show cgDir it.reset _ _ (vecOf nod (L.map .fin)) (vecOf nod (potDirichlet nod prm tris).1)
      (idxOf nod (suppressCopies (potDirichlet nod prm tris).2)) = _
    rw [hLv, hxd]
    rfl
  obtain ⟨st, hst, hdec, -⟩ := C14_cg_dir it.reset rfl (rowsOf nod (liftSp K)) (lift 0)
    (lift fun i => potRhs H p prm tris i) (lift xd) (idxOf nod (suppressCopies (potDirichlet nod prm tris).2))
  refine ⟨st, hrun.trans hst, hdec, fun hc => ?_⟩
  obtain ⟨V, hV, hres⟩ := C16_cg_dir it.reset tol ht _ _ hR hD 0 _ xd _ st hst hc
  have hexact : ∀ i : Fin nod, OnPotential prm tris i → V i = xd i := by
    intro i hi
    have := (C13_converged_exact it.reset tol ht _ _ hR hD 0 (fun i => potRhs H p prm tris i) xd _ i
      ((hidx i).mpr hi)).2.2 st hst hc
    rw [hV] at this
    have this : Fl.fin (V i) = Fl.fin ((0 : Fin nod → ℝ) i + xd i) := this
    injection this with this
    rw [this]; simp
  refine ⟨V, hV, ?_, xd, ?_⟩
  · intro f hf v hv i hi
    have hon : OnPotential prm tris i := ⟨f, hf, by
      have hv : (prm f.reg).V = .fin v := hv
      rw [hv]; exact id, hi⟩
    rw [hexact i hon]
    rcases hval i with ⟨-, h0⟩ | ⟨g, hg, -, hx⟩
    · exact absurd hon h0
    · exact (huniq f hf g hg v _ hv hx).symm
  · intro D hDm
    refine ⟨fun i => ⟨fun hi => (hexact i ((hDm i).mp hi)).symm, fun hi => ?_⟩, ?_⟩
    · rcases hval i with ⟨h0, -⟩ | ⟨g, hg, hk, hx⟩
      · exact h0
      · exact absurd ((hDm i).mpr ⟨g, hg, by
          have hx : (prm g.reg).V = .fin _ := hx
          rw [hx]; exact id, hk⟩) hi
    · have e : ∀ x : Fin nod → ℝ, freeNorm (idxOf nod (suppressCopies (potDirichlet nod prm tris).2))
          (residual (fun i j : Fin nod => fullCoef 1 tets (potTet G p sigma) i j) (fun i => potRhs H p prm tris i) x) =
          freeNorm D (fun i => weakForm p sigma (fun r => currentDensity (prm r)) tets tris (hat i) (ext x)) := by
        intro x
        unfold freeNorm
        congr 1
        refine Finset.sum_congr rfl fun i _ => ?_
        have hm : i ∈ idxOf nod (suppressCopies (potDirichlet nod prm tris).2) ↔ i ∈ D := (hidx i).trans (hDm i).symm
        by_cases hi : i ∈ D
        · rw [if_pos hi, if_pos (hm.mpr hi)]
        · rw [if_neg hi, if_neg fun h' => hi (hm.mp h')]
          show _ = weakForm p sigma (fun r => currentDensity (prm r)) tets tris (hat i) (ext x) ^ 2
          rw [weakForm_eq h, Finset.sum_eq_single (i : ℕ)]
          · unfold hat Krylov.residual
            rw [if_pos rfl, one_mul, Finset.sum_range]
            show (potRhs H p prm tris i - ∑ j : Fin nod, fullCoef 1 tets (potTet G p sigma) i j * x j) ^ 2 = _
            simp only [ext_val]
            ring
          · intro b _ hb
            unfold hat
            rw [if_neg hb, zero_mul]
          · intro hn; exact absurd (Finset.mem_range.mpr i.2) hn
      rw [e, e] at hres
      exact hres

end

/-! ### a mesh that meets the hypotheses -/

/-- two faces of the reference tetrahedron, one with a current, the other with a potential -/
def exTris : List Tri := [⟨![0, 1, 2], 1⟩, ⟨![1, 2, 3], 2⟩]

example : Problem Tetra.rule5 TriElem.rule4 4 Tetra.exP (fun _ => 1) [Tetra.exT] exTris where
  rule := Or.inr rfl
  ruleT := Or.inr rfl
  valid := by
    intro t ht k
    rw [List.mem_singleton] at ht
    subst ht
    fin_cases k <;> decide
  validT := by
    intro f hf k
    simp only [exTris, List.mem_cons, List.not_mem_nil, or_false] at hf
    rcases hf with rfl | rfl <;> fin_cases k <;> decide
  oriented := by
    intro t ht
    rw [List.mem_singleton] at ht
    subst ht
    rw [Tetra.ex_detJ]; norm_num
  cond := fun _ _ => zero_le_one

example : (∀ f ∈ exTris, f.reg < exSurf.length) ∧ ∀ q ∈ exSurf, q.V.IsNan ∨ q.V.IsFin := by
  refine ⟨?_, ?_⟩
  · intro f hf
    simp only [exTris, List.mem_cons, List.not_mem_nil, or_false] at hf
    rcases hf with rfl | rfl <;> decide
  · intro q hq
    simp only [exSurf, List.mem_cons, List.not_mem_nil, or_false] at hq
    rcases hq with rfl | rfl | rfl
    · exact Or.inl trivial
    · exact Or.inl trivial
    · exact Or.inr trivial

/-- every node of the tetrahedron is joined to node 1 -/
example : Connected 4 (fun _ => 1) [Tetra.exT] (· = 1) := by
  intro i hi
  refine ⟨1, by norm_num, rfl, Relation.ReflTransGen.single ⟨Tetra.exT, by simp, zero_lt_one, ?_, 1, rfl⟩⟩
  exact ⟨⟨i, hi⟩, by interval_cases i <;> rfl⟩

/-- a node without any element is joined to nothing: the condition of C59 excludes something -/
example : ¬ Connected 5 (fun _ => 1) [Tetra.exT] (· = 1) := by
  intro h
  obtain ⟨k, -, rfl, hr⟩ := h 4 (by norm_num)
  rcases Relation.ReflTransGen.cases_head hr with e | ⟨c, hc, -⟩
  · exact absurd e (by norm_num)
  · obtain ⟨t, ht, -, ⟨i, hi⟩, -⟩ := hc
    rw [List.mem_singleton] at ht
    subst ht
    fin_cases i <;> simp [Tetra.exT] at hi

/-- the check of the boundary conditions lets a second surface with an infinite potential pass, whose nodes are
then given this infinite potential -/
theorem C57_infinite_potential :
    ∃ (prms : List SurfPrm) (d : SurfPrm), checkV prms = true ∧
      (potDirichlet 3 (fun r => prms.getD r d) [⟨![0, 1, 2], 2⟩]).1 = [.inf false, .inf false, .inf false] := by
  classical
  refine ⟨[⟨"a", .fin 1, .nan, fun _ => .nan, fun _ => .nan⟩, ⟨"b", .nan, .fin 0, fun _ => .nan, fun _ => .nan⟩,
    ⟨"c", .nan, .inf false, fun _ => .nan, fun _ => .nan⟩], ⟨"d", .nan, .nan, fun _ => .nan, fun _ => .nan⟩, ?_, ?_⟩
  · rw [C57_start_potential]
    refine ⟨⟨[], _, [_, _], rfl, trivial, ?_⟩, ⟨[_], _, [_], rfl, trivial, ?_⟩⟩
    · intro b hb
      simp at hb
      rcases hb with rfl | rfl <;> exact id
    · intro b hb
      simp at hb
      rcases hb with rfl | rfl <;> exact id
  · rw [potDirichlet_writes]
    have e : ¬ (Fl.inf false).IsNan := id
    simp [potWrites, writes, List.finRange, e, List.ofFn]
    rfl

end Verif.Electro
