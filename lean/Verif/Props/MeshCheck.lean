import Verif.Proofs.MeshJump

/-!
# C23 to C26: the mesh check

In all statements `sorted` is any result of `std::sort` on the list of faces and surface triangles.
-/

namespace Verif.MeshCheck

open Verif.Mesh Verif.Geom

variable {R π : Type}

instance : Std.Total fun a b : BasicTri => keyLE a.nodes b.nodes :=
  ⟨fun a b => by unfold keyLE keyLT; omega⟩

instance : IsTrans BasicTri fun a b : BasicTri => keyLE a.nodes b.nodes :=
  ⟨fun _ _ _ h1 h2 => keyLE_trans h1 h2⟩

/-- a sorted list always exists: `IsSortOf` is never a vacuous hypothesis -/
def exSort (tets : List Tet) (tris : List Tri) : List BasicTri :=
  (allTri tets tris).insertionSort fun a b => keyLE a.nodes b.nodes

theorem exSort_ok (tets : List Tet) (tris : List Tri) : IsSortOf (exSort tets tris) (allTri tets tris) :=
  ⟨List.perm_insertionSort _ _, List.pairwise_insertionSort (fun a b : BasicTri => keyLE a.nodes b.nodes) _⟩

theorem control_ok [AddCommGroup R] {volName : ℕ → String} {Ms : ℕ → R} {tets : List Tet} {tris : List Tri}
    {regs : List (SurfPrm π)} {sorted : List BasicTri} (h : IsSortOf sorted (allTri tets tris)) {r : Result R π}
    (hr : control volName Ms tets tris regs sorted = some r) :
    Consistent tets tris ∧ ∃ dflt rest toAdd created m, regs = dflt :: rest ∧
      toAdd = (unique (sorted.map (·.nodes))).flatMap (addOf sorted) ∧
      createRegions volName dflt toAdd regs [] = some (regs ++ created, m) ∧
      r.tris = (tris ++ toAdd.map (newTri m)).map (fun f => (f, dMs Ms sorted f)) ∧ r.regs = regs ++ created := by
  unfold control at hr
  split_ifs at hr with h0
  have hne : tets ≠ [] := by simpa using h0
  have hsne : sorted ≠ [] := by
    intro e
    obtain ⟨t, ts, rfl⟩ := List.exists_cons_of_ne_nil hne
    have := h.1.length_eq
    rw [e] at this
    simp [allTri, faces] at this
  rw [walk_sorted sorted hsne h.2] at hr
  split_ifs at hr with h1
  · simp only [Option.bind_some] at hr
    cases regs with
    | nil => simp at hr
    | cons dflt rest =>
      simp only at hr
      split_ifs at hr with h2
      rw [Option.map_eq_some_iff] at hr
      obtain ⟨⟨rg, m⟩, h3, h4⟩ := hr
      have hC : Consistent tets tris := by
        refine (all_noErr_iff h hne).mp fun k hk => ?_
        rw [List.all_eq_true] at h1
        exact h1 k ((unique_mem _ _).mpr hk)
      obtain ⟨new, m', h5, _⟩ := createRegions_spec volName dflt (dflt :: rest).length
        ((unique (sorted.map (·.nodes))).flatMap (addOf sorted)) (dflt :: rest) [] (le_refl _)
        ⟨by simp, by simp, by simp⟩
      have h6 := h3.symm.trans h5
      cases h6
      refine ⟨hC, dflt, rest, _, new, m, rfl, rfl, h3, ?_, ?_⟩
      · rw [← h4]
      · rw [← h4]
  · simp at hr

/-- **C23** The check succeeds exactly on consistent meshes (the settings always hold the region
`__default__` first). -/
theorem C23_check_iff [AddCommGroup R] (volName : ℕ → String) (Ms : ℕ → R) (tets : List Tet) (tris : List Tri)
    (regs : List (SurfPrm π)) (sorted : List BasicTri) (h : IsSortOf sorted (allTri tets tris))
    (hd : regs.head?.map (·.name) = some "__default__") :
    (∃ r, control volName Ms tets tris regs sorted = some r) ↔ Consistent tets tris := by
  constructor
  · rintro ⟨r, hr⟩
    exact (control_ok h hr).1
  · intro hC
    have hsne : sorted ≠ [] := by
      intro e
      obtain ⟨t, ts, rfl⟩ := List.exists_cons_of_ne_nil hC.nonempty
      have := h.1.length_eq
      rw [e] at this
      simp [allTri, faces] at this
    cases regs with
    | nil => simp at hd
    | cons dflt rest =>
      have hd' : dflt.name = "__default__" := by simpa using hd
      unfold control
      rw [if_neg (by simpa using hC.nonempty), walk_sorted sorted hsne h.2, if_pos]
      · simp only [Option.bind_some, hd', ne_eq, not_true_eq_false, if_false]
        obtain ⟨new, m', h5, _⟩ := createRegions_spec volName dflt (dflt :: rest).length
          ((unique (sorted.map (·.nodes))).flatMap (addOf sorted)) (dflt :: rest) [] (le_refl _)
          ⟨by simp, by simp, by simp⟩
        rw [h5]
        exact ⟨_, rfl⟩
      · rw [List.all_eq_true]
        intro k hk
        exact (all_noErr_iff h hC.nonempty).mpr hC k ((unique_mem _ _).mp hk)

/-- **C24** On success the user's triangles are kept, in place, each face of the outer boundary or between two
regions is covered by exactly one triangle, and every triangle, new or old, is such a face. -/
theorem C24_completed [AddCommGroup R] (volName : ℕ → String) (Ms : ℕ → R) (tets : List Tet) (tris : List Tri)
    (regs : List (SurfPrm π)) (sorted : List BasicTri) (h : IsSortOf sorted (allTri tets tris)) (r : Result R π)
    (hr : control volName Ms tets tris regs sorted = some r) :
    (∃ new, r.tris.map (·.1) = tris ++ new ∧
      ∀ f ∈ new, OnBoundary tets (verts f) ∧ ∀ g ∈ tris, verts g ≠ verts f) ∧
    (∀ s, OnBoundary tets s → (r.tris.countP fun f => decide (verts f.1 = s)) = 1) ∧
    ∀ f ∈ r.tris, OnBoundary tets (verts f.1) := by
  obtain ⟨hC, dflt, rest, toAdd, created, m, rfl, hta, hcr, htr, hrg⟩ := control_ok h hr
  have hfst : r.tris.map (·.1) = tris ++ toAdd.map (newTri m) := by
    rw [htr, List.map_map]
    exact List.map_id' _
  have hmem : ∀ e ∈ toAdd, IsKey e.1 ∧ OnBoundary tets (keyMs e.1) ∧
      (tris.countP fun f => decide (verts f = keyMs e.1)) = 0 := by
    intro e he
    rw [hta, mem_toAdd] at he
    have hk := h.isKey he.1
    exact ⟨hk, (missing_boundary h hk).mp he.2.1⟩
  have hnew : ∀ f ∈ toAdd.map (newTri m), OnBoundary tets (verts f) ∧ ∀ g ∈ tris, verts g ≠ verts f := by
    intro f hf
    obtain ⟨e, he, rfl⟩ := List.mem_map.mp hf
    obtain ⟨_, h2, h3⟩ := hmem e he
    refine ⟨h2, fun g hg e' => ?_⟩
    have := (countP_pos_iff_mem tris (keyMs e.1)).mpr ⟨g, hg, e'⟩
    omega
  refine ⟨⟨_, hfst, hnew⟩, ?_, ?_⟩
  · intro s hs
    have e1 : (r.tris.countP fun f => decide (verts f.1 = s)) =
        (tris.countP fun f => decide (verts f = s)) + ((toAdd.map (newTri m)).countP fun f => decide (verts f = s)) := by
      rw [← List.countP_append, ← hfst, List.countP_map]
      rfl
    rw [e1]
    have hs0 : incident tets s ≠ 0 := by
      rcases hs with ⟨a, e⟩ | ⟨a, b, _, e⟩ <;> rw [e] <;> simp
    obtain ⟨b, hb, hbs⟩ := incident_key (tris := tris) hs0
    have hbk := allTri_isKey tets tris b hb
    have hbm : b.nodes ∈ sorted.map (·.nodes) := List.mem_map.mpr ⟨b, h.1.mem_iff.mpr hb, rfl⟩
    have hle := (noCopy_iff tris).mp hC.noCopy s
    have e2 : ((toAdd.map (newTri m)).countP fun f => decide (verts f = s)) = (toAdd.map (·.1)).count b.nodes := by
      rw [List.countP_map, List.count, List.countP_map]
      apply List.countP_congr
      intro e he
      show decide (verts (newTri m e) = s) = true ↔ (e.1 == b.nodes) = true
      rw [decide_eq_true_iff, beq_iff_eq, newTri_verts, ← hbs]
      exact ⟨fun h' => key_ext (hmem e he).1 hbk h', fun h' => by rw [h']⟩
    have hnd : (toAdd.map (·.1)).Nodup := by
      rw [hta, toAdd_fst]
      exact (keys_nodup h.2).filter _
    rw [e2]
    by_cases h0 : (tris.countP fun f => decide (verts f = s)) = 0
    · rw [h0, zero_add]
      apply List.count_eq_one_of_mem hnd
      rw [hta, toAdd_fst, List.mem_filter, unique_mem]
      exact ⟨hbm, (missing_boundary h hbk).mpr ⟨by rw [hbs]; exact hs, by rw [hbs]; exact h0⟩⟩
    · have : (toAdd.map (·.1)).count b.nodes = 0 := by
        rw [List.count_eq_zero]
        intro hin
        obtain ⟨e, he, heq⟩ := List.mem_map.mp hin
        have := (hmem e he).2.2
        rw [heq, hbs] at this
        exact h0 this
      omega
  · intro f hf
    have hf' : f.1 ∈ tris ++ toAdd.map (newTri m) := by
      rw [← hfst]; exact List.mem_map_of_mem hf
    rcases List.mem_append.mp hf' with hf' | hf'
    · have h1 := hC.attached _ hf'
      have h2 := hC.atMostTwo (verts f.1)
      have h3 := hC.notInside _ hf'
      revert h1 h2 h3
      unfold OnBoundary
      refine Quotient.inductionOn (incident tets (verts f.1)) fun l => ?_
      intro h1 h2 h3
      have h2' : l.length ≤ 2 := by simpa using h2
      rcases length_le_two_cases l h2' with rfl | ⟨a, rfl⟩ | ⟨a, b, rfl⟩
      · exact absurd rfl h1
      · exact Or.inl ⟨a, rfl⟩
      · refine Or.inr ⟨a, b, ?_, rfl⟩
        rintro rfl
        exact h3 a rfl
    · exact (hnew _ hf').1

/-- **C25** The surface regions of the user keep their index and parameters; the created ones come after, have
the parameters of the default region and names different from all others; two created triangles share
their region exactly when they separate the same volume regions. -/
theorem C25_regions [AddCommGroup R] (volName : ℕ → String) (Ms : ℕ → R) (tets : List Tet) (tris : List Tri)
    (regs : List (SurfPrm π)) (sorted : List BasicTri) (h : IsSortOf sorted (allTri tets tris)) (r : Result R π)
    (hr : control volName Ms tets tris regs sorted = some r) :
    ∃ created new, r.regs = regs ++ created ∧ r.tris.map (·.1) = tris ++ new ∧
      (created.map (·.name)).Nodup ∧ (∀ c ∈ created, ∀ g ∈ regs, c.name ≠ g.name) ∧
      (∀ c ∈ created, regs.head?.map (·.prm) = some c.prm) ∧
      (∀ f ∈ new, regs.length ≤ f.reg ∧ f.reg < r.regs.length) ∧
      ∀ f ∈ new, ∀ g ∈ new, f.reg = g.reg ↔ incident tets (verts f) = incident tets (verts g) := by
  obtain ⟨hC, dflt, rest, toAdd, created, m, hrs, hta, hcr, htr, hrg⟩ := control_ok h hr
  obtain ⟨new', m', h1, h2, h3, h4, h5, h6, h7, _⟩ := createRegions_spec volName dflt regs.length toAdd regs []
    (le_refl _) ⟨by simp, by simp, by simp⟩
  have e := hcr.symm.trans h1
  simp only [Option.some.injEq, Prod.mk.injEq, List.append_cancel_left_eq] at e
  obtain ⟨rfl, rfl⟩ := e
  have hreg : ∀ e ∈ toAdd, (e.2, (newTri m e).reg) ∈ m := by
    intro e he
    obtain ⟨i, hi⟩ := h4 e he
    show (e.2, regionOf m e.2) ∈ m
    rw [regionOf_eq h2 hi]
    exact hi
  refine ⟨created, toAdd.map (newTri m), hrg, ?_, h6, h7, ?_, ?_, ?_⟩
  · rw [htr, List.map_map]
    exact List.map_id' _
  · intro c hc
    rw [hrs, h5 c hc]; rfl
  · intro f hf
    obtain ⟨e, he, rfl⟩ := List.mem_map.mp hf
    have := h2.rng _ (hreg e he)
    rw [hrg, List.length_append]
    exact this
  · intro f hf g hg
    obtain ⟨e, he, rfl⟩ := List.mem_map.mp hf
    obtain ⟨e', he', rfl⟩ := List.mem_map.mp hg
    rw [newTri_verts, newTri_verts]
    have hm := he
    have hm' := he'
    rw [hta, mem_toAdd] at hm hm'
    rw [← pair_incident h (h.isKey hm.1) (h.isKey hm'.1) hm.2.1 hm'.2.1, ← hm.2.2, ← hm'.2.2]
    exact ⟨h2.bwd _ (hreg e he) _ (hreg e' he'), h2.fwd _ (hreg e he) _ (hreg e' he')⟩

/-- **C25** The name of a created region says what it separates. -/
theorem C25_names [AddCommGroup R] (volName : ℕ → String) (Ms : ℕ → R) (tets : List Tet) (tris : List Tri)
    (regs : List (SurfPrm π)) (sorted : List BasicTri) (h : IsSortOf sorted (allTri tets tris)) (r : Result R π)
    (hr : control volName Ms tets tris regs sorted = some r) :
    ∀ f ∈ (r.tris.map (·.1)).drop tris.length, ∃ c, r.regs[f.reg]? = some c ∧ ∃ suffix : String,
      (suffix = "" ∨ ∃ i : ℕ, suffix = "." ++ toString i) ∧
      ((∃ a, incident tets (verts f) = {a} ∧ c.name = "surface(" ++ volName a ++ ")" ++ suffix) ∨
        ∃ a b, b < a ∧ incident tets (verts f) = {a, b} ∧
          c.name = "interface(" ++ volName a ++ ", " ++ volName b ++ ")" ++ suffix) := by
  obtain ⟨hC, dflt, rest, toAdd, created, m, hrs, hta, hcr, htr, hrg⟩ := control_ok h hr
  obtain ⟨new', m', h1, h2, h3, h4, h5, h6, h7, h8⟩ := createRegions_spec volName dflt regs.length toAdd regs []
    (le_refl _) ⟨by simp, by simp, by simp⟩
  have e := hcr.symm.trans h1
  simp only [Option.some.injEq, Prod.mk.injEq, List.append_cancel_left_eq] at e
  obtain ⟨rfl, rfl⟩ := e
  intro f hf
  have hfst : r.tris.map (·.1) = tris ++ toAdd.map (newTri m) := by
    rw [htr, List.map_map]
    exact List.map_id' _
  rw [hfst, List.drop_left] at hf
  obtain ⟨e, he, rfl⟩ := List.mem_map.mp hf
  obtain ⟨i, hi⟩ := h4 e he
  have hri : (newTri m e).reg = i := regionOf_eq h2 hi
  rcases h8 _ hi with h9 | ⟨c, h9, j, h10⟩
  · simp at h9
  · refine ⟨c, by rw [hrg, hri]; exact h9, ?_⟩
    have hm := he
    rw [hta, mem_toAdd] at hm
    have hk := h.isKey hm.1
    rw [newTri_verts, ← grp_faceRegs h hk]
    have hp : e.2 = (faceRegs (grp sorted e.1)).foldl pairStep (-1, -1) := by
      rw [hm.2.2]; exact (stats_spec _).2.2
    have hsuf : ∃ suffix : String, (suffix = "" ∨ ∃ i : ℕ, suffix = "." ++ toString i) ∧
        c.name = baseName volName e.2 ++ suffix := by
      rw [h10]
      unfold candidate
      split_ifs
      · exact ⟨"." ++ toString j, Or.inr ⟨j, rfl⟩, rfl⟩
      · exact ⟨"", Or.inl rfl, by simp⟩
    obtain ⟨suffix, hs1, hs2⟩ := hsuf
    refine ⟨suffix, hs1, ?_⟩
    rcases ((missing_iff _).mp hm.2.1).2 with ⟨a, ha⟩ | ⟨a, b, hab, ha⟩
    · left
      refine ⟨a, by rw [ha]; rfl, ?_⟩
      rw [hs2, hp, ha, pair_one]
      simp [baseName]
    · right
      rw [ha, pair_two] at hp
      rw [ha]
      rcases lt_or_gt_of_ne hab with hlt | hlt
      · refine ⟨b, a, hlt, coe_eq_pair.mpr (Or.inr rfl), ?_⟩
        rw [hs2, hp, max_eq_right (by omega), min_eq_left (by omega)]
        unfold baseName
        rw [if_neg (by simp)]
        simp [String.append_assoc]
      · refine ⟨a, b, hlt, rfl, ?_⟩
        rw [hs2, hp, max_eq_left (by omega), min_eq_right (by omega)]
        unfold baseName
        rw [if_neg (by simp)]
        simp [String.append_assoc]

open Classical in
/-- **C26** The jump of a triangle counts, for every tetrahedron having it as a face, the magnetization of its
region: positively when the tetrahedron lies behind the triangle with respect to its normal, negatively
otherwise. -/
theorem C26_jump (p : ℕ → V3) (Ms : ℕ → ℝ) (tets : List Tet) (tris : List Tri) (sorted : List BasicTri)
    (h : IsSortOf sorted (allTri tets tris)) (hpos : ∀ t ∈ tets, 0 < mixedProd p t) (f : Tri) :
    dMs Ms sorted f = (tets.map fun t => ∑ k : Fin 4, if face t k = verts f then
      (if V3.dot (normalVect p f) (p (t.ind k) - p (f.ind 0)) < 0 then Ms t.reg else -Ms t.reg) else 0).sum := by
  rw [dMs_eq_sum Ms h f]
  congr 1
  apply List.map_congr_left
  intro t ht
  exact jump_tet p Ms f t (hpos t ht)

theorem sum_incident (g : ℕ → ℝ) (tets : List Tet) (s : Multiset ℕ) :
    (tets.map fun t => ∑ k : Fin 4, if face t k = s then g t.reg else 0).sum = ((incident tets s).map g).sum := by
  unfold incident
  induction tets with
  | nil => simp
  | cons t tets ih =>
    simp only [List.map_cons, List.sum_cons, Multiset.map_add, Multiset.sum_add, ih]
    congr 1
    rw [Fin.sum_univ_four, Fin.sum_univ_four]
    simp only [Multiset.map_add, Multiset.sum_add]
    congr 1
    · congr 1
      · congr 1 <;> split_ifs <;> simp
      · split_ifs <;> simp
    · split_ifs <;> simp

/-- **C26** An outer face whose normal points outwards: the jump is the magnetization of the region. -/
theorem C26_outer (p : ℕ → V3) (Ms : ℕ → ℝ) (tets : List Tet) (tris : List Tri) (sorted : List BasicTri)
    (h : IsSortOf sorted (allTri tets tris)) (hpos : ∀ t ∈ tets, 0 < mixedProd p t) (f : Tri) (a : ℕ)
    (ha : incident tets (verts f) = {a})
    (hn : ∀ t ∈ tets, ∀ k, face t k = verts f → V3.dot (normalVect p f) (p (t.ind k) - p (f.ind 0)) < 0) :
    dMs Ms sorted f = Ms a := by
  rw [C26_jump p Ms tets tris sorted h hpos f]
  have : ∀ t ∈ tets, (∑ k : Fin 4, if face t k = verts f then
      (if V3.dot (normalVect p f) (p (t.ind k) - p (f.ind 0)) < 0 then Ms t.reg else -Ms t.reg) else 0) =
      ∑ k : Fin 4, if face t k = verts f then Ms t.reg else 0 := by
    intro t ht
    refine Finset.sum_congr rfl fun k _ => ?_
    by_cases hk : face t k = verts f
    · rw [if_pos hk, if_pos hk, if_pos (hn t ht k hk)]
    · rw [if_neg hk, if_neg hk]
  rw [List.map_congr_left this, sum_incident, ha]
  simp

/-- **C26** An interface: magnetization of the region behind the triangle minus that of the region in front. -/
theorem C26_interface (p : ℕ → V3) (Ms : ℕ → ℝ) (tets : List Tet) (tris : List Tri) (sorted : List BasicTri)
    (h : IsSortOf sorted (allTri tets tris)) (hpos : ∀ t ∈ tets, 0 < mixedProd p t) (f : Tri) (a b : ℕ)
    (hab : a ≠ b) (ha : incident tets (verts f) = {a, b})
    (hn : ∀ t ∈ tets, ∀ k, face t k = verts f →
      (V3.dot (normalVect p f) (p (t.ind k) - p (f.ind 0)) < 0 ↔ t.reg = a)) :
    dMs Ms sorted f = Ms a - Ms b := by
  rw [C26_jump p Ms tets tris sorted h hpos f]
  obtain ⟨G, hG⟩ : ∃ G : ℕ → ℝ, ∀ r, G r = if r = a then Ms r else -Ms r := ⟨_, fun _ => rfl⟩
  have : ∀ t ∈ tets, (∑ k : Fin 4, if face t k = verts f then
      (if V3.dot (normalVect p f) (p (t.ind k) - p (f.ind 0)) < 0 then Ms t.reg else -Ms t.reg) else 0) =
      ∑ k : Fin 4, if face t k = verts f then G t.reg else 0 := by
    intro t ht
    refine Finset.sum_congr rfl fun k _ => ?_
    by_cases hk : face t k = verts f
    · rw [if_pos hk, if_pos hk, hG]
      by_cases hr : t.reg = a
      · rw [if_pos ((hn t ht k hk).mpr hr), if_pos hr]
      · rw [if_neg (mt (hn t ht k hk).mp hr), if_neg hr]
    · rw [if_neg hk, if_neg hk]
  rw [List.map_congr_left this, sum_incident, ha]
  show (Multiset.map G (a ::ₘ b ::ₘ 0)).sum = _
  rw [Multiset.map_cons, Multiset.map_cons, Multiset.sum_cons, Multiset.sum_cons, hG, hG, if_pos rfl, if_neg hab.symm]
  simp [sub_eq_add_neg]

/-- **C26** The jump times the normal does not depend on the order of the vertices of the triangle. -/
theorem C26_orientation (p : ℕ → V3) (Ms : ℕ → ℝ) (tets : List Tet) (tris : List Tri) (sorted : List BasicTri)
    (h : IsSortOf sorted (allTri tets tris)) (f g : Tri) (hfg : verts f = verts g) :
    dMs Ms sorted f * normalVect p f = dMs Ms sorted g * normalVect p g := by
  by_cases hd : f.ind 0 ≠ f.ind 1 ∧ f.ind 1 ≠ f.ind 2 ∧ f.ind 0 ≠ f.ind 2
  · have hnodes : (BasicTri.ofTri f).nodes = (BasicTri.ofTri g).nodes := (ofTri_nodes_eq f (ofTri_isKey g)).mpr (by
      rw [hfg, ofTri_key])
    rcases flipped_normal p hd.1 hd.2.1 hd.2.2 hfg with ⟨h1, h2, _⟩ | ⟨h1, h2, _⟩
    · have hfl : (BasicTri.ofTri f).flipped = (BasicTri.ofTri g).flipped := by simpa [BasicTri.ofTri, BasicTri.mk'] using h1
      rw [dMs_eq_sum Ms h f, dMs_eq_sum Ms h g, hnodes, hfl]
      have : normalVect p f = normalVect p g := h2
      rw [this]
    · have hfl : (BasicTri.ofTri g).flipped = !(BasicTri.ofTri f).flipped := by
        have : xor (BasicTri.ofTri f).flipped (BasicTri.ofTri g).flipped = true := h1
        revert this
        cases (BasicTri.ofTri f).flipped <;> cases (BasicTri.ofTri g).flipped <;> simp
      have hneg : ∀ l : List BasicTri, (l.map (jumpOf Ms (!(BasicTri.ofTri f).flipped))).sum =
          - (l.map (jumpOf Ms (BasicTri.ofTri f).flipped)).sum := by
        intro l
        induction l with
        | nil => simp
        | cons x l ih =>
          rw [List.map_cons, List.sum_cons, List.map_cons, List.sum_cons, ih]
          unfold jumpOf
          cases x.surf <;> cases (BasicTri.ofTri f).flipped <;> cases x.flipped <;> simp <;> ring
      have hneg' : dMs Ms sorted g = - dMs Ms sorted f := by
        rw [dMs_eq_sum Ms h f, dMs_eq_sum Ms h g, hnodes, hfl]
        induction tets with
        | nil => simp
        | cons t ts ih =>
          clear ih h
          have : ∀ ts : List Tet, (ts.map fun t => ((grp (faces t) (BasicTri.ofTri g).nodes).map
              (jumpOf Ms (!(BasicTri.ofTri f).flipped))).sum).sum = - (ts.map fun t =>
              ((grp (faces t) (BasicTri.ofTri g).nodes).map (jumpOf Ms (BasicTri.ofTri f).flipped)).sum).sum := by
            intro ts
            induction ts with
            | nil => simp
            | cons t ts ih =>
              rw [List.map_cons, List.sum_cons, List.map_cons, List.sum_cons, ih, hneg]
              ring
          exact this (t :: ts)
      have hn : normalVect p f = - normalVect p g := h2
      rw [hn, hneg']
      ext <;> simp
  · have hz : ∀ f : Tri, ¬ (f.ind 0 ≠ f.ind 1 ∧ f.ind 1 ≠ f.ind 2 ∧ f.ind 0 ≠ f.ind 2) → normalVect p f = 0 := by
      intro f hf
      have : f.ind 0 = f.ind 1 ∨ f.ind 1 = f.ind 2 ∨ f.ind 0 = f.ind 2 := by omega
      unfold normalVect
      rcases this with e | e | e <;> ext <;> simp [e, V3.cross] <;> ring
    have hg : ¬ (g.ind 0 ≠ g.ind 1 ∧ g.ind 1 ≠ g.ind 2 ∧ g.ind 0 ≠ g.ind 2) := by
      intro hg
      apply hd
      have := multiset_three hfg
      omega
    rw [hz f hd, hz g hg]
    ext <;> simp

/-! ## Concrete cases -/

/-- two tetrahedrons of regions 1 and 2 sharing the face 1 2 3, and a user triangle on it -/
def exTets : List Tet := [⟨![0, 1, 2, 3], 1⟩, ⟨![4, 1, 3, 2], 2⟩]

def exTris : List Tri := [⟨![1, 2, 3], 1⟩]

def exRegs : List (SurfPrm Unit) := [⟨"__default__", ()⟩, ⟨"surface(a)", ()⟩]

def exVol : ℕ → String := fun i => if i = 1 then "a" else "b"

def exMs : ℕ → ℤ := fun i => if i = 1 then 8 else 3

/-- C23: this mesh is accepted, hence consistent -/
theorem ex_consistent : Consistent exTets exTris :=
  (C23_check_iff exVol exMs exTets exTris exRegs _ (exSort_ok _ _) rfl).mp (Option.isSome_iff_exists.mp (by decide))

/-- C23: with the triangle given twice it is refused, hence not consistent -/
example : ¬ Consistent exTets (exTris ++ [⟨![3, 1, 2], 1⟩]) := by
  rw [← C23_check_iff exVol exMs exTets _ exRegs _ (exSort_ok _ _) rfl]
  rintro ⟨r, hr⟩
  have : control exVol exMs exTets (exTris ++ [⟨![3, 1, 2], 1⟩]) exRegs
    (exSort exTets (exTris ++ [⟨![3, 1, 2], 1⟩])) = none := Option.not_isSome_iff_eq_none.mp (by decide)
  rw [this] at hr
  cases hr

/-- C24, C25: six triangles are added; the name `surface(a)` is taken by the user, so a suffix is used -/
example : (control exVol exMs exTets exTris exRegs (exSort exTets exTris)).map
    (fun r => (r.tris.length, r.regs.map (·.name), r.tris.map fun f => (f.1.reg, f.2))) =
  some (7, ["__default__", "surface(a)", "surface(a).1", "surface(b)"],
    [(1, 5), (2, -8), (2, 8), (2, -8), (3, 3), (3, -3), (3, 3)]) := by decide

/-- positions for the geometric statements -/
def exPos : ℕ → V3
  | 0 => ⟨0, 0, 0⟩
  | 1 => ⟨1, 0, 0⟩
  | 2 => ⟨0, 1, 0⟩
  | 3 => ⟨0, 0, 1⟩
  | _ => ⟨1, 1, 1⟩

theorem exPos_pos : ∀ t ∈ exTets, 0 < mixedProd exPos t := by
  intro t ht
  simp only [exTets, List.mem_cons, List.not_mem_nil, or_false] at ht
  rcases ht with rfl | rfl <;> simp [mixedProd, exPos, V3.dot, V3.cross]

/-- C26: the normal of the user triangle points from region 1 to region 2: the jump is `Ms 1 - Ms 2` -/
example : dMs (fun i => (exMs i : ℝ)) (exSort exTets exTris) ⟨![1, 2, 3], 1⟩ = 8 - 3 := by
  rw [C26_interface exPos (fun i => (exMs i : ℝ)) exTets exTris _ (exSort_ok _ _) exPos_pos _ 1 2 (by decide) (by decide)]
  · norm_num [exMs]
  · intro t ht k hk
    simp only [exTets, List.mem_cons, List.not_mem_nil, or_false] at ht
    rcases ht with rfl | rfl
    · have : k = 0 := by
        revert hk; revert k; decide
      subst this
      simp [exPos, V3.dot, V3.cross, normalVect]
    · have : k = 0 := by
        revert hk; revert k; decide
      subst this
      simp [exPos, V3.dot, V3.cross, normalVect]

/-- C26: an outer face with outward normal, and the same face with the opposite order of vertices -/
example : dMs (fun i => (exMs i : ℝ)) (exSort exTets exTris) ⟨![0, 2, 1], 1⟩ = 8 := by
  rw [C26_outer exPos (fun i => (exMs i : ℝ)) exTets exTris _ (exSort_ok _ _) exPos_pos _ 1 (by decide)]
  · norm_num [exMs]
  · intro t ht k hk
    simp only [exTets, List.mem_cons, List.not_mem_nil, or_false] at ht
    rcases ht with rfl | rfl
    · have : k = 3 := by
        revert hk; revert k; decide
      subst this
      simp [exPos, V3.dot, V3.cross, normalVect]
    · exfalso
      revert hk; revert k; decide

example : dMs (fun i => (exMs i : ℝ)) (exSort exTets exTris) ⟨![0, 2, 1], 1⟩ * normalVect exPos ⟨![0, 2, 1], 1⟩ =
    dMs (fun i => (exMs i : ℝ)) (exSort exTets exTris) ⟨![0, 1, 2], 1⟩ * normalVect exPos ⟨![0, 1, 2], 1⟩ :=
  C26_orientation exPos _ exTets exTris _ (exSort_ok _ _) _ _ (by decide)

end Verif.MeshCheck
