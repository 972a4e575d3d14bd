import Mathlib.Data.List.Nodup
import Mathlib.Data.List.Lemmas
import Verif.Proofs.MeshCheck

/-!
# Lemmas on the mesh check: groups of a sorted list, creation of regions
-/

namespace Verif.MeshCheck

open Verif.Mesh

variable {tets : List Tet} {tris : List Tri} {sorted : List BasicTri}

theorem IsSortOf.isKey (h : IsSortOf sorted (allTri tets tris)) {k : Key} (hk : k ∈ sorted.map (·.nodes)) : IsKey k := by
  obtain ⟨b, hb, rfl⟩ := List.mem_map.mp hk
  exact allTri_isKey tets tris b (h.1.mem_iff.mp hb)

theorem grp_faceRegs (h : IsSortOf sorted (allTri tets tris)) {k : Key} (hk : IsKey k) :
    ((faceRegs (grp sorted k) : List ℕ) : Multiset ℕ) = incident tets (keyMs k) := by
  rw [← faceRegs_all tets tris hk, Multiset.coe_eq_coe]
  exact ((h.1.filter _).filter _).map _

theorem grp_surf (h : IsSortOf sorted (allTri tets tris)) {k : Key} (hk : IsKey k) :
    (grp sorted k).countP (·.surf) = tris.countP fun f => decide (verts f = keyMs k) := by
  rw [← surf_count tets tris hk]
  exact (h.1.filter _).countP_eq _

theorem incident_key {s : Multiset ℕ} (hs : incident tets s ≠ 0) :
    ∃ b ∈ allTri tets tris, keyMs b.nodes = s := by
  have : ∃ t ∈ tets, ∃ k, face t k = s := by
    by_contra hc
    push Not at hc
    apply hs
    unfold incident
    apply List.sum_eq_zero
    intro x hx
    obtain ⟨t, ht, rfl⟩ := List.mem_map.mp hx
    exact Finset.sum_eq_zero fun k _ => if_neg (hc t ht k)
  obtain ⟨t, ht, k, hk⟩ := this
  obtain ⟨f3, f0, f1, f2⟩ := face_eq t
  have hin : ∀ b ∈ faces t, b ∈ allTri tets tris := fun b hb =>
    List.mem_append_left _ (List.mem_flatMap.mpr ⟨t, ht, hb⟩)
  fin_cases k
  · exact ⟨_, hin (.mk' (t.ind 1) (t.ind 2) (t.ind 3) t.reg false) (by simp [faces]),
      (triple_perm _ _ _).trans (f0.symm.trans hk)⟩
  · exact ⟨_, hin (.mk' (t.ind 2) (t.ind 0) (t.ind 3) t.reg false) (by simp [faces]),
      (triple_perm _ _ _).trans (f1.symm.trans hk)⟩
  · exact ⟨_, hin (.mk' (t.ind 3) (t.ind 0) (t.ind 1) t.reg false) (by simp [faces]),
      (triple_perm _ _ _).trans (f2.symm.trans hk)⟩
  · exact ⟨_, hin (.mk' (t.ind 0) (t.ind 2) (t.ind 1) t.reg false) (by simp [faces]),
      (triple_perm _ _ _).trans (f3.symm.trans hk)⟩

theorem noCopy_iff (tris : List Tri) :
    (tris.Pairwise fun f g => verts f ≠ verts g) ↔ ∀ s, tris.countP (fun f => decide (verts f = s)) ≤ 1 := by
  have h1 : (tris.Pairwise fun f g => verts f ≠ verts g) ↔ (tris.map verts).Nodup := by
    rw [List.Nodup, List.pairwise_map]
  rw [h1, List.nodup_iff_count_le_one]
  refine forall_congr' fun s => ?_
  rw [List.count, List.countP_map]
  have : List.countP ((fun x => x == s) ∘ verts) tris = List.countP (fun f => decide (verts f = s)) tris := by
    apply List.countP_congr
    intro f _
    simp
  rw [this]

theorem countP_pos_iff_mem (tris : List Tri) (s : Multiset ℕ) :
    0 < tris.countP (fun f => decide (verts f = s)) ↔ ∃ f ∈ tris, verts f = s := by
  rw [List.countP_pos_iff]
  simp

theorem coe_ne_nil {l : List ℕ} : (l : Multiset ℕ) ≠ 0 ↔ l ≠ [] := by
  rw [← Multiset.coe_nil, ne_eq, Multiset.coe_eq_coe, List.perm_nil]

/-- the groups are all accepted exactly for consistent meshes -/
theorem all_noErr_iff (h : IsSortOf sorted (allTri tets tris)) (hne : tets ≠ []) :
    (∀ k ∈ sorted.map (·.nodes), noErr (stats (grp sorted k)) = true) ↔ Consistent tets tris := by
  have hmem : ∀ {s : Multiset ℕ}, (∃ b ∈ allTri tets tris, keyMs b.nodes = s) →
      ∃ k ∈ sorted.map (·.nodes), IsKey k ∧ keyMs k = s := by
    rintro s ⟨b, hb, e⟩
    exact ⟨b.nodes, List.mem_map.mpr ⟨b, h.1.mem_iff.mpr hb, rfl⟩, allTri_isKey _ _ b hb, e⟩
  have htri : ∀ f ∈ tris, ∃ k ∈ sorted.map (·.nodes), IsKey k ∧ keyMs k = verts f := fun f hf =>
    hmem ⟨.ofTri f, List.mem_append_right _ (List.mem_map.mpr ⟨f, hf, rfl⟩), ofTri_key f⟩
  constructor
  · intro hall
    have key : ∀ k ∈ sorted.map (·.nodes), (tris.countP fun f => decide (verts f = keyMs k)) ≤ 1 ∧
        incident tets (keyMs k) ≠ 0 ∧ (incident tets (keyMs k)).card ≤ 2 ∧
        ((tris.countP fun f => decide (verts f = keyMs k)) = 1 → ∀ r, incident tets (keyMs k) ≠ {r, r}) := by
      intro k hk
      have hk' := h.isKey hk
      obtain ⟨h1, h2, h3, h4⟩ := (noErr_iff _).mp (hall k hk)
      rw [grp_surf h hk'] at h1 h4
      rw [← grp_faceRegs h hk']
      refine ⟨h1, coe_ne_nil.mpr h2, by simpa using h3, ?_⟩
      intro hn r hr
      rcases coe_eq_pair.mp hr with e | e <;> exact h4 hn r e
    have hcnt : ∀ f ∈ tris, (tris.countP fun g => decide (verts g = verts f)) = 1 := by
      intro f hf
      obtain ⟨k, hk, _, e⟩ := htri f hf
      have h1 := (key k hk).1
      rw [e] at h1
      have h2 := (countP_pos_iff_mem tris (verts f)).mpr ⟨f, hf, rfl⟩
      omega
    refine ⟨hne, ?_, (noCopy_iff tris).mpr ?_, ?_, ?_⟩
    · intro s
      by_cases hs : incident tets s = 0
      · simp [hs]
      · obtain ⟨k, hk, _, rfl⟩ := hmem (incident_key hs)
        exact (key k hk).2.2.1
    · intro s
      by_cases hs : ∃ f ∈ tris, verts f = s
      · obtain ⟨f, hf, rfl⟩ := hs
        exact (hcnt f hf).le
      · have := mt (countP_pos_iff_mem tris s).mp hs
        omega
    · intro f hf
      obtain ⟨k, hk, _, e⟩ := htri f hf
      rw [← e]; exact (key k hk).2.1
    · intro f hf
      obtain ⟨k, hk, _, e⟩ := htri f hf
      rw [← e]
      exact (key k hk).2.2.2 (by rw [e]; exact hcnt f hf)
  · intro hC k hk
    have hk' := h.isKey hk
    rw [noErr_iff, grp_surf h hk']
    have hcnt := (noCopy_iff tris).mp hC.noCopy (keyMs k)
    have hfr := grp_faceRegs h hk'
    refine ⟨hcnt, ?_, ?_, ?_⟩
    · rw [← coe_ne_nil, hfr]
      obtain ⟨b, hb, rfl⟩ := List.mem_map.mp hk
      have hb' := h.1.mem_iff.mp hb
      rcases List.mem_append.mp hb' with hb' | hb'
      · rw [← hfr, coe_ne_nil]
        have hsurf : b.surf = false := by
          obtain ⟨t, _, hb'⟩ := List.mem_flatMap.mp hb'
          simp only [faces, List.mem_cons, List.not_mem_nil, or_false] at hb'
          rcases hb' with rfl | rfl | rfl | rfl <;> rfl
        have : b.reg ∈ faceRegs (grp sorted b.nodes) :=
          List.mem_map.mpr ⟨b, List.mem_filter.mpr ⟨List.mem_filter.mpr ⟨hb, by simp⟩, by simp [hsurf]⟩, rfl⟩
        exact List.ne_nil_of_mem this
      · obtain ⟨f, hf, rfl⟩ := List.mem_map.mp hb'
        rw [ofTri_key]
        exact hC.attached f hf
    · have := hC.atMostTwo (keyMs k)
      rw [← hfr] at this
      simpa using this
    · intro hn r hr
      obtain ⟨f, hf, e⟩ := (countP_pos_iff_mem tris (keyMs k)).mp (by omega)
      have := hC.notInside f hf r
      rw [e, ← hfr, hr] at this
      exact this rfl

/-! ## names -/

theorem toString_inj {i j : ℕ} (h : toString i = toString j) : i = j := by
  have h1 : (Nat.repr i).toList = (Nat.repr j).toList := by
    show (toString i).toList = (toString j).toList
    rw [h]
  rw [Nat.toList_repr, Nat.toList_repr] at h1
  rw [← @Nat.ofDigitChars_ten_toDigits i, h1, Nat.ofDigitChars_ten_toDigits]

theorem candidate_inj (base : String) {i j : ℕ} (h : candidate base i = candidate base j) : i = j := by
  unfold candidate at h
  have hl : ∀ n : ℕ, base ++ ("." ++ toString n) ≠ base := by
    intro n hc
    have := congrArg (fun s => s.toList.length) hc
    simp [String.toList_append] at this
  by_cases hi : i > 0 <;> by_cases hj : j > 0
  · rw [if_pos hi, if_pos hj] at h
    have h1 := congrArg String.toList h
    simp only [String.toList_append] at h1
    have h2 := List.append_cancel_left (List.append_cancel_left h1)
    exact toString_inj (String.toList_injective h2)
  · rw [if_pos hi, if_neg hj] at h
    exact absurd h (hl i)
  · rw [if_neg hi, if_pos hj] at h
    exact absurd h.symm (hl j)
  · omega

variable {π : Type}

theorem freshName_spec (regs : List (SurfPrm π)) (base : String) : ∀ (fuel i : ℕ) (nm : String),
    freshName regs base fuel i = some nm → (∃ j ≥ i, nm = candidate base j) ∧ ∀ r ∈ regs, r.name ≠ nm := by
  intro fuel
  induction fuel with
  | zero => intro i nm h; simp [freshName] at h
  | succ n ih =>
    intro i nm h
    unfold freshName at h
    by_cases hc : regs.any (fun r => r.name == candidate base i) = true
    · rw [if_pos hc] at h
      obtain ⟨⟨j, hj, e⟩, h2⟩ := ih (i + 1) nm h
      exact ⟨⟨j, by omega, e⟩, h2⟩
    · rw [if_neg hc] at h
      cases h
      refine ⟨⟨i, le_refl i, rfl⟩, ?_⟩
      intro r hr he
      apply hc
      rw [List.any_eq_true]
      exact ⟨r, hr, by simpa using he⟩

/-- the search for a name always ends: among `regs.length + 1` candidates one is unused -/
theorem freshName_some (regs : List (SurfPrm π)) (base : String) :
    ∃ nm, freshName regs base (regs.length + 1) 0 = some nm := by
  have key : ∀ (fuel i : ℕ), freshName regs base fuel i = none →
      ∀ j, i ≤ j → j < i + fuel → ∃ r ∈ regs, r.name = candidate base j := by
    intro fuel
    induction fuel with
    | zero => intro i _ j h1 h2; omega
    | succ n ih =>
      intro i h j h1 h2
      unfold freshName at h
      by_cases hc : regs.any (fun r => r.name == candidate base i) = true
      · rw [if_pos hc] at h
        by_cases e : j = i
        · rw [List.any_eq_true] at hc
          obtain ⟨r, hr, he⟩ := hc
          exact ⟨r, hr, by rw [e]; simpa using he⟩
        · exact ih (i + 1) h j (by omega) (by omega)
      · rw [if_neg hc] at h
        cases h
  cases h : freshName regs base (regs.length + 1) 0 with
  | some nm => exact ⟨nm, rfl⟩
  | none =>
    exfalso
    have hk := key _ _ h
    let cands := (List.range (regs.length + 1)).map (candidate base)
    have hnd : cands.Nodup := List.nodup_range.map fun i j e => candidate_inj base e
    have hsub : cands ⊆ regs.map (·.name) := by
      intro x hx
      obtain ⟨j, hj, rfl⟩ := List.mem_map.mp hx
      obtain ⟨r, hr, e⟩ := hk j (by omega) (by simpa using hj)
      exact List.mem_map.mpr ⟨r, hr, e⟩
    have := (List.subperm_of_subset hnd hsub).length_le
    simp [cands] at this
    omega

/-! ## creation of regions -/

/-- consistency of `volumesToSurfaceMap` -/
structure MapOk (base len : ℕ) (m : List ((ℤ × ℤ) × ℕ)) : Prop where
  fwd : ∀ e ∈ m, ∀ e' ∈ m, e.1 = e'.1 → e.2 = e'.2
  bwd : ∀ e ∈ m, ∀ e' ∈ m, e.2 = e'.2 → e.1 = e'.1
  rng : ∀ e ∈ m, base ≤ e.2 ∧ e.2 < len

theorem createRegions_spec (volName : ℕ → String) (dflt : SurfPrm π) (base : ℕ) (l : ToAdd) :
    ∀ (regs : List (SurfPrm π)) (m : List ((ℤ × ℤ) × ℕ)), base ≤ regs.length → MapOk base regs.length m →
    ∃ new m', createRegions volName dflt l regs m = some (regs ++ new, m') ∧
      MapOk base (regs.length + new.length) m' ∧ (∀ e ∈ m, e ∈ m') ∧ (∀ e ∈ l, ∃ i, (e.2, i) ∈ m') ∧
      (∀ c ∈ new, c.prm = dflt.prm) ∧ (new.map (·.name)).Nodup ∧ (∀ c ∈ new, ∀ r ∈ regs, c.name ≠ r.name) ∧
      (∀ e ∈ m', e ∈ m ∨ ∃ c, (regs ++ new)[e.2]? = some c ∧ ∃ j, c.name = candidate (baseName volName e.1) j) := by
  induction l with
  | nil =>
    intro regs m hb hm
    exact ⟨[], m, by simp [createRegions], by simpa using hm, fun e he => he, by simp, by simp, by simp, by simp,
      fun e he => Or.inl he⟩
  | cons x l ih =>
    obtain ⟨k, p⟩ := x
    intro regs m hb hm
    by_cases hc : m.any (fun e => e.1 == p) = true
    · have e : createRegions volName dflt ((k, p) :: l) regs m = createRegions volName dflt l regs m := if_pos hc
      obtain ⟨new, m', h1, h2, h3, h4, h5, h6, h7, h8⟩ := ih regs m hb hm
      refine ⟨new, m', e.trans h1, h2, h3, ?_, h5, h6, h7, h8⟩
      intro e' he'
      rcases List.mem_cons.mp he' with rfl | he'
      · rw [List.any_eq_true] at hc
        obtain ⟨⟨p', i⟩, hq, hp⟩ := hc
        have : p' = p := by simpa using hp
        subst this
        exact ⟨i, h3 _ hq⟩
      · exact h4 e' he'
    · obtain ⟨nm, hnm⟩ := freshName_some regs (baseName volName p)
      have e : createRegions volName dflt ((k, p) :: l) regs m =
          createRegions volName dflt l (regs ++ [{ dflt with name := nm }])
            (m ++ [(p, (regs ++ [{ dflt with name := nm }]).length - 1)]) := by
        refine (if_neg hc).trans ?_
        rw [hnm]
      have hlen : (regs ++ [({ dflt with name := nm } : SurfPrm π)]).length = regs.length + 1 := by simp
      rw [hlen, Nat.add_sub_cancel] at e
      have hpm : ∀ e ∈ m, e.1 ≠ p := by
        intro e he hp
        apply hc
        rw [List.any_eq_true]
        exact ⟨e, he, by simpa using hp⟩
      have hm' : MapOk base (regs ++ [({ dflt with name := nm } : SurfPrm π)]).length (m ++ [(p, regs.length)]) := by
        rw [hlen]
        refine ⟨?_, ?_, ?_⟩
        · intro a ha b hb' hab
          rcases List.mem_append.mp ha with ha | ha <;> rcases List.mem_append.mp hb' with hb' | hb'
          · exact hm.fwd a ha b hb' hab
          · simp only [List.mem_singleton] at hb'
            subst hb'
            exact absurd hab (hpm a ha)
          · simp only [List.mem_singleton] at ha
            subst ha
            exact absurd hab.symm (hpm b hb')
          · simp only [List.mem_singleton] at ha hb'
            rw [ha, hb']
        · intro a ha b hb' hab
          rcases List.mem_append.mp ha with ha | ha <;> rcases List.mem_append.mp hb' with hb' | hb'
          · exact hm.bwd a ha b hb' hab
          · simp only [List.mem_singleton] at hb'
            subst hb'
            have := (hm.rng a ha).2
            simp only at hab
            omega
          · simp only [List.mem_singleton] at ha
            subst ha
            have := (hm.rng b hb').2
            simp only at hab
            omega
          · simp only [List.mem_singleton] at ha hb'
            rw [ha, hb']
        · intro a ha
          rcases List.mem_append.mp ha with ha | ha
          · have := hm.rng a ha
            omega
          · simp only [List.mem_singleton] at ha
            subst ha
            dsimp only
            omega
      obtain ⟨new, m', h1, h2, h3, h4, h5, h6, h7, h8⟩ := ih _ _ (by rw [hlen]; omega) hm'
      have hnew := (freshName_spec regs _ _ _ _ hnm).2
      refine ⟨{ dflt with name := nm } :: new, m', ?_, ?_, ?_, ?_, ?_, ?_, ?_, ?_⟩
      · rw [e, h1]; simp
      · rw [hlen] at h2
        rw [List.length_cons]
        have : regs.length + (new.length + 1) = regs.length + 1 + new.length := by omega
        rw [this]; exact h2
      · intro e' he'
        exact h3 e' (List.mem_append_left _ he')
      · intro e' he'
        rcases List.mem_cons.mp he' with rfl | he'
        · exact ⟨regs.length, h3 _ (List.mem_append_right _ (by simp))⟩
        · exact h4 e' he'
      · intro c hc'
        rcases List.mem_cons.mp hc' with rfl | hc'
        · rfl
        · exact h5 c hc'
      · rw [List.map_cons, List.nodup_cons]
        refine ⟨?_, h6⟩
        intro hin
        obtain ⟨c, hc', he⟩ := List.mem_map.mp hin
        exact h7 c hc' { dflt with name := nm } (by simp) he
      · intro c hc' r hr
        rcases List.mem_cons.mp hc' with rfl | hc'
        · exact fun he => hnew r hr he.symm
        · exact h7 c hc' r (List.mem_append_left _ hr)
      · intro e' he'
        rcases h8 e' he' with h | h
        · rcases List.mem_append.mp h with h | h
          · exact Or.inl h
          · right
            simp only [List.mem_singleton] at h
            subst h
            obtain ⟨j, _, hj⟩ := (freshName_spec regs _ _ _ _ hnm).1
            exact ⟨{ dflt with name := nm }, by simp, j, hj⟩
        · right
          obtain ⟨c, h9, h10⟩ := h
          exact ⟨c, by rw [← h9]; simp, h10⟩

theorem regionOf_eq {base len : ℕ} {m : List ((ℤ × ℤ) × ℕ)} (hm : MapOk base len m) {p : ℤ × ℤ} {i : ℕ}
    (h : (p, i) ∈ m) : regionOf m p = i := by
  unfold regionOf
  cases hf : m.find? (fun e => e.1 == p) with
  | none =>
    have := List.find?_eq_none.mp hf _ h
    simp at this
  | some e =>
    have h1 := List.mem_of_find?_eq_some hf
    have h2 : e.1 = p := by simpa using List.find?_some hf
    exact hm.fwd e h1 _ h h2

/-! ## the list of triangles to add -/

theorem toAdd_fst (l : List BasicTri) :
    ((unique (l.map (·.nodes))).flatMap (addOf l)).map (·.1) =
      (unique (l.map (·.nodes))).filter fun k => missing (stats (grp l k)) := by
  generalize unique (l.map (·.nodes)) = ks
  induction ks with
  | nil => rfl
  | cons k ks ih =>
    rw [List.flatMap_cons, List.map_append, ih, List.filter_cons]
    unfold addOf
    by_cases h : missing (stats (grp l k)) = true
    · rw [if_pos h, if_pos h]; rfl
    · rw [if_neg h, if_neg h]; rfl

theorem keys_nodup (h : Sorted sorted) : (unique (sorted.map (·.nodes))).Nodup :=
  (unique_strict keyLE (fun _ _ => keyLE_anti) _ (List.pairwise_map.mpr h)).imp fun h => h.2

theorem mem_toAdd (l : List BasicTri) (e : Key × (ℤ × ℤ)) :
    e ∈ (unique (l.map (·.nodes))).flatMap (addOf l) ↔
      e.1 ∈ l.map (·.nodes) ∧ missing (stats (grp l e.1)) = true ∧ e.2 = (stats (grp l e.1)).pair := by
  rw [List.mem_flatMap]
  constructor
  · rintro ⟨k, hk, he⟩
    rw [unique_mem] at hk
    unfold addOf at he
    split_ifs at he with hm
    · simp only [List.mem_singleton] at he
      subst he
      exact ⟨hk, hm, rfl⟩
    · simp at he
  · rintro ⟨h1, h2, h3⟩
    refine ⟨e.1, (unique_mem _ _).mpr h1, ?_⟩
    unfold addOf
    rw [if_pos h2, ← h3]
    simp

theorem newTri_verts (m : List ((ℤ × ℤ) × ℕ)) (e : Key × (ℤ × ℤ)) : verts (newTri m e) = keyMs e.1 := rfl

/-- a key is to be completed exactly when it is a boundary face without surface triangle -/
theorem missing_boundary (h : IsSortOf sorted (allTri tets tris)) {k : Key} (hk : IsKey k) :
    missing (stats (grp sorted k)) = true ↔
      OnBoundary tets (keyMs k) ∧ (tris.countP fun f => decide (verts f = keyMs k)) = 0 := by
  rw [missing_iff, grp_surf h hk, and_comm]
  unfold OnBoundary
  rw [← grp_faceRegs h hk]
  refine and_congr_left fun _ => ?_
  constructor
  · rintro (⟨r, e⟩ | ⟨r, r', hr, e⟩)
    · exact Or.inl ⟨r, coe_eq_singleton.mpr e⟩
    · exact Or.inr ⟨r, r', hr, coe_eq_pair.mpr (Or.inl e)⟩
  · rintro (⟨r, e⟩ | ⟨r, r', hr, e⟩)
    · exact Or.inl ⟨r, coe_eq_singleton.mp e⟩
    · rcases coe_eq_pair.mp e with e | e
      · exact Or.inr ⟨r, r', hr, e⟩
      · exact Or.inr ⟨r', r, hr.symm, e⟩

/-- the pair of regions determines the regions on both sides and conversely -/
theorem pair_incident (h : IsSortOf sorted (allTri tets tris)) {k k' : Key} (hk : IsKey k) (hk' : IsKey k')
    (hm : missing (stats (grp sorted k)) = true) (hm' : missing (stats (grp sorted k')) = true) :
    (stats (grp sorted k)).pair = (stats (grp sorted k')).pair ↔
      incident tets (keyMs k) = incident tets (keyMs k') := by
  rw [← grp_faceRegs h hk, ← grp_faceRegs h hk', (stats_spec _).2.2, (stats_spec _).2.2]
  obtain ⟨_, h1⟩ := (missing_iff _).mp hm
  obtain ⟨_, h2⟩ := (missing_iff _).mp hm'
  generalize faceRegs (grp sorted k) = l at *
  generalize faceRegs (grp sorted k') = l' at *
  rcases h1 with ⟨r, rfl⟩ | ⟨r, r', hr, rfl⟩ <;> rcases h2 with ⟨q, rfl⟩ | ⟨q, q', hq, rfl⟩
  · rw [pair_one, pair_one, Multiset.coe_eq_coe, List.perm_singleton]
    simp
  · rw [pair_one, pair_two, Multiset.coe_eq_coe]
    constructor
    · intro e
      have := congrArg Prod.snd e
      simp only at this
      omega
    · intro e; exact absurd e.length_eq (by simp)
  · rw [pair_one, pair_two, Multiset.coe_eq_coe]
    constructor
    · intro e
      have := congrArg Prod.snd e
      simp only at this
      omega
    · intro e; exact absurd e.length_eq (by simp)
  · rw [pair_two, pair_two]
    have : (([q, q'] : List ℕ) : Multiset ℕ) = {q, q'} := rfl
    rw [this, coe_eq_pair]
    simp only [Prod.mk.injEq, List.cons.injEq, and_true]
    omega

end Verif.MeshCheck
