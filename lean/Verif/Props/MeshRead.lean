import Verif.Proofs.MeshRead
import Verif.Proofs.Mesh
import Verif.Proofs.Node
import Verif.Spec.Geometry

/-!
# C70, C71: the mesh file and the initial magnetization
-/

namespace Verif.MeshRead

open Verif.Mesh Verif.Text

/-- position of a node after reading -/
noncomputable def Read.pos (m : Read) (i : ℕ) : V3 := ((m.node[i]?).getD none).getD 0

/-- the tetrahedron `t` of the program is the element with node tags `tags` of the region named `g`: same vertices, the last
two exchanged if needed to make the volume positive -/
structure IsTet (eps : ℝ) (regs : List Str) (pos : ℕ → V3) (e : Str × (Fin 4 → ℕ)) (t : Tet) : Prop where
  name : Names regs t.reg e.1
  ind : t.ind = (fun k => e.2 k - 1) ∨ t.ind = ![e.2 0 - 1, e.2 1 - 1, e.2 3 - 1, e.2 2 - 1]
  vol : eps ≤ vol6 (pos (t.ind 0)) (pos (t.ind 1)) (pos (t.ind 2)) (pos (t.ind 3))

/-- the same for a triangle, whose vertices keep their order -/
structure IsTri (regs : List Str) (e : Str × (Fin 3 → ℕ)) (t : Tri) : Prop where
  name : Names regs t.reg e.1
  ind : t.ind = fun k => e.2 k - 1

theorem checkFile_ok (f : File) (regT regS : List Str) : checkFile f regT regS = .ok () ↔
    f.dim = 3 ∧ types f.vol = [4] ∧ (types f.surf = [] ∨ types f.surf = [2]) ∧
      checkNamed regS (groupNames f.surf) = true ∧ checkNamed regT (groupNames f.vol) = true := by
  unfold checkFile
  split_ifs with h1 h2 h3 h4
  · simp [h1]
  · simp [h2]
  · constructor
    · intro h
      cases h
    · rintro ⟨-, -, -, h5, h6⟩
      simp [h5, h6] at h4
  · simp only [Bool.not_eq_true', Bool.not_eq_false, Bool.and_eq_true] at h4
    exact ⟨fun _ => ⟨not_not.mp h1, not_not.mp h2, h3, h4.1, h4.2⟩, fun _ => rfl⟩
  · constructor
    · intro h
      cases h
    · rintro ⟨-, -, h, -⟩
      exact absurd h h3

theorem checkNamed_iff (regs names : List Str) :
    checkNamed regs names = true ↔ ∀ r ∈ regs, r = defaultName ∨ r ∈ names := by
  unfold checkNamed
  simp [List.all_eq_true]

/-- `types` has one element -/
theorem types_eq (l : List Entity) (t : ℕ) : types l = [t] ↔ (∀ e ∈ l, ∀ b ∈ e.blocks, b.typ = t) ∧ ∃ e ∈ l, e.blocks ≠ [] := by
  have hm : ∀ x, x ∈ types l ↔ ∃ e ∈ l, ∃ b ∈ e.blocks, b.typ = x := by
    intro x
    simp [types]
  constructor
  · intro h
    refine ⟨fun e he b hb => ?_, ?_⟩
    · have := (hm b.typ).mpr ⟨e, he, b, hb, rfl⟩
      rw [h] at this
      simpa using this
    · obtain ⟨e, he, b, hb, -⟩ := (hm t).mp (by rw [h]; simp)
      exact ⟨e, he, fun h => by rw [h] at hb; cases hb⟩
  · rintro ⟨h1, e, he, h2⟩
    obtain ⟨b, hb⟩ := List.exists_mem_of_ne_nil _ h2
    have hin : t ∈ types l := (hm t).mpr ⟨e, he, b, hb, h1 e he b hb⟩
    have hall : ∀ x ∈ types l, x = t := by
      intro x hx
      obtain ⟨e, he, b, hb, rfl⟩ := (hm x).mp hx
      exact h1 e he b hb
    have hnd : (types l).Nodup := List.nodup_dedup _
    match hl : types l, hin, hall, hnd with
    | [], hin, _, _ => simp at hin
    | [x], _, hall, _ => rw [hall x (by simp)]
    | x :: y :: r, _, hall, hnd =>
      have e1 := hall x (by simp)
      have e2 := hall y (by simp)
      subst e1
      subst e2
      simp at hnd

theorem types_nil (l : List Entity) : types l = [] ↔ ∀ e ∈ l, e.blocks = [] := by
  unfold types
  simp [List.dedup_eq_nil]

section
variable {eps scale : ℝ} {regT regS : List Str} {f : File}

/-- the tags of the elements refer to nodes which have been read -/
def Known (node : List (Option V3)) (i : ℕ) : Prop := 1 ≤ i ∧ ∃ p, node[i - 1]? = some (some p)

theorem mkTet_ok (node : List (Option V3)) (reg : ℕ) (tags : Fin 4 → ℕ) (hk : ∀ k, Known node (tags k)) (t : Tet) :
    mkTet eps node reg tags = .ok t → t.reg = reg ∧
      (t.ind = (fun k => tags k - 1) ∨ t.ind = ![tags 0 - 1, tags 1 - 1, tags 3 - 1, tags 2 - 1]) ∧
      let pos := fun i => ((node[i]?).getD none).getD 0
      eps ≤ vol6 (pos (t.ind 0)) (pos (t.ind 1)) (pos (t.ind 2)) (pos (t.ind 3)) := by
  intro h
  unfold mkTet at h
  rw [if_pos (show ∀ k, 1 ≤ tags k ∧ ∃ p, node[tags k - 1]? = some (some p) from hk)] at h
  unfold Geom.orientate at h
  split_ifs at h with h1 h2
  · cases h
    refine ⟨rfl, Or.inr rfl, ?_⟩
    rw [not_lt, abs_of_neg h2] at h1
    refine h1.trans (le_of_eq ?_)
    simp [Geom.mixedProd, Geom.swap23, vol6, V3.dot, V3.cross]
    ring
  · cases h
    refine ⟨rfl, Or.inl rfl, ?_⟩
    rw [not_lt] at h1 h2
    rw [abs_of_nonneg h2] at h1
    exact h1

theorem mkTet_isOk (node : List (Option V3)) (reg : ℕ) (tags : Fin 4 → ℕ) (hk : ∀ k, Known node (tags k)) :
    (∃ t, mkTet eps node reg tags = .ok t) ↔
      let pos := fun k => ((node[tags k - 1]?).getD none).getD 0
      eps ≤ |vol6 (pos 0) (pos 1) (pos 2) (pos 3)| := by
  unfold mkTet
  rw [if_pos (show ∀ k, 1 ≤ tags k ∧ ∃ p, node[tags k - 1]? = some (some p) from hk)]
  unfold Geom.orientate
  dsimp only
  rw [show vol6 _ _ _ _ = Geom.mixedProd (fun i => ((node[i]?).getD none).getD 0) ⟨fun k => tags k - 1, reg⟩ from rfl]
  split_ifs with h1 h2
  · constructor
    · rintro ⟨t, h⟩
      cases h
    · intro h
      linarith
  · exact ⟨fun _ => not_lt.mp h1, fun _ => ⟨_, rfl⟩⟩
  · exact ⟨fun _ => not_lt.mp h1, fun _ => ⟨_, rfl⟩⟩

theorem forall2_flatMap {α β γ : Type} {R : γ → β → Prop} (h : α → List γ) {l : List α} {g : List (List β)}
    (hf : List.Forall₂ (fun a s => List.Forall₂ R (h a) s) l g) : List.Forall₂ R (l.flatMap h) g.flatten := by
  induction hf with
  | nil => exact .nil
  | cons h1 _ ih =>
    rw [List.flatMap_cons, List.flatten_cons]
    exact List.rel_append h1 ih

theorem forall2_imp {α β : Type} {R S : α → β → Prop} {l : List α} {m : List β} (h : List.Forall₂ R l m)
    (hi : ∀ a ∈ l, ∀ b, R a b → S a b) : List.Forall₂ S l m := by
  induction h with
  | nil => exact .nil
  | cons h1 _ ih => exact .cons (hi _ (by simp) _ h1) (ih fun a ha b hb => hi a (by simp [ha]) b hb)

/-- the double loop over entities and groups -/
theorem groups_ok {β γ : Type} {R : γ → β → Prop} (G : Entity → Str → Except Bad (List β)) (h : Entity → Str → List γ)
    (l : List Entity) (r : List β)
    (hG : ∀ e ∈ l, ∀ n ∈ e.groups, ∀ s, G e n = .ok s → List.Forall₂ R (h e n) s)
    (hr : (do
      let l' ← l.mapM fun e => do
        let g ← e.groups.mapM (G e)
        return g.flatten
      return l'.flatten) = Except.ok r) :
    List.Forall₂ R (l.flatMap fun e => e.groups.flatMap (h e)) r := by
  obtain ⟨l', h1, h2⟩ := bind_ok.mp hr
  cases h2
  rw [mapM_ok] at h1
  refine forall2_flatMap _ (forall2_imp h1 fun e he s hs => ?_)
  obtain ⟨g, h3, h4⟩ := bind_ok.mp hs
  cases h4
  rw [mapM_ok] at h3
  exact forall2_flatMap _ (forall2_imp h3 fun n hn s hs => hG e he n hn s hs)

theorem groups_isOk {β : Type} (G : Entity → Str → Except Bad (List β)) (l : List Entity) :
    (∃ r, (do
      let l' ← l.mapM fun e => do
        let g ← e.groups.mapM (G e)
        return g.flatten
      return l'.flatten) = Except.ok (ε := Bad) r) ↔ ∀ e ∈ l, ∀ n ∈ e.groups, ∃ s, G e n = .ok s := by
  have e1 : (∃ r, (do
      let l' ← l.mapM fun e => do
        let g ← e.groups.mapM (G e)
        return g.flatten
      return l'.flatten) = Except.ok (ε := Bad) r) ↔ ∃ l', l.mapM (fun e => do
        let g ← e.groups.mapM (G e)
        return g.flatten) = Except.ok (ε := Bad) l' := by
    constructor
    · rintro ⟨r, hr⟩
      obtain ⟨l', h1, -⟩ := bind_ok.mp hr
      exact ⟨l', h1⟩
    · rintro ⟨l', h1⟩
      exact ⟨_, bind_ok.mpr ⟨l', h1, rfl⟩⟩
  rw [e1, mapM_isOk]
  refine forall_congr' fun e => forall_congr' fun _ => ?_
  rw [← mapM_isOk]
  constructor
  · rintro ⟨r, hr⟩
    obtain ⟨l', h1, -⟩ := bind_ok.mp hr
    exact ⟨l', h1⟩
  · rintro ⟨l', h1⟩
    exact ⟨_, bind_ok.mpr ⟨l', h1, rfl⟩⟩

theorem filter_flatMap_if {α β : Type} (p : α → Prop) [DecidablePred p] (h : α → List β) (l : List α) :
    (l.filter fun x => decide (p x)).flatMap h = l.flatMap fun x => if p x then h x else [] := by
  induction l with
  | nil => rfl
  | cons a l ih =>
    by_cases ha : p a
    · simp [ha, ih]
    · simp [ha, ih]

theorem any_eq (regs : List Str) (n : Str) : (regs.any (· == n)) = true ↔ n ∈ regs := by
  simp

/-- what `readNodes` leaves: the node of tag `i` is in place `i - 1` -/
theorem readNodes_spec (hw : WellFormed f) {node : List (Option V3)} (h : readNodes scale f.nodes = .ok node) :
    node.length = f.nodes.length ∧ (∀ n ∈ f.nodes, 1 ≤ n.1 ∧ node[n.1 - 1]? = some (some (scale * n.2))) ∧
    ∀ e ∈ f.vol ++ f.surf, ∀ b ∈ e.blocks, ∀ i ∈ b.tags, Known node i := by
  obtain ⟨h1, h2, -, h4⟩ := readNodes_fold scale f.nodes _ node h
  rw [List.length_replicate] at h1
  refine ⟨h1, fun n hn => ⟨(h2 n hn).1, h4 hw.distinct n hn⟩, ?_⟩
  intro e he b hb i hi
  obtain ⟨n, hn, rfl⟩ := List.mem_map.mp (hw.refer e he b hb i hi)
  exact ⟨(h2 n hn).1, _, h4 hw.distinct n hn⟩

theorem tetGroup_ok (hw : WellFormed f) {node : List (Option V3)}
    (hk : ∀ e ∈ f.vol ++ f.surf, ∀ b ∈ e.blocks, ∀ i ∈ b.tags, Known node i) (e : Entity) (he : e ∈ f.vol) (n : Str)
    (s : List Tet) (h : readTetGroup eps regT node e n = .ok s) :
    List.Forall₂ (IsTet eps regT fun i => ((node[i]?).getD none).getD 0)
      (if n ∈ regT then (e.blocks.filter (·.typ = 4)).flatMap fun b => (elemsOf 4 b.tags).map fun t => (n, t) else []) s := by
  unfold readTetGroup at h
  by_cases hn : n ∈ regT
  · rw [if_pos ((any_eq _ _).mpr hn)] at h
    rw [if_pos hn]
    obtain ⟨tags, h1, h⟩ := bind_ok.mp h
    obtain ⟨ch, h2, h⟩ := bind_ok.mp h
    obtain ⟨b, hb, ht, rfl⟩ := (firstBlock_ok 4 e.blocks (hw.blocks e (by simp [he])) tags).mp h1
    have hbm : b ∈ e.blocks := by rw [hb]; simp
    rw [chunk4_ok _ (hw.whole4 e he b hbm ht)] at h2
    cases h2
    rw [hb]
    simp only [ht, List.filter_cons, List.filter_nil, decide_true, if_true, List.flatMap_cons, List.flatMap_nil, List.append_nil]
    rw [mapM_ok] at h
    rw [List.forall₂_map_left_iff]
    refine forall2_imp h fun t ht' x hx => ?_
    obtain ⟨a1, a2, a3⟩ := mkTet_ok node _ t (fun k => hk e (by simp [he]) b hbm _ (mem_elemsOf ht' k)) x hx
    exact ⟨by rw [a1]; exact names_findIdx regT n hn, a2, a3⟩
  · rw [if_neg (by rw [any_eq]; exact hn)] at h
    rw [if_neg hn]
    cases h
    exact .nil

theorem triGroup_ok (hw : WellFormed f) {node : List (Option V3)}
    (hk : ∀ e ∈ f.vol ++ f.surf, ∀ b ∈ e.blocks, ∀ i ∈ b.tags, Known node i) (e : Entity) (he : e ∈ f.surf) (n : Str)
    (s : List Tri) (h : readTriGroup regS node e n = .ok s) :
    List.Forall₂ (IsTri regS)
      (if n ∈ regS then (e.blocks.filter (·.typ = 2)).flatMap fun b => (elemsOf 3 b.tags).map fun t => (n, t) else []) s := by
  unfold readTriGroup at h
  by_cases hn : n ∈ regS
  · rw [if_pos ((any_eq _ _).mpr hn)] at h
    rw [if_pos hn]
    obtain ⟨tags, h1, h⟩ := bind_ok.mp h
    obtain ⟨ch, h2, h⟩ := bind_ok.mp h
    obtain ⟨b, hb, ht, rfl⟩ := (firstBlock_ok 2 e.blocks (hw.blocks e (by simp [he])) tags).mp h1
    have hbm : b ∈ e.blocks := by rw [hb]; simp
    rw [chunk3_ok _ (hw.whole3 e he b hbm ht)] at h2
    cases h2
    rw [hb]
    simp only [ht, List.filter_cons, List.filter_nil, decide_true, if_true, List.flatMap_cons, List.flatMap_nil, List.append_nil]
    rw [mapM_ok] at h
    rw [List.forall₂_map_left_iff]
    refine forall2_imp h fun t ht' x hx => ?_
    unfold mkTri at hx
    rw [if_pos (show ∀ k, 1 ≤ t k ∧ ∃ p, node[t k - 1]? = some (some p) from
      fun k => hk e (by simp [he]) b hbm _ (mem_elemsOf ht' k))] at hx
    cases hx
    exact ⟨names_findIdx regS n hn, rfl⟩
  · rw [if_neg (by rw [any_eq]; exact hn)] at h
    rw [if_neg hn]
    cases h
    exact .nil

/-- **C70** What the program has read is what the file says: the node with tag `i` is node `i - 1`, at its coordinates times
the scale; the tetrahedrons are those of the entities in the regions named in the settings, with the index of this region,
positive volume and the same vertices; likewise the triangles; elements of other regions are left out. -/
theorem C70_read (hw : WellFormed f) (m : Read) (h : readMesh eps scale regT regS f = .ok m) :
    m.node.length = f.nodes.length ∧
    (∀ tag x, At f tag x → 1 ≤ tag ∧ m.node[tag - 1]? = some (some (scale * x))) ∧
    List.Forall₂ (IsTet eps regT m.pos) (fileElems 4 4 regT f.vol) m.tet ∧
    List.Forall₂ (IsTri regS) (fileElems 3 2 regS f.surf) m.tri := by
  unfold readMesh at h
  obtain ⟨-, -, h⟩ := bind_ok.mp h
  obtain ⟨node, h1, h⟩ := bind_ok.mp h
  obtain ⟨tet, h2, h⟩ := bind_ok.mp h
  obtain ⟨tri, h3, h⟩ := bind_ok.mp h
  cases h
  obtain ⟨k1, k2, hk⟩ := readNodes_spec hw h1
  refine ⟨k1, fun tag x hx => k2 (tag, x) hx, ?_, ?_⟩
  · unfold fileElems
    simp only [filter_flatMap_if (· ∈ regT)]
    exact groups_ok _ _ _ _ (fun e he n _ s hs => tetGroup_ok hw hk e he n s hs) h2
  · unfold fileElems
    simp only [filter_flatMap_if (· ∈ regS)]
    exact groups_ok _ _ _ _ (fun e he n _ s hs => triGroup_ok hw hk e he n s hs) h3

/-- the conditions under which a well formed file is accepted -/
structure Accepted (eps scale : ℝ) (regT regS : List Str) (f : File) : Prop where
  dim : f.dim = 3
  tetrahedrons : ∀ e ∈ f.vol, ∀ b ∈ e.blocks, b.typ = 4
  triangles : ∀ e ∈ f.surf, ∀ b ∈ e.blocks, b.typ = 2
  some_tet : ∃ e ∈ f.vol, e.blocks ≠ []
  regionsT : ∀ r ∈ regT, r ≠ defaultName → ∃ e ∈ f.vol, r ∈ e.groups
  regionsS : ∀ r ∈ regS, r ≠ defaultName → ∃ e ∈ f.surf, r ∈ e.groups
  /-- the node tags are 1, 2, …, number of nodes, in any order -/
  tags : ∀ i, i ∈ f.nodes.map (·.1) ↔ 1 ≤ i ∧ i ≤ f.nodes.length
  fullT : ∀ e ∈ f.vol, (∃ g ∈ e.groups, g ∈ regT) → e.blocks ≠ []
  fullS : ∀ e ∈ f.surf, (∃ g ∈ e.groups, g ∈ regS) → e.blocks ≠ []
  solid : ∀ g tags, (g, tags) ∈ fileElems 4 4 regT f.vol → ∀ x : Fin 4 → V3, (∀ k, At f (tags k) (x k)) →
    eps ≤ |vol6 (scale * x 0) (scale * x 1) (scale * x 2) (scale * x 3)|

theorem tags_iff (hw : WellFormed f) :
    (∀ n ∈ f.nodes, 1 ≤ n.1 ∧ n.1 ≤ f.nodes.length) ↔ ∀ i, i ∈ f.nodes.map (·.1) ↔ 1 ≤ i ∧ i ≤ f.nodes.length := by
  constructor
  · intro h
    have hsub : (f.nodes.map (·.1)).toFinset ⊆ Finset.Icc 1 f.nodes.length := by
      intro i hi
      obtain ⟨n, hn, rfl⟩ := List.mem_map.mp (List.mem_toFinset.mp hi)
      exact Finset.mem_Icc.mpr (h n hn)
    have hc : (f.nodes.map (·.1)).toFinset.card = f.nodes.length := by
      rw [List.toFinset_card_of_nodup hw.distinct, List.length_map]
    have heq := Finset.eq_of_subset_of_card_le hsub (by rw [hc, Nat.card_Icc]; omega)
    intro i
    rw [← List.mem_toFinset, heq, Finset.mem_Icc]
  · intro h n hn
    exact (h n.1).mp (List.mem_map.mpr ⟨n, hn, rfl⟩)

theorem tetGroup_isOk (hw : WellFormed f) {node : List (Option V3)}
    (hk : ∀ e ∈ f.vol ++ f.surf, ∀ b ∈ e.blocks, ∀ i ∈ b.tags, Known node i)
    (h4 : ∀ e ∈ f.vol, ∀ b ∈ e.blocks, b.typ = 4) (e : Entity) (he : e ∈ f.vol) (n : Str) :
    (∃ s, readTetGroup eps regT node e n = .ok s) ↔ (n ∈ regT → e.blocks ≠ [] ∧ ∀ b ∈ e.blocks, ∀ t ∈ elemsOf 4 b.tags,
      let pos := fun k => ((node[t k - 1]?).getD none).getD 0
      eps ≤ |vol6 (pos 0) (pos 1) (pos 2) (pos 3)|) := by
  unfold readTetGroup
  by_cases hn : n ∈ regT
  · rw [if_pos ((any_eq _ _).mpr hn)]
    have hd := hw.blocks e (by simp [he])
    constructor
    · rintro ⟨s, h⟩ -
      obtain ⟨tags, h1, h⟩ := bind_ok.mp h
      obtain ⟨ch, h2, h⟩ := bind_ok.mp h
      obtain ⟨b, hb, ht, rfl⟩ := (firstBlock_ok 4 e.blocks hd tags).mp h1
      have hbm : b ∈ e.blocks := by rw [hb]; simp
      rw [chunk4_ok _ (hw.whole4 e he b hbm ht)] at h2
      cases h2
      refine ⟨by rw [hb]; simp, fun b' hb' t ht' => ?_⟩
      rw [hb, List.mem_singleton] at hb'
      subst hb'
      exact (mkTet_isOk node _ t fun k => hk e (by simp [he]) b' hbm _ (mem_elemsOf ht' k)).mp
        ((mapM_isOk _ _).mp ⟨s, h⟩ t ht')
    · intro h
      obtain ⟨h1, h2⟩ := h hn
      obtain ⟨b, hb⟩ : ∃ b, e.blocks = [b] := by
        match hb : e.blocks, h1, hd with
        | [], h1, _ => exact absurd rfl h1
        | [b], _, _ => exact ⟨b, rfl⟩
        | b :: c :: r, _, hd =>
          have e1 := h4 e he b (by rw [hb]; simp)
          have e2 := h4 e he c (by rw [hb]; simp)
          simp [e1, e2] at hd
      have hbm : b ∈ e.blocks := by rw [hb]; simp
      have ht := h4 e he b hbm
      obtain ⟨s, hs⟩ := (mapM_isOk (mkTet eps node (regT.findIdx (· == n))) (elemsOf 4 b.tags)).mpr fun t ht' =>
        (mkTet_isOk node _ t fun k => hk e (by simp [he]) b hbm _ (mem_elemsOf ht' k)).mpr (h2 b hbm t ht')
      exact ⟨s, bind_ok.mpr ⟨b.tags, (firstBlock_ok 4 e.blocks hd _).mpr ⟨b, hb, ht, rfl⟩,
        bind_ok.mpr ⟨_, chunk4_ok _ (hw.whole4 e he b hbm ht), hs⟩⟩⟩
  · rw [if_neg (by rw [any_eq]; exact hn)]
    exact ⟨fun _ h => absurd h hn, fun _ => ⟨[], rfl⟩⟩

theorem triGroup_isOk (hw : WellFormed f) {node : List (Option V3)}
    (hk : ∀ e ∈ f.vol ++ f.surf, ∀ b ∈ e.blocks, ∀ i ∈ b.tags, Known node i)
    (h4 : ∀ e ∈ f.surf, ∀ b ∈ e.blocks, b.typ = 2) (e : Entity) (he : e ∈ f.surf) (n : Str) :
    (∃ s, readTriGroup regS node e n = .ok s) ↔ (n ∈ regS → e.blocks ≠ []) := by
  unfold readTriGroup
  by_cases hn : n ∈ regS
  · rw [if_pos ((any_eq _ _).mpr hn)]
    have hd := hw.blocks e (by simp [he])
    constructor
    · rintro ⟨s, h⟩ -
      obtain ⟨tags, h1, h⟩ := bind_ok.mp h
      obtain ⟨b, hb, ht, rfl⟩ := (firstBlock_ok 2 e.blocks hd tags).mp h1
      rw [hb]
      simp
    · intro h
      have h1 := h hn
      obtain ⟨b, hb⟩ : ∃ b, e.blocks = [b] := by
        match hb : e.blocks, h1, hd with
        | [], h1, _ => exact absurd rfl h1
        | [b], _, _ => exact ⟨b, rfl⟩
        | b :: c :: r, _, hd =>
          have e1 := h4 e he b (by rw [hb]; simp)
          have e2 := h4 e he c (by rw [hb]; simp)
          simp [e1, e2] at hd
      have hbm : b ∈ e.blocks := by rw [hb]; simp
      have ht := h4 e he b hbm
      obtain ⟨s, hs⟩ := (mapM_isOk (mkTri node (regS.findIdx (· == n))) (elemsOf 3 b.tags)).mpr fun t ht' => by
        unfold mkTri
        rw [if_pos (show ∀ k, 1 ≤ t k ∧ ∃ p, node[t k - 1]? = some (some p) from
          fun k => hk e (by simp [he]) b hbm _ (mem_elemsOf ht' k))]
        exact ⟨_, rfl⟩
      exact ⟨s, bind_ok.mpr ⟨b.tags, (firstBlock_ok 2 e.blocks hd _).mpr ⟨b, hb, ht, rfl⟩,
        bind_ok.mpr ⟨_, chunk3_ok _ (hw.whole3 e he b hbm ht), hs⟩⟩⟩
  · rw [if_neg (by rw [any_eq]; exact hn)]
    exact ⟨fun _ h => absurd h hn, fun _ => ⟨[], rfl⟩⟩

/-- **C70** A well formed file is accepted under exactly these conditions: dimension 3, tetrahedrons and triangles only,
every region of the settings present, node tags without gaps, no named entity without elements, no flat tetrahedron in the
named regions. -/
theorem C70_accepted_iff (hw : WellFormed f) :
    (∃ m, readMesh eps scale regT regS f = .ok m) ↔ Accepted eps scale regT regS f := by
  have hnodes : (∃ node, readNodes scale f.nodes = .ok node) ↔ ∀ i, i ∈ f.nodes.map (·.1) ↔ 1 ≤ i ∧ i ≤ f.nodes.length := by
    rw [← tags_iff hw]
    exact readNodes_isOk scale f.nodes _ _ List.length_replicate
  have hsurf : (types f.surf = [] ∨ types f.surf = [2]) ↔ ∀ e ∈ f.surf, ∀ b ∈ e.blocks, b.typ = 2 := by
    rw [types_nil, types_eq]
    constructor
    · rintro (h | h)
      · intro e he b hb
        rw [h e he] at hb
        cases hb
      · exact h.1
    · intro h
      by_cases h' : ∀ e ∈ f.surf, e.blocks = []
      · exact Or.inl h'
      · push Not at h'
        exact Or.inr ⟨h, h'⟩
  have hname : ∀ regs l, checkNamed regs (groupNames l) = true ↔ ∀ r ∈ regs, r ≠ defaultName → ∃ e ∈ l, r ∈ e.groups := by
    intro regs l
    rw [checkNamed_iff]
    refine forall_congr' fun r => forall_congr' fun _ => ?_
    unfold groupNames
    rw [List.mem_flatMap]
    tauto
  -- the positions of the vertices
  have hpos : ∀ {node : List (Option V3)}, readNodes scale f.nodes = .ok node → ∀ e ∈ f.vol, ∀ b ∈ e.blocks,
      ∀ t ∈ elemsOf 4 b.tags, ∃ x : Fin 4 → V3, (∀ k, At f (t k) (x k)) ∧
        ∀ k, ((node[t k - 1]?).getD none).getD 0 = scale * x k := by
    intro node hn e he b hb t ht
    obtain ⟨-, k2, -⟩ := readNodes_spec hw hn
    have hx : ∀ k, ∃ y, At f (t k) y := by
      intro k
      obtain ⟨n, hn, he⟩ := List.mem_map.mp (hw.refer e (by simp [he]) b hb _ (mem_elemsOf ht k))
      exact ⟨n.2, by unfold At; rw [← he]; exact hn⟩
    choose x hx using hx
    refine ⟨x, hx, fun k => ?_⟩
    rw [(k2 _ (hx k)).2]
    rfl
  have hmem : ∀ g t, (g, t) ∈ fileElems 4 4 regT f.vol ↔ ∃ e ∈ f.vol, g ∈ e.groups ∧ g ∈ regT ∧ ∃ b ∈ e.blocks, b.typ = 4 ∧
      t ∈ elemsOf 4 b.tags := by
    intro g t
    unfold fileElems
    simp only [List.mem_flatMap, List.mem_filter, List.mem_map, decide_eq_true_eq, Prod.mk.injEq]
    constructor
    · rintro ⟨e, he, g', ⟨h1, h2⟩, b, ⟨h3, h4⟩, t', h5, rfl, rfl⟩
      exact ⟨e, he, h1, h2, b, h3, h4, h5⟩
    · rintro ⟨e, he, h1, h2, b, h3, h4, h5⟩
      exact ⟨e, he, g, ⟨h1, h2⟩, b, ⟨h3, h4⟩, t, h5, rfl, rfl⟩
  have huniq : ∀ {tag x y}, At f tag x → At f tag y → x = y := by
    intro tag x y h1 h2
    have := List.inj_on_of_nodup_map hw.distinct h1 h2 rfl
    exact congrArg Prod.snd this
  constructor
  · rintro ⟨m, h⟩
    unfold readMesh at h
    obtain ⟨⟨⟩, h0, h⟩ := bind_ok.mp h
    obtain ⟨node, h1, h⟩ := bind_ok.mp h
    obtain ⟨tet, h2, h⟩ := bind_ok.mp h
    obtain ⟨tri, h3, -⟩ := bind_ok.mp h
    obtain ⟨c1, c2, c3, c4, c5⟩ := (checkFile_ok f regT regS).mp h0
    obtain ⟨-, -, hk⟩ := readNodes_spec hw h1
    have t4 := ((types_eq _ _).mp c2).1
    have t2 := hsurf.mp c3
    have g4 := (groups_isOk _ _).mp ⟨tet, h2⟩
    have g2 := (groups_isOk _ _).mp ⟨tri, h3⟩
    refine ⟨c1, t4, t2, ((types_eq _ _).mp c2).2, (hname _ _).mp c5, (hname _ _).mp c4, hnodes.mp ⟨node, h1⟩, ?_, ?_, ?_⟩
    · rintro e he ⟨g, hg, hr⟩
      exact ((tetGroup_isOk hw hk t4 e he g).mp (g4 e he g hg) hr).1
    · rintro e he ⟨g, hg, hr⟩
      exact (triGroup_isOk hw hk t2 e he g).mp (g2 e he g hg) hr
    · intro g t ht x hx
      obtain ⟨e, he, hg, hr, b, hb, -, htb⟩ := (hmem g t).mp ht
      have := ((tetGroup_isOk hw hk t4 e he g).mp (g4 e he g hg) hr).2 b hb t htb
      obtain ⟨y, hy, hp⟩ := hpos h1 e he b hb t htb
      simp only [hp] at this
      have hxy : x = y := funext fun k => huniq (hx k) (hy k)
      rw [hxy]
      exact this
  · intro h
    obtain ⟨node, h1⟩ := hnodes.mpr h.tags
    obtain ⟨-, -, hk⟩ := readNodes_spec hw h1
    have h0 : checkFile f regT regS = .ok () := (checkFile_ok f regT regS).mpr ⟨h.dim,
      (types_eq _ _).mpr ⟨h.tetrahedrons, h.some_tet⟩, hsurf.mpr h.triangles, (hname _ _).mpr h.regionsS,
      (hname _ _).mpr h.regionsT⟩
    obtain ⟨tet, h2⟩ := (groups_isOk (readTetGroup eps regT node) f.vol).mpr fun e he g hg =>
      (tetGroup_isOk hw hk h.tetrahedrons e he g).mpr fun hr => ⟨h.fullT e he ⟨g, hg, hr⟩, fun b hb t ht => by
        obtain ⟨y, hy, hp⟩ := hpos h1 e he b hb t ht
        simp only [hp]
        exact h.solid g t ((hmem g t).mpr ⟨e, he, hg, hr, b, hb, h.tetrahedrons e he b hb, ht⟩) y hy⟩
    obtain ⟨tri, h3⟩ := (groups_isOk (readTriGroup regS node) f.surf).mpr fun e he g hg =>
      (triGroup_isOk hw hk h.triangles e he g).mpr fun hr => h.fullS e he ⟨g, hg, hr⟩
    exact ⟨⟨node, tet, tri⟩, bind_ok.mpr ⟨(), h0, bind_ok.mpr ⟨node, h1, bind_ok.mpr ⟨tet, h2, bind_ok.mpr ⟨tri, h3, rfl⟩⟩⟩⟩⟩

/-- number of elements with `n` nodes of an entity -/
def Entity.count (n : ℕ) (e : Entity) : ℕ := (e.blocks.map fun b => b.tags.length / n).sum

/-- **C70** Each tetrahedron of the file is read once for every named group of its entity: exactly once if the regions named
in the settings do not overlap. -/
theorem C70_count (hw : WellFormed f) (m : Read) (h : readMesh eps scale regT regS f = .ok m) :
    m.tet.length = (f.vol.map fun e => (e.groups.filter (· ∈ regT)).length * e.count 4).sum := by
  obtain ⟨-, -, h1, -⟩ := C70_read hw m h
  have h4 := ((C70_accepted_iff hw).mp ⟨m, h⟩).tetrahedrons
  rw [← h1.length_eq]
  unfold fileElems
  rw [List.length_flatMap]
  congr 1
  apply List.map_congr_left
  intro e he
  rw [List.length_flatMap]
  have : ∀ g : Str, ((e.blocks.filter (·.typ = 4)).flatMap fun b => (elemsOf 4 b.tags).map fun t => (g, t)).length = e.count 4 := by
    intro g
    rw [List.filter_eq_self.mpr fun b hb => by simpa using h4 e he b hb, List.length_flatMap]
    unfold Entity.count
    congr 1
    apply List.map_congr_left
    intro b _
    simp [elemsOf]
  simp only [this]
  simp

end

/-- a file with one tetrahedron whose volume is in two physical groups -/
def exFile : File where
  dim := 3
  nodes := [(2, ⟨1, 0, 0⟩), (1, ⟨0, 0, 0⟩), (3, ⟨0, 1, 0⟩), (4, ⟨0, 0, 1⟩)]
  vol := [⟨[['a'], ['b']], [⟨4, [1, 2, 4, 3]⟩]⟩]
  surf := [⟨[['s']], [⟨2, [1, 2, 3]⟩]⟩, ⟨[], []⟩]

theorem exFile_wf : WellFormed exFile where
  distinct := by simp [exFile]
  blocks := by simp [exFile]
  whole4 := by simp [exFile]
  whole3 := by simp [exFile]
  refer := by simp [exFile]

theorem exFile_elems (regT : List Str) (g : Str) (t : Fin 4 → ℕ) (h : (g, t) ∈ fileElems 4 4 regT exFile.vol) :
    t = ![1, 2, 4, 3] := by
  simp only [fileElems, exFile, List.mem_flatMap, List.mem_map, Prod.mk.injEq] at h
  obtain ⟨e, he, g', -, b, hb, t', ht, -, rfl⟩ := h
  rw [List.mem_singleton] at he
  subst he
  have := (List.mem_filter.mp hb).1
  rw [List.mem_singleton] at this
  subst this
  simp only [elemsOf, List.mem_map, List.mem_range] at ht
  obtain ⟨i, hi, rfl⟩ := ht
  have hi0 : i = 0 := by simpa using hi
  subst hi0
  funext k
  fin_cases k <;> rfl

theorem exFile_solid (regT : List Str) (g : Str) (t : Fin 4 → ℕ) (h : (g, t) ∈ fileElems 4 4 regT exFile.vol) (x : Fin 4 → V3)
    (hx : ∀ k, At exFile (t k) (x k)) :
    (1 : ℝ) ≤ |vol6 ((2 : ℝ) * x 0) ((2 : ℝ) * x 1) ((2 : ℝ) * x 2) ((2 : ℝ) * x 3)| := by
  rw [exFile_elems regT g t h] at hx
  have h0 := hx 0
  have h1 := hx 1
  have h2 := hx 2
  have h3 := hx 3
  simp [At, exFile] at h0 h1 h2 h3
  rw [h0, h1, h2, h3]
  norm_num [vol6, V3.dot, V3.cross]

/-- C70: the hypotheses are met by this file with the region `a` only; the tetrahedron is reoriented -/
theorem exFile_read : WellFormed exFile ∧ ∃ m, readMesh 1 2 [defaultName, ['a']] [defaultName, ['s']] exFile = .ok m ∧ m.tet.length = 1 := by
  obtain ⟨m, hm⟩ := (C70_accepted_iff (eps := 1) (scale := 2) (regT := [defaultName, ['a']]) (regS := [defaultName, ['s']])
    exFile_wf).mpr {
      dim := rfl
      tetrahedrons := by simp [exFile]
      triangles := by simp [exFile]
      some_tet := by simp [exFile]
      regionsT := by simp [exFile]
      regionsS := by simp [exFile]
      tags := by
        intro i
        simp [exFile]
        omega
      fullT := by simp [exFile]
      fullS := by simp [exFile]
      solid := exFile_solid _ }
  refine ⟨exFile_wf, m, hm, ?_⟩
  rw [C70_count exFile_wf m hm]
  simp [exFile, Entity.count, defaultName]

/-- **C70** (negation) If the settings name two overlapping groups, the elements of their intersection are read twice: this
file has one tetrahedron and the program simulates two at the same place. -/
theorem C70_negation_twice : ∃ m, readMesh 1 2 [defaultName, ['a'], ['b']] [defaultName, ['s']] exFile = .ok m ∧
    exFile.vol.map (Entity.count 4) = [1] ∧ m.tet.length = 2 := by
  obtain ⟨m, hm⟩ := (C70_accepted_iff (eps := 1) (scale := 2) (regT := [defaultName, ['a'], ['b']])
    (regS := [defaultName, ['s']]) exFile_wf).mpr {
      dim := rfl
      tetrahedrons := by simp [exFile]
      triangles := by simp [exFile]
      some_tet := by simp [exFile]
      regionsT := by simp [exFile]
      regionsS := by simp [exFile]
      tags := by
        intro i
        simp [exFile]
        omega
      fullT := by simp [exFile]
      fullS := by simp [exFile]
      solid := exFile_solid _ }
  refine ⟨m, hm, rfl, ?_⟩
  rw [C70_count exFile_wf m hm]
  simp [exFile, Entity.count, defaultName]

/-- **C70** (negation) An entity of a named group without elements is not reported: the program reads past the end of an
empty array. -/
theorem C70_negation_empty (eps scale : ℝ) (f : File) (hw : WellFormed f) (regT regS : List Str) (g : Str) (hg : g ∈ regT)
    (rest : List Entity) (hf : f.vol = ⟨[g], []⟩ :: rest) (hc : checkFile f regT regS = .ok ())
    (ht : ∀ i, i ∈ f.nodes.map (·.1) ↔ 1 ≤ i ∧ i ≤ f.nodes.length) :
    readMesh eps scale regT regS f = .error .ub := by
  obtain ⟨node, h1⟩ := (readNodes_isOk scale f.nodes (List.replicate f.nodes.length none) _ List.length_replicate).mpr
    ((tags_iff hw).mpr ht)
  unfold readMesh
  rw [hc, show readNodes scale f.nodes = .ok node from h1, hf]
  have : readTetGroup eps regT node ⟨[g], []⟩ g = .error .ub := by
    unfold readTetGroup
    rw [if_pos ((any_eq _ _).mpr hg)]
    rfl
  have h2 : readTets eps regT node (⟨[g], []⟩ :: rest) = .error .ub := by
    unfold readTets
    rw [List.mapM_cons]
    simp only [List.mapM_cons, this]
    rfl
  show (readTets eps regT node (⟨[g], []⟩ :: rest) >>= _) = _
  rw [h2]
  rfl

/-- the hypotheses of `C70_negation_empty` are met: a second volume of the group has no elements -/
example : ∃ f : File, WellFormed f ∧ f.vol = ⟨[['a']], []⟩ :: [⟨[['a']], [⟨4, [1, 2, 4, 3]⟩]⟩] ∧
    checkFile f [defaultName, ['a']] [defaultName] = .ok () ∧ ∀ i, i ∈ f.nodes.map (·.1) ↔ 1 ≤ i ∧ i ≤ f.nodes.length := by
  refine ⟨⟨3, [(2, ⟨1, 0, 0⟩), (1, ⟨0, 0, 0⟩), (3, ⟨0, 1, 0⟩), (4, ⟨0, 0, 1⟩)],
    [⟨[['a']], []⟩, ⟨[['a']], [⟨4, [1, 2, 4, 3]⟩]⟩], []⟩, ?_, rfl, ?_, ?_⟩
  · constructor <;> simp
  · rw [checkFile_ok, checkNamed_iff, checkNamed_iff]
    refine ⟨rfl, rfl, Or.inl rfl, ?_, ?_⟩ <;> simp [groupNames]
  · intro i
    simp
    omega

/-! ## C71: initial magnetization -/

/-- node `i` belongs to region `r` -/
def InRegion (tets : List Tet) (r i : ℕ) : Prop := ∃ t ∈ tets, t.reg = r ∧ ∃ k, t.ind k = i

theorem volumeRegions_fold (l : List (Tet × ℕ)) (v : List (List ℕ)) (r k : ℕ) :
    k ∈ (l.foldl (fun v t => v.modify t.1.reg (· ++ [t.2])) v).getD r [] ↔
      k ∈ v.getD r [] ∨ (r < v.length ∧ ∃ t ∈ l, t.1.reg = r ∧ t.2 = k) := by
  induction l generalizing v with
  | nil => simp
  | cons t l ih =>
    rw [List.foldl_cons, ih, List.length_modify]
    have e : k ∈ (v.modify t.1.reg (· ++ [t.2])).getD r [] ↔ k ∈ v.getD r [] ∨ (r < v.length ∧ t.1.reg = r ∧ t.2 = k) := by
      simp only [List.getD_eq_getElem?_getD, List.getElem?_modify]
      by_cases hr : t.1.reg = r
      · by_cases hv : r < v.length
        · simp [hr, hv]
          tauto
        · simp [hv]
      · simp [hr]
    rw [e]
    simp only [List.mem_cons, exists_eq_or_imp]
    tauto

theorem inRegion_iff (n : ℕ) (tets : List Tet) (r i : ℕ) :
    inRegion tets ((volumeRegions n tets).getD r []) i = true ↔ r < n ∧ InRegion tets r i := by
  unfold inRegion
  rw [List.any_eq_true]
  have key : ∀ k, k ∈ (volumeRegions n tets).getD r [] ↔ r < n ∧ ∃ t, tets[k]? = some t ∧ t.reg = r := by
    intro k
    unfold volumeRegions
    rw [volumeRegions_fold]
    simp only [List.length_replicate]
    have : k ∉ (List.replicate n ([] : List ℕ)).getD r [] := by
      simp only [List.getD_eq_getElem?_getD, List.getElem?_replicate]
      split_ifs <;> simp
    simp only [this, false_or]
    refine and_congr_right fun _ => ?_
    constructor
    · rintro ⟨⟨t, k'⟩, h1, h2, rfl⟩
      exact ⟨t, List.mem_zipIdx_iff_getElem?.mp h1, h2⟩
    · rintro ⟨t, h1, h2⟩
      exact ⟨(t, k), List.mem_zipIdx_iff_getElem?.mpr h1, h2, rfl⟩
  constructor
  · rintro ⟨k, hk, h⟩
    obtain ⟨hr, t, ht, hreg⟩ := (key k).mp hk
    rw [ht] at h
    dsimp only at h
    rw [List.any_eq_true] at h
    obtain ⟨j, -, hj⟩ := h
    exact ⟨hr, t, List.mem_of_getElem? ht, hreg, j, by simpa using hj⟩
  · rintro ⟨hr, t, ht, hreg, j, hj⟩
    obtain ⟨k, hk⟩ := List.getElem?_of_mem ht
    refine ⟨k, (key k).mpr ⟨hr, t, hk, hreg⟩, ?_⟩
    rw [hk]
    dsimp only
    rw [List.any_eq_true]
    exact ⟨j, List.mem_finRange j, by simpa using hj⟩

theorem forall2_mem {α β : Type} {R : α → β → Prop} {l : List α} {m : List β} (h : List.Forall₂ R l m) :
    ∀ b ∈ m, ∃ a ∈ l, R a b := by
  induction h with
  | nil => simp
  | cons h1 _ ih =>
    intro b hb
    rcases List.mem_cons.mp hb with rfl | hb
    · exact ⟨_, by simp, h1⟩
    · obtain ⟨a, ha, hr⟩ := ih b hb
      exact ⟨a, by simp [ha], hr⟩

/-- **C71** The condition on the regions in `C71_initial` is ensured by the reading, when the first region of the settings is
`__default__` and no volume of the mesh has this name. -/
theorem C71_regions {eps scale : ℝ} {rest regS : List Str} {f : File} (hw : WellFormed f) (m : Read)
    (h : readMesh eps scale (defaultName :: rest) regS f = .ok m) (hd : ∀ e ∈ f.vol, defaultName ∉ e.groups) :
    ∀ t ∈ m.tet, 1 ≤ t.reg ∧ t.reg < (defaultName :: rest).length := by
  obtain ⟨-, -, h1, -⟩ := C70_read hw m h
  intro t ht
  obtain ⟨⟨g, tags⟩, hm, hr⟩ := forall2_mem h1 t ht
  have hn := hr.name.1
  have hlt : t.reg < (defaultName :: rest).length := by
    by_contra hl
    rw [List.getElem?_eq_none (not_lt.mp hl)] at hn
    cases hn
  refine ⟨?_, hlt⟩
  by_contra h0
  have h0' : t.reg = 0 := by omega
  rw [h0', List.getElem?_cons_zero] at hn
  simp only [fileElems, List.mem_flatMap, List.mem_filter, List.mem_map, Prod.mk.injEq] at hm
  obtain ⟨e, he, g', ⟨hg, -⟩, -, -, -, -, rfl, -⟩ := hm
  apply hd e he
  rw [Option.some.inj hn]
  exact hg

/-- the value of the user's expression: the second argument is the list of the names of the regions -/
def Expr.value : Expr → V3 → List Str → V3
  | .position f, p, _ => f p
  | .regions f, p, l => f p l

/-- **C71** The initial magnetization of a magnetic node is the value of the expression at its position, for the names of
exactly the volume regions to which the node belongs, in the order of the settings without repetition, divided by its norm;
it is a unit vector unless the expression gives zero. Other nodes have no magnetization. -/
theorem C71_initial (names : List Str) (mag : ℕ → Bool) (nod : ℕ) (tets : List Tet) (expr : Expr) (p : ℕ → V3) (i : ℕ)
    (hi : i < nod) (hv : ∀ t ∈ tets, 1 ≤ t.reg ∧ t.reg < names.length) :
    ((∃ t ∈ tets, mag t.reg = true ∧ ∃ k, t.ind k = i) →
      ∃ (rs : List ℕ) (u : V3), rs.Pairwise (· < ·) ∧ (∀ r, r ∈ rs ↔ InRegion tets r i) ∧
        initNode names (magNode mag nod tets) tets expr p i = some u ∧
        let w := expr.value (p i) (rs.map fun r => names.getD r [])
        w ≠ 0 → IsUnit3 u ∧ ∃ c : ℝ, 0 < c ∧ w = c * u) ∧
    ((¬ ∃ t ∈ tets, mag t.reg = true ∧ ∃ k, t.ind k = i) → initNode names (magNode mag nod tets) tets expr p i = none) := by
  have hm := magNode_iff mag nod tets i hi
  constructor
  · intro h
    refine ⟨nodeRegions names.length tets i,
      (expr.value (p i) ((nodeRegions names.length tets i).map fun r => names.getD r [])).normalize, ?_, ?_, ?_, ?_⟩
    · unfold nodeRegions
      exact List.Pairwise.filter _ List.pairwise_lt_range'
    · intro r
      unfold nodeRegions
      rw [List.mem_filter, inRegion_iff, List.mem_range'_1]
      constructor
      · exact fun h => h.2.2
      · intro h
        obtain ⟨t, ht, rfl, -⟩ := id h
        have := hv t ht
        exact ⟨by omega, this.2, h⟩
    · unfold initNode
      rw [if_pos (hm.mpr h)]
      cases expr <;> rfl
    · dsimp only
      intro hw
      have hpos : 0 < (expr.value (p i) ((nodeRegions names.length tets i).map fun r => names.getD r [])).nsq := by
        generalize expr.value (p i) ((nodeRegions names.length tets i).map fun r => names.getD r []) = w at hw
        by_contra hn
        apply hw
        have h0 : w.x * w.x + w.y * w.y + w.z * w.z ≤ 0 := not_lt.mp hn
        have e1 : w.x = 0 := by nlinarith [mul_self_nonneg w.x, mul_self_nonneg w.y, mul_self_nonneg w.z]
        have e2 : w.y = 0 := by nlinarith [mul_self_nonneg w.x, mul_self_nonneg w.y, mul_self_nonneg w.z]
        have e3 : w.z = 0 := by nlinarith [mul_self_nonneg w.x, mul_self_nonneg w.y, mul_self_nonneg w.z]
        ext <;> simp [e1, e2, e3]
      have hs := Real.sqrt_pos.mpr hpos
      refine ⟨?_, Real.sqrt _, hs, ?_⟩
      · have := V3.nsq_normalize hpos
        unfold IsUnit3
        unfold V3.nsq at this
        linarith
      · rw [V3.normalize_of_pos hpos]
        ext <;> simp only [V3.smul_x, V3.smul_y, V3.smul_z] <;> field_simp
  · intro h
    unfold initNode
    rw [if_neg]
    intro h'
    exact h (hm.mp h')

/-- **C71** (negation) An expression which gives zero at a magnetic node is not reported: the magnetization of this node is
zero and not a unit vector. -/
theorem C71_negation_zero (names : List Str) (mag : List Bool) (tets : List Tet) (p : ℕ → V3) (i : ℕ)
    (hm : mag.getD i false = true) (f : V3 → V3) (h0 : f (p i) = 0) :
    initNode names mag tets (.position f) p i = some 0 := by
  unfold initNode
  rw [if_pos hm]
  simp only [h0]
  unfold V3.normalize
  simp [V3.nsq]

/-- C71: node 1 of these two tetrahedrons is in the regions `a` and `b`, the second one not magnetic -/
example : (∀ t ∈ [(⟨![0, 1, 2, 3], 2⟩ : Tet), ⟨![4, 1, 3, 2], 1⟩], 1 ≤ t.reg ∧ t.reg < [defaultName, ['a'], ['b']].length) ∧
    (∃ t ∈ [(⟨![0, 1, 2, 3], 2⟩ : Tet), ⟨![4, 1, 3, 2], 1⟩], (fun r => r == 1) t.reg = true ∧ ∃ k, t.ind k = 1) ∧
    (nodeRegions 3 [(⟨![0, 1, 2, 3], 2⟩ : Tet), ⟨![4, 1, 3, 2], 1⟩] 1).map (fun r => [defaultName, ['a'], ['b']].getD r []) =
      [['a'], ['b']] := by
  refine ⟨by simp, ⟨⟨![4, 1, 3, 2], 1⟩, by simp, rfl, 1, rfl⟩, by decide⟩

end Verif.MeshRead
