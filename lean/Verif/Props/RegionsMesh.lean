import Verif.Props.Regions

/-!
# C98 from the mesh check on: the surfaces found in a divided mesh
-/

namespace Verif.Regions

open Verif.Mesh Verif.MeshCheck Verif.Geom

/-- the mesh in which the volume regions with the same image by `g` are one region -/
def merge (g : ℕ → ℕ) (tets : List Tet) : List Tet := tets.map fun t => ⟨t.ind, g t.reg⟩

theorem incident_merge (g : ℕ → ℕ) (tets : List Tet) (s : Multiset ℕ) :
    incident (merge g tets) s = (incident tets s).map g := by
  unfold incident merge
  induction tets with
  | nil => rfl
  | cons t l ih =>
    simp only [List.map_cons, List.sum_cons, Multiset.map_add, ih]
    congr 1
    rw [Fin.sum_univ_four, Fin.sum_univ_four]
    simp only [Multiset.map_add]
    have : ∀ k, (if face ⟨t.ind, g t.reg⟩ k = s then ({g t.reg} : Multiset ℕ) else 0) =
        (if face t k = s then ({t.reg} : Multiset ℕ) else 0).map g := by
      intro k
      show (if face t k = s then _ else _) = _
      split_ifs <;> rfl
    rw [this, this, this, this]

theorem dMs_merge (g : ℕ → ℕ) (Ms : ℕ → ℝ) {tets' : List Tet} {tris tris' : List Tri} {sorted sorted' : List BasicTri}
    (h' : IsSortOf sorted' (allTri tets' tris')) (h : IsSortOf sorted (allTri (merge g tets') tris)) (f f' : Tri)
    (hf : f'.ind = f.ind) : dMs (fun r => Ms (g r)) sorted' f' = dMs Ms sorted f := by
  have e : (BasicTri.ofTri f').nodes = (BasicTri.ofTri f).nodes ∧ (BasicTri.ofTri f').flipped = (BasicTri.ofTri f).flipped := by
    unfold BasicTri.ofTri BasicTri.mk'
    rw [hf]
    exact ⟨rfl, rfl⟩
  rw [dMs_eq_sum _ h' f', dMs_eq_sum _ h f, e.1, e.2]
  unfold merge
  rw [List.map_map]
  refine congrArg List.sum (List.map_congr_left fun t _ => ?_)
  have hfaces : faces ⟨t.ind, g t.reg⟩ = (faces t).map fun b => { b with reg := g b.reg } := rfl
  show _ = ((grp (faces ⟨t.ind, g t.reg⟩) _).map _).sum
  rw [hfaces]
  unfold grp
  rw [List.filter_map, List.map_map]
  rfl

/-! ## faces on the boundary -/

theorem boundary_merge {g : ℕ → ℕ} {tets : List Tet} {s : Multiset ℕ} (h : OnBoundary (merge g tets) s) : OnBoundary tets s := by
  unfold OnBoundary at h ⊢
  rw [incident_merge] at h
  rcases h with ⟨r, e⟩ | ⟨r, r', hne, e⟩
  · obtain ⟨a, ha, -⟩ := Multiset.map_eq_singleton.mp e
    exact Or.inl ⟨a, ha⟩
  · right
    have hc : (incident tets s).card = 2 := by
      have := congrArg Multiset.card e
      simpa using this
    obtain ⟨a, b, hab⟩ := Multiset.card_eq_two.mp hc
    refine ⟨a, b, ?_, hab⟩
    rintro rfl
    rw [hab] at e
    have h1 : g a ∈ ({r, r'} : Multiset ℕ) := by rw [← e]; simp
    have hr : r ∈ Multiset.map g {a, a} := by rw [e]; simp
    have hr' : r' ∈ Multiset.map g {a, a} := by rw [e]; simp
    simp at hr hr'
    exact hne (hr.trans hr'.symm)

theorem inside_merge {g : ℕ → ℕ} {tets : List Tet} {s : Multiset ℕ} (h : OnBoundary tets s) (hn : ¬ OnBoundary (merge g tets) s) :
    ∃ a b, a ≠ b ∧ g a = g b ∧ incident tets s = {a, b} := by
  rcases h with ⟨r, e⟩ | ⟨a, b, hne, e⟩
  · exact absurd (Or.inl ⟨g r, by rw [incident_merge, e]; rfl⟩) hn
  · refine ⟨a, b, hne, ?_, e⟩
    by_contra hg
    exact hn (Or.inr ⟨g a, g b, hg, by rw [incident_merge, e]; rfl⟩)

/-! ## lists -/

theorem pairwise_of_count {α κ : Type} [DecidableEq κ] (key : α → κ) (l : List α)
    (h : ∀ f ∈ l, (l.countP fun x => decide (key x = key f)) = 1) : l.Pairwise fun a b => key a ≠ key b := by
  induction l with
  | nil => exact .nil
  | cons a l ih =>
    have h0 : (l.countP fun x => decide (key x = key a)) = 0 := by
      have := h a List.mem_cons_self
      rw [List.countP_cons_of_pos (by simp)] at this
      omega
    have hne : ∀ b ∈ l, key a ≠ key b := by
      intro b hb e
      have := List.countP_eq_zero.mp h0 b hb
      simp [e] at this
    refine .cons hne (ih fun f hf => ?_)
    have := h f (List.mem_cons_of_mem _ hf)
    rwa [List.countP_cons_of_neg (by simpa using hne f hf)] at this

theorem forall₂_choose {α β : Type} {R : α → β → Prop} (l : List α) (h : ∀ a ∈ l, ∃ b, R a b) :
    ∃ l', List.Forall₂ R l l' := by
  induction l with
  | nil => exact ⟨[], .nil⟩
  | cons a l ih =>
    obtain ⟨b, hb⟩ := h a List.mem_cons_self
    obtain ⟨l', hl⟩ := ih fun a ha => h a (List.mem_cons_of_mem _ ha)
    exact ⟨b :: l', .cons hb hl⟩

theorem forall₂_right {α β : Type} {R : α → β → Prop} {l : List α} {l' : List β} (h : List.Forall₂ R l l') :
    ∀ b ∈ l', ∃ a ∈ l, R a b := by
  induction h with
  | nil => simp
  | cons hab _ ih =>
    intro b hb
    rcases List.mem_cons.mp hb with rfl | hb
    · exact ⟨_, List.mem_cons_self, hab⟩
    · obtain ⟨a, ha, h⟩ := ih b hb
      exact ⟨a, List.mem_cons_of_mem _ ha, h⟩

theorem forall₂_left {α β : Type} {R : α → β → Prop} {l : List α} {l' : List β} (h : List.Forall₂ R l l') :
    ∀ a ∈ l, ∃ b ∈ l', R a b := by
  induction h with
  | nil => simp
  | cons hab _ ih =>
    intro b hb
    rcases List.mem_cons.mp hb with rfl | hb
    · exact ⟨_, List.mem_cons_self, hab⟩
    · obtain ⟨a, ha, h⟩ := ih b hb
      exact ⟨a, List.mem_cons_of_mem _ ha, h⟩

/-- two lists without repeated keys: the second is made of partners of the first and the rest -/
theorem perm_partners {α κ : Type} (key : α → κ) (q : κ → Prop) [DecidablePred q] {R : α → α → Prop} {l kept l' : List α}
    (hl : l.Pairwise fun a b => key a ≠ key b) (hl' : l'.Pairwise fun a b => key a ≠ key b)
    (hR : List.Forall₂ R l kept) (hkey : ∀ a b, R a b → key b = key a) (hmem : ∀ b ∈ kept, b ∈ l')
    (hq : ∀ a ∈ l, q (key a)) (hall : ∀ b ∈ l', q (key b) → ∃ a ∈ l, key a = key b) :
    l'.Perm (kept ++ l'.filter fun f => !decide (q (key f))) := by
  have huniq : ∀ a ∈ l', ∀ b ∈ l', key a = key b → a = b := by
    intro a ha b hb e
    by_contra hne
    have : Std.Symm (fun a b : α => key a ≠ key b) := ⟨fun _ _ h => Ne.symm h⟩
    exact hl'.forall ha hb hne e
  have hknd : kept.Nodup := by
    have e : kept.map key = l.map key := forall₂_map hkey hR
    have : (l.map key).Nodup := List.pairwise_map.mpr hl
    rw [← e] at this
    exact this.of_map
  have hl'nd : l'.Nodup := hl'.imp fun h e => h (by rw [e])
  have hkq : ∀ b ∈ kept, q (key b) := by
    intro b hb
    obtain ⟨a, ha, hab⟩ := forall₂_right hR b hb
    rw [hkey a b hab]
    exact hq a ha
  rw [List.perm_ext_iff_of_nodup hl'nd (hknd.append (hl'nd.filter _) ?_)]
  · intro b
    rw [List.mem_append, List.mem_filter]
    constructor
    · intro hb
      by_cases h : q (key b)
      · left
        obtain ⟨a, ha, e⟩ := hall b hb h
        obtain ⟨c, hc, hac⟩ := forall₂_left hR a ha
        rwa [← huniq c (hmem c hc) b hb ((hkey a c hac).trans e)]
      · exact Or.inr ⟨hb, by simpa using h⟩
    · rintro (h | h)
      · exact hmem b h
      · exact h.1
  · intro b hb hb'
    have := (List.mem_filter.mp hb').2
    simp [hkq b hb] at this

/-! ## the mesh check -/

section
variable {π : Type} {volName : ℕ → String} {Ms : ℕ → ℝ} {tets : List Tet} {tris : List Tri} {regs : List (SurfPrm π)}
  {sorted : List BasicTri} {r : Result ℝ π}

/-- the parameters of a surface region after the check -/
def surfPrm (r : Result ℝ π) (i : ℕ) : Option π := r.regs[i]?.map (·.prm)

/-- what is used of the check: each triangle is one of the user's, or a new one -/
theorem control_cases (h : IsSortOf sorted (allTri tets tris)) (hr : control volName Ms tets tris regs sorted = some r)
    (hu : ∀ f ∈ tris, f.reg < regs.length) :
    (∀ f ∈ tris, (f, dMs Ms sorted f) ∈ r.tris) ∧
    ∀ f ∈ r.tris, f.2 = dMs Ms sorted f.1 ∧
      ((f.1 ∈ tris ∧ surfPrm r f.1.reg = regs[f.1.reg]?.map (·.prm)) ∨
       (f.1.ind 0 ≤ f.1.ind 1 ∧ f.1.ind 1 ≤ f.1.ind 2 ∧ surfPrm r f.1.reg = regs.head?.map (·.prm) ∧
        ∀ g ∈ tris, verts g ≠ verts f.1)) := by
  obtain ⟨⟨new, hnew, hnew'⟩, -, -⟩ := C24_completed volName Ms tets tris regs sorted h r hr
  obtain ⟨created, new2, hregs, hnew2, -, -, hprm, hrange, -⟩ := C25_regions volName Ms tets tris regs sorted h r hr
  have e2 : new2 = new := by
    rw [hnew] at hnew2
    exact (List.append_cancel_left hnew2).symm
  subst e2
  obtain ⟨hC, dflt, rest, toAdd, created', m, hrs, hta, hcr, htr, hrg⟩ := control_ok h hr
  have hnewT : new2 = toAdd.map (newTri m) := by
    have hfst : r.tris.map (·.1) = tris ++ toAdd.map (newTri m) := by
      rw [htr, List.map_map]
      exact List.map_id' _
    rw [hnew] at hfst
    exact List.append_cancel_left hfst
  constructor
  · intro f hf
    rw [htr]
    exact List.mem_map.mpr ⟨f, List.mem_append_left _ hf, rfl⟩
  · intro f hf
    have hf' := hf
    rw [htr] at hf'
    obtain ⟨f0, hf0, rfl⟩ := List.mem_map.mp hf'
    refine ⟨rfl, ?_⟩
    dsimp only
    rcases List.mem_append.mp hf0 with h0 | h0
    · left
      refine ⟨h0, ?_⟩
      unfold surfPrm
      rw [hregs, List.getElem?_append_left (hu f0 h0)]
    · right
      rw [← hnewT] at h0
      have hrg' := hrange f0 h0
      refine ⟨?_, ?_, ?_, (hnew' f0 h0).2⟩
      · rw [hnewT] at h0
        obtain ⟨e, he, rfl⟩ := List.mem_map.mp h0
        rw [hta, mem_toAdd] at he
        exact (h.isKey he.1).1
      · rw [hnewT] at h0
        obtain ⟨e, he, rfl⟩ := List.mem_map.mp h0
        rw [hta, mem_toAdd] at he
        exact (h.isKey he.1).2
      · unfold surfPrm
        rw [hregs] at hrg' ⊢
        rw [List.getElem?_append_right hrg'.1]
        rw [List.length_append] at hrg'
        have hlt : f0.reg - regs.length < created.length := by omega
        rw [List.getElem?_eq_getElem hlt, Option.map_some]
        exact (hprm _ (List.getElem_mem hlt)).symm

/-- sorted triples with the same elements are equal -/
theorem ind_of_verts {f f' : Tri} (h : f.ind 0 ≤ f.ind 1 ∧ f.ind 1 ≤ f.ind 2) (h' : f'.ind 0 ≤ f'.ind 1 ∧ f'.ind 1 ≤ f'.ind 2)
    (e : verts f' = verts f) : f'.ind = f.ind := by
  have := key_ext (k := (f'.ind 0, f'.ind 1, f'.ind 2)) (k' := (f.ind 0, f.ind 1, f.ind 2)) h' h e
  simp only [Prod.mk.injEq] at this
  funext k
  fin_cases k
  · exact this.1
  · exact this.2.1
  · exact this.2.2

end

open Classical in
/-- the triangles of the user that are left when the regions are merged: those not inside a region -/
noncomputable def outer (g : ℕ → ℕ) (tets' : List Tet) (tris' : List Tri) : List Tri :=
  tris'.filter fun f => decide (OnBoundary (merge g tets') (verts f))

open Classical in
/-- **C98** If the mesh divided into small regions passes the check, so does the mesh with the regions merged (without the user's
triangles that are then inside a region). The two checks end with the same triangles, with the same nodes, the same jump
of magnetization and the same parameters, plus, for the divided mesh, the triangles between two parts of a region; those not drawn
by the user get the parameters of `__default__`. -/
theorem C98_check {π : Type} (volName volName' : ℕ → String) (Ms : ℕ → ℝ) (g : ℕ → ℕ) (tets' : List Tet) (tris' : List Tri)
    (regs : List (SurfPrm π)) (hu : ∀ f ∈ tris', f.reg < regs.length) (sorted' sorted : List BasicTri)
    (h' : IsSortOf sorted' (allTri tets' tris')) (h : IsSortOf sorted (allTri (merge g tets') (outer g tets' tris')))
    (r' : Result ℝ π) (hr' : control volName' (fun r => Ms (g r)) tets' tris' regs sorted' = some r') :
    ∃ r, control volName Ms (merge g tets') (outer g tets' tris') regs sorted = some r ∧
      ∃ kept extra, r'.tris.Perm (kept ++ extra) ∧
        List.Forall₂ (fun f f' => f'.1.ind = f.1.ind ∧ f'.2 = f.2 ∧ surfPrm r' f'.1.reg = surfPrm r f.1.reg) r.tris kept ∧
        ∀ f ∈ extra, f ∈ r'.tris ∧ (∃ a b, a ≠ b ∧ g a = g b ∧ incident tets' (verts f.1) = {a, b}) ∧
          (f.1 ∈ tris' → surfPrm r' f.1.reg = regs[f.1.reg]?.map (·.prm)) ∧
          (f.1 ∉ tris' → surfPrm r' f.1.reg = regs.head?.map (·.prm)) := by
  have hC' := (control_ok h' hr').1
  have hmemO : ∀ f, f ∈ outer g tets' tris' ↔ f ∈ tris' ∧ OnBoundary (merge g tets') (verts f) := by
    intro f
    unfold outer
    rw [List.mem_filter, decide_eq_true_iff]
  have hC : Consistent (merge g tets') (outer g tets' tris') := by
    refine ⟨?_, ?_, ?_, ?_, ?_⟩
    · unfold merge
      simpa using hC'.nonempty
    · intro s
      rw [incident_merge, Multiset.card_map]
      exact hC'.atMostTwo s
    · exact hC'.noCopy.sublist List.filter_sublist
    · intro f hf
      rw [incident_merge]
      simpa using hC'.attached f ((hmemO f).mp hf).1
    · intro f hf a e
      rcases ((hmemO f).mp hf).2 with ⟨b, e'⟩ | ⟨b, c, hbc, e'⟩
      · rw [e] at e'
        have := congrArg Multiset.card e'
        simp at this
      · rw [e] at e'
        have hb : b ∈ ({a, a} : Multiset ℕ) := by rw [e']; simp
        have hc : c ∈ ({a, a} : Multiset ℕ) := by rw [e']; simp
        simp at hb hc
        exact hbc (hb.trans hc.symm)
  have hd : regs.head?.map (·.name) = some "__default__" := by
    unfold MeshCheck.control at hr'
    split_ifs at hr'
    obtain ⟨toAdd, -, hr'⟩ := Option.bind_eq_some_iff.mp hr'
    cases regs with
    | nil => cases hr'
    | cons d l =>
      dsimp only at hr'
      split_ifs at hr' with hn
      simpa using hn
  obtain ⟨r, hr⟩ := (C23_check_iff volName Ms _ _ regs sorted h hd).mpr hC
  refine ⟨r, hr, ?_⟩
  have huO : ∀ f ∈ outer g tets' tris', f.reg < regs.length := fun f hf => hu f ((hmemO f).mp hf).1
  obtain ⟨-, hcount, hbd⟩ := C24_completed volName Ms _ _ regs sorted h r hr
  obtain ⟨-, hcount', hbd'⟩ := C24_completed volName' _ _ _ regs sorted' h' r' hr'
  obtain ⟨huser, hcases⟩ := control_cases h hr huO
  obtain ⟨huser', hcases'⟩ := control_cases h' hr' hu
  have hpw : r.tris.Pairwise fun a b => verts a.1 ≠ verts b.1 :=
    pairwise_of_count (fun f : Tri × ℝ => verts f.1) _ fun f hf => by
      simpa using hcount _ (hbd f hf)
  have hpw' : r'.tris.Pairwise fun a b => verts a.1 ≠ verts b.1 :=
    pairwise_of_count (fun f : Tri × ℝ => verts f.1) _ fun f hf => by
      simpa using hcount' _ (hbd' f hf)
  -- the partner of a triangle of the merged mesh
  have hpartner : ∀ f ∈ r.tris, ∃ f', f' ∈ r'.tris ∧ (f'.1.ind = f.1.ind ∧ f'.2 = f.2 ∧
      surfPrm r' f'.1.reg = surfPrm r f.1.reg) := by
    intro f hf
    obtain ⟨hj, hc⟩ := hcases f hf
    rcases hc with ⟨hin, hp⟩ | ⟨s1, s2, hp, hno⟩
    · have hin' := ((hmemO f.1).mp hin).1
      refine ⟨_, huser' f.1 hin', rfl, ?_, ?_⟩
      · rw [hj]
        exact dMs_merge g Ms h' h f.1 f.1 rfl
      · obtain ⟨-, hc'⟩ := hcases' _ (huser' f.1 hin')
        rcases hc' with ⟨-, hp'⟩ | ⟨-, -, -, hno'⟩
        · exact hp'.trans hp.symm
        · exact absurd rfl (hno' f.1 hin')
    · have hone := hcount' _ (boundary_merge (hbd f hf))
      obtain ⟨f', hf', e⟩ := List.countP_pos_iff.mp (by rw [hone]; norm_num : 0 < r'.tris.countP fun x => decide (verts x.1 = verts f.1))
      have e : verts f'.1 = verts f.1 := by simpa using e
      obtain ⟨hj', hc'⟩ := hcases' f' hf'
      rcases hc' with ⟨hin', -⟩ | ⟨s1', s2', hp', -⟩
      · exact absurd e (hno f'.1 ((hmemO f'.1).mpr ⟨hin', by rw [e]; exact hbd f hf⟩))
      · have hi := ind_of_verts ⟨s1, s2⟩ ⟨s1', s2'⟩ e
        refine ⟨f', hf', hi, ?_, hp'.trans hp.symm⟩
        rw [hj', hj]
        exact dMs_merge g Ms h' h f.1 f'.1 hi
  obtain ⟨kept, hkept⟩ := forall₂_choose _ hpartner
  refine ⟨kept, r'.tris.filter fun f => !decide (OnBoundary (merge g tets') (verts f.1)), ?_, hkept.imp fun _ _ h => h.2, ?_⟩
  · refine perm_partners (fun f : Tri × ℝ => verts f.1) (OnBoundary (merge g tets')) hpw hpw' hkept ?_ ?_ hbd ?_
    · intro a b hab
      unfold verts
      rw [hab.2.1]
    · intro b hb
      obtain ⟨a, -, hab⟩ := forall₂_right hkept b hb
      exact hab.1
    · intro b _ hq
      have hone := hcount _ hq
      obtain ⟨f, hf, e⟩ := List.countP_pos_iff.mp (by rw [hone]; norm_num : 0 < r.tris.countP fun x => decide (verts x.1 = verts b.1))
      exact ⟨f, hf, by simpa using e⟩
  · intro f hf
    obtain ⟨hf1, hf2⟩ := List.mem_filter.mp hf
    refine ⟨hf1, inside_merge (hbd' f hf1) (by simpa using hf2), ?_⟩
    obtain ⟨-, hc⟩ := hcases' f hf1
    rcases hc with ⟨hin, hp⟩ | ⟨-, -, hp, hno⟩
    · exact ⟨fun _ => hp, fun h => absurd hin h⟩
    · exact ⟨fun h => absurd rfl (hno _ h), fun _ => hp⟩

/-! ## from the mesh check to the runs -/

/-- the two tetrahedrons with the face `f` are on the two sides of it -/
def TwoSides (p : ℕ → V3) (tets : List Tet) (f : Tri) (a b : ℕ) : Prop :=
  (∀ t ∈ tets, ∀ k, face t k = verts f → (V3.dot (normalVect p f) (p (t.ind k) - p (f.ind 0)) < 0 ↔ t.reg = a)) ∨
  (∀ t ∈ tets, ∀ k, face t k = verts f → (V3.dot (normalVect p f) (p (t.ind k) - p (f.ind 0)) < 0 ↔ t.reg = b))

/-- `f` is between two parts of one region -/
def Between (g : ℕ → ℕ) (tets : List Tet) (f : Tri) (a b : ℕ) : Prop :=
  a ≠ b ∧ g a = g b ∧ incident tets (verts f) = {a, b}

theorem between_jump {p : ℕ → V3} {g : ℕ → ℕ} {Ms : ℕ → ℝ} {tets : List Tet} {tris : List Tri} {sorted : List BasicTri}
    (h : IsSortOf sorted (allTri tets tris)) (hpos : ∀ t ∈ tets, 0 < mixedProd p t) {f : Tri} {a b : ℕ}
    (hb : Between g tets f a b) (hs : TwoSides p tets f a b) : dMs (fun r => Ms (g r)) sorted f = 0 := by
  obtain ⟨h1, h2, h3⟩ := hb
  rcases hs with hs | hs
  · exact NonFinite.C97_no_jump p _ tets tris sorted h hpos f a b h1 h3 hs (congrArg Ms h2)
  · exact NonFinite.C97_no_jump p _ tets tris sorted h hpos f b a h1.symm (h3.trans (Multiset.pair_comm a b)) hs
      (congrArg Ms h2.symm)

section
open Verif.Llg Verif.MeshElem Verif.Tetra

/-- parameters of the surfaces after the check: surface anisotropy, and `suppress_charges` -/
noncomputable def surfaceOf (r : Result ℝ (Llg.SurfPrm × Bool)) (i : ℕ) : Llg.SurfPrm := ((surfPrm r i).map (·.1)).getD ⟨0, 0⟩

noncomputable def suppressOf (r : Result ℝ (Llg.SurfPrm × Bool)) (i : ℕ) : Bool := ((surfPrm r i).map (·.2)).getD false

/-- **C98** (without surface anisotropy between the parts; missing: `C98_negation` shows that it fails otherwise) From the mesh
check on: if a sample is divided into parts of the same material, without surface anisotropy between
the parts, the two samples handed to the solver are the same in the sense of `C98_system`, `C98_run`, `C98_energy`, `C98_potential`
and `C98_average`. -/
theorem C98_sample_partial (volName volName' : ℕ → String) (prm : ℕ → Prm) (mag : ℕ → Bool) (n : ℕ) (g : ℕ → ℕ) (p : ℕ → V3)
    (tets' : List Tet) (tris' : List Tri) (regs : List (MeshCheck.SurfPrm (Llg.SurfPrm × Bool)))
    (hu : ∀ f ∈ tris', f.reg < regs.length) (sorted' sorted : List BasicTri) (h' : IsSortOf sorted' (allTri tets' tris'))
    (h : IsSortOf sorted (allTri (merge g tets') (outer g tets' tris'))) (hpos : ∀ t ∈ tets', 0 < mixedProd p t)
    (hdef : ∀ d, regs.head? = some d → d.prm.1.Ks = 0)
    (huser : ∀ f ∈ tris', ∀ a b, Between g tets' f a b → ∀ d, regs[f.reg]? = some d → d.prm.1.Ks = 0)
    (r' : Result ℝ (Llg.SurfPrm × Bool))
    (hr' : control volName' (fun r => (prm (g r)).Ms) tets' tris' regs sorted' = some r')
    (hside : ∀ f ∈ r'.tris, ∀ a b, Between g tets' f.1 a b → TwoSides p tets' f.1 a b) :
    ∃ r, control volName (fun r => (prm r).Ms) (merge g tets') (outer g tets' tris') regs sorted = some r ∧
      SameSample prm (fun r => prm (g r)) mag (fun r => mag (g r)) (surfaceOf r) (surfaceOf r') (merge g tets') tets'
        (magTriJ (suppressOf r) (magNode mag n (merge g tets')) r.tris)
        (magTriJ (suppressOf r') (magNode (fun r => mag (g r)) n tets') r'.tris) := by
  obtain ⟨r, hr, kept, extra, hperm, hkept, hextra⟩ :=
    C98_check volName volName' (fun r => (prm r).Ms) g tets' tris' regs hu sorted' sorted h' h r' hr'
  refine ⟨r, hr, ?_⟩
  have hT : List.Forall₂ (SameTet prm (fun r => prm (g r)) mag (fun r => mag (g r))) (merge g tets') tets' := by
    unfold merge
    rw [List.forall₂_map_left_iff]
    exact List.forall₂_same.mpr fun t _ => ⟨rfl, rfl, rfl⟩
  refine ⟨hT, ?_⟩
  rw [magNode_same n hT]
  unfold magTriJ
  refine ⟨kept.filter fun f => f.1.isMagnetic (magNode mag n (merge g tets')) && !suppressOf r' f.1.reg,
    extra.filter fun f => f.1.isMagnetic (magNode mag n (merge g tets')) && !suppressOf r' f.1.reg, ?_, ?_, ?_⟩
  · have := hperm.filter fun f => f.1.isMagnetic (magNode mag n (merge g tets')) && !suppressOf r' f.1.reg
    rw [List.filter_append] at this
    exact this
  · have hk : List.Forall₂ (fun f f' => f'.1.ind = f.1.ind ∧ f'.2 = f.2 ∧ surfPrm r' f'.1.reg = surfPrm r f.1.reg)
        (r.tris.filter fun f => f.1.isMagnetic (magNode mag n (merge g tets')) && !suppressOf r f.1.reg)
        (kept.filter fun f => f.1.isMagnetic (magNode mag n (merge g tets')) && !suppressOf r' f.1.reg) := by
      refine forall₂_filter (fun f f' hf => ?_) hkept
      unfold suppressOf Tri.isMagnetic
      rw [hf.1, hf.2.2]
    refine hk.imp fun f f' hf => ⟨hf.1, hf.2.1, ?_⟩
    unfold surfaceOf
    rw [hf.2.2]
  · intro f hf
    obtain ⟨hin, ⟨a, b, hb⟩, h1, h2⟩ := hextra f (List.mem_filter.mp hf).1
    constructor
    · rw [(((control_cases h' hr' hu).2 f hin).1)]
      exact between_jump (Ms := fun r => (prm r).Ms) h' hpos hb (hside f hin a b hb)
    · unfold surfaceOf
      by_cases hc : f.1 ∈ tris'
      · rw [h1 hc]
        cases hd : regs[f.1.reg]? with
        | none => rfl
        | some d => exact huser _ hc a b hb d hd
      · rw [h2 hc]
        cases hd : regs.head? with
        | none => rfl
        | some d => exact hdef d hd

end

/-! ## the claim fails with surface anisotropy in `__default__` -/

/-- **C98** A surface anisotropy constant given for all surfaces in `__default__` also applies to the triangles that the program
adds between two parts of one material: there the jump is zero, and no step of the divided sample can be computed. -/
theorem C98_default_fails {volName' : ℕ → String} {Ms : ℕ → ℝ} {g : ℕ → ℕ} {p : ℕ → V3} {tets' : List Tet} {tris' : List Tri}
    {regs : List (MeshCheck.SurfPrm Llg.SurfPrm)} (hu : ∀ f ∈ tris', f.reg < regs.length) {sorted' : List BasicTri}
    (h' : IsSortOf sorted' (allTri tets' tris')) (hpos : ∀ t ∈ tets', 0 < mixedProd p t) {r' : Result ℝ Llg.SurfPrm}
    (hr' : control volName' (fun r => Ms (g r)) tets' tris' regs sorted' = some r') (f : Tri × ℝ) (hf : f ∈ r'.tris)
    (hno : f.1 ∉ tris') (a b : ℕ) (hb : Between g tets' f.1 a b) (hs : TwoSides p tets' f.1 a b) (sp : Llg.SurfPrm)
    (hsp : surfPrm r' f.1.reg = some sp) (d : MeshCheck.SurfPrm Llg.SurfPrm) (hd : regs.head? = some d) (hK : d.prm.Ks ≠ 0)
    {n : ℕ} (magN : List Bool) (hmag : ∃ k, magN.getD (f.1.ind k) false = true ∧ f.1.ind k < n) (H : TriElem.Rule) (hH : 0 < H.n)
    (nodes : ℕ → Node) (es : List (Assembly.Elem 4 Fl)) (fs : List (Assembly.Elem 3 Fl))
    (hfs : NonFinite.triElem H (.fin sp.Ks) sp.uk (.fin f.2) nodes f.1 ∈ fs) (L : List Fl)
    (hL : Assembly.llgRhs magN n es fs = some L) (it : Krylov.Iter) (tol : ℝ) (ht : it.resmax = .fin tol)
    (K : Krylov.Mat (2 * n)) (guess : Krylov.Vec (2 * n)) :
    Krylov.llgSolve it K guess (Electro.vecOf (2 * n) L) (LlgSolve.lvd n magN) = none := by
  obtain ⟨hj, hc⟩ := (control_cases h' hr' hu).2 f hf
  have hsp' : sp = d.prm := by
    rcases hc with ⟨hin, -⟩ | ⟨-, -, hp, -⟩
    · exact absurd hin hno
    · rw [hsp, hd] at hp
      exact Option.some.inj hp
  rw [hj, between_jump h' hpos hb hs] at hfs
  refine NonFinite.C97_surface_fails magN es fs H hH (.fin sp.Ks) ?_ sp.uk nodes f.1 hfs hmag L hL it tol ht K guess
  rw [hsp']
  simpa [Fl.isZero] using hK

/-- a face of one tetrahedron only: a sum over the faces with these vertices has one term -/
theorem single_face {tets : List Tet} {s : Multiset ℕ} (h : (incident tets s).card = 1) :
    ∃ t ∈ tets, ∃ k, face t k = s ∧ ∀ c : Tet → Fin 4 → ℝ,
      (tets.map fun t => ∑ k : Fin 4, if face t k = s then c t k else 0).sum = c t k := by
  let L : List (Tet × Fin 4) := tets.flatMap fun t => ((List.finRange 4).filter fun k => decide (face t k = s)).map fun k => (t, k)
  have hmem : ∀ x ∈ L, x.1 ∈ tets ∧ face x.1 x.2 = s := by
    intro x hx
    obtain ⟨t, ht, hx⟩ := List.mem_flatMap.mp hx
    obtain ⟨k, hk, rfl⟩ := List.mem_map.mp hx
    exact ⟨ht, by simpa using (List.mem_filter.mp hk).2⟩
  have hsum : ∀ c : Tet → Fin 4 → ℝ,
      (tets.map fun t => ∑ k : Fin 4, if face t k = s then c t k else 0).sum = (L.map fun x => c x.1 x.2).sum := by
    intro c
    show _ = ((tets.flatMap _).map _).sum
    clear h hmem L
    induction tets with
    | nil => rfl
    | cons t l ih =>
      rw [List.map_cons, List.sum_cons, ih, List.flatMap_cons, List.map_append, List.sum_append]
      congr 1
      rw [List.map_map, Fin.sum_univ_def]
      generalize List.finRange 4 = ks
      induction ks with
      | nil => rfl
      | cons k ks ih =>
        rw [List.map_cons, List.sum_cons, ih, List.filter_cons]
        by_cases hk : face t k = s
        · simp [hk]
        · simp [hk]
  have hcard : L.length = 1 := by
    have h1 := hsum fun _ _ => 1
    have h2 := sum_incident (fun _ => 1) tets s
    rw [h2] at h1
    simp only [Multiset.map_const', Multiset.sum_replicate, List.map_const', List.sum_replicate, mul_one, h,
      nsmul_eq_mul] at h1
    exact_mod_cast h1.symm
  obtain ⟨x, hx⟩ := List.length_eq_one_iff.mp hcard
  have := hmem x (by rw [hx]; simp)
  refine ⟨x.1, this.1, x.2, this.2, fun c => ?_⟩
  rw [hsum, hx]
  simp

/-- a triangle of the outer surface has the jump `Ms` or `-Ms` -/
theorem outer_jump {p : ℕ → V3} {Ms : ℕ → ℝ} {tets : List Tet} {tris : List Tri} {sorted : List BasicTri}
    (h : IsSortOf sorted (allTri tets tris)) (hpos : ∀ t ∈ tets, 0 < mixedProd p t) (f : Tri)
    (hc : (incident tets (verts f)).card = 1) : ∃ t ∈ tets, dMs Ms sorted f = Ms t.reg ∨ dMs Ms sorted f = -Ms t.reg := by
  obtain ⟨t, ht, k, -, hk⟩ := single_face hc
  refine ⟨t, ht, ?_⟩
  rw [C26_jump p Ms tets tris sorted h hpos f, hk fun t k =>
    if V3.dot (normalVect p f) (p (t.ind k) - p (f.ind 0)) < 0 then Ms t.reg else -Ms t.reg]
  split_ifs
  · exact Or.inl rfl
  · exact Or.inr rfl

/-! ## a concrete sample: two tetrahedrons with a common face -/

/-- all regions are merged into one -/
def exG : ℕ → ℕ := fun _ => 1

theorem ex_between : Between exG exTets ⟨![1, 2, 3], 0⟩ 1 2 := ⟨by decide, rfl, by decide⟩

theorem ex_sides (f : Tri) (hv : verts f = {1, 2, 3}) (hs : f.ind 0 ≤ f.ind 1 ∧ f.ind 1 ≤ f.ind 2) :
    TwoSides exPos exTets f 1 2 := by
  have hi : f.ind = ![1, 2, 3] := ind_of_verts (f := ⟨![1, 2, 3], 0⟩) (f' := f) (by decide) hs hv
  left
  intro t ht k hk
  rw [hv] at hk
  have e0 : f.ind 0 = 1 := by rw [hi]; rfl
  have e1 : f.ind 1 = 2 := by rw [hi]; rfl
  have e2 : f.ind 2 = 3 := by rw [hi]; rfl
  unfold normalVect
  rw [e0, e1, e2]
  simp only [exTets, List.mem_cons, List.not_mem_nil, or_false] at ht
  rcases ht with rfl | rfl
  · have : k = 0 := by
      revert hk; revert k; decide
    subst this
    norm_num [exPos, V3.dot, V3.cross]
  · have : k = 0 := by
      revert hk; revert k; decide
    subst this
    norm_num [exPos, V3.dot, V3.cross]

theorem exMerged_pos : ∀ t ∈ merge exG exTets, 0 < mixedProd exPos t := by
  intro t ht
  obtain ⟨t', ht', rfl⟩ := List.mem_map.mp ht
  exact exPos_pos t' ht'

/-- **C98** The claim fails when `__default__` has a surface anisotropy constant: two tetrahedrons of the same magnetization, whose
surfaces are left to the program. Declared as one region, every triangle has a jump. Declared as two regions, there is a triangle
for which `C98_default_fails` applies: it has this constant, no jump, and all its nodes are magnetic. -/
theorem C98_negation (volName : ℕ → String) (m : ℝ) (hm : m ≠ 0) (sp : Llg.SurfPrm) (hK : sp.Ks ≠ 0) :
    (∃ r, control volName (fun _ => m) (merge exG exTets) [] [⟨"__default__", sp⟩] (exSort (merge exG exTets) []) = some r ∧
      ∀ f ∈ r.tris, f.2 ≠ 0) ∧
    ∃ r', control volName (fun _ => m) exTets [] [⟨"__default__", sp⟩] (exSort exTets []) = some r' ∧
      ∃ f ∈ r'.tris, Between exG exTets f.1 1 2 ∧ TwoSides exPos exTets f.1 1 2 ∧ f.2 = 0 ∧ surfPrm r' f.1.reg = some sp ∧
        sp.Ks ≠ 0 ∧ ∀ k, (magNode (fun _ => true) 5 exTets).getD (f.1.ind k) false = true ∧ f.1.ind k < 5 := by
  have hC' : Consistent exTets [] := by
    have := ex_consistent
    exact ⟨this.nonempty, this.atMostTwo, .nil, by simp, by simp⟩
  have hC : Consistent (merge exG exTets) [] := by
    refine ⟨by decide, fun s => ?_, .nil, by simp, by simp⟩
    rw [incident_merge, Multiset.card_map]
    exact hC'.atMostTwo s
  obtain ⟨r, hr⟩ := (C23_check_iff volName (fun _ => m) _ _ [⟨"__default__", sp⟩] _ (exSort_ok _ _) rfl).mpr hC
  obtain ⟨r', hr'⟩ := (C23_check_iff volName (fun _ => m) _ _ [⟨"__default__", sp⟩] _ (exSort_ok _ _) rfl).mpr hC'
  refine ⟨⟨r, hr, fun f hf => ?_⟩, r', hr', ?_⟩
  · have hb := (C24_completed volName _ _ _ _ _ (exSort_ok _ _) r hr).2.2 f hf
    rw [((control_cases (exSort_ok _ _) hr (by simp)).2 f hf).1]
    have hc : (incident (merge exG exTets) (verts f.1)).card = 1 := by
      rcases hb with ⟨a, e⟩ | ⟨a, b, hab, e⟩
      · rw [e]; rfl
      · exfalso
        rw [incident_merge] at e
        have ha : a ∈ Multiset.map exG (incident exTets (verts f.1)) := by rw [e]; simp
        have hb : b ∈ Multiset.map exG (incident exTets (verts f.1)) := by rw [e]; simp
        obtain ⟨_, -, rfl⟩ := Multiset.mem_map.mp ha
        obtain ⟨_, -, rfl⟩ := Multiset.mem_map.mp hb
        exact hab rfl
    obtain ⟨t, -, e | e⟩ := outer_jump (Ms := fun _ => m) (exSort_ok _ _) exMerged_pos f.1 hc
    · rw [e]; exact hm
    · rw [e]; exact neg_ne_zero.mpr hm
  · have hb : OnBoundary exTets {1, 2, 3} := Or.inr ⟨1, 2, by decide, by decide⟩
    have hone := (C24_completed volName _ _ _ _ _ (exSort_ok _ _) r' hr').2.1 _ hb
    obtain ⟨f, hf, e⟩ := List.countP_pos_iff.mp (by rw [hone]; norm_num : 0 < r'.tris.countP fun x => decide (verts x.1 = {1, 2, 3}))
    have e : verts f.1 = {1, 2, 3} := by simpa using e
    obtain ⟨hj, hc⟩ := (control_cases (exSort_ok _ _) hr' (by simp)).2 f hf
    rcases hc with ⟨hin, -⟩ | ⟨s1, s2, hp, -⟩
    · simp at hin
    have hbt : Between exG exTets f.1 1 2 := by
      refine ⟨by decide, rfl, ?_⟩
      rw [e]
      decide
    have hsd := ex_sides f.1 e ⟨s1, s2⟩
    refine ⟨f, hf, hbt, hsd, ?_, by simpa using hp, hK, ?_⟩
    · rw [hj]
      exact between_jump (Ms := fun _ => m) (exSort_ok _ _) exPos_pos hbt hsd
    · have hi : f.1.ind = ![1, 2, 3] := ind_of_verts (f := ⟨![1, 2, 3], 0⟩) (by decide) ⟨s1, s2⟩ e
      rw [hi]
      decide

/-- the hypotheses of `C98_sample_partial` (hence of `C98_check`): the same two tetrahedrons, no surface anisotropy -/
example (volName : ℕ → String) (prm : ℕ → Tetra.Prm) (mag : ℕ → Bool) :
    ∃ r r', SameSample prm (fun r => prm (exG r)) mag (fun r => mag (exG r)) (surfaceOf r) (surfaceOf r') (merge exG exTets) exTets
        (MeshElem.magTriJ (suppressOf r) (magNode mag 5 (merge exG exTets)) r.tris)
        (MeshElem.magTriJ (suppressOf r') (magNode (fun r => mag (exG r)) 5 exTets) r'.tris) := by
  have hC' : Consistent exTets [] := by
    have := ex_consistent
    exact ⟨this.nonempty, this.atMostTwo, .nil, by simp, by simp⟩
  obtain ⟨r', hr'⟩ := (C23_check_iff volName (fun r => (prm (exG r)).Ms) _ _
    [⟨"__default__", ((⟨0, 0⟩ : Llg.SurfPrm), false)⟩] _ (exSort_ok exTets []) rfl).mpr hC'
  obtain ⟨r, -, h⟩ := C98_sample_partial volName volName prm mag 5 exG exPos exTets [] _ (by simp) _ _ (exSort_ok exTets [])
    (exSort_ok (merge exG exTets) (outer exG exTets [])) exPos_pos (by simp) (by simp) r' hr' (by
      intro f hf a b hb
      obtain ⟨-, hc⟩ := (control_cases (exSort_ok _ _) hr' (by simp)).2 f hf
      rcases hc with ⟨hin, -⟩ | ⟨s1, s2, -, -⟩
      · simp at hin
      obtain ⟨hab, -, hinc⟩ := hb
      -- the common face is the only one with two tetrahedrons
      have hv : verts f.1 = {1, 2, 3} ∧ incident exTets (verts f.1) = {1, 2} := by
        have hcard : (incident exTets (verts f.1)).card = 2 := by rw [hinc]; rfl
        have hex : incident exTets (verts f.1) = (∑ k : Fin 4, if face ⟨![0, 1, 2, 3], 1⟩ k = verts f.1 then {1} else 0)
            + ∑ k : Fin 4, if face ⟨![4, 1, 3, 2], 2⟩ k = verts f.1 then {2} else 0 := by
          simp [incident, exTets]
        have a0 : face ⟨![0, 1, 2, 3], 1⟩ 0 = {1, 2, 3} := by decide
        have a1 : face ⟨![0, 1, 2, 3], 1⟩ 1 = {0, 2, 3} := by decide
        have a2 : face ⟨![0, 1, 2, 3], 1⟩ 2 = {0, 1, 3} := by decide
        have a3 : face ⟨![0, 1, 2, 3], 1⟩ 3 = {0, 1, 2} := by decide
        have b0 : face ⟨![4, 1, 3, 2], 2⟩ 0 = {1, 2, 3} := by decide
        have b1 : face ⟨![4, 1, 3, 2], 2⟩ 1 = {4, 2, 3} := by decide
        have b2 : face ⟨![4, 1, 3, 2], 2⟩ 2 = {4, 1, 2} := by decide
        have b3 : face ⟨![4, 1, 3, 2], 2⟩ 3 = {4, 1, 3} := by decide
        by_cases h123 : verts f.1 = {1, 2, 3}
        · exact ⟨h123, by rw [h123]; decide⟩
        · exfalso
          rw [hex] at hcard
          rw [Fin.sum_univ_four, Fin.sum_univ_four, a0, a1, a2, a3, b0, b1, b2, b3, if_neg (Ne.symm h123),
            if_neg (Ne.symm h123)] at hcard
          generalize verts f.1 = v at hcard
          by_cases h1 : ({0, 2, 3} : Multiset ℕ) = v
          · subst h1; revert hcard; decide
          by_cases h2 : ({0, 1, 3} : Multiset ℕ) = v
          · subst h2; revert hcard; decide
          by_cases h3 : ({0, 1, 2} : Multiset ℕ) = v
          · subst h3; revert hcard; decide
          by_cases h4 : ({4, 2, 3} : Multiset ℕ) = v
          · subst h4; revert hcard; decide
          by_cases h5 : ({4, 1, 2} : Multiset ℕ) = v
          · subst h5; revert hcard; decide
          by_cases h6 : ({4, 1, 3} : Multiset ℕ) = v
          · subst h6; revert hcard; decide
          rw [if_neg h1, if_neg h2, if_neg h3, if_neg h4, if_neg h5, if_neg h6] at hcard
          cases hcard
      have hs := ex_sides f.1 hv.1 ⟨s1, s2⟩
      have ha : a ∈ ({1, 2} : Multiset ℕ) := by rw [← hv.2, hinc]; simp
      have hb : b ∈ ({1, 2} : Multiset ℕ) := by rw [← hv.2, hinc]; simp
      simp at ha hb
      rcases ha with rfl | rfl <;> rcases hb with rfl | rfl
      · exact absurd rfl hab
      · exact hs
      · exact hs.symm
      · exact absurd rfl hab)
  exact ⟨r, r', h⟩

theorem exMerged_detJ : ∀ t ∈ merge exG exTets, 0 < Tetra.detJ (MeshElem.nod4 exPos t) := by
  intro t ht
  have := exMerged_pos t ht
  rw [Tetra.detJ_eq]
  unfold mixedProd at this
  exact this

/-- the hypotheses of `C98_parts`: the average over the two tetrahedrons from the averages over each -/
example (f : ℕ → ℝ) : MeshElem.avg Tetra.rule5 exPos (fun _ => true) 2 (merge exG exTets) f (some 1) *
      (MeshElem.volumes Tetra.rule5 exPos (fun _ => true) 2 (merge exG exTets)).1.getD 1 0 =
    ∑ r ∈ (Finset.range 3).filter fun r => exG r = 1, MeshElem.avg Tetra.rule5 exPos (fun _ => true) 3 exTets f (some r) *
      (MeshElem.volumes Tetra.rule5 exPos (fun _ => true) 3 exTets).1.getD r 0 :=
  (C98_parts (mag' := fun _ => true) (Or.inr rfl) exPos exG 2 3 1 (by norm_num) rfl (fun _ => rfl)
    (by unfold merge; rw [List.forall₂_map_left_iff]; exact List.forall₂_same.mpr fun t _ => ⟨rfl, rfl⟩)
    (by decide) exMerged_detJ f).2

/-- the hypotheses of `C98_run` on the fields: the same field everywhere -/
example (P : Run.Problem) (prm' : ℕ → Tetra.Prm) (sprm' : ℕ → Llg.SurfPrm) (mag' : ℕ → Bool) (tets' : List Tet)
    (tris' : List (Tri × ℝ)) (h : V3) (n : ℕ) : ∃ (W : Run.World n P) (W' : Run.World n (regroup P prm' sprm' mag' tets' tris')),
    (∀ t nd, ∀ e ∈ P.tets, ∀ e' ∈ tets', e'.ind = e.ind → W'.Hext t nd e' = W.Hext t nd e ∧ W'.Hst t nd e' = W.Hst t nd e) ∧
      W'.pot = W.pot :=
  ⟨⟨fun _ _ _ _ => h, fun _ _ _ _ => 0, fun _ _ => (0, 0)⟩, ⟨fun _ _ _ _ => h, fun _ _ _ _ => 0, fun _ _ => (0, 0)⟩,
    fun _ _ _ _ _ _ _ => ⟨rfl, rfl⟩, rfl⟩

end Verif.Regions
