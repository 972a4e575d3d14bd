import Verif.Props.Surroundings
import Verif.Props.SimilarRun

/-!
# C100 from the mesh check on: the surfaces found in a surrounded sample
-/

namespace Verif.Surroundings

open Verif.Mesh Verif.MeshCheck Verif.Geom Verif.Regions

/-- the mesh without the regions that are not kept -/
def alone (keep : ℕ → Bool) (tets : List Tet) : List Tet := tets.filter fun t => keep t.reg

/-- the triangles of the user on the surfaces of the regions that are kept -/
def attached (keep : ℕ → Bool) (tets : List Tet) (tris : List Tri) : List Tri :=
  tris.filter fun f => decide (incident (alone keep tets) (verts f) ≠ 0)

theorem incident_alone (keep : ℕ → Bool) (tets : List Tet) (s : Multiset ℕ) :
    incident (alone keep tets) s = (incident tets s).filter fun r => keep r = true := by
  unfold incident alone
  induction tets with
  | nil => rfl
  | cons t l ih =>
    have h1 : ∀ m : Multiset ℕ, (∀ r ∈ m, r = t.reg) → m.filter (fun r => keep r = true) = if keep t.reg then m else 0 := by
      intro m hm
      split_ifs with hk
      · exact Multiset.filter_eq_self.mpr fun r hr => by rw [hm r hr]; exact hk
      · exact Multiset.filter_eq_nil.mpr fun r hr => by rw [hm r hr]; exact hk
    have h2 : ∀ r ∈ (∑ k : Fin 4, if face t k = s then ({t.reg} : Multiset ℕ) else 0), r = t.reg := by
      intro r hr
      rw [Multiset.mem_sum] at hr
      obtain ⟨k, -, hk⟩ := hr
      split_ifs at hk
      · simpa using hk
      · simp at hk
    simp only [List.map_cons, List.sum_cons, Multiset.filter_add, h1 _ h2, List.filter_cons]
    by_cases hk : keep t.reg = true
    · rw [if_pos hk, if_pos hk, List.map_cons, List.sum_cons, ih]
    · rw [if_neg hk, if_neg hk, ih, zero_add]

/-- the groups of faces of a tetrahedron -/
theorem grp_reg (t : Tet) (k : Key) : ∀ x ∈ grp (faces t) k, x.reg = t.reg := by
  intro x hx
  have := (List.mem_filter.mp hx).1
  simp only [faces, List.mem_cons, List.not_mem_nil, or_false] at this
  rcases this with rfl | rfl | rfl | rfl <;> rfl

theorem jump_removed {Ms : ℕ → ℝ} (t : Tet) (k : Key) (fl : Bool) (h : Ms t.reg = 0) :
    ((grp (faces t) k).map (jumpOf Ms fl)).sum = 0 := by
  refine List.sum_eq_zero fun x hx => ?_
  obtain ⟨y, hy, rfl⟩ := List.mem_map.mp hx
  unfold jumpOf
  rw [grp_reg t k y hy, h]
  split_ifs <;> simp

theorem sum_filter_zero {α : Type} (p : α → Bool) (f : α → ℝ) (l : List α) (h : ∀ a ∈ l, p a = false → f a = 0) :
    (l.map f).sum = ((l.filter p).map f).sum := by
  induction l with
  | nil => rfl
  | cons a l ih =>
    have ih := ih fun b hb => h b (List.mem_cons_of_mem _ hb)
    by_cases hp : p a = true
    · rw [List.filter_cons_of_pos hp, List.map_cons, List.map_cons, List.sum_cons, List.sum_cons, ih]
    · rw [List.filter_cons_of_neg hp, List.map_cons, List.sum_cons, ih, h a List.mem_cons_self (by simpa using hp), zero_add]

theorem dMs_alone {keep : ℕ → Bool} {Ms : ℕ → ℝ} (hMs : ∀ r, keep r = false → Ms r = 0) {tets' : List Tet}
    {tris tris' : List Tri} {sorted sorted' : List BasicTri} (h' : IsSortOf sorted' (allTri tets' tris'))
    (h : IsSortOf sorted (allTri (alone keep tets') tris)) (f f' : Tri) (hf : f'.ind = f.ind) :
    dMs Ms sorted' f' = dMs Ms sorted f := by
  have e : (BasicTri.ofTri f').nodes = (BasicTri.ofTri f).nodes ∧ (BasicTri.ofTri f').flipped = (BasicTri.ofTri f).flipped := by
    unfold BasicTri.ofTri BasicTri.mk'
    rw [hf]
    exact ⟨rfl, rfl⟩
  rw [dMs_eq_sum _ h' f', dMs_eq_sum _ h f, e.1, e.2]
  exact sum_filter_zero _ _ _ fun t _ ht => jump_removed t _ _ (hMs _ ht)

/-- a triangle that is no face of the sample has no jump -/
theorem dMs_away {keep : ℕ → Bool} {Ms : ℕ → ℝ} (hMs : ∀ r, keep r = false → Ms r = 0) {tets' : List Tet} {tris' : List Tri}
    {sorted' : List BasicTri} (h' : IsSortOf sorted' (allTri tets' tris')) (f : Tri)
    (h0 : incident (alone keep tets') (verts f) = 0) : dMs Ms sorted' f = 0 := by
  rw [dMs_eq_sum _ h' f]
  refine List.sum_eq_zero fun x hx => ?_
  obtain ⟨t, ht, rfl⟩ := List.mem_map.mp hx
  by_cases hk : keep t.reg = true
  · have hg : ((faceRegs (grp (faces t) (BasicTri.ofTri f).nodes) : List ℕ) : Multiset ℕ) = 0 := by
      rw [faceRegs_tet t (ofTri_isKey f), ofTri_key]
      have hle : (∑ k : Fin 4, if face t k = verts f then ({t.reg} : Multiset ℕ) else 0) ≤ incident (alone keep tets') (verts f) := by
        unfold incident
        refine List.single_le_sum (fun _ _ => Multiset.zero_le _) _ (List.mem_map.mpr ⟨t, List.mem_filter.mpr ⟨ht, hk⟩, rfl⟩)
      rw [h0] at hle
      exact Multiset.le_zero.mp hle
    refine List.sum_eq_zero fun x hx => ?_
    obtain ⟨y, hy, rfl⟩ := List.mem_map.mp hx
    unfold jumpOf
    split_ifs with hs
    · rfl
    all_goals
      exfalso
      have : y.reg ∈ faceRegs (grp (faces t) (BasicTri.ofTri f).nodes) :=
        List.mem_map.mpr ⟨y, List.mem_filter.mpr ⟨hy, by simpa using hs⟩, rfl⟩
      rw [Multiset.coe_eq_zero] at hg
      rw [hg] at this
      cases this
  · exact jump_removed t _ _ (hMs _ (by simpa using hk))

/-! ## faces on the boundary -/

theorem boundary_cases {keep : ℕ → Bool} {tets : List Tet} {s : Multiset ℕ} (h : OnBoundary tets s) :
    OnBoundary (alone keep tets) s ∨ incident (alone keep tets) s = 0 := by
  rcases h with ⟨r, e⟩ | ⟨a, b, hne, e⟩
  · by_cases hk : keep r = true
    · exact Or.inl (Or.inl ⟨r, by rw [incident_alone, e, Multiset.filter_singleton, if_pos hk]⟩)
    · exact Or.inr (by rw [incident_alone, e, Multiset.filter_singleton, if_neg hk]; rfl)
  · have ee : incident (alone keep tets) s = Multiset.filter (fun r => keep r = true) {a} + Multiset.filter (fun r => keep r = true) {b} := by
      rw [incident_alone, e, ← Multiset.filter_add]
      rfl
    rw [Multiset.filter_singleton, Multiset.filter_singleton] at ee
    by_cases ha : keep a = true <;> by_cases hb : keep b = true
    · rw [if_pos ha, if_pos hb] at ee
      exact Or.inl (Or.inr ⟨a, b, hne, ee⟩)
    · rw [if_pos ha, if_neg hb] at ee
      exact Or.inl (Or.inl ⟨a, by rw [ee]; rfl⟩)
    · rw [if_neg ha, if_pos hb] at ee
      exact Or.inl (Or.inl ⟨b, by rw [ee]; rfl⟩)
    · rw [if_neg ha, if_neg hb] at ee
      exact Or.inr (by rw [ee]; rfl)

theorem boundary_up {keep : ℕ → Bool} {tets : List Tet} {s : Multiset ℕ} (h2 : (incident tets s).card ≤ 2)
    (h : OnBoundary (alone keep tets) s) : OnBoundary tets s := by
  have hle : incident (alone keep tets) s ≤ incident tets s := by
    rw [incident_alone]
    exact Multiset.filter_le _ _
  have hin : ∀ r, r ∈ incident (alone keep tets) s ↔ r ∈ incident tets s ∧ keep r = true := by
    intro r
    rw [incident_alone, Multiset.mem_filter]
  rcases h with ⟨r, e⟩ | ⟨a, b, hne, e⟩
  · have hr := (hin r).mp (by rw [e]; simp)
    obtain ⟨u, hu⟩ := Multiset.exists_cons_of_mem hr.1
    rw [hu, Multiset.card_cons] at h2
    have hu1 : u.card ≤ 1 := by omega
    rcases Nat.lt_or_ge u.card 1 with h0 | h1
    · left
      have hu0 : u = 0 := Multiset.card_eq_zero.mp (by omega)
      exact ⟨r, by rw [hu, hu0]; rfl⟩
    · obtain ⟨b, hb⟩ := Multiset.card_eq_one.mp (le_antisymm hu1 h1)
      right
      refine ⟨r, b, ?_, by rw [hu, hb]; rfl⟩
      rintro rfl
      rw [incident_alone, hu, hb] at e
      have := congrArg Multiset.card e
      rw [Multiset.filter_cons_of_pos (p := fun r => keep r = true) _ hr.2, Multiset.filter_singleton, if_pos hr.2] at this
      simp at this
  · right
    refine ⟨a, b, hne, ?_⟩
    rw [← e]
    refine (Multiset.eq_of_le_of_card_le hle ?_).symm
    rw [e]
    exact h2

/-! ## the mesh check -/

open Classical in
/-- **C100** If the mesh of a sample in its surroundings passes the check, so does the mesh of the sample alone (with the triangles
of the user that are on it). The two checks end with the same triangles, with the same nodes, the same jump of magnetization
and the same parameters, plus, for the surrounded sample, triangles that are no faces of the sample; they have no jump, and those
not drawn by the user get the parameters of `__default__`. -/
theorem C100_check {π : Type} (volName volName' : ℕ → String) (Ms : ℕ → ℝ) (keep : ℕ → Bool)
    (hMs : ∀ r, keep r = false → Ms r = 0) (tets' : List Tet) (tris' : List Tri) (hne : alone keep tets' ≠ [])
    (regs : List (SurfPrm π)) (hu : ∀ f ∈ tris', f.reg < regs.length) (sorted' sorted : List BasicTri)
    (h' : IsSortOf sorted' (allTri tets' tris'))
    (h : IsSortOf sorted (allTri (alone keep tets') (attached keep tets' tris')))
    (r' : Result ℝ π) (hr' : control volName' Ms tets' tris' regs sorted' = some r') :
    ∃ r, control volName Ms (alone keep tets') (attached keep tets' tris') regs sorted = some r ∧
      ∃ kept extra, r'.tris.Perm (kept ++ extra) ∧
        List.Forall₂ (fun f f' => f'.1.ind = f.1.ind ∧ f'.2 = f.2 ∧ surfPrm r' f'.1.reg = surfPrm r f.1.reg) r.tris kept ∧
        ∀ f ∈ extra, f ∈ r'.tris ∧ incident (alone keep tets') (verts f.1) = 0 ∧ f.2 = 0 ∧
          (f.1 ∈ tris' → surfPrm r' f.1.reg = regs[f.1.reg]?.map (·.prm)) ∧
          (f.1 ∉ tris' → surfPrm r' f.1.reg = regs.head?.map (·.prm)) := by
  have hC' := (control_ok h' hr').1
  have hmemO : ∀ f, f ∈ attached keep tets' tris' ↔ f ∈ tris' ∧ incident (alone keep tets') (verts f) ≠ 0 := by
    intro f
    unfold attached
    rw [List.mem_filter, decide_eq_true_iff]
  have hle : ∀ s, incident (alone keep tets') s ≤ incident tets' s := by
    intro s
    rw [incident_alone]
    exact Multiset.filter_le _ _
  have hC : Consistent (alone keep tets') (attached keep tets' tris') := by
    refine ⟨hne, ?_, ?_, ?_, ?_⟩
    · exact fun s => (Multiset.card_le_card (hle s)).trans (hC'.atMostTwo s)
    · exact hC'.noCopy.sublist List.filter_sublist
    · exact fun f hf => ((hmemO f).mp hf).2
    · intro f hf a e
      refine hC'.notInside f ((hmemO f).mp hf).1 a ?_
      rw [← e]
      refine (Multiset.eq_of_le_of_card_le (hle _) ?_).symm
      rw [e]
      exact hC'.atMostTwo _
  have hd : regs.head?.map (·.name) = some "__default__" := by
    unfold MeshCheck.control at hr'
    split_ifs at hr'
    obtain ⟨toAdd, -, hr'⟩ := Option.bind_eq_some_iff.mp hr'
    cases regs with
    | nil => cases hr'
    | cons d l =>
      dsimp only at hr'
      split_ifs at hr' with hn
      simpa using hn
  obtain ⟨r, hr⟩ := (C23_check_iff volName Ms _ _ regs sorted h hd).mpr hC
  refine ⟨r, hr, ?_⟩
  have huO : ∀ f ∈ attached keep tets' tris', f.reg < regs.length := fun f hf => hu f ((hmemO f).mp hf).1
  obtain ⟨-, hcount, hbd⟩ := C24_completed volName Ms _ _ regs sorted h r hr
  obtain ⟨-, hcount', hbd'⟩ := C24_completed volName' _ _ _ regs sorted' h' r' hr'
  obtain ⟨huser, hcases⟩ := control_cases h hr huO
  obtain ⟨huser', hcases'⟩ := control_cases h' hr' hu
  have hpw : r.tris.Pairwise fun a b => verts a.1 ≠ verts b.1 :=
    pairwise_of_count (fun f : Tri × ℝ => verts f.1) _ fun f hf => by
      simpa using hcount _ (hbd f hf)
  have hpw' : r'.tris.Pairwise fun a b => verts a.1 ≠ verts b.1 :=
    pairwise_of_count (fun f : Tri × ℝ => verts f.1) _ fun f hf => by
      simpa using hcount' _ (hbd' f hf)
  have hup : ∀ s, OnBoundary (alone keep tets') s → OnBoundary tets' s := fun s => boundary_up (hC'.atMostTwo s)
  have hnz : ∀ s, OnBoundary (alone keep tets') s → incident (alone keep tets') s ≠ 0 := by
    rintro s (⟨a, e⟩ | ⟨a, b, -, e⟩) <;> rw [e] <;> simp
  -- the partner of a triangle of the sample alone
  have hpartner : ∀ f ∈ r.tris, ∃ f', f' ∈ r'.tris ∧ (f'.1.ind = f.1.ind ∧ f'.2 = f.2 ∧
      surfPrm r' f'.1.reg = surfPrm r f.1.reg) := by
    intro f hf
    obtain ⟨hj, hc⟩ := hcases f hf
    rcases hc with ⟨hin, hp⟩ | ⟨s1, s2, hp, hno⟩
    · have hin' := ((hmemO f.1).mp hin).1
      refine ⟨_, huser' f.1 hin', rfl, ?_, ?_⟩
      · rw [hj]
        exact dMs_alone hMs h' h f.1 f.1 rfl
      · obtain ⟨-, hc'⟩ := hcases' _ (huser' f.1 hin')
        rcases hc' with ⟨-, hp'⟩ | ⟨-, -, -, hno'⟩
        · exact hp'.trans hp.symm
        · exact absurd rfl (hno' f.1 hin')
    · have hone := hcount' _ (hup _ (hbd f hf))
      obtain ⟨f', hf', e⟩ := List.countP_pos_iff.mp (by rw [hone]; norm_num : 0 < r'.tris.countP fun x => decide (verts x.1 = verts f.1))
      have e : verts f'.1 = verts f.1 := by simpa using e
      obtain ⟨hj', hc'⟩ := hcases' f' hf'
      rcases hc' with ⟨hin', -⟩ | ⟨s1', s2', hp', -⟩
      · exact absurd e (hno f'.1 ((hmemO f'.1).mpr ⟨hin', by rw [e]; exact hnz _ (hbd f hf)⟩))
      · have hi := ind_of_verts ⟨s1, s2⟩ ⟨s1', s2'⟩ e
        refine ⟨f', hf', hi, ?_, hp'.trans hp.symm⟩
        rw [hj', hj]
        exact dMs_alone hMs h' h f.1 f'.1 hi
  obtain ⟨kept, hkept⟩ := forall₂_choose _ hpartner
  refine ⟨kept, r'.tris.filter fun f => !decide (OnBoundary (alone keep tets') (verts f.1)), ?_, hkept.imp fun _ _ h => h.2, ?_⟩
  · refine perm_partners (fun f : Tri × ℝ => verts f.1) (OnBoundary (alone keep tets')) hpw hpw' hkept ?_ ?_ hbd ?_
    · intro a b hab
      unfold verts
      rw [hab.2.1]
    · intro b hb
      obtain ⟨a, -, hab⟩ := forall₂_right hkept b hb
      exact hab.1
    · intro b _ hq
      have hone := hcount _ hq
      obtain ⟨f, hf, e⟩ := List.countP_pos_iff.mp (by rw [hone]; norm_num : 0 < r.tris.countP fun x => decide (verts x.1 = verts b.1))
      exact ⟨f, hf, by simpa using e⟩
  · intro f hf
    obtain ⟨hf1, hf2⟩ := List.mem_filter.mp hf
    have hf2 : ¬ OnBoundary (alone keep tets') (verts f.1) := by simpa using hf2
    have h0 := (boundary_cases (keep := keep) (hbd' f hf1)).resolve_left hf2
    obtain ⟨hj, hc⟩ := hcases' f hf1
    refine ⟨hf1, h0, by rw [hj]; exact dMs_away hMs h' f.1 h0, ?_⟩
    rcases hc with ⟨hin, hp⟩ | ⟨-, -, hp, hno⟩
    · exact ⟨fun _ => hp, fun h => absurd hin h⟩
    · exact ⟨fun h => absurd rfl (hno _ h), fun _ => hp⟩

/-! ## from the mesh check to the runs -/

section
open Verif.Llg Verif.MeshElem Verif.Tetra

variable {mag : ℕ → Bool} {keep : ℕ → Bool} {tets' : List Tet}

theorem magTet_alone (hk : ∀ r, keep r = false → mag r = false) :
    (alone keep tets').filter (fun t => mag t.reg) = tets'.filter fun t => mag t.reg := by
  unfold alone
  rw [List.filter_filter]
  refine List.filter_congr fun t _ => ?_
  cases h : keep t.reg with
  | true => simp
  | false => simp [hk _ h]

theorem magNode_alone {n n' : ℕ} (hle : n ≤ n') (hk : ∀ r, keep r = false → mag r = false)
    (hv : Assembly.IndicesValid n (alone keep tets')) (i : ℕ) :
    (magNode mag n' tets').getD i false = (magNode mag n (alone keep tets')).getD i false := by
  have hex : (∃ t ∈ tets', mag t.reg = true ∧ ∃ k, t.ind k = i) ↔ ∃ t ∈ alone keep tets', mag t.reg = true ∧ ∃ k, t.ind k = i := by
    constructor
    · rintro ⟨t, ht, hm, h⟩
      refine ⟨t, List.mem_filter.mpr ⟨ht, ?_⟩, hm, h⟩
      by_contra hc
      rw [hk _ (by simpa using hc)] at hm
      cases hm
    · rintro ⟨t, ht, h⟩
      exact ⟨t, (List.mem_filter.mp ht).1, h⟩
  rw [Bool.eq_iff_iff]
  constructor
  · intro h
    have h1 := hex.mp ((magNode_iff mag n' tets' i (Run.magNode_lt h)).mp h)
    refine (magNode_iff mag n _ i ?_).mpr h1
    obtain ⟨t, ht, -, k, hki⟩ := h1
    rw [← hki]
    exact hv t ht k
  · intro h
    have hi := Run.magNode_lt h
    exact (magNode_iff mag n' tets' i (hi.trans_le hle)).mpr (hex.mpr ((magNode_iff mag n _ i hi).mp h))

/-- **C100** (without surface anisotropy on triangles that separate nothing; missing: `C100_negation` shows that it fails otherwise)
From the mesh check on: the sample alone and the sample in non-magnetic surroundings, as handed to the solver, are the same
in the sense of `C100_run_partial`, `C100_energy`, `C100_potential` and `C100_average`. -/
theorem C100_sample_partial (volName volName' : ℕ → String) (prm : ℕ → Prm) (mag : ℕ → Bool) {n n' : ℕ} (hle : n ≤ n')
    (keep : ℕ → Bool) (hk : ∀ r, keep r = false → (prm r).Ms = 0 ∧ mag r = false) (tets' : List Tet) (tris' : List Tri)
    (hne : alone keep tets' ≠ []) (hv : Assembly.IndicesValid n (alone keep tets'))
    (regs : List (MeshCheck.SurfPrm (Llg.SurfPrm × Bool)))
    (hu : ∀ f ∈ tris', f.reg < regs.length) (sorted' sorted : List BasicTri) (h' : IsSortOf sorted' (allTri tets' tris'))
    (h : IsSortOf sorted (allTri (alone keep tets') (attached keep tets' tris'))) (r' : Result ℝ (Llg.SurfPrm × Bool))
    (hr' : control volName' (fun r => (prm r).Ms) tets' tris' regs sorted' = some r')
    (hKs : ∀ f ∈ r'.tris, f.1.isMagnetic (magNode mag n' tets') = true → incident (alone keep tets') (verts f.1) = 0 →
      (surfaceOf r' f.1.reg).Ks = 0) :
    ∃ r, control volName (fun r => (prm r).Ms) (alone keep tets') (attached keep tets' tris') regs sorted = some r ∧
      SameMagnet prm prm mag mag (surfaceOf r) (surfaceOf r') (alone keep tets') tets'
        (magTriJ (suppressOf r) (magNode mag n (alone keep tets')) r.tris)
        (magTriJ (suppressOf r') (magNode mag n' tets') r'.tris) := by
  obtain ⟨r, hr, kept, extra, hperm, hkept, hextra⟩ := C100_check volName volName' (fun r => (prm r).Ms) keep
    (fun r hr => (hk r hr).1) tets' tris' hne regs hu sorted' sorted h' h r' hr'
  refine ⟨r, hr, ?_, ?_⟩
  · rw [magTet_alone fun r hr => (hk r hr).2]
    exact List.forall₂_same.mpr fun t _ => ⟨rfl, rfl, rfl⟩
  unfold magTriJ
  refine ⟨kept.filter fun f => f.1.isMagnetic (magNode mag n' tets') && !suppressOf r' f.1.reg,
    extra.filter fun f => f.1.isMagnetic (magNode mag n' tets') && !suppressOf r' f.1.reg, ?_, ?_, ?_⟩
  · have := hperm.filter fun f => f.1.isMagnetic (magNode mag n' tets') && !suppressOf r' f.1.reg
    rw [List.filter_append] at this
    exact this
  · have hk : List.Forall₂ (fun f f' => f'.1.ind = f.1.ind ∧ f'.2 = f.2 ∧ surfPrm r' f'.1.reg = surfPrm r f.1.reg)
        (r.tris.filter fun f => f.1.isMagnetic (magNode mag n (alone keep tets')) && !suppressOf r f.1.reg)
        (kept.filter fun f => f.1.isMagnetic (magNode mag n' tets') && !suppressOf r' f.1.reg) := by
      refine forall₂_filter (fun f f' hf => ?_) hkept
      unfold suppressOf Tri.isMagnetic
      rw [hf.1, hf.2.2]
      simp only [magNode_alone hle (fun r hr => (hk r hr).2) hv]
    refine hk.imp fun f f' hf => ⟨hf.1, hf.2.1, ?_⟩
    unfold surfaceOf
    rw [hf.2.2]
  · intro f hf
    obtain ⟨hf1, hf2⟩ := List.mem_filter.mp hf
    obtain ⟨hin, h0, hj, -⟩ := hextra f hf1
    refine ⟨hj, hKs f hin ?_ h0⟩
    rw [Bool.and_eq_true] at hf2
    exact hf2.1

end

/-! ## the claim fails with surface anisotropy in `__default__` -/

/-- **C100** A surface anisotropy constant given for all surfaces in `__default__` also applies to the triangles that the program
adds on the faces of the surroundings. Where three magnetic nodes are the corners of such a face the jump is zero, and no step
of the surrounded sample can be computed. -/
theorem C100_default_fails {volName' : ℕ → String} {Ms : ℕ → ℝ} {keep : ℕ → Bool} (hMs : ∀ r, keep r = false → Ms r = 0)
    {tets' : List Tet} {tris' : List Tri} {regs : List (MeshCheck.SurfPrm Llg.SurfPrm)} (hu : ∀ f ∈ tris', f.reg < regs.length)
    {sorted' : List BasicTri} (h' : IsSortOf sorted' (allTri tets' tris')) {r' : Result ℝ Llg.SurfPrm}
    (hr' : control volName' Ms tets' tris' regs sorted' = some r') (f : Tri × ℝ) (hf : f ∈ r'.tris) (hno : f.1 ∉ tris')
    (h0 : incident (alone keep tets') (verts f.1) = 0) (sp : Llg.SurfPrm) (hsp : surfPrm r' f.1.reg = some sp)
    (d : MeshCheck.SurfPrm Llg.SurfPrm) (hd : regs.head? = some d) (hK : d.prm.Ks ≠ 0)
    {n : ℕ} (magN : List Bool) (hmag : ∃ k, magN.getD (f.1.ind k) false = true ∧ f.1.ind k < n) (H : TriElem.Rule) (hH : 0 < H.n)
    (nodes : ℕ → Node) (es : List (Assembly.Elem 4 Fl)) (fs : List (Assembly.Elem 3 Fl))
    (hfs : NonFinite.triElem H (.fin sp.Ks) sp.uk (.fin f.2) nodes f.1 ∈ fs) (L : List Fl)
    (hL : Assembly.llgRhs magN n es fs = some L) (it : Krylov.Iter) (tol : ℝ) (ht : it.resmax = .fin tol)
    (K : Krylov.Mat (2 * n)) (guess : Krylov.Vec (2 * n)) :
    Krylov.llgSolve it K guess (Electro.vecOf (2 * n) L) (LlgSolve.lvd n magN) = none := by
  obtain ⟨hj, hc⟩ := (control_cases h' hr' hu).2 f hf
  have hsp' : sp = d.prm := by
    rcases hc with ⟨hin, -⟩ | ⟨-, -, hp, -⟩
    · exact absurd hin hno
    · rw [hsp, hd] at hp
      exact Option.some.inj hp
  rw [hj, dMs_away hMs h' f.1 h0] at hfs
  refine NonFinite.C97_surface_fails magN es fs H hH (.fin sp.Ks) ?_ sp.uk nodes f.1 hfs hmag L hL it tol ht K guess
  rw [hsp']
  simpa [Fl.isZero] using hK

/-! ## a concrete sample: two tetrahedrons with a common edge, and one of air between them -/

/-- two tetrahedrons of the magnet (region 1) with the common edge 0 1; the first one is of air (region 0), and has a common face
with each of them -/
def exAir : List Tet := [⟨![0, 1, 3, 4], 0⟩, ⟨![0, 1, 2, 3], 1⟩, ⟨![0, 1, 4, 5], 1⟩]

def exKeep : ℕ → Bool := fun r => r == 1

noncomputable def exAirPos : ℕ → V3
  | 0 => ⟨0, 0, 0⟩
  | 1 => ⟨1, 0, 0⟩
  | 2 => ⟨0, 1, 0⟩
  | 3 => ⟨0, 0, 1⟩
  | 4 => ⟨0, -1, 0⟩
  | _ => ⟨0, 0, -1⟩

theorem exAir_pos : ∀ t ∈ exAir, 0 < mixedProd exAirPos t := by
  intro t ht
  simp only [exAir, List.mem_cons, List.not_mem_nil, or_false] at ht
  rcases ht with rfl | rfl | rfl <;> simp [mixedProd, exAirPos, V3.dot, V3.cross]

theorem exAir_alone : alone exKeep exAir = [⟨![0, 1, 2, 3], 1⟩, ⟨![0, 1, 4, 5], 1⟩] := rfl

theorem exAir_consistent : Consistent exAir [] := by
  refine (C23_check_iff (R := ℤ) (fun _ => "") (fun _ => 0) exAir [] [⟨"__default__", ()⟩] _ (exSort_ok _ _) rfl).mp ?_
  rw [← Option.isSome_iff_exists]
  decide

/-- **C100** The claim fails when `__default__` has a surface anisotropy constant: the surfaces are left to the program; every triangle
of the sample alone has a jump, while in the air there is a triangle for which `C100_default_fails` applies: it has this constant,
no jump, and all its nodes are magnetic. -/
theorem C100_negation (volName : ℕ → String) (m : ℝ) (hm : m ≠ 0) (sp : Llg.SurfPrm) (hK : sp.Ks ≠ 0) :
    (∃ r, control volName (fun r => if exKeep r then m else 0) (alone exKeep exAir) [] [⟨"__default__", sp⟩]
        (exSort (alone exKeep exAir) []) = some r ∧ ∀ f ∈ r.tris, f.2 ≠ 0) ∧
    ∃ r', control volName (fun r => if exKeep r then m else 0) exAir [] [⟨"__default__", sp⟩] (exSort exAir []) = some r' ∧
      ∃ f ∈ r'.tris, incident (alone exKeep exAir) (verts f.1) = 0 ∧ f.2 = 0 ∧ surfPrm r' f.1.reg = some sp ∧
        sp.Ks ≠ 0 ∧ ∀ k, (magNode exKeep 6 exAir).getD (f.1.ind k) false = true ∧ f.1.ind k < 6 := by
  set Ms : ℕ → ℝ := fun r => if exKeep r then m else 0 with hMs
  have hMs0 : ∀ r, exKeep r = false → Ms r = 0 := fun r hr => by rw [hMs]; simp [hr]
  obtain ⟨r', hr'⟩ := (C23_check_iff volName Ms _ _ [⟨"__default__", sp⟩] _ (exSort_ok exAir []) rfl).mpr exAir_consistent
  obtain ⟨r, hr, -⟩ := C100_check volName volName Ms exKeep hMs0 exAir [] (by decide) _ (by simp) _ _ (exSort_ok exAir [])
    (exSort_ok (alone exKeep exAir) []) r' hr'
  refine ⟨⟨r, hr, fun f hf => ?_⟩, r', hr', ?_⟩
  · have hb := (C24_completed volName _ _ _ _ _ (exSort_ok _ _) r hr).2.2 f hf
    rw [((control_cases (exSort_ok _ _) hr (by simp [attached])).2 f hf).1]
    have hkeep : ∀ x ∈ incident (alone exKeep exAir) (verts f.1), x = 1 := by
      intro x hx
      rw [incident_alone, Multiset.mem_filter] at hx
      simpa [exKeep] using hx.2
    have hc : (incident (alone exKeep exAir) (verts f.1)).card = 1 := by
      rcases hb with ⟨a, e⟩ | ⟨a, b, hab, e⟩
      · rw [e]; rfl
      · exact absurd ((hkeep a (by rw [e]; simp)).trans (hkeep b (by rw [e]; simp)).symm) hab
    obtain ⟨t, ht, e⟩ := outer_jump (p := exAirPos) (Ms := Ms) (exSort_ok (alone exKeep exAir) (attached exKeep exAir []))
      (fun t ht => exAir_pos t (List.mem_filter.mp ht).1) f.1 hc
    have hmt : Ms t.reg = m := if_pos (List.mem_filter.mp ht).2
    rw [hmt] at e
    rcases e with e | e
    · rw [e]; exact hm
    · rw [e]; exact neg_ne_zero.mpr hm
  · have hb : OnBoundary exAir {0, 3, 4} := Or.inl ⟨0, by decide⟩
    have hone := (C24_completed volName _ _ _ _ _ (exSort_ok _ _) r' hr').2.1 _ hb
    obtain ⟨f, hf, e⟩ := List.countP_pos_iff.mp (by rw [hone]; norm_num : 0 < r'.tris.countP fun x => decide (verts x.1 = {0, 3, 4}))
    have e : verts f.1 = {0, 3, 4} := by simpa using e
    have h0 : incident (alone exKeep exAir) (verts f.1) = 0 := by rw [e]; decide
    obtain ⟨hj, hc⟩ := (control_cases (exSort_ok _ _) hr' (by simp)).2 f hf
    rcases hc with ⟨hin, -⟩ | ⟨s1, s2, hp, -⟩
    · simp at hin
    refine ⟨f, hf, h0, by rw [hj]; exact dMs_away hMs0 (exSort_ok _ _) f.1 h0, by simpa using hp, hK, ?_⟩
    have hi : f.1.ind = ![0, 3, 4] := ind_of_verts (f := ⟨![0, 3, 4], 0⟩) (by decide) ⟨s1, s2⟩ e
    rw [hi]
    decide

/-- the hypotheses of `C100_sample_partial` (hence of `C100_check`): the same sample, without surface anisotropy -/
example (volName : ℕ → String) (prm : ℕ → Tetra.Prm) (h0 : ∀ r, r ≠ 1 → (prm r).Ms = 0) :
    ∃ r r', SameMagnet prm prm exKeep exKeep (surfaceOf r) (surfaceOf r') (alone exKeep exAir) exAir
        (MeshElem.magTriJ (suppressOf r) (magNode exKeep 6 (alone exKeep exAir)) r.tris)
        (MeshElem.magTriJ (suppressOf r') (magNode exKeep 6 exAir) r'.tris) := by
  obtain ⟨r', hr'⟩ := (C23_check_iff volName (fun r => (prm r).Ms) _ _
    [⟨"__default__", ((⟨0, 0⟩ : Llg.SurfPrm), false)⟩] _ (exSort_ok exAir []) rfl).mpr exAir_consistent
  obtain ⟨r, -, h⟩ := C100_sample_partial volName volName prm exKeep (le_refl 6) exKeep
    (fun r hr => ⟨h0 r (by simpa [exKeep] using hr), hr⟩) exAir [] (by decide) (by rw [exAir_alone]; unfold Assembly.IndicesValid; decide) _ (by simp) _ _ (exSort_ok exAir [])
    (exSort_ok (alone exKeep exAir) []) r' hr' (by
      intro f hf _ _
      obtain ⟨-, hc⟩ := (control_cases (exSort_ok _ _) hr' (by simp)).2 f hf
      rcases hc with ⟨hin, -⟩ | ⟨-, -, hp, -⟩
      · simp at hin
      unfold surfaceOf
      rw [hp]
      rfl)
  exact ⟨r, r', h⟩

/-! ## a run of a sample with air -/

section
open Verif.Run Verif.TimeLoop Verif.Llg Verif.Tetra

variable {n : ℕ}

noncomputable def exCfgA (magN : Fin n → Bool) (D : ℝ) : Cfg n ℝ :=
  { tf := 20, DTMIN := 1, DTMAX := 100, DUMAX := D, timeStep := 10, savePeriod := 2, gamma0 := 1, add := (· + ·)
    magNode := magN, energy := fun _ t => t, recenter := some }

/-- solution at the first attempt, failures afterwards -/
noncomputable def exInpA (r : ℝ) (X : Fin n → ℝ × ℝ) (k : ℕ) : Input n :=
  ⟨false, r, if k = 1 then some X else none, fun _ => (0, 0)⟩

theorem exA_run1 (magN : Fin n → Bool) (nd : Fin n → Node) (D : ℝ) (inp : ℕ → Input n) :
    let s := run (exCfgA magN D) 0 nd (fun _ => (0, 0)) inp 1
    s.ctl = .running ∧ s.t = 0 ∧ s.stepNb = 1 ∧ s.stepper.softMax = 10 ∧
      s.nodes = computeAllNodes magN (fun _ => (0, 0)) nd := by
  have hcnt : stepCount (exCfgA magN D) 0 = 2 := by
    have : (((exCfgA magN D).tf - 0) / (exCfgA magN D).timeStep) = 2 := by norm_num [exCfgA]
    unfold stepCount cRound
    rw [this, if_pos (by norm_num)]
    norm_num [Int.floor_eq_iff]
  have hctl : (init (exCfgA magN D) 0 nd fun _ => (0, 0)).ctl = .running := by
    change (if 0 ≤ stepCount (exCfgA magN D) 0 then Ctl.running else Ctl.done 0) = _
    rw [hcnt]; rfl
  have e : run (exCfgA magN D) 0 nd (fun _ => (0, 0)) inp 1 =
      { saver (exCfgA magN D) (init (exCfgA magN D) 0 nd fun _ => (0, 0)) with stepNb := 1 } := by
    change TimeLoop.step (exCfgA magN D) 0 (inp 0) (init (exCfgA magN D) 0 nd fun _ => (0, 0)) = _
    have hnot : ¬ (init (exCfgA magN D) 0 nd fun _ => (0, 0)).t < tTarget (exCfgA magN D) 0
        (init (exCfgA magN D) 0 nd fun _ => (0, 0)).stepNb := by
      simp [init, tTarget]
    have hc : ((0 + 1 : ℕ) : ℤ) ≤ stepCount (exCfgA magN D) 0 := by rw [hcnt]; norm_num
    unfold TimeLoop.step
    rw [hctl]
    simp only
    rw [if_neg hnot]
    exact if_pos hc
  rw [e]
  refine ⟨hctl, rfl, rfl, ?_, rfl⟩
  change Real.sqrt ((1 : ℝ) * 100) = 10
  rw [show (1 : ℝ) * 100 = 10 ^ 2 by norm_num, Real.sqrt_sq (by norm_num)]

theorem exA_att (magN : Fin n → Bool) (nd : Fin n → Node) (D : ℝ) (inp : ℕ → Input n) :
    attDt (exCfgA magN D) 0 (run (exCfgA magN D) 0 nd (fun _ => (0, 0)) inp 1) = 10 := by
  obtain ⟨-, h2, h3, h5, -⟩ := exA_run1 magN nd D inp
  have hs : tTarget (exCfgA magN D) 0 (run (exCfgA magN D) 0 nd (fun _ => (0, 0)) inp 1).stepNb
      - (run (exCfgA magN D) 0 nd (fun _ => (0, 0)) inp 1).t = 10 := by
    rw [h2, h3]; norm_num [tTarget, exCfgA]
  unfold attDt
  rw [hs]
  unfold TimeStepper.step
  simp only
  rw [h5]
  norm_num

theorem exA_exact (magN : Fin n → Bool) (P : Problem) (nd : Fin n → Node) (hs : ∀ D, Start P (exCfgA magN D) nd) (W : World n P)
    (hpot : ∀ a, W.pot a = fun _ => (0, 0)) (V r : ℝ) :
    ∃ X, ∀ D, ExactRun P (exCfgA magN D) W (fun _ => V) 0 nd (exInpA r X) := by
  set nd1 := computeAllNodes (n := n) magN (fun _ => (0, 0)) nd with hnd1
  obtain ⟨⟨M, b, hsys⟩, hx⟩ := C72_solvable (hs 0) ⟨by norm_num [exCfgA], by norm_num [exCfgA], by norm_num [exCfgA], le_rfl,
      fun t dt => by norm_num [exCfgA]⟩ (fun _ _ h hu => by cases h; exact hu)
    (fun _ _ h _ => by cases h; exact ⟨rfl, rfl, rfl⟩) 0 (fun _ => (0, 0))
    (fun _ => ⟨false, 0, none, fun _ => (0, 0)⟩) 1 ⟨W.Hext 0 nd1, W.Hst 0 nd1, V⟩ r 10 (by norm_num)
  obtain ⟨X, hX, -⟩ := hx M b hsys
  rw [(exA_run1 magN nd 0 _).2.2.2.2] at hsys
  refine ⟨X, fun D => ⟨?_, fun k Y _ _ => by rw [hpot]; rfl⟩⟩
  intro k Y s hatt hd hY
  have hk : k = 1 ∧ Y = X := by
    unfold exInpA at hY
    dsimp only at hY
    split_ifs at hY with hk
    exact ⟨hk, by injection hY with e; exact e.symm⟩
  obtain ⟨rfl, rfl⟩ := hk
  refine ⟨M, b, ?_, hX⟩
  have hs1 : s = run (exCfgA magN D) 0 nd (fun _ => (0, 0)) (exInpA r Y) 1 := by rw [← hpot nd]
  have e1 : attDt (exCfgA magN D) 0 s = 10 := by rw [hs1]; exact exA_att magN nd D (exInpA r Y)
  have e2 : s.nodes = nd1 := by rw [hs1]; exact (exA_run1 magN nd D (exInpA r Y)).2.2.2.2
  have e3 : s.t = 0 := by rw [hs1]; exact (exA_run1 magN nd D (exInpA r Y)).2.1
  rw [e1, e2, e3]
  exact hsys

/-- the two tetrahedrons of the example of C72, and one of air below with the additional node 5 -/
def exAirT : List Tet := [⟨![0, 1, 2, 3], 0⟩, ⟨![0, 2, 1, 5], 2⟩, ⟨![4, 1, 3, 2], 1⟩]

noncomputable def exAirNd : Fin 6 → Node := fun i =>
  if h : (i : ℕ) < 5 then exNd ⟨i, h⟩ else ⟨⟨0, 0, -1⟩, 0, 0, ⟨0, 0, 0, 0⟩, ⟨0, 0, 0, 0⟩⟩

/-- the example with a surface with anisotropy, which is between the magnet and the air, and a triangle that separates nothing -/
noncomputable abbrev exAirP (H : TriElem.Rule) : Problem :=
  regroup (exPs H) (exPs H).prm (fun r => if r = 0 then ⟨1, ⟨3 / 5, 0, 4 / 5⟩⟩ else ⟨0, 0⟩) (fun r => r != 2) exAirT
    [(⟨![0, 3, 4], 1⟩, 0), (⟨![0, 2, 1], 0⟩, 1)]

theorem exAir_start (H : TriElem.Rule) (D : ℝ) : Start (exAirP H) (exCfgA (fun i : Fin 6 => decide ((i : ℕ) < 5)) D) exAirNd where
  rule := Or.inr rfl
  valid := by
    show ∀ t ∈ exAirT, _
    decide
  oriented := by
    intro t ht
    rw [detJ_eq]
    change t ∈ exAirT at ht
    simp only [exAirT, List.mem_cons, List.not_mem_nil, or_false] at ht
    rcases ht with rfl | rfl | rfl <;> simp [MeshElem.nod4, Run.ext, exAirNd, exNd, MeshElem.exP2, V3.dot, V3.cross]
  magNode := by
    show ∀ i : Fin 6, decide ((i : ℕ) < 5) = true ↔ ∃ t ∈ exAirT, (t.reg != 2) = true ∧ ∃ k, t.ind k = i
    decide
  unit := by
    intro i hi
    have hi : (i : ℕ) < 5 := by simpa [exCfgA] using hi
    unfold exAirNd
    rw [dif_pos hi]
    exact (ex_start H D).unit _ rfl
  triValid := by
    intro f hf k
    simp only [List.mem_cons, List.not_mem_nil, or_false] at hf
    rcases hf with rfl | rfl <;> revert k <;> decide
  triMag := by
    intro f hf
    simp only [List.mem_cons, List.not_mem_nil, or_false] at hf
    rcases hf with rfl | rfl
    · change Tri.isMagnetic (magNode (fun r => r != 2) 6 exAirT) ⟨![0, 3, 4], 1⟩ = true
      decide
    · change Tri.isMagnetic (magNode (fun r => r != 2) 6 exAirT) ⟨![0, 2, 1], 0⟩ = true
      decide
  alpha := fun _ _ => by simp [exPs, Energy.ex2Prm]
  exchange := fun _ _ => by simp [exPs]
  magnetic := fun t _ => by
    simp only [exPs, Energy.ex2Prm]
    split_ifs <;> norm_num
  gamma0 := by norm_num [exCfgA]
  mu0 := by norm_num [exPs, Run.exP]
  theta := by norm_num [exPs, Run.exP]

theorem exAir_same (H : TriElem.Rule) : SameMagnet (exPs H).prm (exAirP H).prm (exPs H).mag (exAirP H).mag (exPs H).sprm
    (exAirP H).sprm (exPs H).tets (exAirP H).tets (exPs H).tris (exAirP H).tris where
  volumes := .cons ⟨rfl, rfl, rfl⟩ (.cons ⟨rfl, rfl, rfl⟩ .nil)
  surfaces := by
    refine ⟨[(⟨![0, 2, 1], 0⟩, 1)], [(⟨![0, 3, 4], 1⟩, 0)], List.Perm.swap _ _ _, .cons ⟨rfl, rfl, by simp [exPs]⟩ .nil, ?_⟩
    intro f hf
    rw [List.mem_singleton] at hf
    subst hf
    exact ⟨rfl, by simp⟩

/-- the hypotheses of `C100_run_partial` are met by a run that keeps a step and the run of the sample with air, with other random
angles; the magnetization is not uniform -/
example (H : TriElem.Rule) : ∃ D inp inp' W W', Start (exPs H) (exCfgA (fun _ : Fin 5 => true) D) exNd ∧
    Start (exAirP H) (exCfgA (fun i : Fin 6 => decide ((i : ℕ) < 5)) D) exAirNd ∧
    SameSettings (exCfgA (fun _ : Fin 5 => true) D) (exCfgA (fun i : Fin 6 => decide ((i : ℕ) < 5)) D) ∧
    SameState (by norm_num : 5 ≤ 6) (fun _ => true) exNd exAirNd ∧ Valid (exCfgA (fun _ : Fin 5 => true) D) ∧
    NoRecenter (exCfgA (fun _ : Fin 5 => true) D) ∧ NoRecenter (exCfgA (fun i : Fin 6 => decide ((i : ℕ) < 5)) D) ∧
    SameWorld (by norm_num : 5 ≤ 6) (fun _ => true) W W' ∧
    ExactRun (exPs H) (exCfgA (fun _ => true) D) W (fun _ => 0) 0 exNd inp ∧
    ExactRun (exAirP H) (exCfgA (fun i : Fin 6 => decide ((i : ℕ) < 5)) D) W' (fun _ => 0) 0 exAirNd inp' ∧
    (∀ k, (inp k).sig = (inp' k).sig) ∧ (∀ k, (inp k).sol = none ↔ (inp' k).sol = none) ∧ (inp 1).r ≠ (inp' 1).r ∧
    TimeLoop.Accepted (run (exCfgA (fun _ => true) D) 0 exNd (fun _ => (0, 0)) inp 1)
      (run (exCfgA (fun _ => true) D) 0 exNd (fun _ => (0, 0)) inp 2) ∧ (exNd 0).next.u ≠ (exNd 1).next.u := by
  let W : World 5 (exPs H) := ⟨fun _ _ _ _ => ⟨1, 0, 0⟩, fun _ _ _ _ => 0, fun _ _ => (0, 0)⟩
  let W' : World 6 (exAirP H) := ⟨fun _ _ _ _ => ⟨1, 0, 0⟩, fun _ _ _ _ => 0, fun _ _ => (0, 0)⟩
  have hs : ∀ D, Start (exPs H) (exCfgA (fun _ : Fin 5 => true) D) exNd := fun D => exs_start H D (ex_start H D)
  obtain ⟨X, hX⟩ := exA_exact (fun _ : Fin 5 => true) (exPs H) exNd hs W (fun _ => rfl) 0 0
  obtain ⟨X', hX'⟩ := exA_exact _ (exAirP H) exAirNd (exAir_start H) W' (fun _ => rfl) 0 1
  set D := 10 * vMax 1 (fun _ => true) X with hDdef
  have hD0 : 0 ≤ D := by rw [hDdef]; unfold vMax; positivity
  refine ⟨D, exInpA 0 X, exInpA 1 X', W, W', hs D, exAir_start H D, ⟨rfl, rfl, rfl, rfl, rfl, rfl, rfl, rfl⟩, ?_,
    ⟨by norm_num [exCfgA], by norm_num [exCfgA], by norm_num [exCfgA], hD0, fun t dt => by norm_num [exCfgA]⟩, fun _ => rfl,
    fun _ => rfl, ⟨fun _ _ _ _ _ _ _ _ _ => rfl, fun _ _ _ _ _ _ _ _ _ => rfl, fun _ _ _ _ _ => rfl⟩, hX D, hX' D, fun _ => rfl, ?_,
    by simp [exInpA], exq_accepted exNd 0 X D le_rfl, ?_⟩
  · intro i _
    have e : exAirNd (i.castLE (by norm_num)) = exNd i := dif_pos i.2
    rw [e]
    exact ⟨rfl, rfl, rfl⟩
  · intro k
    unfold exInpA
    dsimp only
    split_ifs <;> simp
  · intro h
    have := congrArg V3.x h
    simp [exNd] at this

end

end Verif.Surroundings
