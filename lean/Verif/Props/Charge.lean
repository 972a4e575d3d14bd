import Verif.Proofs.Charge

/-!
# C27: charge neutrality
-/

namespace Verif.MeshCheck

open Verif.Mesh Verif.Geom Verif.MeshElem

variable {π : Type}

open Classical in
/-- number of tetrahedrons having the triangle `f` as a face and lying behind it -/
noncomputable def behind (p : ℕ → V3) (tets : List Tet) (f : Tri) : ℕ :=
  (tets.map fun t => ∑ k : Fin 4,
    if face t k = verts f ∧ V3.dot (normalVect p f) (p (t.ind k) - p (f.ind 0)) < 0 then 1 else 0).sum

/-- elements do not overlap along a common face: on each side of a triangle there is at most one tetrahedron
having this triangle as a face (`f` ranges over all vertex orders) -/
def NoOverlap (p : ℕ → V3) (tets : List Tet) : Prop := ∀ f : Tri, behind p tets f ≤ 1

/-- the same triangle seen from the other side -/
def flip (f : Tri) : Tri := ⟨![f.ind 0, f.ind 2, f.ind 1], f.reg⟩

theorem flip_verts (f : Tri) : verts (flip f) = verts f := by
  unfold verts flip
  simp only [Matrix.cons_val_zero, Matrix.cons_val_one, Matrix.cons_val]
  congr 1
  exact Multiset.cons_swap _ _ _

theorem flip_normal (p : ℕ → V3) (f : Tri) (q : V3) :
    V3.dot (normalVect p (flip f)) (q - p ((flip f).ind 0)) = - V3.dot (normalVect p f) (q - p (f.ind 0)) := by
  unfold normalVect flip
  simp [V3.dot, V3.cross]
  ring

/-- a tetrahedron is never in the plane of one of its faces -/
theorem side_ne_zero (p : ℕ → V3) (t : Tet) (ht : 0 < mixedProd p t) (f : Tri) (k : Fin 4) (h : face t k = verts f) :
    V3.dot (normalVect p f) (p (t.ind k) - p (f.ind 0)) ≠ 0 := by
  have hd := mixedProd_distinct p t ht
  have hne : ∀ i j, i ≠ j → t.ind i ≠ t.ind j := fun i j h e => h (hd i j e)
  obtain ⟨o3, o0, o1, o2⟩ := orient_faces p t
  obtain ⟨f3, f0, f1, f2⟩ := face_eq t
  have go : ∀ a b c q, a ≠ b → b ≠ c → a ≠ c → ({a, b, c} : Multiset ℕ) = verts f → orient p a b c q = - mixedProd p t →
      V3.dot (normalVect p f) (q - p (f.ind 0)) ≠ 0 := by
    intro a b c q hab hbc hac he ho hz
    have hz' : orient p (f.ind 0) (f.ind 1) (f.ind 2) q = 0 := hz
    rcases flipped_normal p hab hbc hac he with ⟨_, _, h2⟩ | ⟨_, _, h2⟩ <;>
    · have := h2 q
      change orient p a b c q = _ at this
      simp only [hz'] at this
      linarith
  fin_cases k
  · exact go _ _ _ _ (hne _ _ (by decide)) (hne _ _ (by decide)) (hne _ _ (by decide)) (f0.symm.trans h) o0
  · exact go _ _ _ _ (hne _ _ (by decide)) (hne _ _ (by decide)) (hne _ _ (by decide)) (f1.symm.trans h) o1
  · exact go _ _ _ _ (hne _ _ (by decide)) (hne _ _ (by decide)) (hne _ _ (by decide)) (f2.symm.trans h) o2
  · exact go _ _ _ _ (hne _ _ (by decide)) (hne _ _ (by decide)) (hne _ _ (by decide)) (f3.symm.trans h) o3

theorem mem_incident {tets : List Tet} {s : Multiset ℕ} {r : ℕ} :
    r ∈ incident tets s ↔ ∃ t ∈ tets, ∃ k, face t k = s ∧ t.reg = r := by
  unfold incident
  induction tets with
  | nil => simp
  | cons t ts ih =>
    rw [List.map_cons, List.sum_cons, Multiset.mem_add, ih]
    have : r ∈ (∑ k : Fin 4, if face t k = s then ({t.reg} : Multiset ℕ) else 0) ↔ ∃ k, face t k = s ∧ t.reg = r := by
      rw [Multiset.mem_sum]
      constructor
      · rintro ⟨k, _, hk⟩
        split_ifs at hk with h
        · exact ⟨k, h, (Multiset.mem_singleton.mp hk).symm⟩
        · simp at hk
      · rintro ⟨k, h1, h2⟩
        exact ⟨k, Finset.mem_univ _, by rw [if_pos h1, h2]; simp⟩
    rw [this]
    simp

/-- the jump across a face inside a region is zero -/
theorem jump_inside (p : ℕ → V3) (Ms : ℕ → ℝ) (tets : List Tet) (tris : List Tri) (sorted : List BasicTri)
    (h : IsSortOf sorted (allTri tets tris)) (hpos : ∀ t ∈ tets, 0 < mixedProd p t) (hov : NoOverlap p tets) (f : Tri)
    (a : ℕ) (ha : incident tets (verts f) = {a, a}) : dMs Ms sorted f = 0 := by
  classical
  rw [C26_jump p Ms tets tris sorted h hpos f]
  have hreg : ∀ t ∈ tets, ∀ k, face t k = verts f → t.reg = a := by
    intro t ht k hk
    have : t.reg ∈ incident tets (verts f) := mem_incident.mpr ⟨t, ht, k, hk, rfl⟩
    rw [ha] at this
    simpa using this
  have e1 : ∀ ts : List Tet, (∀ t ∈ ts, t ∈ tets) → (ts.map fun t => ∑ k : Fin 4, if face t k = verts f then
      (if V3.dot (normalVect p f) (p (t.ind k) - p (f.ind 0)) < 0 then Ms t.reg else -Ms t.reg) else 0).sum =
      Ms a * ((behind p ts f : ℝ) - (behind p ts (flip f) : ℝ)) := by
    intro ts hts
    induction ts with
    | nil => simp [behind]
    | cons t ts ih =>
      rw [List.map_cons, List.sum_cons, ih fun t' h' => hts t' (List.mem_cons_of_mem _ h')]
      unfold behind
      simp only [List.map_cons, List.sum_cons, Nat.cast_add]
      have : (∑ k : Fin 4, if face t k = verts f then
          (if V3.dot (normalVect p f) (p (t.ind k) - p (f.ind 0)) < 0 then Ms t.reg else -Ms t.reg) else 0) =
          Ms a * (((∑ k : Fin 4, if face t k = verts f ∧ V3.dot (normalVect p f) (p (t.ind k) - p (f.ind 0)) < 0
            then 1 else 0 : ℕ) : ℝ) - ((∑ k : Fin 4, if face t k = verts (flip f) ∧
              V3.dot (normalVect p (flip f)) (p (t.ind k) - p ((flip f).ind 0)) < 0 then 1 else 0 : ℕ) : ℝ)) := by
        rw [Nat.cast_sum, Nat.cast_sum, ← Finset.sum_sub_distrib, Finset.mul_sum]
        refine Finset.sum_congr rfl fun k _ => ?_
        rw [flip_verts, flip_normal]
        by_cases hk : face t k = verts f
        · have ht : t ∈ tets := hts t (by simp)
          have hs := side_ne_zero p t (hpos t ht) f k hk
          rw [hreg t ht k hk]
          rcases lt_or_gt_of_ne hs with hs | hs
          · simp [hk, hs, not_lt.mpr hs.le]
          · simp [hk, hs, not_lt.mpr hs.le]
        · simp [hk]
      rw [this]
      ring
  have e2 : ∀ ts : List Tet, (∀ t ∈ ts, t ∈ tets) → behind p ts f + behind p ts (flip f) = (incident ts (verts f)).card := by
    intro ts hts
    induction ts with
    | nil => simp [behind, incident]
    | cons t ts ih =>
      have ih' := ih fun t' h' => hts t' (List.mem_cons_of_mem _ h')
      unfold behind incident at ih' ⊢
      simp only [List.map_cons, List.sum_cons, Multiset.card_add]
      rw [← ih', Multiset.card_sum]
      have : (∑ k : Fin 4, (if face t k = verts f then ({t.reg} : Multiset ℕ) else 0).card) =
          (∑ k : Fin 4, if face t k = verts f ∧ V3.dot (normalVect p f) (p (t.ind k) - p (f.ind 0)) < 0
            then 1 else 0) + (∑ k : Fin 4, if face t k = verts (flip f) ∧
              V3.dot (normalVect p (flip f)) (p (t.ind k) - p ((flip f).ind 0)) < 0 then 1 else 0) := by
        rw [← Finset.sum_add_distrib]
        refine Finset.sum_congr rfl fun k _ => ?_
        rw [flip_verts, flip_normal]
        by_cases hk : face t k = verts f
        · have ht : t ∈ tets := hts t (by simp)
          have hs := side_ne_zero p t (hpos t ht) f k hk
          rcases lt_or_gt_of_ne hs with hs | hs
          · simp [hk, hs, hs.le]
          · simp [hk, hs, hs.le, not_lt.mpr hs.le]
        · simp [hk]
      rw [this]
      ring
  have e2 := e2 tets fun _ h => h
  rw [ha] at e2
  have h1 := hov f
  have h2 := hov (flip f)
  have e3 : ({a, a} : Multiset ℕ).card = 2 := rfl
  rw [e3] at e2
  have h3 : behind p tets f = 1 := by omega
  have h4 : behind p tets (flip f) = 1 := by omega
  rw [e1 tets fun _ h => h, h3, h4]
  simp

/-- Gauss theorem on an accepted mesh: a quantity on the tetrahedrons which is `-c Ms` times the sum of `F` over their
oriented faces, plus a quantity on the triangles which is `c` times their jump times `F`, sums to zero -/
theorem gauss {F : ℕ → ℕ → ℕ → ℝ} (perm : Alternating F) (c : ℝ) (p : ℕ → V3) (Ms : ℕ → ℝ) (volName : ℕ → String) (nod : ℕ)
    (tets : List Tet) (tris : List Tri) (regs : List (SurfPrm π)) (sorted : List BasicTri) (suppress : ℕ → Bool)
    (h : IsSortOf sorted (allTri tets tris)) (r : Result ℝ π)
    (hr : control volName Ms tets tris regs sorted = some r)
    (hnod : ∀ t ∈ tets, ∀ i, t.ind i < nod) (hpos : ∀ t ∈ tets, 0 < mixedProd p t) (hov : NoOverlap p tets)
    (hMs : ∀ t ∈ tets, 0 ≤ Ms t.reg) (hsup : ∀ f ∈ r.tris, suppress f.1.reg = false) (mag : ℕ → Bool)
    (hmag : ∀ i, mag i = true ↔ 0 < Ms i) (onTet : Tet → ℝ) (onTri : Tri × ℝ → ℝ)
    (hT : ∀ t ∈ tets, onTet t = -c * ((faces t).map fun b => Ms b.reg * (sg b.flipped * kflux F b.nodes)).sum)
    (hF : ∀ f ∈ r.tris, onTri f = c * (f.2 * F (f.1.ind 0) (f.1.ind 1) (f.1.ind 2))) :
    ((magTet mag tets).map onTet).sum + ((magTriJ suppress (magNode mag nod tets) r.tris).map onTri).sum = 0 := by
  have h24 := C24_completed volName Ms tets tris regs sorted h r hr
  obtain ⟨hC, dflt, rest, toAdd, created, m, hrs, hta, hcr, htr, hrg⟩ := control_ok h hr
  have hj : ∀ f ∈ r.tris, f.2 = dMs Ms sorted f.1 := by
    intro f hf
    rw [htr] at hf
    obtain ⟨g, _, rfl⟩ := List.mem_map.mp hf
    rfl
  -- volume
  have e1 : ((magTet mag tets).map onTet).sum =
      -c * ((tets.flatMap faces).map (wflux Ms F)).sum := by
    clear hta h hr hov hnod h24 hC hj htr hcr hsup
    induction tets with
    | nil => simp [magTet]
    | cons t ts ih =>
      have ih' := ih (fun t' h' => hpos t' (List.mem_cons_of_mem _ h')) (fun t' h' => hMs t' (List.mem_cons_of_mem _ h'))
        (fun t' h' => hT t' (List.mem_cons_of_mem _ h'))
      rw [List.flatMap_cons, List.map_append, List.sum_append, mul_add, ← ih']
      by_cases hm : mag t.reg = true
      · have : magTet mag (t :: ts) = t :: magTet mag ts := List.filter_cons_of_pos hm
        rw [this, List.map_cons, List.sum_cons, hT t (by simp)]
        rfl
      · have : magTet mag (t :: ts) = magTet mag ts := List.filter_cons_of_neg hm
        rw [this]
        have h0 : Ms t.reg = 0 := le_antisymm (not_lt.mp (mt (hmag _).mpr hm)) (hMs t (by simp))
        have : ((faces t).map (wflux Ms F)).sum = 0 := by
          apply List.sum_eq_zero
          intro x hx
          obtain ⟨b, hb, rfl⟩ := List.mem_map.mp hx
          have hbr : b.reg = t.reg := by
            unfold faces at hb
            simp only [List.mem_cons, List.not_mem_nil, or_false] at hb
            rcases hb with rfl | rfl | rfl | rfl <;> rfl
          unfold wflux
          rw [hbr, h0, zero_mul]
        rw [this]
        ring
  -- triangles that carry no charge do not matter
  have e2 : ((magTriJ suppress (magNode mag nod tets) r.tris).map
        onTri).sum =
      (r.tris.map fun f => c * ((grp (tets.flatMap faces) (BasicTri.ofTri f.1).nodes).map (wflux Ms F)).sum).sum := by
    have key : ∀ f ∈ r.tris, onTri f =
        c * ((grp (tets.flatMap faces) (BasicTri.ofTri f.1).nodes).map (wflux Ms F)).sum := by
      intro f hf
      have hs : F (f.1.ind 0) (f.1.ind 1) (f.1.ind 2) =
          sg (BasicTri.ofTri f.1).flipped * kflux F (BasicTri.ofTri f.1).nodes := flux_eq perm _ _ _
      rw [hF f hf, hj f hf, hs, tri_gather Ms F h]
    have drop : ∀ f ∈ r.tris, (f.1.isMagnetic (magNode mag nod tets) && !suppress f.1.reg) = false → f.2 = 0 := by
      intro f hf hfil
      by_contra hne
      rw [hsup f hf] at hfil
      rw [hj f hf, C26_jump p Ms tets tris sorted h hpos] at hne
      have : ∃ t ∈ tets, ∃ k, face t k = verts f.1 ∧ Ms t.reg ≠ 0 := by
        by_contra hno
        push Not at hno
        apply hne
        apply List.sum_eq_zero
        intro x hx
        obtain ⟨t, ht, rfl⟩ := List.mem_map.mp hx
        apply Finset.sum_eq_zero
        intro k _
        split_ifs with h1 h2
        · exact hno t ht k h1
        · rw [hno t ht k h1, neg_zero]
        · rfl
      obtain ⟨t, ht, k, hk, hM⟩ := this
      have hm : mag t.reg = true := (hmag _).mpr (lt_of_le_of_ne (hMs t ht) hM.symm)
      have hnode : ∀ i, (magNode mag nod tets).getD (f.1.ind i) false = true := by
        intro i
        have hi : f.1.ind i ∈ verts f.1 := by unfold verts; fin_cases i <;> simp
        rw [← hk] at hi
        unfold face at hi
        obtain ⟨l, _, hl⟩ := Multiset.mem_map.mp hi
        rw [← hl]
        exact (magNode_iff mag nod tets _ (hnod t ht l)).mpr ⟨t, ht, hm, l, rfl⟩
      have : f.1.isMagnetic (magNode mag nod tets) = true := by
        unfold Tri.isMagnetic
        rw [hnode, hnode, hnode]
        rfl
      rw [this] at hfil
      simp at hfil
    have zero : ∀ f ∈ r.tris, f.2 = 0 →
        c * ((grp (tets.flatMap faces) (BasicTri.ofTri f.1).nodes).map (wflux Ms F)).sum = 0 := by
      intro f hf h0
      rw [← key f hf, hF f hf, h0]
      ring
    have : ∀ l : List (Tri × ℝ), (∀ f ∈ l, f ∈ r.tris) → ((magTriJ suppress (magNode mag nod tets) l).map
        onTri).sum =
      (l.map fun f => c * ((grp (tets.flatMap faces) (BasicTri.ofTri f.1).nodes).map (wflux Ms F)).sum).sum := by
      intro l hl
      induction l with
      | nil => rfl
      | cons f l ih =>
        have ih' := ih fun g hg => hl g (List.mem_cons_of_mem _ hg)
        have hf : f ∈ r.tris := hl f (by simp)
        rw [List.map_cons, List.sum_cons]
        by_cases hp' : (f.1.isMagnetic (magNode mag nod tets) && !suppress f.1.reg) = true
        · have : magTriJ suppress (magNode mag nod tets) (f :: l) = f :: magTriJ suppress (magNode mag nod tets) l :=
            List.filter_cons_of_pos hp'
          rw [this, List.map_cons, List.sum_cons, ih', key f hf]
        · have : magTriJ suppress (magNode mag nod tets) (f :: l) = magTriJ suppress (magNode mag nod tets) l :=
            List.filter_cons_of_neg hp'
          rw [this, ih', zero f hf (drop f hf (by simpa using hp')), zero_add]
    exact this r.tris fun _ h => h
  -- exchange the sums
  let cnt : Key → ℕ := fun k => r.tris.countP fun f => decide ((BasicTri.ofTri f.1).nodes = k)
  have e3 : (r.tris.map fun f => c * ((grp (tets.flatMap faces) (BasicTri.ofTri f.1).nodes).map (wflux Ms F)).sum).sum
      = c * ((tets.flatMap faces).map fun b => (cnt b.nodes : ℝ) * wflux Ms F b).sum := by
    rw [List.sum_map_mul_left]
    congr 1
    show (r.tris.map fun f => ((grp (tets.flatMap faces) (BasicTri.ofTri f.1).nodes).map (wflux Ms F)).sum).sum =
      ((tets.flatMap faces).map fun b => ((r.tris.countP fun f => decide ((BasicTri.ofTri f.1).nodes = b.nodes) : ℕ) : ℝ) *
        wflux Ms F b).sum
    generalize r.tris = l
    generalize tets.flatMap faces = A
    induction l with
    | nil => simp
    | cons f l ih =>
      rw [List.map_cons, List.sum_cons, ih]
      clear ih
      induction A with
      | nil => simp [grp]
      | cons b A ih =>
        rw [List.map_cons, List.sum_cons, List.map_cons, List.sum_cons, ← ih, List.countP_cons]
        unfold grp
        by_cases hb : (BasicTri.ofTri f.1).nodes = b.nodes
        · rw [List.filter_cons_of_pos (by simpa using hb.symm)]
          simp [hb]
          ring
        · rw [List.filter_cons_of_neg (by simpa using fun e => hb e.symm)]
          simp [hb]
          ring
  -- faces inside a region cancel
  have e4 : ((tets.flatMap faces).map fun b => (1 - (cnt b.nodes : ℝ)) * wflux Ms F b).sum = 0 := by
    apply sum_of_groups (fun b : BasicTri => b.nodes) _ _ _ (le_refl _)
    intro k
    by_cases hk : ∃ b ∈ tets.flatMap faces, b.nodes = k
    · obtain ⟨b, hb, rfl⟩ := hk
      have hkey : IsKey b.nodes := allTri_isKey tets tris b (List.mem_append_left _ hb)
      have e5 : ((tets.flatMap faces).filter fun x => decide (x.nodes = b.nodes)) = grp (tets.flatMap faces) b.nodes := rfl
      rw [e5]
      have e6 : ((grp (tets.flatMap faces) b.nodes).map fun x => (1 - (cnt x.nodes : ℝ)) * wflux Ms F x).sum =
          (1 - (cnt b.nodes : ℝ)) * ((grp (tets.flatMap faces) b.nodes).map (wflux Ms F)).sum := by
        rw [← List.sum_map_mul_left]
        congr 1
        apply List.map_congr_left
        intro x hx
        have : x.nodes = b.nodes := by simpa using (List.mem_filter.mp hx).2
        rw [this]
      rw [e6]
      have e7 : cnt b.nodes = r.tris.countP fun f => decide (verts f.1 = keyMs b.nodes) := by
        apply List.countP_congr
        intro f _
        simp only [decide_eq_true_eq]
        exact ofTri_nodes_eq f.1 hkey
      by_cases hbd : OnBoundary tets (keyMs b.nodes)
      · rw [e7, h24.2.1 _ hbd]
        simp
      · -- a triangle on this face
        have hv : verts ⟨![b.nodes.1, b.nodes.2.1, b.nodes.2.2], 0⟩ = keyMs b.nodes := rfl
        have hn := (ofTri_nodes_eq ⟨![b.nodes.1, b.nodes.2.1, b.nodes.2.2], 0⟩ hkey).mpr hv
        have hg := tri_gather Ms F h ⟨![b.nodes.1, b.nodes.2.1, b.nodes.2.2], 0⟩
        rw [hn] at hg
        rw [← hg]
        have hin : ∃ a, incident tets (keyMs b.nodes) = {a, a} := by
          have h1 : incident tets (keyMs b.nodes) ≠ 0 := by
            obtain ⟨t, ht, hbt⟩ := List.mem_flatMap.mp hb
            have : t.reg ∈ incident tets (keyMs b.nodes) := by
              obtain ⟨f3, f0, f1, f2⟩ := face_eq t
              unfold faces at hbt
              simp only [List.mem_cons, List.not_mem_nil, or_false] at hbt
              rw [mem_incident]
              rcases hbt with rfl | rfl | rfl | rfl
              · exact ⟨t, ht, 3, f3.trans (triple_perm _ _ _).symm, rfl⟩
              · exact ⟨t, ht, 0, f0.trans (triple_perm _ _ _).symm, rfl⟩
              · exact ⟨t, ht, 1, f1.trans (triple_perm _ _ _).symm, rfl⟩
              · exact ⟨t, ht, 2, f2.trans (triple_perm _ _ _).symm, rfl⟩
            intro e
            rw [e] at this
            simp at this
          have h2 := hC.atMostTwo (keyMs b.nodes)
          unfold OnBoundary at hbd
          revert h1 h2 hbd
          refine Quotient.inductionOn (incident tets (keyMs b.nodes)) fun l => ?_
          intro hbd h1 h2
          have h2' : l.length ≤ 2 := by simpa using h2
          rcases length_le_two_cases l h2' with rfl | ⟨a, rfl⟩ | ⟨a, c, rfl⟩
          · exact absurd rfl h1
          · exact absurd (Or.inl ⟨a, rfl⟩) hbd
          · by_cases hac : a = c
            · subst hac
              exact ⟨a, rfl⟩
            · exact absurd (Or.inr ⟨a, c, hac, rfl⟩) hbd
        obtain ⟨a, ha⟩ := hin
        rw [jump_inside p Ms tets tris sorted h hpos hov _ a (hv ▸ ha)]
        ring
    · have : ((tets.flatMap faces).filter fun x => decide (x.nodes = k)) = [] := by
        rw [List.filter_eq_nil_iff]
        intro x hx
        simp only [decide_eq_true_eq]
        exact fun e => hk ⟨x, hx, e⟩
      rw [this]
      rfl
  have e5 : ((tets.flatMap faces).map fun b => (1 - (cnt b.nodes : ℝ)) * wflux Ms F b).sum =
      ((tets.flatMap faces).map (wflux Ms F)).sum -
      ((tets.flatMap faces).map fun b => (cnt b.nodes : ℝ) * wflux Ms F b).sum := by
    generalize tets.flatMap faces = A
    induction A with
    | nil => simp
    | cons b A ih =>
      simp only [List.map_cons, List.sum_cons, ih]
      ring
  rw [e1, e2, e3]
  rw [e5] at e4
  linear_combination (-c) * e4

/-- **C27** The volume charges and the surface charges sum to zero for every magnetization field, on every mesh
accepted by the check whose elements do not overlap, whose magnetizations are not negative, and whose
surfaces keep their charges. -/
theorem C27_neutral (G : Tetra.Rule) (hG : Tetra.Compiled G) (H : TriElem.Rule)
    (hH : H = TriElem.rule1 ∨ H = TriElem.rule4) (p u : ℕ → V3) (Ms : ℕ → ℝ) (volName : ℕ → String) (nod : ℕ)
    (tets : List Tet) (tris : List Tri) (regs : List (SurfPrm π)) (sorted : List BasicTri) (suppress : ℕ → Bool)
    (h : IsSortOf sorted (allTri tets tris)) (r : Result ℝ π)
    (hr : control volName Ms tets tris regs sorted = some r)
    (hnod : ∀ t ∈ tets, ∀ i, t.ind i < nod) (hpos : ∀ t ∈ tets, 0 < mixedProd p t) (hov : NoOverlap p tets)
    (hMs : ∀ t ∈ tets, 0 ≤ Ms t.reg) (hsup : ∀ f ∈ r.tris, suppress f.1.reg = false) (mag : ℕ → Bool)
    (hmag : ∀ i, mag i = true ↔ 0 < Ms i) :
    totalCharge G H p Ms (magTet mag tets) (magTriJ suppress (magNode mag nod tets) r.tris) u = 0 := by
  have hHok : H.Ok := by
    rcases hH with rfl | rfl
    · exact TriElem.rule1_ok
    · exact TriElem.rule4_ok
  exact gauss (flux_alternating p u) (1 / 6) p Ms volName nod tets tris regs sorted suppress h r hr hnod hpos hov hMs hsup mag
    hmag _ _ (fun t ht => tet_charge hG.ok Ms p u t (hpos t ht)) fun f _ => tri_charge hHok f.2 p u f.1

/-! ## concrete case -/

/-- the two tetrahedrons of `exTets` do not overlap -/
theorem ex_noOverlap : NoOverlap exPos exTets := by
  classical
  intro f
  unfold behind exTets
  simp only [List.map_cons, List.map_nil, List.sum_cons, List.sum_nil, add_zero]
  have one : ∀ (t : Tet) (P : Fin 4 → Prop) [DecidablePred P], (∀ k k', face t k = face t k' → k = k') →
      (∑ k : Fin 4, if face t k = verts f ∧ P k then 1 else 0) ≤ 1 := by
    intro t P _ hinj
    have : (∑ k : Fin 4, if face t k = verts f ∧ P k then 1 else 0) =
        (Finset.univ.filter fun k => face t k = verts f ∧ P k).card := by rw [Finset.card_filter]
    rw [this, Finset.card_le_one]
    intro a ha b hb
    simp only [Finset.mem_filter, Finset.mem_univ, true_and] at ha hb
    exact hinj a b (ha.1.trans hb.1.symm)
  have zero : ∀ (t : Tet) (P : Fin 4 → Prop) [DecidablePred P], (∀ k, face t k = verts f → ¬ P k) →
      (∑ k : Fin 4, if face t k = verts f ∧ P k then 1 else 0) = 0 := by
    intro t P _ h
    apply Finset.sum_eq_zero
    intro k _
    rw [if_neg]
    rintro ⟨h1, h2⟩
    exact h k h1 h2
  have i1 := one ⟨![0, 1, 2, 3], 1⟩
    (fun k => V3.dot (normalVect exPos f) (exPos ((![0, 1, 2, 3] : Fin 4 → ℕ) k) - exPos (f.ind 0)) < 0) (by decide)
  have i2 := one ⟨![4, 1, 3, 2], 2⟩
    (fun k => V3.dot (normalVect exPos f) (exPos ((![4, 1, 3, 2] : Fin 4 → ℕ) k) - exPos (f.ind 0)) < 0) (by decide)
  by_cases hv : verts f = {1, 2, 3}
  · have hk1 : ∀ k, face ⟨![0, 1, 2, 3], 1⟩ k = verts f → k = 0 := by rw [hv]; decide
    have hk2 : ∀ k, face ⟨![4, 1, 3, 2], 2⟩ k = verts f → k = 0 := by rw [hv]; decide
    have hs : V3.dot (normalVect exPos f) (exPos 0 - exPos (f.ind 0)) * V3.dot (normalVect exPos f) (exPos 4 - exPos (f.ind 0)) < 0 := by
      have hv' : ({f.ind 0, f.ind 1, f.ind 2} : Multiset ℕ) = {1, 2, 3} := hv
      rcases multiset_three hv' with ⟨a, b, c⟩ | ⟨a, b, c⟩ | ⟨a, b, c⟩ | ⟨a, b, c⟩ | ⟨a, b, c⟩ | ⟨a, b, c⟩ <;>
        · unfold normalVect
          rw [a, b, c]
          norm_num [exPos, V3.dot, V3.cross]
    by_cases h0 : V3.dot (normalVect exPos f) (exPos 0 - exPos (f.ind 0)) < 0
    · have z := zero ⟨![4, 1, 3, 2], 2⟩
        (fun k => V3.dot (normalVect exPos f) (exPos ((![4, 1, 3, 2] : Fin 4 → ℕ) k) - exPos (f.ind 0)) < 0) (by
          intro k hk hneg
          rw [hk2 k hk] at hneg
          have hneg' : V3.dot (normalVect exPos f) (exPos 4 - exPos (f.ind 0)) < 0 := hneg
          nlinarith)
      linarith
    · have z := zero ⟨![0, 1, 2, 3], 1⟩
        (fun k => V3.dot (normalVect exPos f) (exPos ((![0, 1, 2, 3] : Fin 4 → ℕ) k) - exPos (f.ind 0)) < 0) (by
          intro k hk hneg
          rw [hk1 k hk] at hneg
          exact h0 hneg)
      linarith
  · have hdisj : (∀ k, face ⟨![0, 1, 2, 3], 1⟩ k ≠ verts f) ∨ (∀ k, face ⟨![4, 1, 3, 2], 2⟩ k ≠ verts f) := by
      by_contra hcon
      push Not at hcon
      obtain ⟨⟨k, hk⟩, k', hk'⟩ := hcon
      have h3 : face ⟨![0, 1, 2, 3], 1⟩ k = face ⟨![4, 1, 3, 2], 2⟩ k' := hk.trans hk'.symm
      have h4 : ∀ k k', face ⟨![0, 1, 2, 3], 1⟩ k = face ⟨![4, 1, 3, 2], 2⟩ k' → face ⟨![0, 1, 2, 3], 1⟩ k = {1, 2, 3} := by
        decide
      exact hv (hk.symm.trans (h4 k k' h3))
    rcases hdisj with hd | hd
    · have z := zero ⟨![0, 1, 2, 3], 1⟩
        (fun k => V3.dot (normalVect exPos f) (exPos ((![0, 1, 2, 3] : Fin 4 → ℕ) k) - exPos (f.ind 0)) < 0)
        (fun k hk => absurd hk (hd k))
      linarith
    · have z := zero ⟨![4, 1, 3, 2], 2⟩
        (fun k => V3.dot (normalVect exPos f) (exPos ((![4, 1, 3, 2] : Fin 4 → ℕ) k) - exPos (f.ind 0)) < 0)
        (fun k hk => absurd hk (hd k))
      linarith

/-- C27: all hypotheses hold on the mesh `exTets` with magnetizations 8 and 3 -/
example (u : ℕ → V3) : ∃ r, control exVol (fun i => (exMs i : ℝ)) exTets exTris exRegs (exSort exTets exTris) = some r ∧
    totalCharge Tetra.rule5 TriElem.rule4 exPos (fun i => (exMs i : ℝ)) (magTet (fun i => decide (0 < exMs i)) exTets)
      (magTriJ (fun _ => false) (magNode (fun i => decide (0 < exMs i)) 5 exTets) r.tris) u = 0 := by
  obtain ⟨r, hr⟩ := (C23_check_iff exVol (fun i => (exMs i : ℝ)) exTets exTris exRegs _ (exSort_ok _ _) rfl).mpr ex_consistent
  refine ⟨r, hr, C27_neutral _ (Or.inr rfl) _ (Or.inr rfl) _ _ _ _ _ _ _ _ _ _ (exSort_ok _ _) r hr ?_ exPos_pos
    ex_noOverlap ?_ (fun _ _ => rfl) _ ?_⟩
  · decide
  · intro t _
    show (0 : ℝ) ≤ (exMs t.reg : ℝ)
    unfold exMs
    split_ifs <;> norm_num
  · intro i
    simp

end Verif.MeshCheck
