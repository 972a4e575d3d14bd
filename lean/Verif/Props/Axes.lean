import Verif.Spec.Axes
import Verif.Props.Settings

/-!
# C103: directions in the settings are normalized
-/

namespace Verif.Settings

open Verif.Text

theorem gt_zero (x : ℝ) : (Fl.fin x).gt 0 ↔ 0 < x := by
  show ¬ (x ≤ 0) ↔ _
  exact not_le

/-- on finite vectors -/
theorem normalize_fin (x y z : ℝ) (h : x ≠ 0 ∨ y ≠ 0 ∨ z ≠ 0) :
    let r := Real.sqrt (x * x + y * y + z * z)
    0 < r ∧ eigenNormalize (.fin x, .fin y, .fin z) = (.fin (x / r), .fin (y / r), .fin (z / r)) := by
  intro r
  have hp : 0 < x * x + y * y + z * z := by
    rcases h with h | h | h
    · nlinarith [mul_self_pos.mpr h, mul_self_nonneg y, mul_self_nonneg z]
    · nlinarith [mul_self_pos.mpr h, mul_self_nonneg x, mul_self_nonneg z]
    · nlinarith [mul_self_pos.mpr h, mul_self_nonneg y, mul_self_nonneg x]
  have hr : 0 < r := Real.sqrt_pos.mpr hp
  refine ⟨hr, ?_⟩
  have hs : (Fl.fin (x * x + y * y + z * z)).sqrt = .fin r := if_neg (not_lt.mpr hp.le)
  have hd : ∀ a : ℝ, (Fl.fin a) / (.fin r) = .fin (a / r) := fun a => if_neg hr.ne'
  have hz : (Fl.fin x * Fl.fin x + Fl.fin y * Fl.fin y + Fl.fin z * Fl.fin z) = Fl.fin (x * x + y * y + z * z) := rfl
  unfold eigenNormalize
  dsimp only
  rw [hz, if_pos ((gt_zero _).mpr hp), hs, hd, hd, hd]

theorem normalize_unit (x y z : ℝ) (h : x ≠ 0 ∨ y ≠ 0 ∨ z ≠ 0) :
    UnitVec (eigenNormalize (.fin x, .fin y, .fin z)) ∧ Along x y z (eigenNormalize (.fin x, .fin y, .fin z)) := by
  obtain ⟨hr, e⟩ := normalize_fin x y z h
  set r := Real.sqrt (x * x + y * y + z * z) with hrd
  have hsq : r ^ 2 = x * x + y * y + z * z := Real.sq_sqrt (by nlinarith [mul_self_nonneg x, mul_self_nonneg y, mul_self_nonneg z])
  refine ⟨⟨_, _, _, e, ?_⟩, 1 / r, by positivity, ?_⟩
  · field_simp
    linarith
  · rw [e]
    rw [div_mul_eq_mul_div, div_mul_eq_mul_div, div_mul_eq_mul_div, one_mul, one_mul, one_mul]

theorem normalize_zero : eigenNormalize (.fin 0, .fin 0, .fin 0) = (.fin 0, .fin 0, .fin 0) := by
  have hz : (Fl.fin 0 * Fl.fin 0 + Fl.fin 0 * Fl.fin 0 + Fl.fin 0 * Fl.fin 0) = Fl.fin (0 * 0 + 0 * 0 + 0 * 0) := rfl
  unfold eigenNormalize
  dsimp only
  rw [hz, if_neg]
  rw [gt_zero]
  norm_num

/-- normalization does not make an infinite or NaN vector finite -/
theorem normalize_notFinite {v : Fl × Fl × Fl} (h : NotFinite v) : NotFinite (eigenNormalize v) := by
  obtain ⟨a, b, c⟩ := v
  unfold eigenNormalize
  dsimp only
  split_ifs with hz
  · have key : ∀ t r : Fl, ¬ t.IsFin → (t / r).IsFin → False := by
      intro t r ht hf
      cases t with
      | fin x => exact ht trivial
      | nan => cases r <;> exact hf
      | inf s => cases r <;> exact hf
    rcases h with h | h | h
    · exact Or.inl fun hf => key _ _ h hf
    · exact Or.inr (Or.inl fun hf => key _ _ h hf)
    · exact Or.inr (Or.inr fun hf => key _ _ h hf)
  · exact h

theorem normalize_cases (v : Fl × Fl × Fl) :
    UnitVec (eigenNormalize v) ∨ ZeroVec (eigenNormalize v) ∨ NotFinite (eigenNormalize v) := by
  by_cases hn : NotFinite v
  · exact Or.inr (Or.inr (normalize_notFinite hn))
  · unfold NotFinite at hn
    push Not at hn
    obtain ⟨h1, h2, h3⟩ := hn
    obtain ⟨a, b, c⟩ := v
    cases a with
    | nan => cases h1
    | inf _ => cases h1
    | fin x =>
      cases b with
      | nan => cases h2
      | inf _ => cases h2
      | fin y =>
        cases c with
        | nan => cases h3
        | inf _ => cases h3
        | fin z =>
          by_cases h : x ≠ 0 ∨ y ≠ 0 ∨ z ≠ 0
          · exact Or.inl (normalize_unit x y z h).1
          · push Not at h
            obtain ⟨rfl, rfl, rfl⟩ := h
            exact Or.inr (Or.inl normalize_zero)

/-- what `assign` does to a direction -/
theorem assignVec_cases {D : Type} {C : Conv D} {old v : D × D × D} {y : Yaml} {k : String} {n : Option Yaml} (hn : y.get k.toList = some n)
    (h : assignVec C true old n = some v) : v = old ∨ ∃ u, Gives C y k u ∧ v = C.normalize u := by
  unfold assignVec at h
  split at h
  · injection h with h
    exact Or.inl h.symm
  · rename_i a b c hp
    obtain ⟨x, hx, h⟩ := bind_some h
    obtain ⟨w, hw, h⟩ := bind_some h
    obtain ⟨z, hz, h⟩ := bind_some h
    injection h with hv
    have e : n = some (.seq [a, b, c]) := by
      unfold present at hp
      split at hp
      · cases hp
      · exact hp
    have sc : ∀ {t : Yaml} {d : D}, asScalar C.toD t = some d → ∃ s, t = .scalar s ∧ C.toD s = some d := by
      intro t d ht
      cases t with
      | scalar s => exact ⟨s, rfl, ht⟩
      | null => cases ht
      | seq _ => cases ht
      | map _ => cases ht
    obtain ⟨sa, rfl, ha⟩ := sc hx
    obtain ⟨sb, rfl, hb⟩ := sc hw
    obtain ⟨sc', rfl, hc⟩ := sc hz
    exact Or.inr ⟨(x, w, z), ⟨sa, sb, sc', by rw [get_at hn, e], ha, hb, hc⟩, hv.symm⟩
  · cases h

theorem gives_unique {D : Type} {C : Conv D} {y : Yaml} {k : String} {u v : D × D × D} (h : Gives C y k u) (h' : Gives C y k v) : u = v := by
  obtain ⟨a, b, c, e, ha, hb, hc⟩ := h
  obtain ⟨a', b', c', e', ha', hb', hc'⟩ := h'
  rw [e] at e'
  simp only [Option.some.injEq, Yaml.seq.injEq, List.cons.injEq, Yaml.scalar.injEq, and_true] at e'
  obtain ⟨rfl, rfl, rfl⟩ := e'
  rw [ha] at ha'
  rw [hb] at hb'
  rw [hc] at hc'
  injection ha' with ha'
  injection hb' with hb'
  injection hc' with hc'
  exact Prod.ext ha' (Prod.ext hb' hc')

/-- a direction that is given is taken -/
theorem assignVec_given {D : Type} {C : Conv D} {old v u : D × D × D} {y : Yaml} {k : String} {n : Option Yaml} (hn : y.get k.toList = some n)
    (h : assignVec C true old n = some v) (hu : Gives C y k u) : v = C.normalize u := by
  obtain ⟨a, b, c, e, ha, hb, hc⟩ := hu
  obtain ⟨x, w, z, h1, h2, h3, h4⟩ := vec_given hn h a b c e
  rw [ha] at h1
  rw [hb] at h2
  rw [hc] at h3
  injection h1 with h1
  injection h2 with h2
  injection h3 with h3
  rw [h4, ← h1, ← h2, ← h3]

theorem readVolume_axes {D : Type} {C : Conv D} {p q : TetraPrm D} {name : Str} {y : Yaml} (h : readVolume C p name y = some q) :
    ∀ a ∈ volAxes, ∃ n, y.get a.1.toList = some n ∧ assignVec C true (a.2 p) n = some (a.2 q) := by
  unfold readVolume at h
  obtain ⟨n1, g1, h⟩ := bind_some h
  obtain ⟨a1, r1, h⟩ := bind_some h
  obtain ⟨n2, g2, h⟩ := bind_some h
  obtain ⟨a2, r2, h⟩ := bind_some h
  obtain ⟨n3, g3, h⟩ := bind_some h
  obtain ⟨a3, r3, h⟩ := bind_some h
  split at h
  · cases h
  obtain ⟨n4, g4, h⟩ := bind_some h
  obtain ⟨a4, r4, h⟩ := bind_some h
  obtain ⟨n5, g5, h⟩ := bind_some h
  obtain ⟨a5, r5, h⟩ := bind_some h
  obtain ⟨n6, g6, h⟩ := bind_some h
  obtain ⟨a6, r6, h⟩ := bind_some h
  obtain ⟨n7, g7, h⟩ := bind_some h
  obtain ⟨a7, r7, h⟩ := bind_some h
  obtain ⟨n8, g8, h⟩ := bind_some h
  obtain ⟨a8, r8, h⟩ := bind_some h
  obtain ⟨n9, g9, h⟩ := bind_some h
  obtain ⟨a9, r9, h⟩ := bind_some h
  obtain ⟨n10, g10, h⟩ := bind_some h
  obtain ⟨a10, r10, h⟩ := bind_some h
  obtain ⟨n11, g11, h⟩ := bind_some h
  obtain ⟨a11, r11, h⟩ := bind_some h
  obtain ⟨n12, g12, h⟩ := bind_some h
  obtain ⟨a12, r12, h⟩ := bind_some h
  obtain ⟨n13, g13, h⟩ := bind_some h
  obtain ⟨a13, r13, h⟩ := bind_some h
  obtain ⟨n14, g14, h⟩ := bind_some h
  obtain ⟨a14, r14, h⟩ := bind_some h
  obtain ⟨n15, g15, h⟩ := bind_some h
  obtain ⟨a15, r15, h⟩ := bind_some h
  injection h with h
  subst h
  intro a ha
  simp only [volAxes, List.mem_cons, List.not_mem_nil, or_false] at ha
  rcases ha with rfl | rfl | rfl | rfl
  · exact ⟨n5, g5, r5⟩
  · exact ⟨n7, g7, r7⟩
  · exact ⟨n8, g8, r8⟩
  · exact ⟨n9, g9, r9⟩

theorem readSurface_axes {D : Type} {C : Conv D} {p q : TriPrm D} {name : Str} {y : Yaml} (h : readSurface C p name y = some q) :
    (∃ n, y.get "uk".toList = some n ∧ assignVec C true p.uk n = some q.uk) ∧
    ∃ n, y.get "uP".toList = some n ∧ assignVec C true (C.nan, C.nan, C.nan) n = some q.uP := by
  unfold readSurface at h
  obtain ⟨n1, g1, h⟩ := bind_some h
  obtain ⟨a1, r1, h⟩ := bind_some h
  obtain ⟨n2, g2, h⟩ := bind_some h
  obtain ⟨a2, r2, h⟩ := bind_some h
  obtain ⟨n3, g3, h⟩ := bind_some h
  obtain ⟨a3, r3, h⟩ := bind_some h
  obtain ⟨n4, g4, h⟩ := bind_some h
  obtain ⟨a4, r4, h⟩ := bind_some h
  obtain ⟨n5, g5, h⟩ := bind_some h
  obtain ⟨a5, r5, h⟩ := bind_some h
  split at h
  · cases h
  obtain ⟨n6, g6, h⟩ := bind_some h
  obtain ⟨a6, r6, h⟩ := bind_some h
  obtain ⟨n7, g7, h⟩ := bind_some h
  obtain ⟨a7, r7, h⟩ := bind_some h
  injection h with h
  subst h
  exact ⟨⟨n3, g3, r3⟩, n6, g6, r6⟩

/-- **C103** (one region) A direction given by finite components, not all zero, is stored as the unit vector of this direction. -/
theorem C103_volume {C : Conv Fl} (hC : C.normalize = eigenNormalize) {p q : TetraPrm Fl} {name : Str} {y : Yaml}
    (h : readVolume C p name y = some q) : ∀ a ∈ volAxes, ∀ x v z : ℝ, Gives C y a.1 (.fin x, .fin v, .fin z) → (x ≠ 0 ∨ v ≠ 0 ∨ z ≠ 0) →
      UnitVec (a.2 q) ∧ Along x v z (a.2 q) := by
  intro a ha x v z hg h0
  obtain ⟨n, hn, hr⟩ := readVolume_axes h a ha
  rw [assignVec_given hn hr hg, hC]
  exact normalize_unit x v z h0

theorem C103_surface {C : Conv Fl} (hC : C.normalize = eigenNormalize) {p q : TriPrm Fl} {name : Str} {y : Yaml}
    (h : readSurface C p name y = some q) : ∀ a ∈ surfAxes, ∀ x v z : ℝ, Gives C y a.1 (.fin x, .fin v, .fin z) → (x ≠ 0 ∨ v ≠ 0 ∨ z ≠ 0) →
      UnitVec (a.2 q) ∧ Along x v z (a.2 q) := by
  intro a ha x v z hg h0
  obtain ⟨⟨n, hn, hr⟩, n', hn', hr'⟩ := readSurface_axes h
  simp only [surfAxes, List.mem_cons, List.not_mem_nil, or_false] at ha
  rcases ha with rfl | rfl
  · show UnitVec q.uk ∧ Along x v z q.uk
    rw [assignVec_given hn hr hg, hC]
    exact normalize_unit x v z h0
  · show UnitVec q.uP ∧ Along x v z q.uP
    rw [assignVec_given hn' hr' hg, hC]
    exact normalize_unit x v z h0

/-- the length of the vector in the file does not matter -/
theorem C103_length (x y z k : ℝ) (hk : 0 < k) : eigenNormalize (.fin (k * x), .fin (k * y), .fin (k * z)) = eigenNormalize (.fin x, .fin y, .fin z) := by
  by_cases h : x ≠ 0 ∨ y ≠ 0 ∨ z ≠ 0
  · have h' : k * x ≠ 0 ∨ k * y ≠ 0 ∨ k * z ≠ 0 := by
      rcases h with h | h | h
      · exact Or.inl (mul_ne_zero hk.ne' h)
      · exact Or.inr (Or.inl (mul_ne_zero hk.ne' h))
      · exact Or.inr (Or.inr (mul_ne_zero hk.ne' h))
    rw [(normalize_fin x y z h).2, (normalize_fin _ _ _ h').2]
    have e : Real.sqrt (k * x * (k * x) + k * y * (k * y) + k * z * (k * z)) = k * Real.sqrt (x * x + y * y + z * z) := by
      rw [show k * x * (k * x) + k * y * (k * y) + k * z * (k * z) = k ^ 2 * (x * x + y * y + z * z) by ring, Real.sqrt_mul (by positivity),
        Real.sqrt_sq hk.le]
    rw [e, mul_div_mul_left _ _ hk.ne', mul_div_mul_left _ _ hk.ne', mul_div_mul_left _ _ hk.ne']
  · push Not at h
    obtain ⟨rfl, rfl, rfl⟩ := h
    simp

theorem forall2_mem {α β : Type} {R : α → β → Prop} {l : List α} {m : List β} (h : List.Forall₂ R l m) : ∀ b ∈ m, ∃ a ∈ l, R a b := by
  induction h with
  | nil => intro b hb; cases hb
  | cons hr _ ih =>
    intro b hb
    rcases List.mem_cons.mp hb with rfl | hb
    · exact ⟨_, List.mem_cons_self, hr⟩
    · obtain ⟨a, ha, hr'⟩ := ih b hb
      exact ⟨a, List.mem_cons_of_mem _ ha, hr'⟩

theorem regionsOf_eq {y y' : Yaml} {k : String} {n m : Option Yaml} {l : List (Str × Yaml)} (h : y.get "mesh".toList = some n)
    (hp : present n = some y') (h2 : y'.get k.toList = some m) (hm : present m = some (.map l)) : regionsOf (some y) k = l := by
  have e : m = some (.map l) := by
    unfold present at hm
    split at hm
    · cases hm
    · exact hm
  unfold regionsOf
  dsimp only
  rw [at_two h hp h2, e]

/-- an invariant of the directions of the volume regions -/
theorem volumes_keep {D : Type} {C : Conv D} {Q : D × D × D → Prop} (files : List (Option Yaml)) {s s' : All D} (h : readFiles C s files = some s')
    (hgive : ∀ f ∈ files, ∀ e ∈ regionsOf f "volume_regions", ∀ a ∈ volAxes (D := D), ∀ u, Gives C e.2 a.1 u → Q (C.normalize u))
    (hd : (findTetra "__default__".toList s.mesh.tetra).isSome ∨ Q (C.nan, C.nan, C.nan))
    (hs : ∀ p ∈ s.mesh.tetra, ∀ a ∈ volAxes, Q (a.2 p)) : ∀ p ∈ s'.mesh.tetra, ∀ a ∈ volAxes, Q (a.2 p) := by
  induction files generalizing s with
  | nil => injection h with h; subst h; exact hs
  | cons f fs ih =>
    obtain ⟨⟨s1, b⟩, h1, h2⟩ := bind_some h
    have hgive' : ∀ f ∈ fs, ∀ e ∈ regionsOf f "volume_regions", ∀ a ∈ volAxes (D := D), ∀ u, Gives C e.2 a.1 u → Q (C.normalize u) :=
      fun f hf => hgive f (List.mem_cons_of_mem _ hf)
    rcases readFile_inv h1 with ⟨rfl, _⟩ | ⟨y, rfl, hr⟩
    · exact ih h2 hgive' hd hs
    · obtain ⟨n, g, r⟩ := (read_inv hr).mesh
      rcases mesh_inv r with ⟨-, e⟩ | ⟨y', hp, -, -, ⟨m1, g1, hv⟩, -⟩
      · exact ih h2 hgive' (by rw [e]; exact hd) (by rw [e]; exact hs)
      · unfold readVolumeRegions at hv
        split at hv
        · injection hv with hv
          exact ih h2 hgive' (by rw [← hv]; exact hd) (by rw [← hv]; exact hs)
        · rename_i l hl
          have hl' := regionsOf_eq g hp g1 hl
          obtain ⟨new, e, hf⟩ := readVolumes_prefix _ _ _ hv
          refine ih h2 hgive' ?_ ?_
          · rcases hd with hd | hd
            · obtain ⟨d, hd⟩ := Option.isSome_iff_exists.mp hd
              refine Or.inl (Option.isSome_iff_exists.mpr ⟨d, ?_⟩)
              rw [e]
              exact find_append _ _ _ _ hd
            · exact Or.inr hd
          · have hbase : ∀ a ∈ volAxes, Q (a.2 ((findTetra "__default__".toList s.mesh.tetra).getD (blankTetra C))) := by
              cases hc : findTetra "__default__".toList s.mesh.tetra with
              | some d => exact hs d (List.mem_of_find?_eq_some hc)
              | none =>
                rw [hc] at hd
                have hq : Q (C.nan, C.nan, C.nan) := by
                  rcases hd with hd | hd
                  · cases hd
                  · exact hd
                intro a ha
                simp only [volAxes, List.mem_cons, List.not_mem_nil, or_false] at ha
                rcases ha with rfl | rfl | rfl | rfl <;> exact hq
            rw [e]
            intro p hpm a ha
            rcases List.mem_append.mp hpm with hpm | hpm
            · exact hs p hpm a ha
            · obtain ⟨en, hen, hrv⟩ := forall2_mem hf p hpm
              obtain ⟨nn, gn, ra⟩ := readVolume_axes hrv a ha
              rcases assignVec_cases gn ra with hh | ⟨u, hu, hh⟩
              · rw [hh]; exact hbase a ha
              · rw [hh]
                exact hgive _ List.mem_cons_self en (by rw [hl']; exact hen) a ha u hu
        · cases hv

/-- the same for the anisotropy axis of the surface regions -/
theorem surfaces_keep {D : Type} {C : Conv D} {Q R : D × D × D → Prop} (files : List (Option Yaml)) {s s' : All D} (h : readFiles C s files = some s')
    (hgive : ∀ f ∈ files, ∀ e ∈ regionsOf f "surface_regions", ∀ u, Gives C e.2 "uk" u → Q (C.normalize u))
    (hgiveP : ∀ f ∈ files, ∀ e ∈ regionsOf f "surface_regions", ∀ u, Gives C e.2 "uP" u → R (C.normalize u))
    (hn : R (C.nan, C.nan, C.nan))
    (hd : (findTri "__default__".toList s.mesh.tri).isSome ∨ Q (C.nan, C.nan, C.nan))
    (hs : ∀ p ∈ s.mesh.tri, Q p.uk ∧ R p.uP) : ∀ p ∈ s'.mesh.tri, Q p.uk ∧ R p.uP := by
  induction files generalizing s with
  | nil => injection h with h; subst h; exact hs
  | cons f fs ih =>
    obtain ⟨⟨s1, b⟩, h1, h2⟩ := bind_some h
    have hgive' : ∀ f ∈ fs, ∀ e ∈ regionsOf f "surface_regions", ∀ u, Gives C e.2 "uk" u → Q (C.normalize u) :=
      fun f hf => hgive f (List.mem_cons_of_mem _ hf)
    have hgiveP' : ∀ f ∈ fs, ∀ e ∈ regionsOf f "surface_regions", ∀ u, Gives C e.2 "uP" u → R (C.normalize u) :=
      fun f hf => hgiveP f (List.mem_cons_of_mem _ hf)
    rcases readFile_inv h1 with ⟨rfl, _⟩ | ⟨y, rfl, hr⟩
    · exact ih h2 hgive' hgiveP' hd hs
    · obtain ⟨n, g, r⟩ := (read_inv hr).mesh
      rcases mesh_inv r with ⟨-, e⟩ | ⟨y', hp, -, -, -, ⟨m1, g1, hv⟩⟩
      · exact ih h2 hgive' hgiveP' (by rw [e]; exact hd) (by rw [e]; exact hs)
      · unfold readSurfaceRegions at hv
        split at hv
        · injection hv with hv
          exact ih h2 hgive' hgiveP' (by rw [← hv]; exact hd) (by rw [← hv]; exact hs)
        · rename_i l hl
          have hl' := regionsOf_eq g hp g1 hl
          obtain ⟨new, e, hf⟩ := readSurfaces_prefix _ _ _ hv
          refine ih h2 hgive' hgiveP' ?_ ?_
          · rcases hd with hd | hd
            · obtain ⟨d, hd⟩ := Option.isSome_iff_exists.mp hd
              refine Or.inl (Option.isSome_iff_exists.mpr ⟨d, ?_⟩)
              rw [e]
              exact find_append _ _ _ _ hd
            · exact Or.inr hd
          · have hbase : Q ((findTri "__default__".toList s.mesh.tri).getD (blankTri C)).uk := by
              cases hc : findTri "__default__".toList s.mesh.tri with
              | some d => exact (hs d (List.mem_of_find?_eq_some hc)).1
              | none =>
                rw [hc] at hd
                rcases hd with hd | hd
                · cases hd
                · exact hd
            rw [e]
            intro p hpm
            rcases List.mem_append.mp hpm with hpm | hpm
            · exact hs p hpm
            · obtain ⟨en, hen, hrv⟩ := forall2_mem hf p hpm
              have hen' : en ∈ regionsOf (some y) "surface_regions" := by rw [hl']; exact hen
              obtain ⟨⟨nn, gn, ra⟩, n', gn', ra'⟩ := readSurface_axes hrv
              constructor
              · rcases assignVec_cases gn ra with hh | ⟨u, hu, hh⟩
                · rw [hh]; exact hbase
                · rw [hh]
                  exact hgive _ List.mem_cons_self en hen' u hu
              · rcases assignVec_cases gn' ra' with hh | ⟨u, hu, hh⟩
                · rw [hh]; exact hn
                · rw [hh]
                  exact hgiveP _ List.mem_cons_self en hen' u hu
        · cases hv

/-- **C103** (volumes) If the default region exists with unit directions and every file gives only vectors with finite components, not all zero,
then after any number of files every direction of every volume region is a unit vector. -/
theorem C103_volumes_partial {C : Conv Fl} (hC : C.normalize = eigenNormalize) (files : List (Option Yaml)) {s s' : All Fl}
    (h : readFiles C s files = some s') (hd : (findTetra "__default__".toList s.mesh.tetra).isSome)
    (hs : ∀ p ∈ s.mesh.tetra, ∀ a ∈ volAxes, UnitVec (a.2 p))
    (hp : ProperAxes C files "volume_regions" ["uk", "ex", "ey", "ez"]) : ∀ p ∈ s'.mesh.tetra, ∀ a ∈ volAxes, UnitVec (a.2 p) := by
  refine volumes_keep files h ?_ (Or.inl hd) hs
  intro f hf e he a ha u hu
  have hk : a.1 ∈ ["uk", "ex", "ey", "ez"] := by
    simp only [volAxes, List.mem_cons, List.not_mem_nil, or_false] at ha
    rcases ha with rfl | rfl | rfl | rfl <;> simp
  obtain ⟨x, y, z, rfl, h0⟩ := hp f hf e he a.1 hk u hu
  rw [hC]
  exact (normalize_unit x y z h0).1

/-- **C103** (surfaces) The same for surface regions: the anisotropy axis is a unit vector, the polarization is a unit vector or not set (NaN). -/
theorem C103_surfaces_partial {C : Conv Fl} (hC : C.normalize = eigenNormalize) (hnan : C.nan = .nan) (files : List (Option Yaml)) {s s' : All Fl}
    (h : readFiles C s files = some s') (hd : (findTri "__default__".toList s.mesh.tri).isSome)
    (hs : ∀ p ∈ s.mesh.tri, UnitVec p.uk ∧ (UnitVec p.uP ∨ p.uP = (.nan, .nan, .nan)))
    (hp : ProperAxes C files "surface_regions" ["uk", "uP"]) :
    ∀ p ∈ s'.mesh.tri, UnitVec p.uk ∧ (UnitVec p.uP ∨ p.uP = (.nan, .nan, .nan)) := by
  refine surfaces_keep (R := fun v => UnitVec v ∨ v = (.nan, .nan, .nan)) files h ?_ ?_ (Or.inr (by rw [hnan])) (Or.inl hd) hs
  · intro f hf e he u hu
    obtain ⟨x, y, z, rfl, h0⟩ := hp f hf e he "uk" (by simp) u hu
    rw [hC]
    exact (normalize_unit x y z h0).1
  · intro f hf e he u hu
    obtain ⟨x, y, z, rfl, h0⟩ := hp f hf e he "uP" (by simp) u hu
    rw [hC]
    exact Or.inl (normalize_unit x y z h0).1

/-- **C103** (any input) Without a condition on the files: a direction is a unit vector, zero, or not finite. -/
theorem C103_any {C : Conv Fl} (hC : C.normalize = eigenNormalize) (hnan : C.nan = .nan) (files : List (Option Yaml)) {s s' : All Fl}
    (h : readFiles C s files = some s') (h0 : s.mesh.tetra = []) :
    ∀ p ∈ s'.mesh.tetra, ∀ a ∈ volAxes, UnitVec (a.2 p) ∨ ZeroVec (a.2 p) ∨ NotFinite (a.2 p) := by
  refine volumes_keep (Q := fun v => UnitVec v ∨ ZeroVec v ∨ NotFinite v) files h ?_ (Or.inr (Or.inr (Or.inr (Or.inl ?_)))) ?_
  · intro f _ e _ a _ u _
    rw [hC]
    exact normalize_cases u
  · rw [hnan]
    exact id
  · rw [h0]
    intro p hp
    cases hp

theorem dot_fin (a b c x y z : ℝ) : flDot (.fin a, .fin b, .fin c) (.fin x, .fin y, .fin z) = .fin (a * x + b * y + c * z) := rfl

theorem small_fin (t x : ℝ) : (Fl.fin t).gt (Fl.fin x).abs ↔ |x| < t := by
  show ¬ (t ≤ |x|) ↔ _
  exact not_le

/-- **C103** (warning) Finite cubic axes: there is no warning exactly when the three dot products are smaller than the tolerance. -/
theorem C103_warning (p : TetraPrm Fl) (tol : ℝ) (a b c : Fin 3 → ℝ) (hx : p.ex = (.fin (a 0), .fin (a 1), .fin (a 2)))
    (hy : p.ey = (.fin (b 0), .fin (b 1), .fin (b 2))) (hz : p.ez = (.fin (c 0), .fin (c 1), .fin (c 2))) :
    warns p tol = false ↔ |∑ i, a i * b i| < tol ∧ |∑ i, b i * c i| < tol ∧ |∑ i, c i * a i| < tol := by
  unfold warns isOrthogonal
  dsimp only
  rw [hx, hy, hz, dot_fin, dot_fin, dot_fin]
  simp only [small_fin, Bool.not_eq_false', Bool.and_eq_true, decide_eq_true_eq, Fin.sum_univ_three, and_assoc]

/-- an axis that is not a number gives a warning -/
theorem C103_warning_nan (p : TetraPrm Fl) (tol : ℝ) (h : p.ex.1 = .nan ∨ p.ey.1 = .nan) : warns p tol = true := by
  have hn : ∀ u v : Fl × Fl × Fl, u.1 = .nan ∨ v.1 = .nan → ¬ (Fl.fin tol).gt (flDot u v).abs := by
    intro u v huv
    have e : flDot u v = .nan := by
      obtain ⟨u1, u2, u3⟩ := u
      obtain ⟨v1, v2, v3⟩ := v
      have e1 : u1 * v1 = .nan := by
        rcases huv with e | e
        · have e : u1 = .nan := e
          subst e; cases v1 <;> rfl
        · have e : v1 = .nan := e
          subst e; cases u1 <;> rfl
      have add : ∀ t : Fl, Fl.nan + t = .nan := fun t => by cases t <;> rfl
      show u1 * v1 + u2 * v2 + u3 * v3 = _
      rw [e1, add, add]
    rw [e]
    exact id
  have e := hn _ _ h
  simp [warns, isOrthogonal, e]

/-- **C103** (negation) A direction given as zero is accepted and stays zero. -/
theorem C103_negation_zero {C : Conv Fl} (hC : C.normalize = eigenNormalize) {p q : TetraPrm Fl} {name : Str} {y : Yaml}
    (h : readVolume C p name y = some q) : ∀ a ∈ volAxes, Gives C y a.1 (.fin 0, .fin 0, .fin 0) → ZeroVec (a.2 q) ∧ ¬ UnitVec (a.2 q) := by
  intro a ha hg
  obtain ⟨n, hn, hr⟩ := readVolume_axes h a ha
  have e : a.2 q = (.fin 0, .fin 0, .fin 0) := by rw [assignVec_given hn hr hg, hC]; exact normalize_zero
  refine ⟨e, ?_⟩
  rw [e]
  rintro ⟨x, y, z, h, h1⟩
  simp only [Prod.mk.injEq, Fl.fin.injEq] at h
  obtain ⟨rfl, rfl, rfl⟩ := h
  norm_num at h1

/-! ## A concrete case -/

/-- the digits are numbers -/
noncomputable def axesConv : Conv Fl where
  toD s := if s = ['0'] then some (.fin 0) else if s = ['3'] then some (.fin 3) else if s = ['4'] then some (.fin 4) else none
  toInt _ := some 1
  toBool _ := some true
  nan := .nan
  isNaN _ := true
  nonpos _ := false
  divMu0 := id
  normalize := eigenNormalize
  compiles _ := true
  cpuCount := 4

def vecY (a b c : Char) : Yaml := .seq [.scalar [a], .scalar [b], .scalar [c]]

theorem axesConv_0 : axesConv.toD ['0'] = some (.fin 0) := rfl
theorem axesConv_3 : axesConv.toD ['3'] = some (.fin 3) := by simp [axesConv]
theorem axesConv_4 : axesConv.toD ['4'] = some (.fin 4) := by simp [axesConv]

/-- the easy axis [3, 0, 4], three equal cubic axes [0, 0, 3] -/
def axesY : Yaml := .map [("uk".toList, vecY '3' '0' '4'), ("ex".toList, vecY '0' '0' '3'), ("ey".toList, vecY '0' '0' '3'), ("ez".toList, vecY '0' '0' '3')]

theorem axes_read : readVolume axesConv (blankTetra axesConv) ['r'] axesY = some ⟨['r'], .nan, .nan, .nan, eigenNormalize (.fin 3, .fin 0, .fin 4), .nan,
    eigenNormalize (.fin 0, .fin 0, .fin 3), eigenNormalize (.fin 0, .fin 0, .fin 3), eigenNormalize (.fin 0, .fin 0, .fin 3),
    .nan, .nan, .nan, .nan, .nan, .nan⟩ := rfl

theorem axes_gives : Gives axesConv axesY "uk" (.fin 3, .fin 0, .fin 4) :=
  ⟨['3'], ['0'], ['4'], get_at (k := "uk".toList) rfl, rfl, rfl, rfl⟩

/-- the easy axis [3, 0, 4] is stored with length one -/
example : ∃ q, readVolume axesConv (blankTetra axesConv) ['r'] axesY = some q ∧ UnitVec q.uk ∧ Along 3 0 4 q.uk :=
  ⟨_, axes_read, C103_volume rfl axes_read ("uk", TetraPrm.uk) (by simp [volAxes]) 3 0 4 axes_gives (Or.inl (by norm_num))⟩

/-- **C103** (negation) Three equal cubic axes are accepted; there is a warning, the region keeps them. -/
theorem C103_negation_orthogonal : ∃ q, readVolume axesConv (blankTetra axesConv) ['r'] axesY = some q ∧
    UnitVec q.ex ∧ q.ey = q.ex ∧ q.ez = q.ex ∧ warns q (1 / 10000) = true := by
  have e : eigenNormalize (.fin 0, .fin 0, .fin 3) = (.fin 0, .fin 0, .fin 1) := by
    rw [(normalize_fin 0 0 3 (Or.inr (Or.inr (by norm_num)))).2]
    rw [show (0 : ℝ) * 0 + 0 * 0 + 3 * 3 = 3 ^ 2 by norm_num, Real.sqrt_sq (by norm_num)]
    norm_num
  refine ⟨_, axes_read, ?_, rfl, rfl, ?_⟩
  · exact (normalize_unit 0 0 3 (Or.inr (Or.inr (by norm_num)))).1
  · refine Bool.eq_true_of_not_eq_false fun hw => ?_
    rw [C103_warning _ _ ![0, 0, 1] ![0, 0, 1] ![0, 0, 1] e e e] at hw
    have h1 := hw.1
    simp [Fin.sum_univ_three] at h1
    norm_num at h1

noncomputable def axesStart : All Fl where
  outputs := ⟨[], .nan, .nan, 0, [], []⟩
  simName := []
  mesh := ⟨[], .nan, [⟨"__default__".toList, .fin 0, .fin 0, .fin 0, (.fin 0, .fin 0, .fin 1), .fin 0, (.fin 1, .fin 0, .fin 0), (.fin 0, .fin 1, .fin 0),
    (.fin 0, .fin 0, .fin 1), .fin 0, .fin 0, .fin 0, .fin 0, .fin 0, .fin 0⟩], []⟩
  mag := ⟨[], [], [], [], [], none⟩
  initialTime := .nan
  recentering := ⟨false, 2, .nan⟩
  field := ⟨[], [], [], [], [], [], none, none, none, .undef⟩
  spin := ⟨false, false⟩
  nbThreads := 1
  fem := ⟨0, .nan⟩
  time := ⟨.nan, .nan, .nan⟩

/-- a file with the region `r` above and a region `t` that gives nothing -/
def axesFile : Yaml := .map [("mesh".toList, .map [("volume_regions".toList, .map [(['r'], axesY), (['t'], .map [])])]),
  ("initial_magnetization".toList, .scalar "m.sol".toList)]

theorem axesFile_regions : regionsOf (some axesFile) "volume_regions" = [(['r'], axesY), (['t'], .map [])] := by
  exact regionsOf_eq (y' := .map [("volume_regions".toList, .map [(['r'], axesY), (['t'], .map [])])])
    (n := some (.map [("volume_regions".toList, .map [(['r'], axesY), (['t'], .map [])])])) (m := some (.map [(['r'], axesY), (['t'], .map [])])) rfl rfl rfl rfl

theorem axesFile_read : ∃ s', readFiles axesConv axesStart [none, some axesFile] = some s' ∧ s'.mesh.tetra.length = 3 :=
  ⟨_, rfl, rfl⟩

theorem vecY_inj {a b c : Char} {s t u : Str} (h : some (vecY a b c) = some (.seq [.scalar s, .scalar t, .scalar u])) :
    s = [a] ∧ t = [b] ∧ u = [c] := by
  simp only [vecY, Option.some.injEq, Yaml.seq.injEq, List.cons.injEq, Yaml.scalar.injEq, and_true] at h
  exact ⟨h.1.symm, h.2.1.symm, h.2.2.symm⟩

theorem axesFile_proper : ProperAxes axesConv [none, some axesFile] "volume_regions" ["uk", "ex", "ey", "ez"] := by
  intro f hf e he k hk v hv
  simp only [List.mem_cons, List.not_mem_nil, or_false] at hf
  rcases hf with rfl | rfl
  · cases he
  · rw [axesFile_regions] at he
    simp only [List.mem_cons, List.not_mem_nil, or_false] at he hk
    obtain ⟨a, b, c, hy, ha, hb, hc⟩ := hv
    rcases he with rfl | rfl
    · have three : some (vecY '0' '0' '3') = some (.seq [.scalar a, .scalar b, .scalar c]) →
          ∃ x y z : ℝ, v = (.fin x, .fin y, .fin z) ∧ (x ≠ 0 ∨ y ≠ 0 ∨ z ≠ 0) := by
        intro h
        obtain ⟨rfl, rfl, rfl⟩ := vecY_inj h
        rw [axesConv_0] at ha hb
        rw [axesConv_3] at hc
        injection ha with ha
        injection hb with hb
        injection hc with hc
        exact ⟨0, 0, 3, Prod.ext ha.symm (Prod.ext hb.symm hc.symm), by norm_num⟩
      rcases hk with rfl | rfl | rfl | rfl
      · have h : some (vecY '3' '0' '4') = some (.seq [.scalar a, .scalar b, .scalar c]) := (get_at (y := axesY) (k := "uk".toList) rfl).symm.trans hy
        obtain ⟨rfl, rfl, rfl⟩ := vecY_inj h
        rw [axesConv_0] at hb
        rw [axesConv_3] at ha
        rw [axesConv_4] at hc
        injection ha with ha
        injection hb with hb
        injection hc with hc
        exact ⟨3, 0, 4, Prod.ext ha.symm (Prod.ext hb.symm hc.symm), by norm_num⟩
      · exact three ((get_at (y := axesY) (k := "ex".toList) rfl).symm.trans hy)
      · exact three ((get_at (y := axesY) (k := "ey".toList) rfl).symm.trans hy)
      · exact three ((get_at (y := axesY) (k := "ez".toList) rfl).symm.trans hy)
    · have h0 : ∀ k : Str, (Yaml.map []).at [k] = none := fun k => get_at (k := k) rfl
      rw [h0] at hy
      cases hy

/-- the hypotheses of `C103_volumes_partial` can be met -/
example : ∃ s', readFiles axesConv axesStart [none, some axesFile] = some s' ∧ s'.mesh.tetra.length = 3 ∧
    ∀ p ∈ s'.mesh.tetra, ∀ a ∈ volAxes, UnitVec (a.2 p) := by
  obtain ⟨s', h, hl⟩ := axesFile_read
  refine ⟨s', h, hl, C103_volumes_partial rfl _ h rfl ?_ axesFile_proper⟩
  intro p hp a ha
  have e := List.mem_singleton.mp hp
  subst e
  simp only [volAxes, List.mem_cons, List.not_mem_nil, or_false] at ha
  rcases ha with rfl | rfl | rfl | rfl
  · exact ⟨0, 0, 1, rfl, by norm_num⟩
  · exact ⟨1, 0, 0, rfl, by norm_num⟩
  · exact ⟨0, 1, 0, rfl, by norm_num⟩
  · exact ⟨0, 0, 1, rfl, by norm_num⟩

end Verif.Settings
