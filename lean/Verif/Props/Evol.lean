import Verif.Spec.Evol
import Verif.Model.Metadata
import Verif.Spec.Text
import Mathlib.Tactic.Ring
import Mathlib.Data.List.Forall2
import Mathlib.Tactic.Linarith

/-!
# C50: header and rows of the .evol file
-/

namespace Verif.Evol

open Verif.Text

/-! ## lines of fields -/

theorem fields_cons_ne {c : Char} (h : c ≠ '\t') (s : Str) : ∃ f fs, fields s = f :: fs ∧ fields (c :: s) = (c :: f) :: fs := by
  cases hs : fields s with
  | nil =>
    exfalso
    cases s with
    | nil => cases hs
    | cons d s =>
      unfold fields at hs
      split at hs
      · cases hs
      · split at hs <;> cases hs
  | cons f fs =>
    refine ⟨f, fs, rfl, ?_⟩
    show (if c = '\t' then _ else _) = _
    rw [if_neg h, hs]

theorem fields_single {f : Str} (h : '\t' ∉ f) : fields f = [f] := by
  induction f with
  | nil => rfl
  | cons c f ih =>
    obtain ⟨g, gs, h1, h2⟩ := fields_cons_ne (c := c) (fun hc => h (by rw [hc]; exact List.mem_cons_self)) f
    rw [ih (fun hc => h (List.mem_cons_of_mem _ hc))] at h1
    injection h1 with h1 h3
    rw [h2, ← h1, ← h3]

theorem fields_append {f : Str} (h : '\t' ∉ f) (s : Str) : fields (f ++ '\t' :: s) = f :: fields s := by
  induction f with
  | nil => rfl
  | cons c f ih =>
    obtain ⟨g, gs, h1, h2⟩ := fields_cons_ne (c := c) (fun hc => h (by rw [hc]; exact List.mem_cons_self))
      (f ++ '\t' :: s)
    rw [ih (fun hc => h (List.mem_cons_of_mem _ hc))] at h1
    injection h1 with h1 h3
    rw [List.cons_append, h2, ← h1, ← h3]

/-- the fields with tabulators between them -/
def tabbed : List Str → Str
  | [] => []
  | [f] => f
  | f :: fs => f ++ '\t' :: tabbed fs

theorem fields_tabbed : ∀ (l : List Str), l ≠ [] → (∀ f ∈ l, '\t' ∉ f) → fields (tabbed l) = l := by
  intro l
  induction l with
  | nil => intro h; exact absurd rfl h
  | cons f l ih =>
    intro _ h
    cases l with
    | nil => exact fields_single (h f List.mem_cons_self)
    | cons g l =>
      show fields (f ++ '\t' :: tabbed (g :: l)) = _
      rw [fields_append (h f List.mem_cons_self), ih (by simp) (fun x hx => h x (List.mem_cons_of_mem _ hx))]

/-! ## the columns -/

theorem splitColon_none {s : Str} (h : ':' ∉ s) : splitColon s = none := by
  induction s with
  | nil => rfl
  | cons c s ih =>
    unfold splitColon
    rw [ih (fun hc => h (List.mem_cons_of_mem _ hc))]
    exact if_neg (fun hc => h (by rw [hc]; exact List.mem_cons_self))

theorem splitColon_some (r : Str) {k : Str} (h : ':' ∉ k) : splitColon (r ++ ':' :: k) = some (r, k) := by
  induction r with
  | nil =>
    show splitColon (':' :: k) = _
    unfold splitColon
    rw [splitColon_none h]
    exact if_pos rfl
  | cons c r ih =>
    rw [List.cons_append]
    unfold splitColon
    rw [ih]

theorem findRegionIdx_eq {regions : List Str} {r : Str} {i : ℕ} (h : regions[i]? = some r)
    (hf : ∀ j < i, regions[j]? ≠ some r) : findRegionIdx regions r = i := by
  have e : regions.findIdx? (fun x => x == r) = some i := by
    rw [List.findIdx?_eq_some_iff_getElem]
    obtain ⟨hi, h⟩ := List.getElem?_eq_some_iff.mp h
    refine ⟨hi, by rw [h]; exact beq_self_eq_true r, ?_⟩
    intro j hj hc
    have hc : regions[j] = r := beq_iff_eq.mp hc
    exact hf j hj (by rw [List.getElem?_eq_getElem (by omega), hc])
  unfold findRegionIdx
  rw [e]

theorem whole_no_colon : ∀ p ∈ wholeTable, ':' ∉ p.1 := by decide

theorem region_no_colon {i : ℕ} {k : Str} {q : Quantity} (h : (k, q) ∈ regionTable i) : ':' ∉ k := by
  have : k ∈ (regionTable i).map Prod.fst := List.mem_map.mpr ⟨_, h, rfl⟩
  have key : ∀ k ∈ ["<Mx>".toList, "<My>".toList, "<Mz>".toList, "<dMx/dt>".toList, "<dMy/dt>".toList,
      "<dMz/dt>".toList, "Thiele_length".toList], ':' ∉ k := by decide
  exact key k this

/-- the cells of the whole sample -/
theorem cell_whole : ∀ p ∈ wholeTable, cell true (-1) p.1 = some p.2 := by decide

theorem cell_whole_unneeded : ∀ p ∈ wholeTable, (∀ d, p.2 ≠ .field d) → cell false (-1) p.1 = some p.2 := by decide

theorem field_needed_of : ∀ p ∈ wholeTable, (∃ d, p.2 = .field d) → fieldNeeded [p.1] = true := by decide

/-- a cell of a region -/
theorem cell_region {i : ℕ} {k : Str} {q : Quantity} (needed : Bool) (h : (k, q) ∈ regionTable i) :
    cell needed i k = some q := by
  simp only [regionTable, List.mem_cons, Prod.mk.injEq, List.not_mem_nil, or_false] at h
  rcases h with ⟨rfl, rfl⟩ | ⟨rfl, rfl⟩ | ⟨rfl, rfl⟩ | ⟨rfl, rfl⟩ | ⟨rfl, rfl⟩ | ⟨rfl, rfl⟩ | ⟨rfl, rfl⟩ <;> rfl

theorem column_means {regions : List Str} {col : Str} {q : Quantity} (h : Means regions col q) (needed : Bool)
    (hn : (∃ d, q = .field d) → needed = true) : column regions needed col = some q := by
  cases h with
  | whole h =>
    unfold column
    rw [splitColon_none (whole_no_colon _ h)]
    dsimp only
    cases needed with
    | true => exact cell_whole _ h
    | false => exact cell_whole_unneeded _ h (fun d hd => absurd (hn ⟨d, hd⟩) (by decide))
  | region hi hf hk =>
    unfold column
    rw [splitColon_some _ (region_no_colon hk)]
    dsimp only
    rw [findRegionIdx_eq hi hf, if_neg (by omega)]
    exact cell_region needed hk

/-! ## the rows -/

theorem loop_eq (fmt : Quantity → Str) (regions : List Str) (needed : Bool) (n : ℕ) :
    ∀ (cols : List Str) (qs : List Quantity) (i : ℕ), i + cols.length = n → cols ≠ [] →
    List.Forall₂ (fun c q => column regions needed c = some q) cols qs →
    loop fmt regions needed n i cols = (tabbed (qs.map fmt) ++ ['\n'], true) := by
  intro cols
  induction cols with
  | nil => intro qs i _ h; exact absurd rfl h
  | cons c cols ih =>
    intro qs i hn _ h
    cases h with
    | cons hc hr =>
      rename_i q qs
      unfold loop
      rw [hc]
      dsimp only
      simp only [List.length_cons] at hn
      cases hr with
      | nil =>
        simp only [List.length_nil] at hn
        rw [if_pos (by omega)]
        simp [loop, tabbed]
      | cons hc' hr' =>
        rename_i q' cols' qs' _
        simp only [List.length_cons] at hn
        rw [if_neg (by omega), ih (q' :: qs') (i + 1) (by simp only [List.length_cons]; omega) (by simp)
          (List.Forall₂.cons hc' hr')]
        simp [tabbed]

/-- **C50** (the part that holds) For every list of documented columns, prefixed by a region or not, each row is one line
whose fields are the values of the columns, in order; and the header line has the same fields in the same order.
Missing: a prefix in front of the other quantities (`C50_negation_region`), names with a tabulator. -/
theorem C50_rows_partial (fmt : Quantity → Str) (hfmt : ∀ q, '\t' ∉ fmt q ∧ '\n' ∉ fmt q) (regions cols : List Str)
    (qs : List Quantity) (hne : cols ≠ []) (h : List.Forall₂ (Means regions) cols qs)
    (hnames : ∀ c ∈ cols, '\t' ∉ c) :
    ∃ line header, row fmt regions cols = (line ++ ['\n'], true) ∧ '\n' ∉ line ∧ fields line = qs.map fmt ∧
      Metadata.evolColumnLine cols = some ("## columns: ".toList ++ header ++ ['\n']) ∧ fields header = cols ∧
      (fields line).length = (fields header).length := by
  have hlen : qs.length = cols.length := h.length_eq.symm
  have hqs : qs ≠ [] := by
    intro hc
    rw [hc] at hlen
    exact hne (List.length_eq_zero_iff.mp hlen.symm)
  have hneeded : ∀ c ∈ cols, fieldNeeded [c] = true → fieldNeeded cols = true := by
    intro c hc h1
    unfold fieldNeeded at h1 ⊢
    rw [List.any_eq_true] at h1 ⊢
    obtain ⟨x, hx, h1⟩ := h1
    rw [List.mem_singleton] at hx
    exact ⟨c, hc, hx ▸ h1⟩
  have hcols : List.Forall₂ (fun c q => column regions (fieldNeeded cols) c = some q) cols qs := by
    have key : ∀ (l : List Str) (q : List Quantity), (∀ c ∈ l, c ∈ cols) → List.Forall₂ (Means regions) l q →
        List.Forall₂ (fun c q => column regions (fieldNeeded cols) c = some q) l q := by
      intro l q hl hm
      induction hm with
      | nil => exact .nil
      | cons h1 h2 ih =>
        rename_i c q l qs
        refine .cons (column_means h1 _ ?_) (ih (fun c hc => hl c (List.mem_cons_of_mem _ hc)))
        rintro ⟨d, rfl⟩
        cases h1 with
        | whole h1 => exact hneeded c (hl c List.mem_cons_self) (field_needed_of _ h1 ⟨d, rfl⟩)
        | region h1 h2 h3 =>
          simp [regionTable] at h3
    exact key cols qs (fun c hc => hc) h
  have hno : ∀ l : List Str, (∀ f ∈ l, '\n' ∉ f) → '\n' ∉ tabbed l := by
    intro l
    induction l with
    | nil => intro _; simp [tabbed]
    | cons f l ih =>
      intro hl
      cases l with
      | nil => exact hl f List.mem_cons_self
      | cons g l =>
        show '\n' ∉ f ++ '\t' :: tabbed (g :: l)
        rw [List.mem_append, List.mem_cons]
        rintro (h1 | h1 | h1)
        · exact hl f List.mem_cons_self h1
        · exact absurd h1 (by decide)
        · exact ih (fun x hx => hl x (List.mem_cons_of_mem _ hx)) h1
  have hf1 : fields (tabbed (qs.map fmt)) = qs.map fmt := by
    refine fields_tabbed _ (by simpa using hqs) ?_
    intro f hf
    obtain ⟨q, -, rfl⟩ := List.mem_map.mp hf
    exact (hfmt q).1
  have hf2 : fields (tabbed cols) = cols := fields_tabbed _ hne hnames
  refine ⟨tabbed (qs.map fmt), tabbed cols, ?_, ?_, hf1, ?_, hf2, ?_⟩
  · exact loop_eq fmt regions _ cols.length cols qs 0 (by omega) hne hcols
  · refine hno _ ?_
    intro f hf
    obtain ⟨q, -, rfl⟩ := List.mem_map.mp hf
    exact (hfmt q).2
  · have hline : ∀ (l : List Str) (hl : l ≠ []), (l.dropLast.flatMap fun c => c ++ ['\t']) ++ l.getLast hl = tabbed l := by
      intro l
      induction l with
      | nil => intro hl; exact absurd rfl hl
      | cons f l ih =>
        intro _
        cases l with
        | nil => rfl
        | cons g l =>
          have := ih (by simp)
          show ((f :: (g :: l).dropLast).flatMap fun c => c ++ ['\t']) ++ (g :: l).getLast (by simp) =
            f ++ '\t' :: tabbed (g :: l)
          rw [List.flatMap_cons, List.append_assoc, List.append_assoc, this]
          rfl
    unfold Metadata.evolColumnLine
    rw [List.getLast?_eq_some_getLast hne, ← hline cols hne]
    simp only [List.append_assoc]
  · rw [hf1, hf2, List.length_map, hlen]

/-- **C50** (negation) A region prefix in front of the energies is accepted and ignored: the cell is the energy of the whole
sample. In front of the applied field it gives NaN, unless another column asks for the field. -/
theorem C50_negation_region (r : Str) (needed : Bool) :
    column [r] needed (r ++ ':' :: "E_ex".toList) = some .exchange ∧
    column [r] needed (r ++ ':' :: "E_tot".toList) = some .total ∧
    column [r] false (r ++ ':' :: "Hx".toList) = some .nan ∧
    column [r] true (r ++ ':' :: "Hx".toList) = some (.field 0) := by
  have hi : findRegionIdx [r] r = 0 := findRegionIdx_eq (i := 0) rfl (fun j hj => absurd hj (by omega))
  unfold column
  refine ⟨?_, ?_, ?_, ?_⟩ <;> (rw [splitColon_some _ (by decide)]; dsimp only; rw [hi]; rfl)

/-- and the column by itself does not ask for it -/
theorem C50_negation_field (fmt : Quantity → Str) :
    row fmt ["core".toList] ["core:Hx".toList] = (fmt .nan ++ ['\n'], true) ∧
    row fmt ["core".toList] ["Hx".toList, "core:Hx".toList] =
      (fmt (.field 0) ++ '\t' :: fmt (.field 0) ++ ['\n'], true) := by
  constructor
  · show (fmt .nan ++ ['\n'] ++ [], true) = _
    rw [List.append_nil]
  · show (fmt (.field 0) ++ ['\t'] ++ (fmt (.field 0) ++ ['\n'] ++ []), true) = _
    simp

/-- **C50** (negation) A region whose name holds a tabulator: the header then has one field more than the rows. -/
theorem C50_negation_tab (fmt : Quantity → Str) (hfmt : ∀ q, '\t' ∉ fmt q) :
    ∃ line header, row fmt ["a\tb".toList] ["a\tb:<Mx>".toList] = (line ++ ['\n'], true) ∧
      Metadata.evolColumnLine ["a\tb:<Mx>".toList] = some ("## columns: ".toList ++ header ++ ['\n']) ∧
      (fields line).length = 1 ∧ (fields header).length = 2 := by
  refine ⟨fmt (.avgU 0 0), "a\tb:<Mx>".toList, ?_, rfl, ?_, rfl⟩
  · show (fmt (.avgU 0 0) ++ ['\n'] ++ [], true) = _
    rw [List.append_nil]
  · rw [fields_single (hfmt _)]
    rfl

/-- An unknown column or region ends the program: no row is ever completed. -/
theorem C50_unknown (fmt : Quantity → Str) (regions cols : List Str) (c : Str) (hc : c ∈ cols)
    (h : column regions (fieldNeeded cols) c = none) : (row fmt regions cols).2 = false := by
  unfold row
  have key : ∀ (l : List Str) (i : ℕ), c ∈ l →
      (loop fmt regions (fieldNeeded cols) cols.length i l).2 = false := by
    intro l
    induction l with
    | nil => intro i hl; exact absurd hl (by simp)
    | cons d l ih =>
      intro i hl
      unfold loop
      cases hd : column regions (fieldNeeded cols) d with
      | none => rfl
      | some q =>
        rcases List.mem_cons.mp hl with rfl | hl
        · rw [h] at hd; cases hd
        · exact ih (i + 1) hl
  exact key cols 0 hc

/-- columns of a run with two regions -/
example : List.Forall₂ (Means ["__default__".toList, "core".toList]) ["t".toList, "core:<Mz>".toList, "Hx".toList]
    [.t, .avgU 2 1, .field 0] :=
  .cons (.whole (by decide)) (.cons (Means.region (r := "core".toList) (k := "<Mz>".toList) (i := 1) rfl (by decide) (by decide))
    (.cons (.whole (by decide)) .nil))

end Verif.Evol
