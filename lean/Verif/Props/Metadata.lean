import Verif.Model.Metadata
import Verif.Proofs.Text

/-!
# C51: the header lines of the output files
-/

namespace Verif.Metadata

open Verif.Text

/-- every line begins with `#` -/
def AllComments (text : Str) : Prop := ∀ l ∈ lines text, ∃ rest, l = '#' :: rest

theorem allComments_append {a b : Str} (ha : AllComments (a ++ ['\n'])) (hb : AllComments b) :
    AllComments (a ++ ['\n'] ++ b) := by
  intro l hl
  rw [List.append_assoc, List.singleton_append, lines_append_newline] at hl
  rcases List.mem_append.mp hl with h | h
  · exact ha l h
  · exact hb l h

theorem allComments_line {a : Str} (h : '\n' ∉ a) : AllComments ('#' :: a ++ ['\n']) := by
  intro l hl
  rw [lines_line _ _ (by simp; exact h)] at hl
  simp [lines] at hl
  exact ⟨a, hl⟩

/-- the replacement keeps every line a comment -/
theorem allComments_replace (v : Str) : ∀ p : Str, '\n' ∉ p →
    AllComments ('#' :: p ++ replace ['\n'] "\n##  ".toList v ++ ['\n']) := by
  induction v with
  | nil => intro p hp; rw [replace_nil, List.append_nil]; exact allComments_line hp
  | cons c v ih =>
    intro p hp
    rw [replace_char_cons]
    by_cases hc : c = '\n'
    · rw [if_pos hc]
      have h1 := allComments_append (allComments_line hp) (ih "#  ".toList (by decide))
      simpa using h1
    · rw [if_neg hc]
      have := ih (p ++ [c]) (by simp [hp]; exact fun h => hc h.symm)
      simpa using this

theorem allComments_nil : AllComments [] := by intro l hl; simp [lines] at hl

theorem userItem_comments (item : Str × Str) (hk : '\n' ∉ item.1) (t : Str) (h : userItem item = some t) :
    ∃ a, t = a ++ ['\n'] ∧ AllComments t := by
  unfold userItem at h
  split at h
  · exact absurd h (by simp)
  · rename_i last _
    injection h with h
    refine ⟨_, h.symm, ?_⟩
    rw [← h]
    have := allComments_replace (if last = '\n' then item.2.dropLast else item.2)
      ("# ".toList ++ item.1 ++ ": ".toList) (by simp; exact hk)
    simpa using this

theorem mapM_some_mem {β γ : Type} (f : β → Option γ) : ∀ (l : List β) (l' : List γ), l.mapM f = some l' →
    ∀ y ∈ l', ∃ x ∈ l, f x = some y := by
  intro l
  induction l with
  | nil =>
    intro l' h y hy
    simp at h
    rw [h] at hy; simp at hy
  | cons a l ih =>
    intro l' h y hy
    rw [List.mapM_cons] at h
    cases ha : f a with
    | none => rw [ha] at h; exact absurd h (by simp)
    | some b =>
      rw [ha] at h
      cases hl : l.mapM f with
      | none => rw [hl] at h; exact absurd h (by simp)
      | some r =>
        rw [hl] at h
        have e : l' = b :: r := by
          have h' : some (b :: r) = some l' := h
          injection h' with h'
          exact h'.symm
        rw [e] at hy
        rcases List.mem_cons.mp hy with rfl | hy
        · exact ⟨a, List.mem_cons_self, ha⟩
        · obtain ⟨x, hx, e⟩ := ih r hl y hy
          exact ⟨x, List.mem_cons_of_mem _ hx, e⟩

theorem flatten_comments (ts : List Str) (h : ∀ t ∈ ts, ∃ a, t = a ++ ['\n'] ∧ AllComments t) :
    AllComments ts.flatten ∧ (ts ≠ [] → ∃ a, ts.flatten = a ++ ['\n']) := by
  induction ts with
  | nil => exact ⟨allComments_nil, fun h => absurd rfl h⟩
  | cons t ts ih =>
    obtain ⟨h1, h2⟩ := ih fun x hx => h x (List.mem_cons_of_mem _ hx)
    obtain ⟨a, ea, ha⟩ := h t List.mem_cons_self
    constructor
    · rw [List.flatten_cons, ea]
      rw [ea] at ha
      exact allComments_append ha h1
    · intro _
      by_cases hts : ts = []
      · exact ⟨a, by rw [hts]; simp [ea]⟩
      · obtain ⟨b, hb⟩ := h2 hts
        exact ⟨t ++ b, by rw [List.flatten_cons, hb]; simp⟩

/-- no end of line in the strings that do not come from the user metadata values -/
structure Clean (m : Info) : Prop where
  version : '\n' ∉ m.version
  hostname : ∀ h, m.hostname = some h → '\n' ∉ h
  date : '\n' ∉ m.date
  settingsFile : '\n' ∉ m.settingsFile
  keys : ∀ item ∈ m.user, '\n' ∉ item.1
  columns : ∀ c ∈ m.evolColumns, '\n' ∉ c

theorem common_comments (m : Info) (hm : Clean m) (t : Str) (h : common m = some t) :
    AllComments t ∧ ∃ a, t = a ++ ['\n'] := by
  unfold common at h
  cases hu : m.user.mapM userItem with
  | none => rw [hu] at h; have h' : (none : Option Str) = some t := h; exact absurd h' (by simp)
  | some us =>
    rw [hu] at h
    have hf := flatten_comments us (by
      intro y hy
      obtain ⟨x, hx, e⟩ := mapM_some_mem userItem m.user us hu y hy
      exact userItem_comments x (hm.keys x hx) y e)
    have e : t = "## feeLLGood version: ".toList ++ m.version ++ ['\n'] ++
      (match m.hostname with
       | some h => "## hostname: ".toList ++ h ++ ['\n']
       | none => []) ++
      "## real-world time: ".toList ++ m.date ++ ['\n'] ++
      "## settings file: ".toList ++ m.settingsFile ++ ['\n'] ++ us.flatten := by
      have h' : some _ = some t := h
      injection h' with h'
      exact h'.symm
    have h4 := allComments_append (a := "## settings file: ".toList ++ m.settingsFile)
      (allComments_line (a := "# settings file: ".toList ++ m.settingsFile) (by simp; exact hm.settingsFile)) hf.1
    have h3 := allComments_append (a := "## real-world time: ".toList ++ m.date)
      (allComments_line (a := "# real-world time: ".toList ++ m.date) (by simp; exact hm.date)) h4
    have h2 : AllComments ((match m.hostname with
       | some h => "## hostname: ".toList ++ h ++ ['\n']
       | none => []) ++ ("## real-world time: ".toList ++ m.date ++ ['\n'] ++
        ("## settings file: ".toList ++ m.settingsFile ++ ['\n'] ++ us.flatten))) := by
      cases hh : m.hostname with
      | none => exact h3
      | some h =>
        exact allComments_append (a := "## hostname: ".toList ++ h)
          (allComments_line (a := "# hostname: ".toList ++ h) (by simp; exact hm.hostname h hh)) h3
    have h1 := allComments_append (a := "## feeLLGood version: ".toList ++ m.version)
      (allComments_line (a := "# feeLLGood version: ".toList ++ m.version) (by simp; exact hm.version)) h2
    constructor
    · rw [e]
      simpa only [List.append_assoc] using h1
    · by_cases hus : us = []
      · subst hus
        refine ⟨_, by rw [e, List.flatten_nil, List.append_nil]⟩
      · obtain ⟨a, ha⟩ := hf.2 hus
        exact ⟨_, by rw [e, ha, ← List.append_assoc]⟩

/-- With keys, file name and columns on a single line and no empty value, all lines of both headers begin with `#`;
values may span several lines. Missing from the full property: keys with an end of line (`C51_negation_key`) and
empty values (`C51_negation_empty`). -/
theorem C51_comments_partial (m : Info) (hm : Clean m) (time : Str) (ht : '\n' ∉ time) :
    (∀ t, evol m = some t → AllComments t) ∧ (∀ t, sol m time = some t → AllComments t) := by
  constructor
  · intro t h
    unfold evol at h
    cases hc : common m with
    | none => rw [hc] at h; have h' : (none : Option Str) = some t := h; exact absurd h' (by simp)
    | some c =>
      rw [hc] at h
      cases hl : evolColumnLine m.evolColumns with
      | none => rw [hl] at h; have h' : (none : Option Str) = some t := h; exact absurd h' (by simp)
      | some l =>
        rw [hl] at h
        have e : t = c ++ l := by
          have h' : some (c ++ l) = some t := h
          injection h' with h'
          exact h'.symm
        obtain ⟨h1, a, ea⟩ := common_comments m hm c hc
        have h2 : AllComments l := by
          unfold evolColumnLine at hl
          split at hl
          · exact absurd hl (by simp)
          · rename_i last hlast
            injection hl with hl
            rw [← hl]
            have := allComments_line (a := "# columns: ".toList ++ (m.evolColumns.dropLast.flatMap fun c => c ++ ['\t']) ++ last)
              (by
                simp only [List.mem_append, not_or]
                refine ⟨⟨by decide, ?_⟩, hm.columns last (List.mem_of_getLast? hlast)⟩
                intro hmem
                obtain ⟨x, hx, hx'⟩ := List.mem_flatMap.mp hmem
                rcases List.mem_append.mp hx' with hx' | hx'
                · exact hm.columns x (List.dropLast_subset _ hx) hx'
                · simp at hx')
            simpa using this
        rw [e, ea]
        rw [ea] at h1
        exact allComments_append h1 h2
  · intro t h
    unfold sol at h
    cases hc : common m with
    | none => rw [hc] at h; have h' : (none : Option Str) = some t := h; exact absurd h' (by simp)
    | some c =>
      rw [hc] at h
      have e : t = c ++ "## time: ".toList ++ time ++ ['\n'] ++
          "## columns: idx\tmx\tmy\tmz\tphi".toList ++ (if m.spinAcc then "\tsx\tsy\tsz".toList else []) ++ ['\n'] := by
        have h' : some _ = some t := h
        injection h' with h'
        exact h'.symm
      obtain ⟨h1, a, ea⟩ := common_comments m hm c hc
      have h2 : AllComments ("## columns: idx\tmx\tmy\tmz\tphi".toList ++
          (if m.spinAcc then "\tsx\tsy\tsz".toList else []) ++ ['\n']) := by
        have := allComments_line (a := "# columns: idx\tmx\tmy\tmz\tphi".toList ++
          (if m.spinAcc then "\tsx\tsy\tsz".toList else [])) (by
            by_cases hs : m.spinAcc = true
            · rw [if_pos hs]; decide
            · rw [if_neg hs]; decide)
        exact this
      have h3 := allComments_append (a := "## time: ".toList ++ time)
        (allComments_line (a := "# time: ".toList ++ time) (by simp; exact ht)) h2
      rw [ea] at h1
      have h4 := allComments_append h1 h3
      rw [e, ea]
      simpa only [List.append_assoc] using h4

/-- a settings file without anything special -/
def plain (user : List (Str × Str)) : Info :=
  { version := "1".toList, hostname := none, date := "now".toList, settingsFile := "s.yml".toList, user := user,
    evolColumns := ["t".toList], spinAcc := false }

/-- A key that contains an end of line (`"a\nb"` in YAML) gives a header line that does not begin with `#`. -/
theorem C51_negation_key : ∃ (user : List (Str × Str)) (t : Str), evol (plain user) = some t ∧ ¬ AllComments t := by
  refine ⟨[("a\nb".toList, "v".toList)], _, rfl, ?_⟩
  intro h
  have := h "b: v".toList (by
    rw [replace_char]
    decide)
  obtain ⟨rest, e⟩ := this
  have e' : some 'b' = some '#' := congrArg List.head? e
  exact absurd e' (by decide)

/-- With an empty value, a character before the beginning of the string is read. -/
theorem C51_negation_empty (m : Info) (k : Str) (h : (k, []) ∈ m.user) : evol m = none ∧ ∀ time, sol m time = none := by
  have hc : common m = none := by
    unfold common
    have : m.user.mapM userItem = none := by
      cases hu : m.user.mapM userItem with
      | none => rfl
      | some us =>
        exfalso
        have key : ∀ (l : List (Str × Str)) (us : List Str), l.mapM userItem = some us → ∀ x ∈ l, userItem x ≠ none := by
          intro l
          induction l with
          | nil => intro us _ x hx; simp at hx
          | cons a l ih =>
            intro us h x hx
            rw [List.mapM_cons] at h
            cases ha : userItem a with
            | none => rw [ha] at h; exact absurd h (by simp)
            | some b =>
              rw [ha] at h
              cases hl : l.mapM userItem with
              | none => rw [hl] at h; exact absurd h (by simp)
              | some r =>
                rcases List.mem_cons.mp hx with rfl | hx
                · rw [ha]; simp
                · exact ih r hl x hx
        exact key m.user us hu _ h rfl
    rw [this]; rfl
  constructor
  · unfold evol; rw [hc]; rfl
  · intro time; unfold sol; rw [hc]; rfl

/-- with an empty list of columns the header of the .evol file is undefined -/
theorem C51_no_column (m : Info) (h : m.evolColumns = []) : evol m = none := by
  unfold evol evolColumnLine
  rw [h]
  cases common m <;> rfl

/-- headers exist as soon as no value is empty (and there is a column) -/
theorem C51_defined (m : Info) (hu : ∀ item ∈ m.user, item.2 ≠ []) (hc : m.evolColumns ≠ []) :
    (∃ t, evol m = some t) ∧ ∀ time, ∃ t, sol m time = some t := by
  have : ∃ us, m.user.mapM userItem = some us := by
    revert hu
    generalize m.user = l
    induction l with
    | nil => intro _; exact ⟨[], rfl⟩
    | cons a l ih =>
      intro hu
      obtain ⟨r, hr⟩ := ih fun x hx => hu x (List.mem_cons_of_mem _ hx)
      have ha : ∃ b, userItem a = some b := by
        unfold userItem
        cases hl : a.2.getLast? with
        | none => exact absurd (List.getLast?_eq_none_iff.mp hl) (hu a List.mem_cons_self)
        | some x => exact ⟨_, rfl⟩
      obtain ⟨b, hb⟩ := ha
      exact ⟨b :: r, by rw [List.mapM_cons, hb, hr]; rfl⟩
  obtain ⟨us, hus⟩ := this
  have hcm : ∃ c, common m = some c := by
    unfold common; rw [hus]; exact ⟨_, rfl⟩
  obtain ⟨c, hcm⟩ := hcm
  constructor
  · unfold evol evolColumnLine
    rw [hcm]
    cases hl : m.evolColumns.getLast? with
    | none => exact absurd (List.getLast?_eq_none_iff.mp hl) hc
    | some x => exact ⟨_, rfl⟩
  · intro time; unfold sol; rw [hcm]; exact ⟨_, rfl⟩

/-- the hypotheses of `C51_comments_partial` are met with a value on three lines -/
example : Clean (plain [("note".toList, "one\ntwo\n\nthree\n".toList)]) ∧
    evol (plain [("note".toList, "one\ntwo\n\nthree\n".toList)]) ≠ none := by
  refine ⟨⟨by decide, by intro h e; exact absurd e (by simp [plain]), by decide, by decide, ?_, ?_⟩, by simp [evol, common, plain, userItem, evolColumnLine]⟩
  · intro item hi
    simp only [plain, List.mem_singleton] at hi
    rw [hi]; decide
  · intro c hc
    simp only [plain, List.mem_singleton] at hc
    rw [hc]; decide

end Verif.Metadata
