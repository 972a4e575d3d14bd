import Verif.Model.Dump
import Verif.Spec.Dump
import Verif.Proofs.Text
import Mathlib.Data.List.Count
import Mathlib.Data.List.DropRight
import Mathlib.Tactic.Linarith

/-!
# C49: strings of the dump are read back

The text printed for a string (`Style.text`) and the value that the YAML language gives to it (`Yaml12.value`).
-/

namespace Verif.Settings

open Verif.Text Verif.Yaml12

/-! ## quoted strings -/

theorem quoted_nil : quoted [] = none := by unfold quoted; rfl

theorem quoted_quote (s : Str) : quoted ('"' :: s) = if s = [] then some [] else none := by
  rw [quoted, if_pos rfl]

theorem quoted_escape (s : Str) : quoted ('\\' :: s) =
    match escape s with
    | none => none
    | some (d, n) => (quoted (s.drop n)).map (d :: ·) := by
  rw [quoted, if_neg (by decide), if_pos rfl]
  cases escape s with
  | none => rfl
  | some p => rfl

theorem quoted_char (c : Char) (s : Str) (h1 : c ≠ '"') (h2 : c ≠ '\\') (h3 : c ≠ '\n') (h4 : c ≠ '\r') :
    quoted (c :: s) = (quoted s).map (c :: ·) := by
  rw [quoted, if_neg h1, if_neg h2, if_neg (by rintro (h | h) <;> contradiction)]

/-- the text between the quotes -/
def escaped (s : Str) : Str := s.flatMap fun c => if c = '"' then ['\\', '"'] else [c]

theorem quoted_escaped (s : Str) (hb : '\\' ∉ s) (hn : '\n' ∉ s) (hr : '\r' ∉ s) :
    quoted (escaped s ++ ['"']) = some s := by
  induction s with
  | nil => rw [show escaped [] ++ ['"'] = ['"'] from rfl, quoted_quote, if_pos rfl]
  | cons c s ih =>
    have ih := ih (fun h => hb (List.mem_cons_of_mem _ h)) (fun h => hn (List.mem_cons_of_mem _ h))
      (fun h => hr (List.mem_cons_of_mem _ h))
    have e : escaped (c :: s) = (if c = '"' then ['\\', '"'] else [c]) ++ escaped s := List.flatMap_cons
    rw [e]
    by_cases h : c = '"'
    · subst h
      rw [if_pos rfl]
      show quoted ('\\' :: '"' :: (escaped s ++ ['"'])) = _
      rw [quoted_escape]
      have : escape ('"' :: (escaped s ++ ['"'])) = some ('"', 1) := rfl
      rw [this]
      dsimp only
      rw [List.drop_one, List.tail_cons, ih]
      rfl
    · rw [if_neg h]
      show quoted (c :: (escaped s ++ ['"'])) = _
      rw [quoted_char c _ h (fun e => hb (e ▸ List.mem_cons_self)) (fun e => hn (e ▸ List.mem_cons_self))
        (fun e => hr (e ▸ List.mem_cons_self)), ih]
      rfl

theorem hex_noquote : ∀ (n acc : ℕ) (s : Str) (v : ℕ), hex n acc s = some v → n ≤ s.length ∧ (s.take n).count '"' = 0 := by
  intro n
  induction n with
  | zero => intro acc s v _; exact ⟨Nat.zero_le _, by rw [List.take_zero]; rfl⟩
  | succ n ih =>
    intro acc s v h
    cases s with
    | nil => cases h
    | cons c s =>
      unfold hex at h
      cases hc : hexVal c with
      | none => rw [hc] at h; cases h
      | some d =>
        rw [hc] at h
        obtain ⟨i1, i2⟩ := ih _ _ _ h
        refine ⟨Nat.succ_le_succ i1, ?_⟩
        rw [List.take_succ_cons, List.count_cons, i2, if_neg]
        intro e
        have e : c = '"' := beq_iff_eq.mp e
        rw [e] at hc
        rw [show hexVal '"' = none by decide] at hc
        cases hc

/-- an escape is the escape of a quote, or it contains no quote -/
theorem escape_cases (s : Str) (d : Char) (n : ℕ) (h : escape s = some (d, n)) :
    1 ≤ n ∧ n ≤ s.length ∧ ((n = 1 ∧ ∃ t, s = '"' :: t) ∨ (s.take n).count '"' = 0) := by
  cases s with
  | nil => cases h
  | cons c s =>
    rw [escape] at h
    have step : ∀ k, c ≠ '"' → k ≤ s.length → (s.take k).count '"' = 0 →
        1 ≤ k + 1 ∧ k + 1 ≤ (c :: s).length ∧
        ((k + 1 = 1 ∧ ∃ t, (c :: s) = '"' :: t) ∨ ((c :: s).take (k + 1)).count '"' = 0) := by
      intro k hc hk hs
      refine ⟨Nat.succ_pos _, Nat.succ_le_succ hk, Or.inr ?_⟩
      rw [List.take_succ_cons, List.count_cons, hs, if_neg (fun e => hc (beq_iff_eq.mp e))]
    split at h
    · rename_i e
      obtain ⟨v, hv, e2⟩ := Option.map_eq_some_iff.mp h
      injection e2 with e2 e3
      subst e3
      obtain ⟨a, b⟩ := hex_noquote _ _ _ _ hv
      exact step 2 (by rw [e]; decide) a b
    · split at h
      · rename_i e
        obtain ⟨v, hv, e2⟩ := Option.map_eq_some_iff.mp h
        injection e2 with e2 e3
        subst e3
        obtain ⟨a, b⟩ := hex_noquote _ _ _ _ hv
        exact step 4 (by rw [e]; decide) a b
      · split at h
        · rename_i e
          obtain ⟨v, hv, e2⟩ := Option.map_eq_some_iff.mp h
          injection e2 with e2 e3
          subst e3
          obtain ⟨a, b⟩ := hex_noquote _ _ _ _ hv
          exact step 8 (by rw [e]; decide) a b
        · obtain ⟨v, hv, e2⟩ := Option.map_eq_some_iff.mp h
          injection e2 with e2 e3
          subst e3
          by_cases hc : c = '"'
          · exact ⟨le_refl _, Nat.succ_le_succ (Nat.zero_le _), Or.inl ⟨rfl, s, by rw [hc]⟩⟩
          · exact step 0 hc (Nat.zero_le _) (by rw [List.take_zero]; rfl)

/-- counting characters: a quoted text has at least as many characters as its value and its quotes together; if there are no
more, every backslash is in front of a quote -/
theorem quoted_count : ∀ (k : ℕ) (u v : Str), u.length ≤ k → quoted u = some v →
    v.length + u.count '"' ≤ u.length ∧ (v.length + u.count '"' = u.length → u.count '\\' + 1 = u.count '"') := by
  intro k
  induction k with
  | zero =>
    intro u v hk h
    cases u with
    | nil => rw [quoted_nil] at h; cases h
    | cons c u => exact absurd hk (by simp)
  | succ k ih =>
    intro u v hk h
    cases u with
    | nil => rw [quoted_nil] at h; cases h
    | cons c u =>
      have hk : u.length ≤ k := Nat.le_of_succ_le_succ hk
      by_cases h1 : c = '"'
      · subst h1
        rw [quoted_quote] at h
        split at h
        · rename_i hu
          subst hu
          injection h with h
          subst h
          exact ⟨by decide, fun _ => by decide⟩
        · cases h
      · by_cases h2 : c = '\\'
        · subst h2
          rw [quoted_escape] at h
          cases he : escape u with
          | none => rw [he] at h; cases h
          | some p =>
            obtain ⟨d, n⟩ := p
            rw [he] at h
            dsimp only at h
            obtain ⟨w, hw, e⟩ := Option.map_eq_some_iff.mp h
            subst e
            obtain ⟨n1, n2, n3⟩ := escape_cases u d n he
            obtain ⟨i1, i2⟩ := ih (u.drop n) w (by rw [List.length_drop]; omega) hw
            have hlen : (u.drop n).length = u.length - n := List.length_drop
            have hq : u.count '"' = (u.take n).count '"' + (u.drop n).count '"' := by
              rw [← List.count_append, List.take_append_drop]
            have hb : u.count '\\' = (u.take n).count '\\' + (u.drop n).count '\\' := by
              rw [← List.count_append, List.take_append_drop]
            have c1 : ('\\' :: u).count '"' = u.count '"' := by
              rw [List.count_cons, if_neg (by decide)]; rfl
            have c2 : ('\\' :: u).count '\\' = u.count '\\' + 1 := by
              rw [List.count_cons, if_pos (by decide)]
            rw [c1, c2, hq, List.length_cons, List.length_cons]
            rcases n3 with ⟨e, t, ht⟩ | h0
            · subst e ht
              have t1 : (List.take 1 ('"' :: t)).count '"' = 1 := rfl
              have t2 : (List.take 1 ('"' :: t)).count '\\' = 0 := rfl
              rw [t1]
              rw [t2] at hb
              rw [hb]
              constructor
              · omega
              · intro e
                have := i2 (by omega)
                omega
            · rw [h0]
              constructor
              · omega
              · intro e
                omega
        · by_cases h3 : c = '\n' ∨ c = '\r'
          · rw [quoted, if_neg h1, if_neg h2, if_pos h3] at h
            cases h
          · push Not at h3
            rw [quoted_char c u h1 h2 h3.1 h3.2] at h
            obtain ⟨w, hw, e⟩ := Option.map_eq_some_iff.mp h
            subst e
            obtain ⟨i1, i2⟩ := ih u w hk hw
            have c1 : (c :: u).count '"' = u.count '"' := by
              rw [List.count_cons, if_neg (fun e => h1 (beq_iff_eq.mp e))]; rfl
            have c2 : (c :: u).count '\\' = u.count '\\' := by
              rw [List.count_cons, if_neg (fun e => h2 (beq_iff_eq.mp e))]; rfl
            rw [c1, c2, List.length_cons, List.length_cons]
            exact ⟨by omega, fun e => i2 (by omega)⟩

theorem escaped_count (s : Str) : (escaped s).length = s.length + s.count '"' ∧
    (escaped s).count '"' = s.count '"' ∧ (escaped s).count '\\' = s.count '"' + s.count '\\' := by
  induction s with
  | nil => exact ⟨rfl, rfl, rfl⟩
  | cons c s ih =>
    obtain ⟨i1, i2, i3⟩ := ih
    have e : escaped (c :: s) = (if c = '"' then ['\\', '"'] else [c]) ++ escaped s := List.flatMap_cons
    rw [e]
    by_cases h : c = '"'
    · subst h
      rw [if_pos rfl]
      simp [i1, i2, i3]
      omega
    · rw [if_neg h, List.singleton_append, List.length_cons, List.count_cons, List.count_cons, List.count_cons,
        List.count_cons, i1, i2, i3, if_neg (fun e => h (beq_iff_eq.mp e)), List.length_cons]
      refine ⟨by omega, rfl, by omega⟩

theorem str_line (s : Str) (level : ℕ) (hn : '\n' ∉ s) : str s level = '"' :: (escaped s ++ ['"']) := by
  unfold str
  rw [if_neg hn, replace_char]
  rfl

/-- **C49** (strings on one line, exact) A string without end of line or carriage return that is printed between quotes is read
back as the same string exactly if it contains no backslash. -/
theorem C49_quoted_iff (s : Str) (level parent : ℕ) (hn : '\n' ∉ s) (hr : '\r' ∉ s) :
    value parent ((Style.str level).text s) = some s ↔ '\\' ∉ s := by
  show value parent (str s level) = some s ↔ _
  rw [str_line s level hn]
  show quoted (escaped s ++ ['"']) = some s ↔ _
  constructor
  · intro h hb
    obtain ⟨-, k⟩ := quoted_count _ _ _ (le_refl _) h
    obtain ⟨e1, e2, e3⟩ := escaped_count s
    have q1 : (escaped s ++ ['"']).count '"' = s.count '"' + 1 := by rw [List.count_append, e2]; rfl
    have q2 : (escaped s ++ ['"']).count '\\' = s.count '"' + s.count '\\' := by rw [List.count_append, e3]; rfl
    have q3 : (escaped s ++ ['"']).length = s.length + s.count '"' + 1 := by rw [List.length_append, e1]; rfl
    rw [q1, q2, q3] at k
    have := k (by omega)
    have h0 : s.count '\\' = 0 := by omega
    exact List.count_eq_zero.mp h0 hb
  · intro hb
    exact quoted_escaped s hb hn hr

/-- **C49** (negation) A metadata value with a backslash is not read back: for instance `a\b` becomes `a` and a backspace, and
a value that ends with a backslash leaves the quotes open. -/
theorem C49_negation_backslash :
    value 4 ((Style.str 2).text "a\\b".toList) = some ['a', Char.ofNat 8] ∧
    value 4 ((Style.str 2).text "C:\\dir\\".toList) = none := by
  have e1 : (Style.str 2).text "a\\b".toList = "\"a\\b\"".toList := by
    show str "a\\b".toList 2 = _
    rw [str_line _ _ (by decide)]
    rfl
  have e2 : (Style.str 2).text "C:\\dir\\".toList = "\"C:\\dir\\\"".toList := by
    show str "C:\\dir\\".toList 2 = _
    rw [str_line _ _ (by decide)]
    rfl
  rw [e1, e2]
  constructor
  · show quoted ['a', '\\', 'b', '"'] = _
    rw [quoted_char _ _ (by decide) (by decide) (by decide) (by decide), quoted_escape]
    show ((quoted ['"']).map _).map _ = _
    rw [quoted_quote]
    rfl
  · show quoted ['C', ':', '\\', 'd', 'i', 'r', '\\', '"'] = _
    rw [quoted_char _ _ (by decide) (by decide) (by decide) (by decide),
      quoted_char _ _ (by decide) (by decide) (by decide) (by decide), quoted_escape]
    rfl

/-- **C49** (expressions, exact) An expression printed between quotes as it is (components of the initial magnetization and of the
applied field) is read back as the same string if it has no quote, backslash, end of line or carriage return. -/
theorem C49_quotes_partial (s : Str) (parent : ℕ) (hq : '"' ∉ s) (hb : '\\' ∉ s) (hn : '\n' ∉ s) (hr : '\r' ∉ s) :
    value parent (Style.quotes.text s) = some s := by
  show quoted (s ++ ['"']) = some s
  have : escaped s = s := by
    clear hb hn hr
    induction s with
    | nil => rfl
    | cons c s ih =>
      have e : escaped (c :: s) = (if c = '"' then ['\\', '"'] else [c]) ++ escaped s := List.flatMap_cons
      rw [e, if_neg (fun h : c = '"' => hq (by rw [h]; exact List.mem_cons_self)), ih (fun h => hq (List.mem_cons_of_mem _ h))]
      rfl
  have h := quoted_escaped s hb hn hr
  rw [this] at h
  exact h

/-- **C49** (negation) A quote in an expression ends the text early: every expression with a quote in front of which there is no
backslash is not read back. -/
theorem C49_negation_quotes (a b : Str) (parent : ℕ) (hb : '\\' ∉ a) :
    value parent (Style.quotes.text (a ++ '"' :: b)) = none := by
  show quoted ((a ++ '"' :: b) ++ ['"']) = none
  rw [List.append_assoc]
  induction a with
  | nil =>
    show quoted ('"' :: (b ++ ['"'])) = none
    rw [quoted_quote, if_neg (by simp)]
  | cons c a ih =>
    have ih := ih (fun h => hb (List.mem_cons_of_mem _ h))
    rw [List.cons_append]
    by_cases h1 : c = '"'
    · rw [h1, quoted_quote, if_neg (by simp)]
    · have h2 : c ≠ '\\' := fun e => hb (e ▸ List.mem_cons_self)
      by_cases h3 : c = '\n' ∨ c = '\r'
      · rw [quoted, if_neg h1, if_neg h2, if_pos h3]
      · push Not at h3
        rw [quoted_char c _ h1 h2 h3.1 h3.2, ih]
        rfl

/-! ## strings of several lines -/

theorem fields_ne (s : Str) : fields s ≠ [] := by
  cases s with
  | nil => exact List.cons_ne_nil _ _
  | cons c s =>
    unfold fields
    split
    · exact List.cons_ne_nil _ _
    · split <;> exact List.cons_ne_nil _ _

theorem fields_newline (s : Str) : fields ('\n' :: s) = [] :: fields s := by
  rw [fields, if_pos rfl]

theorem fields_char (c : Char) (s : Str) (h : c ≠ '\n') (l : Str) (ls : List Str) (hs : fields s = l :: ls) :
    fields (c :: s) = (c :: l) :: ls := by
  rw [fields, if_neg h, hs]

/-- prefixing characters that are not ends of line -/
theorem fields_prefix (a s : Str) (ha : ∀ c ∈ a, c ≠ '\n') (l : Str) (ls : List Str) (hs : fields s = l :: ls) :
    fields (a ++ s) = (a ++ l) :: ls := by
  induction a with
  | nil => exact hs
  | cons c a ih =>
    exact fields_char c _ (ha c List.mem_cons_self) _ _ (ih fun d hd => ha d (List.mem_cons_of_mem _ hd))

/-- indentation after each end of line -/
theorem fields_indent (ind s : Str) (hi : ∀ c ∈ ind, c ≠ '\n') :
    fields (ind ++ s.flatMap fun c => if c = '\n' then '\n' :: ind else [c]) = (fields s).map (ind ++ ·) := by
  induction s with
  | nil =>
    rw [fields_prefix ind _ hi [] [] rfl]
    rfl
  | cons c s ih =>
    rw [List.flatMap_cons]
    obtain ⟨l, ls, hs⟩ := List.exists_cons_of_ne_nil (fields_ne s)
    by_cases h : c = '\n'
    · subst h
      rw [if_pos rfl, List.cons_append, fields_newline]
      have : fields ('\n' :: (ind ++ s.flatMap fun c => if c = '\n' then '\n' :: ind else [c])) =
          [] :: (fields s).map (ind ++ ·) := by rw [fields_newline, ih]
      rw [fields_prefix ind _ hi _ _ this]
      rfl
    · rw [if_neg h, fields_char c s h l ls hs]
      rw [hs] at ih
      have hx : ∃ l' ls', fields (s.flatMap fun c => if c = '\n' then '\n' :: ind else [c]) = l' :: ls' :=
        List.exists_cons_of_ne_nil (fields_ne _)
      obtain ⟨l', ls', hx⟩ := hx
      rw [fields_prefix ind _ hi l' ls' hx] at ih
      injection ih with ih1 ih2
      have ih1 : l' = l := List.append_cancel_left ih1
      show fields (ind ++ c :: (s.flatMap fun c => if c = '\n' then '\n' :: ind else [c])) = _
      rw [fields_prefix ind _ hi (c :: l') ls' (fields_char c _ h l' ls' hx), ih1, ih2]
      rfl

theorem unfields (s : Str) : (fields s).flatMap (· ++ ['\n']) = s ++ ['\n'] := by
  induction s with
  | nil => rfl
  | cons c s ih =>
    obtain ⟨l, ls, hs⟩ := List.exists_cons_of_ne_nil (fields_ne s)
    by_cases h : c = '\n'
    · subst h
      rw [fields_newline, List.flatMap_cons, ih]
      rfl
    · rw [fields_char c s h l ls hs]
      rw [hs] at ih
      rw [List.flatMap_cons] at ih ⊢
      show c :: (l ++ ['\n'] ++ ls.flatMap (· ++ ['\n'])) = c :: (s ++ ['\n'])
      rw [ih]

/-- the first line that is not empty does not start with a space -/
def PlainStart (s : Str) : Prop := ∀ l, (fields s).find? (fun l => decide (l ≠ [])) = some l → l.head? ≠ some ' '

instance (s : Str) : Decidable (PlainStart s) :=
  match h : (fields s).find? (fun l => decide (l ≠ [])) with
  | none => isTrue fun l hl => by rw [h] at hl; cases hl
  | some l =>
    if hh : l.head? = some ' ' then isFalse fun hp => hp l h hh
    else isTrue fun l' hl => by rw [h] at hl; injection hl with hl; rw [← hl]; exact hh

theorem spaces_indent (n : ℕ) (l : Str) : n ≤ spaces (List.replicate n ' ' ++ l) := by
  unfold spaces
  rw [List.takeWhile_append_of_pos (by intro a ha; rw [List.eq_of_mem_replicate ha]; rfl), List.length_append,
    List.length_replicate]
  omega

theorem spaces_exact (n : ℕ) (l : Str) (h : l.head? ≠ some ' ') : spaces (List.replicate n ' ' ++ l) = n := by
  unfold spaces
  rw [List.takeWhile_append_of_pos (by intro a ha; rw [List.eq_of_mem_replicate ha]; rfl), List.length_append,
    List.length_replicate]
  cases l with
  | nil => rfl
  | cons c l =>
    have : (c == ' ') = false := beq_eq_false_iff_ne.mpr (fun e => h (by rw [e]; rfl))
    rw [List.takeWhile_cons, this]
    rfl

theorem blank_indent (n : ℕ) (l : Str) : blank (List.replicate n ' ' ++ l) = blank l := by
  unfold blank
  rw [List.all_append]
  have : (List.replicate n ' ').all (· == ' ') = true := by
    rw [List.all_eq_true]
    intro a ha
    rw [List.eq_of_mem_replicate ha]
    rfl
  rw [this, Bool.true_and]

/-- the lines of an indented text: the value is the text without the indentation -/
theorem blockValue_indent (n parent : ℕ) (hn : parent < n) (t : Str) (ht : PlainStart t) :
    blockValue parent ((fields t).map (List.replicate n ' ' ++ ·)) = some (clip (t ++ ['\n'])) := by
  have find : ∀ ls : List Str, (∀ l, ls.find? (fun l => decide (l ≠ [])) = some l → l.head? ≠ some ' ') →
      (ls.map (List.replicate n ' ' ++ ·)).find? (fun l => !blank l) =
        (ls.find? (fun l => decide (l ≠ []))).map (List.replicate n ' ' ++ ·) ∧
      ((ls.map (List.replicate n ' ' ++ ·)).takeWhile blank).any (fun l => decide (n < l.length)) = false := by
    intro ls
    induction ls with
    | nil => intro _; exact ⟨rfl, rfl⟩
    | cons l ls ih =>
      intro h
      rw [List.map_cons, List.find?_cons, List.takeWhile_cons, blank_indent]
      cases l with
      | nil =>
        obtain ⟨i1, i2⟩ := ih fun l hl => h l (by rw [List.find?_cons]; exact hl)
        refine ⟨i1, ?_⟩
        rw [if_pos (show blank [] = true by decide), List.any_cons, i2, List.append_nil, List.length_replicate, Bool.or_false]
        exact decide_eq_false (lt_irrefl n)
      | cons c l =>
        have hc := h (c :: l) (by rw [List.find?_cons]; rfl)
        have hb : blank (c :: l) = false := by
          unfold blank
          rw [List.all_cons, beq_eq_false_iff_ne.mpr (fun e => hc (by rw [e]; rfl) : c ≠ ' '), Bool.false_and]
        rw [hb]
        exact ⟨rfl, rfl⟩
  obtain ⟨f1, f2⟩ := find (fields t) ht
  have hmap : ((fields t).map (List.replicate n ' ' ++ ·)).mapM (blockLine n) = some (fields t) := by
    generalize fields t = ls
    induction ls with
    | nil => rfl
    | cons l ls ih =>
      rw [List.map_cons, List.mapM_cons, ih]
      have : blockLine n (List.replicate n ' ' ++ l) = some l := by
        unfold blockLine
        rw [if_pos (spaces_indent n l), List.drop_append, List.length_replicate, Nat.sub_self,
          List.drop_eq_nil_of_le (by rw [List.length_replicate])]
        rfl
      rw [this]
      rfl
  unfold blockValue
  rw [f1]
  cases hf : (fields t).find? (fun l => decide (l ≠ [])) with
  | none =>
    have hall : ∀ l ∈ fields t, l = [] := fun l hl => by
      have := List.find?_eq_none.mp hf l hl
      simpa using this
    have hc : clip (t ++ ['\n']) = [] := by
      rw [← unfields]
      have : ∀ ls : List Str, (∀ l ∈ ls, l = []) → clip (ls.flatMap (· ++ ['\n'])) = [] := by
        intro ls h
        have e : (ls.flatMap (· ++ ['\n'])).rdropWhile (· == '\n') = [] := by
          rw [List.rdropWhile_eq_nil_iff]
          intro x hx
          obtain ⟨l, hl, hx⟩ := List.mem_flatMap.mp hx
          rw [h l hl] at hx
          rw [List.mem_singleton.mp hx]
          rfl
        unfold clip
        rw [e]
        rfl
      exact this _ hall
    rw [hc]
    rfl
  | some l =>
    dsimp only [Option.map]
    rw [spaces_exact n l (ht l hf), if_neg (by omega), f2, hmap]
    dsimp only
    rw [if_neg Bool.false_ne_true]
    show some (clip ((fields t).flatMap (· ++ ['\n']))) = _
    rw [unfields]

theorem clip_newline (t : Str) : clip (t ++ ['\n']) = clip t := by
  unfold clip
  rw [List.rdropWhile_concat_pos _ _ _ rfl]

theorem find_dropLast {t : Str} : ∀ l, (fields (t ++ ['\n'])).find? (fun l => decide (l ≠ [])) = some l ↔
    (fields t).find? (fun l => decide (l ≠ [])) = some l := by
  have : fields (t ++ ['\n']) = fields t ++ [[]] := by
    induction t with
    | nil => rfl
    | cons c t ih =>
      rw [List.cons_append]
      obtain ⟨l, ls, hs⟩ := List.exists_cons_of_ne_nil (fields_ne t)
      by_cases h : c = '\n'
      · subst h
        rw [fields_newline, fields_newline, ih]
        rfl
      · rw [fields_char c t h l ls hs, fields_char c (t ++ ['\n']) h l (ls ++ [[]]) (by rw [ih, hs]; rfl)]
        rfl
  intro l
  rw [this, List.find?_append]
  cases (fields t).find? (fun l => decide (l ≠ [])) with
  | some x => rfl
  | none => exact Iff.rfl

/-- **C49** (strings of several lines) A string with an end of line whose first non-empty line does not start with a space is
read back without its final ends of line but one. -/
theorem C49_block (s : Str) (level : ℕ) (hn : '\n' ∈ s) (hs : PlainStart s) :
    value (2 * level) ((Style.str level).text s) = some (clip s) := by
  have key : ∀ t : Str, PlainStart t →
      value (2 * level) (replace ['\n'] ('\n' :: List.replicate ((level + 1) * 2) ' ') ('|' :: '\n' :: t)) =
        some (clip (t ++ ['\n'])) := by
    intro t ht
    have e : replace ['\n'] ('\n' :: List.replicate ((level + 1) * 2) ' ') ('|' :: '\n' :: t) =
        '|' :: '\n' :: (List.replicate ((level + 1) * 2) ' ' ++
          t.flatMap fun c => if c = '\n' then '\n' :: List.replicate ((level + 1) * 2) ' ' else [c]) := by
      rw [replace_char_cons, if_neg (by decide), replace_char_cons, if_pos rfl, replace_char]
      rfl
    rw [e]
    show blockValue (2 * level) (fields _) = _
    rw [fields_indent _ _ (by intro c hc; rw [List.eq_of_mem_replicate hc]; decide)]
    exact blockValue_indent _ _ (by omega) t ht
  show value (2 * level) (str s level) = _
  unfold str
  rw [if_pos hn]
  dsimp only
  split
  · rename_i hl
    have hs0 : s ≠ [] := fun e => by rw [e] at hn; cases hn
    obtain ⟨t, c, rfl⟩ : ∃ t c, s = t ++ [c] := ⟨s.dropLast, s.getLast hs0, (List.dropLast_append_getLast hs0).symm⟩
    have hc : c = '\n' := by
      have e : ('|' :: '\n' :: (t ++ [c])) = ('|' :: '\n' :: t) ++ [c] := rfl
      rw [e, List.getLast?_append] at hl
      injection hl
    subst hc
    have e : ('|' :: '\n' :: (t ++ ['\n'])).dropLast = '|' :: '\n' :: t := by
      have e : ('|' :: '\n' :: (t ++ ['\n'])) = ('|' :: '\n' :: t) ++ ['\n'] := rfl
      rw [e, List.dropLast_concat]
    rw [e]
    exact key t fun l hl => hs l (find_dropLast l |>.mpr hl)
  · rw [key s hs, clip_newline]

/-- **C49** (strings of several lines, exact) Such a string is read back as the same string exactly if it ends with exactly one
end of line after something else. -/
theorem C49_block_iff (s : Str) (level : ℕ) (hn : '\n' ∈ s) (hs : PlainStart s) :
    value (2 * level) ((Style.str level).text s) = some s ↔ ∃ t c, c ≠ '\n' ∧ s = t ++ [c, '\n'] := by
  rw [C49_block s level hn hs]
  constructor
  · intro h
    injection h with h
    unfold clip at h
    dsimp only at h
    split at h
    · rw [← h] at hn
      cases hn
    · rename_i ht
      refine ⟨(s.rdropWhile (· == '\n')).dropLast, (s.rdropWhile (· == '\n')).getLast ht, ?_, ?_⟩
      · have := List.rdropWhile_last_not (· == '\n') s ht
        simpa using this
      · conv_lhs => rw [← h, ← List.dropLast_append_getLast ht]
        rw [List.append_assoc]
        rfl
  · rintro ⟨t, c, hc, rfl⟩
    have e : t ++ [c, '\n'] = (t ++ [c]) ++ ['\n'] := by rw [List.append_assoc]; rfl
    have e2 : (t ++ [c, '\n']).rdropWhile (· == '\n') = t ++ [c] := by
      rw [e, List.rdropWhile_concat_pos _ _ _ rfl, List.rdropWhile_concat_neg _ _ _ (by simpa using hc)]
    unfold clip
    rw [e2]
    dsimp only
    rw [if_neg (by simp), e]

/-- **C49** (negation) A text of several lines that does not end with an end of line is read back with one more. -/
theorem C49_negation_newline (s : Str) (level : ℕ) (hn : '\n' ∈ s) (hs : PlainStart s) (hl : s.getLast? ≠ some '\n') :
    value (2 * level) ((Style.str level).text s) = some (s ++ ['\n']) := by
  rw [C49_block s level hn hs]
  have hs0 : s ≠ [] := fun e => by rw [e] at hn; cases hn
  obtain ⟨t, c, rfl⟩ : ∃ t c, s = t ++ [c] := ⟨s.dropLast, s.getLast hs0, (List.dropLast_append_getLast hs0).symm⟩
  have hc : c ≠ '\n' := fun e => hl (by rw [e, List.getLast?_append]; rfl)
  unfold clip
  rw [List.rdropWhile_concat_neg _ _ _ (by simpa using hc)]
  dsimp only
  rw [if_neg (by simp)]

/-- **C49** (negation) Leading spaces of the first line are taken for indentation: they are lost, or the document is not valid
any more. -/
theorem C49_negation_indent :
    value 4 ((Style.str 2).text " a\n".toList) = some "a\n".toList ∧
    value 4 ((Style.str 2).text " a\nb\n".toList) = none := by
  have e1 : (Style.str 2).text " a\n".toList = "|\n       a".toList := by
    show str " a\n".toList 2 = _
    unfold str
    rw [if_pos (by decide)]
    dsimp only
    rw [replace_char]
    rfl
  have e2 : (Style.str 2).text " a\nb\n".toList = "|\n       a\n      b".toList := by
    show str " a\nb\n".toList 2 = _
    unfold str
    rw [if_pos (by decide)]
    dsimp only
    rw [replace_char]
    rfl
  rw [e1, e2]
  exact ⟨rfl, rfl⟩

/-! ## strings printed as they are -/

theorem uncomment_id : ∀ s : Str, '#' ∉ s → uncomment s = s := by
  intro s
  induction s with
  | nil => intro _; rfl
  | cons c s ih =>
    intro h
    cases s with
    | nil => rfl
    | cons d s =>
      unfold uncomment
      rw [if_neg (fun e => h (by rw [e.2]; exact List.mem_cons_of_mem _ List.mem_cons_self)),
        ih (fun h' => h (List.mem_cons_of_mem _ h'))]

theorem isKey_false : ∀ s : Str, ':' ∉ s → isKey s = false := by
  intro s
  induction s with
  | nil => intro _; rfl
  | cons c s ih =>
    intro h
    have hc : (c == ':') = false := beq_eq_false_iff_ne.mpr fun e => h (e ▸ List.mem_cons_self)
    cases s with
    | nil => exact hc
    | cons d s =>
      unfold isKey
      rw [hc, ih (fun h' => h (List.mem_cons_of_mem _ h'))]
      rfl

/-- strings that can be printed without quotes -/
structure Simple (s : Str) : Prop where
  noBreak : '\n' ∉ s ∧ '\r' ∉ s
  noComment : '#' ∉ s
  noKey : ':' ∉ s
  noNull : s ∉ nulls
  first : ∀ c, s.head? = some c → c ∉ indicators
  last : ∀ c, s.getLast? = some c → c ≠ ' ' ∧ c ≠ '\t'

/-- **C49** (names printed as they are) A simple string printed without quotes is read back as the same string. -/
theorem C49_raw_partial (s : Str) (parent : ℕ) (h : Simple s) : value parent (Style.raw.text s) = some s := by
  have e : (uncomment s).rdropWhile (fun c => c == ' ' || c == '\t') = s := by
    rw [uncomment_id s h.noComment, List.rdropWhile_eq_self_iff]
    intro hl hc
    have := h.last _ (List.getLast?_eq_some_getLast hl)
    rcases Bool.or_eq_true_iff.mp hc with hc | hc
    · exact this.1 (beq_iff_eq.mp hc)
    · exact this.2 (beq_iff_eq.mp hc)
  have hp : plain s = some s := by
    unfold plain
    rw [e]
    dsimp only
    rw [if_neg (by rintro (hh | hh); exacts [h.noBreak.1 hh, h.noBreak.2 hh]), if_neg h.noNull, if_neg, isKey_false s h.noKey]
    · rfl
    · cases hh : s.head? with
      | none => simp
      | some c =>
        have := h.first c hh
        simpa using this
  show value parent s = some s
  cases s with
  | nil => exact absurd List.mem_cons_self h.noNull
  | cons c s =>
    have h1 : c ≠ '"' := fun e => h.first c rfl (by rw [e]; decide)
    have h2 : c ≠ '|' := fun e => h.first c rfl (by rw [e]; decide)
    unfold value
    split
    · rename_i heq; injection heq with heq; exact absurd heq h1
    · rename_i heq; injection heq with heq; exact absurd heq h2
    · exact hp

/-- **C49** (negation) Names printed without quotes: an output directory or a mesh file called `run #2` is read back as `run`,
and one called `null` or `a: b` is not read back as a string. -/
theorem C49_negation_raw :
    value 2 (Style.raw.text "run #2".toList) = some "run".toList ∧
    value 2 (Style.raw.text "null".toList) = none ∧ value 2 (Style.raw.text "a: b".toList) = none :=
  ⟨rfl, rfl, rfl⟩

/-! ## the whole dump -/

/-- a string that is safe in every style -/
structure Safe (s : Str) : Prop extends Simple s where
  noQuote : '"' ∉ s
  noBackslash : '\\' ∉ s

/-- the indentation of the key is that of the level given to `str` -/
def Style.parent : Style → ℕ
  | .str level => 2 * level
  | _ => 0

/-- **C49** (the part that holds for the whole dump) Every safe string of the dump is read back as the same string. Missing: the
strings excluded here; which of them are read back is the subject of `C49_quoted_iff`, `C49_block_iff` and the negations. -/
theorem C49_dump_partial {D : Type} (s : All D) : ∀ e ∈ strings s, Safe e.2.2 →
    value e.2.1.parent (e.2.1.text e.2.2) = some e.2.2 := by
  rintro ⟨path, style, t⟩ - h
  dsimp only at h ⊢
  cases style with
  | raw => exact C49_raw_partial t _ h.toSimple
  | quotes => exact C49_quotes_partial t _ h.noQuote h.noBackslash h.noBreak.1 h.noBreak.2
  | str level => exact (C49_quoted_iff t level _ h.noBreak.1 h.noBreak.2).mpr h.noBackslash

/-! ## concrete cases -/

example : (Style.str 2).text "say \"hi\"".toList = "\"say \\\"hi\\\"\"".toList := by
  show str "say \"hi\"".toList 2 = _
  rw [str_line _ _ (by decide)]
  rfl

example : value 4 ((Style.str 2).text "say \"hi\"".toList) = some "say \"hi\"".toList :=
  (C49_quoted_iff _ _ _ (by decide) (by decide)).mpr (by decide)

/-- a function of several lines, as in `Bext.space` -/
example : value 2 ((Style.str 1).text "function(x) {\n  return 1;\n}\n".toList) = some "function(x) {\n  return 1;\n}\n".toList :=
  (C49_block_iff _ _ (by decide) (by decide)).mpr ⟨"function(x) {\n  return 1;\n".toList, '}', by decide, rfl⟩

example : Safe "data/out_1.msh".toList where
  noBreak := by decide
  noComment := by decide
  noKey := by decide
  noNull := by decide
  first := by decide
  last := by decide
  noQuote := by decide
  noBackslash := by decide

end Verif.Settings
