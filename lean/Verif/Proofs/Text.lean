import Verif.Spec.Text

namespace Verif.Text

theorem replace_nil (a b : Str) : replace a b [] = [] := by unfold replace; rfl

/-- replacing one character -/
theorem replace_char_cons (x : Char) (b : Str) (c : Char) (t : Str) :
    replace [x] b (c :: t) = if c = x then b ++ replace [x] b t else c :: replace [x] b t := by
  rw [replace]
  by_cases h : c = x
  · subst h
    rw [dif_pos (by simp)]
    simp
  · rw [dif_neg (by simp; exact fun h' => h h'.symm)]
    simp [h]

theorem replace_char (x : Char) (b s : Str) : replace [x] b s = s.flatMap fun c => if c = x then b else [c] := by
  induction s with
  | nil => rw [replace_nil]; rfl
  | cons c t ih =>
    rw [replace_char_cons, ih, List.flatMap_cons]
    by_cases h : c = x <;> simp [h]

theorem lines_line (a s : Str) (ha : '\n' ∉ a) : lines (a ++ '\n' :: s) = a :: lines s := by
  induction a with
  | nil => simp [lines]
  | cons c a ih =>
    have hc : c ≠ '\n' := fun h => ha (by rw [h]; exact List.mem_cons_self)
    rw [List.cons_append, lines, if_neg hc, ih fun h => ha (List.mem_cons_of_mem _ h)]

theorem lines_append_newline (a s : Str) : lines (a ++ '\n' :: s) = lines (a ++ ['\n']) ++ lines s := by
  induction a with
  | nil => simp [lines]
  | cons c a ih =>
    rw [List.cons_append, List.cons_append, lines, lines]
    by_cases hc : c = '\n'
    · rw [if_pos hc, if_pos hc, ih]; rfl
    · rw [if_neg hc, if_neg hc, ih]
      cases h : lines (a ++ ['\n']) with
      | nil =>
        exfalso
        cases a with
        | nil => simp [lines] at h
        | cons d a =>
          rw [List.cons_append, lines] at h
          split at h
          · exact absurd h (by simp)
          · split at h <;> exact absurd h (by simp)
      | cons l ls => rfl

end Verif.Text
