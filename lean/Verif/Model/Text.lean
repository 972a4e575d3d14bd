import Mathlib.Data.List.Basic

/-!
# Text

`std::string` is a list of characters.
-/

namespace Verif.Text

abbrev Str := List Char

/-- `replace(s, search, replacement)`, settings.cpp:70-77: occurrences are searched from left to right; the search
goes on after the inserted text. (`search` is never empty in the code; an empty one makes the loop infinite.) -/
def replace (search replacement : Str) (s : Str) : Str :=
  match s with
  | [] => []
  | c :: t =>
    if h : search ≠ [] ∧ search.isPrefixOf (c :: t) then
      replacement ++ replace search replacement ((c :: t).drop search.length)
    else c :: replace search replacement t
termination_by s.length
decreasing_by
  · obtain ⟨h1, _⟩ := h
    have : 0 < search.length := List.length_pos_iff.mpr h1
    simp only [List.length_drop, List.length_cons]
    omega
  · simp

/-- what remains after the first occurrence of `tag` in `s` (`find`, then `substr(idx + tag.length())`,
read.cpp:213-216), `none` if there is none -/
def afterTag (tag : Str) : Str → Option Str
  | [] => if tag = [] then some [] else none
  | c :: t => if tag.isPrefixOf (c :: t) then some ((c :: t).drop tag.length) else afterTag tag t

end Verif.Text
