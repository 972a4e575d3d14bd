import Verif.Model.Text
import Mathlib.Data.Int.Notation

/-!
# Rows of the .evol file (src/save.cpp:13-143)

The numbers are symbolic: a cell is a `Quantity`, its text is a parameter `fmt`. Region indices are integers, `-1` for none,
as in the code.
-/

namespace Verif.Evol

open Verif.Text

/-- what is printed in a cell -/
inductive Quantity
  | iter | t | dt | maxDm | maxAngle
  /-- average of component `d` of the magnetization, over a region or (`-1`) over all magnetic regions -/
  | avgU (d : Fin 3) (region : ℤ)
  /-- average of component `d` of its time derivative -/
  | avgV (d : Fin 3) (region : ℤ)
  | thiele (region : ℤ)
  | exchange | anisotropy | demag | zeeman | total
  /-- component `d` of `settings.getField(t)` -/
  | field (d : Fin 3)
  | nan
  deriving DecidableEq

/-- `findRegionIdx<Tetra::prm>`, settings.h:214-232: index of the first region with this name, else -1 -/
def findRegionIdx (regions : List Str) (name : Str) : ℤ :=
  match regions.findIdx? (fun r => r == name) with
  | none => -1
  | some i => i

/-- `col_name.rfind(':')` and the two substrings, save.cpp:32-35 and 44: parts before and after the last colon -/
def splitColon : Str → Option (Str × Str)
  | [] => none
  | c :: s =>
    match splitColon s with
    | some (a, b) => some (c :: a, b)
    | none => if c = ':' then some ([], s) else none

/-- `field_needed`, save.cpp:19-21; the character after the last one of a `std::string` is 0 -/
def fieldNeeded (cols : List Str) : Bool :=
  cols.any fun c => match c with
    | 'H' :: d :: _ => decide ('x' ≤ d) && decide (d ≤ 'z')
    | _ => false

/-- the chain of comparisons, save.cpp:56-140; `none`: invalid column name -/
def cell (needed : Bool) (region : ℤ) (key : Str) : Option Quantity :=
  let h (d : Fin 3) : Quantity := if needed then .field d else .nan
  if key = "iter".toList then some .iter
  else if key = "t".toList then some .t
  else if key = "dt".toList then some .dt
  else if key = "max_dm".toList then some .maxDm
  else if key = "max_angle".toList then some .maxAngle
  else if key = "<Mx>".toList then some (.avgU 0 region)
  else if key = "<My>".toList then some (.avgU 1 region)
  else if key = "<Mz>".toList then some (.avgU 2 region)
  else if key = "<dMx/dt>".toList then some (.avgV 0 region)
  else if key = "<dMy/dt>".toList then some (.avgV 1 region)
  else if key = "<dMz/dt>".toList then some (.avgV 2 region)
  else if key = "Thiele_length".toList then some (.thiele region)
  else if key = "E_ex".toList then some .exchange
  else if key = "E_aniso".toList then some .anisotropy
  else if key = "E_demag".toList then some .demag
  else if key = "E_zeeman".toList then some .zeeman
  else if key = "E_tot".toList then some .total
  else if key = "Hx".toList then some (h 0)
  else if key = "Hy".toList then some (h 1)
  else if key = "Hz".toList then some (h 2)
  else none

/-- one column, save.cpp:28-44 and the cell; `none`: the program ends with a message -/
def column (regions : List Str) (needed : Bool) (col : Str) : Option Quantity :=
  match splitColon col with
  | none => cell needed (-1) col
  | some (name, key) =>
    let region := findRegionIdx regions name
    if region = -1 then none else cell needed region key

/-- the loop over the columns, save.cpp:26-141, from column `i` of `n`: the text written, and whether the loop was completed
(otherwise the program has ended after this text) -/
def loop (fmt : Quantity → Str) (regions : List Str) (needed : Bool) (n : ℕ) : ℕ → List Str → Str × Bool
  | _, [] => ([], true)
  | i, col :: cols =>
    match column regions needed col with
    | none => ([], false)
    | some q =>
      let sep := if i + 1 = n then ['\n'] else ['\t']
      let rest := loop fmt regions needed n (i + 1) cols
      (fmt q ++ sep ++ rest.1, rest.2)

/-- what `Fem::saver` writes into the .evol file, save.cpp:18-142 -/
def row (fmt : Quantity → Str) (regions : List Str) (cols : List Str) : Str × Bool :=
  loop fmt regions (fieldNeeded cols) cols.length 0 cols

end Verif.Evol
