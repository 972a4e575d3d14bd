import Verif.Model.Fl
import Verif.Model.Metadata
import Verif.Spec.Text

/-!
# .sol files: `mesh::savesol` (src/save.cpp:164-186) and `mesh::readSol` (src/read.cpp:199-249)

A file is the text of its header followed by the sequence of numbers of the rows; a number keeps the value of its
decimal text. Not modelled: white space between the numbers, failure to open the file.
-/

namespace Verif.SolFile

open Verif.Text

/-- `dataNode`, the members that are saved (node.h:33-38) -/
structure ND where
  ux : Fl
  uy : Fl
  uz : Fl
  phi : Fl

/-- an element of a row: an index, or a floating point number with the value of its text; NaN and infinities are
printed as words -/
inductive Tok
  | idx (n : ℕ)
  | num (x : Fl)

structure File where
  header : Str
  toks : List Tok

/-- number formatting and parsing of the standard library -/
structure Format where
  /-- value of the decimal text printed for a number of the rows (precision of the settings, save.cpp:174) -/
  row : ℝ → ℝ
  /-- text of the time, settings.cpp:306 -/
  time : ℝ → Str
  /-- `std::stod`, `none` if it throws -/
  stod : Str → Option ℝ
  /-- the value of an unsigned integer read from the text of a floating point number (its leading digits) -/
  lead : ℝ → ℕ

/-- `fout << x` -/
def print (f : Format) : Fl → Fl
  | .nan => .nan
  | .inf s => .inf s
  | .fin x => .fin (f.row x)

/-- one row, save.cpp:178-182 -/
def rowToks (f : Format) (i : ℕ) (d : ND) (s : Option (Fl × Fl × Fl)) : List Tok :=
  [.idx i, .num (print f d.ux), .num (print f d.uy), .num (print f d.uz), .num (print f d.phi)] ++
    (match s with
     | some (a, b, c) => [.num (print f a), .num (print f b), .num (print f c)]
     | none => [])

/-- all rows, save.cpp:176-183; `none` is an access out of bounds -/
def savesol (f : Format) (metadata : Str) (node : List ND) (nodeIndex : List ℕ) (s : Option (List (Fl × Fl × Fl))) :
    Option File := do
  let rows ← (List.range node.length).mapM fun i => do
    let j ← nodeIndex[i]?
    let d ← node[j]?
    match s with
    | none => return rowToks f i d none
    | some s => do
      let sj ← s[j]?
      return rowToks f i d (some sj)
  return ⟨metadata, rows.flatten⟩

/-- result of `readSol` -/
inductive Outcome
  /-- returns the time, with the new contents of the nodes -/
  | ok (t : ℝ) (node : List ND)
  /-- `SYSTEM_ERROR` -/
  | exit
  /-- exception thrown by `std::stod`, not caught -/
  | exception
  /-- extraction from the stream failed: uninitialised variables are used (read.cpp:234-238), or an index is out of
  bounds -/
  | undefined

/-- the tag of the time, tags.h -/
def timeTag : Str := "## time:".toList

/-- result of reading the header -/
inductive Header
  | time (t : Option ℝ)
  | exception
  /-- a line that is neither empty nor a comment: the rows are expected from there on -/
  | stopped

/-- the header loop, read.cpp:210-219 -/
def readHeader (f : Format) : List Str → Option ℝ → Header
  | [], t => .time t
  | l :: ls, t =>
    if l = [] ∨ l.head? = some '#' then
      match afterTag timeTag l with
      | none => readHeader f ls t
      | some r =>
        match f.stod r with
        | none => .exception
        | some t' => readHeader f ls (some t')
    else .stopped

/-- result of `fin >> i_ >> mx >> my >> mz >> phi`, read.cpp:237 -/
inductive RowRes
  | row (i : ℕ) (d : ND) (rest : List Tok)
  /-- the index was read from the leading digits of a floating point number -/
  | lead (i : ℕ)
  | failed

def readRow (f : Format) : List Tok → RowRes
  | .idx k :: .num (.fin a) :: .num (.fin b) :: .num (.fin c) :: .num (.fin d) :: rest =>
    .row k ⟨.fin a, .fin b, .fin c, .fin d⟩ rest
  | .num (.fin x) :: _ => .lead (f.lead x)
  | _ => .failed

/-- the loop on the rows, read.cpp:232-245 -/
def readRows (f : Format) (nodeIndex : List ℕ) (t : ℝ) : List ℕ → List ND → List Tok → Outcome
  | [], node, _ => .ok t node
  | i :: is, node, toks =>
    match readRow f toks with
    | .row k d rest =>
      match nodeIndex[i]? with
      | none => .undefined
      | some j =>
        if k = i then
          if j < node.length then readRows f nodeIndex t is (node.set j d) rest else .undefined
        else .exit
    | .lead k => if k = i then .undefined else .exit
    | .failed => .undefined

/-- `mesh::readSol`, read.cpp:199-249 -/
def readSol (f : Format) (node : List ND) (nodeIndex : List ℕ) (file : File) : Outcome :=
  match readHeader f (lines file.header) none with
  | .exception => .exception
  | .stopped => .undefined
  | .time none => .exit
  | .time (some t) => readRows f nodeIndex t (List.range node.length) node file.toks

end Verif.SolFile
