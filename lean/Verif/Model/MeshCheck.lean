import Mathlib.Data.Int.Order.Basic
import Mathlib.Data.List.Basic
import Verif.Model.Mesh

/-!
# Mesh check (src/mesh.cpp:13-50 and 121-332)

`std::sort` on `allTriCtnr` (line 149) orders by node indices only; the relative order of triangles with the
same nodes is unspecified. The sorted list is therefore an argument of the model: theorems hold for every
sorted permutation.
-/

namespace Verif.MeshCheck

open Verif.Mesh

/-- sorted triple of node indices (`nodesInd`, mesh.cpp:39) -/
abbrev Key := ℕ × ℕ × ℕ

/-- `std::sort` of three indices, mesh.cpp:25 -/
def sort3 (a b c : ℕ) : Key := (min a (min b c), max (min a b) (min (max a b) c), max a (max b c))

/-- `inversions`, mesh.cpp:22-24 -/
def inversions (a b c : ℕ) : ℕ := (if a > b then 1 else 0) + (if b > c then 1 else 0) + (if a > c then 1 else 0)

/-- lexicographic comparison of arrays, mesh.cpp:35-36 -/
def keyLT (a b : Key) : Prop := a.1 < b.1 ∨ (a.1 = b.1 ∧ (a.2.1 < b.2.1 ∨ (a.2.1 = b.2.1 ∧ a.2.2 < b.2.2)))

instance (a b : Key) : Decidable (keyLT a b) := by unfold keyLT; infer_instance

/-- `class BasicTri`, mesh.cpp:13-50 -/
structure BasicTri where
  nodes : Key
  reg : ℕ
  surf : Bool
  flipped : Bool

/-- constructor, mesh.cpp:19-27 -/
def BasicTri.mk' (a b c reg : ℕ) (surf : Bool) : BasicTri :=
  ⟨sort3 a b c, reg, surf, inversions a b c % 2 == 1⟩

/-- constructor from a surface element, mesh.cpp:30-32 -/
def BasicTri.ofTri (f : Tri) : BasicTri := .mk' (f.ind 0) (f.ind 1) (f.ind 2) f.reg true

/-- the four faces of a tetrahedron, oriented outwards, mesh.cpp:134-142 -/
def faces (t : Tet) : List BasicTri :=
  [.mk' (t.ind 0) (t.ind 2) (t.ind 1) t.reg false, .mk' (t.ind 1) (t.ind 2) (t.ind 3) t.reg false,
   .mk' (t.ind 2) (t.ind 0) (t.ind 3) t.reg false, .mk' (t.ind 3) (t.ind 0) (t.ind 1) t.reg false]

/-- `allTriCtnr` before sorting, mesh.cpp:131-146 -/
def allTri (tets : List Tet) (tris : List Tri) : List BasicTri := tets.flatMap faces ++ tris.map .ofTri

/-- a possible result of `std::sort`, mesh.cpp:150 -/
def IsSortOf (sorted all : List BasicTri) : Prop :=
  sorted.Perm all ∧ sorted.Pairwise fun a b => ¬ keyLT b.nodes a.nodes

/-- statistics gathered by `diffTriHandler`, mesh.cpp:252-276 -/
structure Stats where
  nbSurf : ℕ := 0
  nbFaces : ℕ := 0
  pair : ℤ × ℤ := (-1, -1)

/-- body of the loop, mesh.cpp:258-276 (`idCurSurfReg` only serves the message) -/
def Stats.add (s : Stats) (b : BasicTri) : Stats :=
  if b.surf then { s with nbSurf := s.nbSurf + 1 }
  else { s with
    nbFaces := s.nbFaces + 1
    pair := if (b.reg : ℤ) > s.pair.1 then ((b.reg : ℤ), s.pair.1) else (s.pair.1, (b.reg : ℤ)) }

def stats (grp : List BasicTri) : Stats := grp.foldl Stats.add {}

/-- condition to create a triangle, mesh.cpp:278-280 -/
def missing (s : Stats) : Bool :=
  s.nbSurf == 0 && (s.nbFaces == 1 || (s.nbFaces == 2 && s.pair.1 != s.pair.2))

/-- `assertNoErrInTriangle`, mesh.cpp:293-332 -/
def noErr (s : Stats) : Bool :=
  if s.nbSurf > 1 then false
  else if s.nbFaces = 0 then false
  else if s.nbFaces > 2 then false
  else if s.nbFaces = 2 ∧ s.nbSurf = 1 ∧ s.pair.1 = s.pair.2 then false
  else true

/-- triangles to add: their nodes (`indNodTriToAdd`) and pair of volume regions (`regsTriToAdd`) -/
abbrev ToAdd := List (Key × (ℤ × ℤ))

/-- `diffTriHandler` on the slice `[low, up)`, mesh.cpp:247-291; `none` is `return false` -/
def handler (grp : List BasicTri) (acc : ToAdd) : Option ToAdd :=
  let s := stats grp
  let acc' := match grp with
    | b :: _ => if missing s then acc ++ [(b.nodes, s.pair)] else acc
    | [] => acc
  if noErr s then some acc' else none

/-- the walk over the sorted list, mesh.cpp:156-168; `cur` is the slice `[low, up)`, `rest` what follows -/
def walk (cur : List BasicTri) (acc : ToAdd) : List BasicTri → Option ToAdd
  | [] => handler cur acc
  | b :: rest =>
    match cur with
    | [] => walk [b] acc rest
    | c :: _ =>
      if b.nodes ≠ c.nodes then (handler cur acc).bind fun acc' => walk [b] acc' rest
      else walk (cur ++ [b]) acc rest

/-- the part of `Triangle::prm` that matters here: name, and all other parameters -/
structure SurfPrm (π : Type) where
  name : String
  prm : π

/-- base name of a new region, mesh.cpp:185-193 -/
def baseName (volName : ℕ → String) (p : ℤ × ℤ) : String :=
  if p.2 = -1 then "surface(" ++ volName p.1.toNat ++ ")"
  else "interface(" ++ volName p.1.toNat ++ (", " ++ volName p.2.toNat ++ ")")

/-- candidate name number `i`, mesh.cpp:201-203 -/
def candidate (base : String) (i : ℕ) : String := if i > 0 then base ++ ("." ++ toString i) else base

/-- search of a unique name, mesh.cpp:196-206; `fuel` bounds the loop (`none`: not found within `fuel`;
`freshName_some` shows that `regs.length + 1` turns are always enough) -/
def freshName {π : Type} (regs : List (SurfPrm π)) (base : String) : ℕ → ℕ → Option String
  | 0, _ => none
  | fuel + 1, i =>
    if regs.any (fun r => r.name == candidate base i) then freshName regs base fuel (i + 1)
    else some (candidate base i)

/-- creation of the missing regions, mesh.cpp:176-215: new list of surface regions and
`volumesToSurfaceMap` -/
def createRegions {π : Type} (volName : ℕ → String) (dflt : SurfPrm π) :
    ToAdd → List (SurfPrm π) → List ((ℤ × ℤ) × ℕ) → Option (List (SurfPrm π) × List ((ℤ × ℤ) × ℕ))
  | [], regs, m => some (regs, m)
  | (_, p) :: l, regs, m =>
    if m.any (fun e => e.1 == p) then createRegions volName dflt l regs m
    else match freshName regs (baseName volName p) (regs.length + 1) 0 with
      | none => none
      | some nm =>
        let regs' := regs ++ [{ dflt with name := nm }]
        createRegions volName dflt l regs' (m ++ [(p, regs'.length - 1)])

/-- `volumesToSurfaceMap[p]` (the key is present; the default 0 of `std::map` otherwise) -/
def regionOf (m : List ((ℤ × ℤ) × ℕ)) (p : ℤ × ℤ) : ℕ := ((m.find? fun e => e.1 == p).map (·.2)).getD 0

/-- a new surface element, mesh.cpp:218-225 (the index shift by one and back cancels, element.h:38-42) -/
def newTri (m : List ((ℤ × ℤ) × ℕ)) (e : Key × (ℤ × ℤ)) : Tri :=
  ⟨fun k => if k = 0 then e.1.1 else if k = 1 then e.1.2.1 else e.1.2.2, regionOf m e.2⟩

/-- jump of magnetization of a surface element, mesh.cpp:228-242: `std::lower_bound`, then the run of
faces with the same nodes -/
def dMs {R : Type} [Zero R] [Add R] [Neg R] (Ms : ℕ → R) (sorted : List BasicTri) (f : Tri) : R :=
  let b := BasicTri.ofTri f
  ((sorted.dropWhile fun x => decide (keyLT x.nodes b.nodes)).takeWhile fun x => decide (x.nodes = b.nodes)).foldl
    (fun acc x => if x.surf then acc
      else acc + (if xor b.flipped x.flipped then -Ms x.reg else Ms x.reg)) 0

/-- result of the check: surface elements with their jump, and surface regions -/
structure Result (R π : Type) where
  tris : List (Tri × R)
  regs : List (SurfPrm π)

/-- `controlTriangles`, mesh.cpp:121-245; `none` is `return false`. `regs` is `paramTriangle`; an empty
`paramTriangle` (undefined behaviour at line 169) is counted as a failure: the settings always hold the
region `__default__` first -/
def control {R π : Type} [Zero R] [Add R] [Neg R] (volName : ℕ → String) (Ms : ℕ → R) (tets : List Tet)
    (tris : List Tri) (regs : List (SurfPrm π)) (sorted : List BasicTri) : Option (Result R π) :=
  if tets.isEmpty then none
  else
    (walk [] [] sorted).bind fun toAdd =>
      match regs with
      | [] => none
      | dflt :: _ =>
        if dflt.name ≠ "__default__" then none
        else (createRegions volName dflt toAdd regs []).map fun rm =>
          ⟨(tris ++ toAdd.map (newTri rm.2)).map fun f => (f, dMs Ms sorted f), rm.1⟩

end Verif.MeshCheck
