import Verif.Model.Text
import Mathlib.Data.Int.Notation
import Mathlib.Data.Fin.VecNotation

/-!
# Reading the settings (src/settings.cpp:44-67, 314-616; src/main.cpp:188-194, 222-226)

A YAML document, as the yaml-cpp library presents it, is a tree. Numbers are elements of an abstract type `D`; how the library
converts scalars (`as<double>`, `as<int>`, `as<bool>`), and whether the interpreter compiles a function, are parameters.
`none` as a result is the end of the program with a message (`error`, settings.cpp:37-41, an exception of the library, or a
function that does not compile). Warnings are not modelled. A null where the code asks for a string without testing (column
names, metadata values) ends the program here; some versions of the library return the word "null".
-/

namespace Verif.Settings

open Verif.Text

inductive Yaml
  | null
  | scalar (s : Str)
  | seq (l : List Yaml)
  | map (l : List (Str × Yaml))

/-- conversions and arithmetic -/
structure Conv (D : Type) where
  toD : Str → Option D
  toInt : Str → Option ℤ
  toBool : Str → Option Bool
  nan : D
  isNaN : D → Bool
  /-- `x <= 0` -/
  nonpos : D → Bool
  /-- `x / mu0` -/
  divMu0 : D → D
  /-- `Vector3d::normalize` -/
  normalize : D × D × D → D × D × D
  /-- the interpreter accepts a function -/
  compiles : Str → Bool
  /-- `sysconf(_SC_NPROCESSORS_ONLN)` -/
  cpuCount : ℤ

/-- `node[key]` for a key that is a string: `none` inside is a node that is not defined. The library throws an exception for a
scalar; a sequence has no such key. -/
def Yaml.get (key : Str) : Yaml → Option (Option Yaml)
  | .null => some none
  | .scalar _ => none
  | .seq _ => some none
  | .map l => some ((l.find? fun p => p.1 == key).map Prod.snd)

variable {D : Type}

/-- `assign` for scalars, settings.cpp:44-53 -/
def assign {α : Type} (conv : Str → Option α) (var : α) (node : Option Yaml) : Option α :=
  match node with
  | some (.scalar s) => conv s
  | _ => some var

/-- the value returned by `assign` for scalars: whether the node is a scalar -/
def isScalar (node : Option Yaml) : Bool :=
  match node with
  | some (.scalar _) => true
  | _ => false

/-- `if (node && !node.IsNull())`: the node if it is defined and not null -/
def present (node : Option Yaml) : Option Yaml :=
  match node with
  | some .null => none
  | n => n

/-- `as<T>` of a node: only scalars can be converted -/
def asScalar {α : Type} (conv : Str → Option α) : Yaml → Option α
  | .scalar s => conv s
  | _ => none

/-- `assign` for vectors, settings.cpp:56-67 -/
def assignVec (C : Conv D) (normalize : Bool) (var : D × D × D) (node : Option Yaml) : Option (D × D × D) :=
  match present node with
  | none => some var
  | some (.seq [a, b, c]) => do
    let x ← asScalar C.toD a
    let y ← asScalar C.toD b
    let z ← asScalar C.toD c
    return if normalize then C.normalize (x, y, z) else (x, y, z)
  | some _ => none

/-! ## outputs -/

structure Outputs (D : Type) where
  directory : Str
  timeStep : D
  finalTime : D
  savePeriod : ℤ
  evolColumns : List Str
  userMetadata : List (Str × Str)

/-- normalization of the directory name, settings.cpp:323-329 -/
def normalizeDir (s : Str) : Str :=
  let s := if s = [] then ['.'] else s
  if s.length > 1 ∧ s.getLast? = some '/' then s.dropLast else s

/-- one item of user metadata, settings.cpp:359-368: replaced in place or appended -/
def putItem (item : Str × Str) : List (Str × Str) → List (Str × Str)
  | [] => [item]
  | p :: l => if p.1 = item.1 then item :: l else p :: putItem item l

/-- the loop over the metadata, settings.cpp:356-369 -/
def putItems : List (Str × Yaml) → List (Str × Str) → Option (List (Str × Str))
  | [], l => some l
  | (k, v) :: items, l => do
    let v ← asScalar some v
    putItems items (putItem (k, v) l)

/-- `save_period`, settings.cpp:334-340 -/
def readPeriod (C : Conv D) (old : ℤ) (node : Option Yaml) : Option ℤ :=
  match node with
  | some (.scalar s) =>
    if s = "true".toList then none
    else if s = "false".toList then some 0
    else do
      let n ← C.toInt s
      return if n < 0 then 0 else n
  | _ => some old

/-- the columns, settings.cpp:342-350 -/
def readColumns (old : List Str) (node : Option Yaml) : Option (List Str) :=
  match present node with
  | none => some old
  | some (.seq l) => l.mapM (asScalar some)
  | some _ => none

/-- the user metadata, settings.cpp:352-370 -/
def readMetadata (old : List (Str × Str)) (node : Option Yaml) : Option (List (Str × Str)) :=
  match present node with
  | none => some old
  | some (.map l) => putItems l old
  | some _ => none

/-- section `outputs`, settings.cpp:316-371; also the new value of `simName` (line 331) -/
def readOutputs (C : Conv D) (o : Outputs D) (simName : Str) (node : Option Yaml) : Option (Outputs D × Str) :=
  match present node with
  | none => some (o, simName)
  | some (.map l) => do
    let y := Yaml.map l
    let directory ← assign (fun s => some (normalizeDir s)) o.directory (← y.get "directory".toList)
    let simName ← assign some simName (← y.get "file_basename".toList)
    let timeStep ← assign C.toD o.timeStep (← y.get "evol_time_step".toList)
    let finalTime ← assign C.toD o.finalTime (← y.get "final_time".toList)
    let savePeriod ← readPeriod C o.savePeriod (← y.get "mag_config_every".toList)
    let evolColumns ← readColumns o.evolColumns (← y.get "evol_columns".toList)
    let userMetadata ← readMetadata o.userMetadata (← y.get "metadata".toList)
    return (⟨directory, timeStep, finalTime, savePeriod, evolColumns, userMetadata⟩, simName)
  | some _ => none

/-! ## mesh -/

/-- `Tetra::prm` (tetra.h) -/
structure TetraPrm (D : Type) where
  regName : Str
  A : D
  Ms : D
  K : D
  uk : D × D × D
  K3 : D
  ex : D × D × D
  ey : D × D × D
  ez : D × D × D
  alpha : D
  sigma : D
  N0 : D
  P : D
  lsd : D
  lsf : D

/-- `Triangle::prm` (triangle.h) -/
structure TriPrm (D : Type) where
  regName : Str
  suppressCharges : Bool
  Ks : D
  uk : D × D × D
  jn : D
  V : D
  uP : D × D × D
  s : D × D × D

/-- one volume region, settings.cpp:389-419: `p` is the copy of the default region -/
def readVolume (C : Conv D) (p : TetraPrm D) (name : Str) (y : Yaml) : Option (TetraPrm D) := do
  let A ← assign C.toD p.A (← y.get "Ae".toList)
  let nMs ← y.get "Ms".toList
  let Ms ← assign C.toD p.Ms nMs
  let nJs ← y.get "Js".toList
  let Ms ← assign (fun s => (C.toD s).map C.divMu0) Ms nJs
  if isScalar nMs && isScalar nJs then none
  else do
    let K ← assign C.toD p.K (← y.get "K".toList)
    let uk ← assignVec C true p.uk (← y.get "uk".toList)
    let K3 ← assign C.toD p.K3 (← y.get "K3".toList)
    let ex ← assignVec C true p.ex (← y.get "ex".toList)
    let ey ← assignVec C true p.ey (← y.get "ey".toList)
    let ez ← assignVec C true p.ez (← y.get "ez".toList)
    let alpha ← assign C.toD p.alpha (← y.get "alpha_LLG".toList)
    let sigma ← assign C.toD p.sigma (← y.get "sigma".toList)
    let N0 ← assign C.toD p.N0 (← y.get "dens_state".toList)
    let P ← assign C.toD p.P (← y.get "P".toList)
    let lsd ← assign C.toD p.lsd (← y.get "l_sd".toList)
    let lsf ← assign C.toD p.lsf (← y.get "l_sf".toList)
    return ⟨name, A, Ms, K, uk, K3, ex, ey, ez, alpha, sigma, N0, P, lsd, lsf⟩

/-- one surface region, settings.cpp:429-449 -/
def readSurface (C : Conv D) (p : TriPrm D) (name : Str) (y : Yaml) : Option (TriPrm D) := do
  let suppress ← assign C.toBool p.suppressCharges (← y.get "suppress_charges".toList)
  let Ks ← assign C.toD p.Ks (← y.get "Ks".toList)
  let uk ← assignVec C true p.uk (← y.get "uk".toList)
  let jn ← assign C.toD C.nan (← y.get "jn".toList)
  let V ← assign C.toD C.nan (← y.get "V".toList)
  if !C.isNaN jn && !C.isNaN V then none
  else do
    let uP ← assignVec C true (C.nan, C.nan, C.nan) (← y.get "uP".toList)
    let s ← assignVec C false (C.nan, C.nan, C.nan) (← y.get "s".toList)
    return ⟨name, suppress, Ks, uk, jn, V, uP, s⟩

/-- `findRegionIdx`, settings.h:214-232, and the element found: the first one with this name -/
def findTetra (name : Str) (l : List (TetraPrm D)) : Option (TetraPrm D) := l.find? fun p => p.regName == name

def findTri (name : Str) (l : List (TriPrm D)) : Option (TriPrm D) := l.find? fun p => p.regName == name

/-- the loop over the volume regions, settings.cpp:386-420: each one is appended to the list; `base` is the element
`default_idx` (line 385), or a default constructed one -/
def readVolumes (C : Conv D) (base : TetraPrm D) : List (Str × Yaml) → List (TetraPrm D) → Option (List (TetraPrm D))
  | [], acc => some acc
  | (name, y) :: l, acc => do
    let p ← readVolume C base name y
    readVolumes C base l (acc ++ [p])

/-- the loop over the surface regions, settings.cpp:427-450 -/
def readSurfaces (C : Conv D) (base : TriPrm D) : List (Str × Yaml) → List (TriPrm D) → Option (List (TriPrm D))
  | [], acc => some acc
  | (name, y) :: l, acc => do
    let p ← readSurface C base name y
    readSurfaces C base l (acc ++ [p])

structure MeshS (D : Type) where
  pbName : Str
  scale : D
  tetra : List (TetraPrm D)
  tri : List (TriPrm D)

/-- default constructed parameters (the values are irrelevant: the built-in defaults define `__default__`) -/
def blankTetra (C : Conv D) : TetraPrm D :=
  let z := (C.nan, C.nan, C.nan)
  ⟨[], C.nan, C.nan, C.nan, z, C.nan, z, z, z, C.nan, C.nan, C.nan, C.nan, C.nan, C.nan⟩

def blankTri (C : Conv D) : TriPrm D :=
  let z := (C.nan, C.nan, C.nan)
  ⟨[], false, C.nan, z, C.nan, C.nan, z, z⟩

/-- `volume_regions`, settings.cpp:380-420 -/
def readVolumeRegions (C : Conv D) (old : List (TetraPrm D)) (node : Option Yaml) : Option (List (TetraPrm D)) :=
  match present node with
  | none => some old
  | some (.map l) => readVolumes C ((findTetra "__default__".toList old).getD (blankTetra C)) l old
  | some _ => none

/-- `surface_regions`, settings.cpp:421-451 -/
def readSurfaceRegions (C : Conv D) (old : List (TriPrm D)) (node : Option Yaml) : Option (List (TriPrm D)) :=
  match present node with
  | none => some old
  | some (.map l) => readSurfaces C ((findTri "__default__".toList old).getD (blankTri C)) l old
  | some _ => none

/-- `mesh.length_unit`, settings.cpp:378-379 -/
def readScale (C : Conv D) (s : Str) : Option D := do
  let x ← C.toD s
  if C.nonpos x then none else some x

/-- section `mesh`, settings.cpp:372-452 -/
def readMesh (C : Conv D) (m : MeshS D) (node : Option Yaml) : Option (MeshS D) :=
  match present node with
  | none => some m
  | some (.map l) => do
    let y := Yaml.map l
    let pbName ← assign some m.pbName (← y.get "filename".toList)
    let scale ← assign (readScale C) m.scale (← y.get "length_unit".toList)
    let tetra ← readVolumeRegions C m.tetra (← y.get "volume_regions".toList)
    let tri ← readSurfaceRegions C m.tri (← y.get "surface_regions".toList)
    return ⟨pbName, scale, tetra, tri⟩
  | some _ => none

/-! ## initial magnetization, applied field -/

/-- the function last given to an expression parser (`set_function` or `set_expressions`) -/
inductive Fn
  | code (js : Str)
  | exprs (params x y z : Str)
  deriving DecidableEq

/-- settings.h:193, the strings and the parser of the initial magnetization -/
structure Mag where
  restoreFileName : Str
  sM : Str
  sMx : Str
  sMy : Str
  sMz : Str
  parser : Option Fn

/-- whether `needle` occurs in a string (`find(...) != npos`) -/
def occurs (needle s : Str) : Bool := (afterTag needle s).isSome

/-- the text compiled for three expressions (see Model/Parser.lean) -/
def exprText (params x y z : Str) : Str :=
  "function(".toList ++ params ++ ") { return [(".toList ++ x ++ "), (".toList ++ y ++ "), (".toList ++ z ++ ")]; }".toList

/-- `initial_magnetization`, settings.cpp:454-479 -/
def readMag (C : Conv D) (m : Mag) (node : Option Yaml) : Option Mag :=
  match present node with
  | none => some m
  | some (.scalar s) =>
    if !occurs "function".toList s || !occurs ['{'] s then some { m with restoreFileName := s }
    else if C.compiles s then some { m with sM := s, parser := some (.code s) } else none
  | some (.seq [a, b, c]) => do
    let x ← asScalar some a
    let y ← asScalar some b
    let z ← asScalar some c
    if C.compiles (exprText "x,y,z".toList x y z) then
      some { m with sMx := x, sMy := y, sMz := z, parser := some (.exprs "x,y,z".toList x y z) }
    else none
  | some _ => none

/-- `field_exprType` -/
inductive FieldType
  | undef | RtoR3 | R4toR3
  deriving DecidableEq

structure Field where
  sB : Str
  sBx : Str
  sBy : Str
  sBz : Str
  sSpace : Str
  sTime : Str
  parser : Option Fn
  spaceParser : Option Fn
  timeParser : Option Fn
  type : FieldType

/-- `Bext`, settings.cpp:499-543 -/
def readField (C : Conv D) (f : Field) (node : Option Yaml) : Option Field :=
  match present node with
  | none => some f
  | some (.scalar s) => if C.compiles s then some { f with sB := s, parser := some (.code s), type := .RtoR3 } else none
  | some (.seq l) =>
    match l with
    | [a, b, c] => do
      let x ← asScalar some a
      let y ← asScalar some b
      let z ← asScalar some c
      if C.compiles (exprText "t".toList x y z) then
        some { f with sBx := x, sBy := y, sBz := z, parser := some (.exprs "t".toList x y z), type := .RtoR3 }
      else none
    | _ => none
  | some y => do
    let space ← y.get "space".toList
    let time ← y.get "time".toList
    match space, time with
    | some sp, some ti => do
      let f ← match sp with
        | .scalar s => if C.compiles s then some { f with sSpace := s, spaceParser := some (.code s) } else none
        | _ => some f
      let f ← match ti with
        | .scalar s => if C.compiles s then some { f with sTime := s, timeParser := some (.code s) } else none
        | _ => some f
      some { f with type := .R4toR3 }
    | _, _ => none

/-! ## the other sections -/

structure Recentering (D : Type) where
  enable : Bool
  /-- 0, 1, 2 for X, Y, Z; -1 undefined -/
  direction : ℤ
  threshold : D

/-- the direction, settings.cpp:487-495: read with the default "Z" -/
def readDirection (node : Option Yaml) : Option ℤ :=
  match node with
  | some (.scalar s) =>
    if s = ['X'] then some 0 else if s = ['Y'] then some 1 else if s = ['Z'] then some 2 else none
  | _ => some 2

/-- section `recentering`, settings.cpp:483-497 -/
def readRecentering (C : Conv D) (r : Recentering D) (node : Option Yaml) : Option (Recentering D) :=
  match present node with
  | none => some r
  | some y => do
    let enable ← assign C.toBool r.enable (← y.get "enable".toList)
    let direction ← readDirection (← y.get "direction".toList)
    let threshold ← assign C.toD r.threshold (← y.get "threshold".toList)
    return ⟨enable, direction, threshold⟩

structure SpinS where
  enable : Bool
  vFile : Bool

/-- section `spin_accumulation`, settings.cpp:545-550 -/
def readSpin (C : Conv D) (s : SpinS) (node : Option Yaml) : Option SpinS :=
  match present node with
  | none => some s
  | some y => do
    let enable ← assign C.toBool s.enable (← y.get "enable".toList)
    let vFile ← assign C.toBool s.vFile (← y.get "V_file".toList)
    return ⟨enable, vFile⟩

/-- section `demagnetizing_field_solver`, settings.cpp:556-562 -/
def readFmm (C : Conv D) (n : ℤ) (node : Option Yaml) : Option ℤ :=
  match present node with
  | none => some n
  | some y => do
    let n ← assign C.toInt n (← y.get "nb_threads".toList)
    return if n ≤ 0 then C.cpuCount else n

structure FemS (D : Type) where
  maxIter : ℤ
  tol : D

/-- section `finite_element_solver`, settings.cpp:564-569 -/
def readFem (C : Conv D) (s : FemS D) (node : Option Yaml) : Option (FemS D) :=
  match present node with
  | none => some s
  | some y => do
    let maxIter ← assign C.toInt s.maxIter (← y.get "max(iter)".toList)
    let tol ← assign C.toD s.tol (← y.get "tolerance".toList)
    return ⟨maxIter, tol⟩

structure TimeS (D : Type) where
  duMax : D
  dtMin : D
  dtMax : D

/-- section `time_integration`, settings.cpp:571-577 -/
def readTime (C : Conv D) (s : TimeS D) (node : Option Yaml) : Option (TimeS D) :=
  match present node with
  | none => some s
  | some y => do
    let duMax ← assign C.toD s.duMax (← y.get "max(du)".toList)
    let dtMin ← assign C.toD s.dtMin (← y.get "min(dt)".toList)
    let dtMax ← assign C.toD s.dtMax (← y.get "max(dt)".toList)
    return ⟨duMax, dtMin, dtMax⟩

/-! ## all -/

structure All (D : Type) where
  outputs : Outputs D
  simName : Str
  mesh : MeshS D
  mag : Mag
  initialTime : D
  recentering : Recentering D
  field : Field
  spin : SpinS
  nbThreads : ℤ
  fem : FemS D
  time : TimeS D

/-- the part after the last `/`, settings.cpp:584-586 -/
def afterSlash (s : Str) : Str := (s.reverse.takeWhile (· ≠ '/')).reverse

/-- the part before the last dot, settings.cpp:589-591 -/
def beforeDot (s : Str) : Str :=
  if '.' ∈ s then ((s.reverse.dropWhile (· ≠ '.')).drop 1).reverse else s

/-- default of `file_basename`, settings.cpp:579-593 -/
def defaultName (simName pbName : Str) : Str :=
  if simName = [] ∧ pbName ≠ [] then beforeDot (afterSlash pbName) else simName

/-- `Settings::read(YAML::Node)`, settings.cpp:314-594 -/
def read (C : Conv D) (s : All D) (y : Yaml) : Option (All D) := do
  let (outputs, simName) ← readOutputs C s.outputs s.simName (← y.get "outputs".toList)
  let mesh ← readMesh C s.mesh (← y.get "mesh".toList)
  let mag ← readMag C s.mag (← y.get "initial_magnetization".toList)
  let initialTime ← assign C.toD s.initialTime (← y.get "initial_time".toList)
  let recentering ← readRecentering C s.recentering (← y.get "recentering".toList)
  let field ← readField C s.field (← y.get "Bext".toList)
  let spin ← readSpin C s.spin (← y.get "spin_accumulation".toList)
  let nbThreads ← readFmm C s.nbThreads (← y.get "demagnetizing_field_solver".toList)
  let fem ← readFem C s.fem (← y.get "finite_element_solver".toList)
  let time ← readTime C s.time (← y.get "time_integration".toList)
  return ⟨outputs, defaultName simName mesh.pbName, mesh, mag, initialTime, recentering, field, spin, nbThreads, fem, time⟩

/-- `Settings::read(filename)`, settings.cpp:596-616: `none` is a file that cannot be opened; nothing is read from an
empty document -/
def readFile (C : Conv D) (s : All D) (file : Option Yaml) : Option (All D × Bool) :=
  match file with
  | none => some (s, false)
  | some .null => some (s, false)
  | some y => do
    let s ← read C s y
    return (s, true)

/-- several files, one after the other (built-in defaults, user defaults, settings file; main.cpp:190-191, 225-226) -/
def readFiles (C : Conv D) : All D → List (Option Yaml) → Option (All D)
  | s, [] => some s
  | s, f :: fs => do
    let (s, _) ← readFile C s f
    readFiles C s fs

end Verif.Settings
