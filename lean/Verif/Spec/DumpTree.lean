import Verif.Model.DumpTree
import Verif.Spec.Settings
import Mathlib.Data.Real.Basic

/-!
# Specification: two sets of settings for the same run, up to the rounding of the numbers

`r` is the rounding of a number to the digits printed. Values that the run does not use are not compared: the axis of an anisotropy
whose constant is zero, the direction of the recentering when there is none, and so on.
-/

namespace Verif.Settings

open Verif.Text

variable {D : Type}

/-- the library reads the numbers `x` with `ok x` that the program prints, up to rounding, and the integers and booleans exactly -/
structure Reads (C : Conv D) (P : Printer D) (ok : D → Prop) (r : D → D) : Prop where
  num : ∀ x, ok x → C.toD (P.num x) = some (r x)
  int : ∀ n, C.toInt (P.int n) = some n
  intWord : ∀ n, P.int n ≠ "true".toList ∧ P.int n ≠ "false".toList
  bool : C.toBool "true".toList = some true ∧ C.toBool "false".toList = some false
  pos : ∀ x, ok x → C.nonpos x = false → C.nonpos (r x) = false
  nan : C.isNaN C.nan = true

/-- rounding of a vector -/
def roundV (r : D → D) (v : D × D × D) : D × D × D := (r v.1, r v.2.1, r v.2.2)

/-- the same directory: they differ at most by slashes at the end -/
def SameDir (a b : Str) : Prop := ∃ (t : Str) (m n : ℕ), a = t ++ List.replicate m '/' ∧ b = t ++ List.replicate n '/'

structure SameVolume (C : Conv D) (P : Printer D) (r : D → D) (p q : TetraPrm D) : Prop where
  A : q.A = r p.A
  Ms : q.Ms = r p.Ms
  K : q.K = r p.K
  uk : P.isZero p.K = false → q.uk = C.normalize (roundV r p.uk)
  K3 : q.K3 = r p.K3
  ex : P.isZero p.K3 = false → q.ex = C.normalize (roundV r p.ex)
  ey : P.isZero p.K3 = false → q.ey = C.normalize (roundV r p.ey)
  ez : P.isZero p.K3 = false → q.ez = C.normalize (roundV r p.ez)
  alpha : q.alpha = r p.alpha
  sigma : q.sigma = r p.sigma
  N0 : q.N0 = r p.N0
  P : q.P = r p.P
  lsd : q.lsd = r p.lsd
  lsf : q.lsf = r p.lsf

structure SameSurface (C : Conv D) (P : Printer D) (r : D → D) (spin : Bool) (p q : TriPrm D) : Prop where
  suppress : q.suppressCharges = p.suppressCharges
  Ks : q.Ks = r p.Ks
  uk : P.isZero p.Ks = false → q.uk = C.normalize (roundV r p.uk)
  jn : if C.isNaN p.jn then C.isNaN q.jn else q.jn = r p.jn
  V : if C.isNaN p.V then C.isNaN q.V else q.V = r p.V
  uP : spin = true → q.uP = C.normalize (roundV r p.uP)
  s : spin = true → q.s = roundV r p.s

/-- both absent, or both present and related -/
def Both {α : Type} (S : α → α → Prop) : Option α → Option α → Prop
  | some p, some q => S p q
  | none, none => True
  | _, _ => False

/-- `s'` makes the same run as `s`, up to the rounding of numbers -/
structure SameSettings (C : Conv D) (P : Printer D) (r : D → D) (s s' : All D) : Prop where
  directory : SameDir s.outputs.directory s'.outputs.directory
  simName : s'.simName = s.simName
  timeStep : s'.outputs.timeStep = r s.outputs.timeStep
  finalTime : s'.outputs.finalTime = r s.outputs.finalTime
  savePeriod : s'.outputs.savePeriod = s.outputs.savePeriod
  evolColumns : s'.outputs.evolColumns = s.outputs.evolColumns
  userMetadata : s'.outputs.userMetadata = s.outputs.userMetadata
  pbName : s'.mesh.pbName = s.mesh.pbName
  scale : s'.mesh.scale = r s.mesh.scale
  volumes : ∀ name, name ≠ "__default__".toList →
    Both (SameVolume C P r) (findTetra name s.mesh.tetra) (findTetra name s'.mesh.tetra)
  surfaces : ∀ name, name ≠ "__default__".toList →
    Both (SameSurface C P r s.spin.enable) (findTri name s.mesh.tri) (findTri name s'.mesh.tri)
  mag : s'.magSource = s.magSource
  initialTime : if C.isNaN s.initialTime then C.isNaN s'.initialTime else s'.initialTime = r s.initialTime
  recenter : s'.recentering.enable = s.recentering.enable
  direction : s.recentering.enable = true → s'.recentering.direction = s.recentering.direction
  threshold : s.recentering.enable = true → s'.recentering.threshold = r s.recentering.threshold
  field : s'.fieldSource = s.fieldSource
  spin : s'.spin.enable = s.spin.enable
  vFile : s.spin.enable = true → s'.spin.vFile = s.spin.vFile
  nbThreads : s'.nbThreads = s.nbThreads
  maxIter : s'.fem.maxIter = s.fem.maxIter
  tol : s'.fem.tol = r s.fem.tol
  duMax : s'.time.duMax = r s.time.duMax
  dtMin : s'.time.dtMin = r s.time.dtMin
  dtMax : s'.time.dtMax = r s.time.dtMax

/-- all components -/
def AllV (ok : D → Prop) (v : D × D × D) : Prop := ok v.1 ∧ ok v.2.1 ∧ ok v.2.2

/-- the numbers of the settings can be printed and read; those for the electrons are given if they are needed -/
structure Printable (C : Conv D) (ok : D → Prop) (s : All D) : Prop where
  timeStep : ok s.outputs.timeStep
  finalTime : ok s.outputs.finalTime
  scale : ok s.mesh.scale
  tetra : ∀ p ∈ s.mesh.tetra, (ok p.A ∧ ok p.Ms ∧ ok p.K ∧ ok p.K3 ∧ ok p.alpha ∧ ok p.sigma ∧ ok p.N0 ∧ ok p.P ∧ ok p.lsd ∧ ok p.lsf) ∧
    AllV ok p.uk ∧ AllV ok p.ex ∧ AllV ok p.ey ∧ AllV ok p.ez
  tri : ∀ p ∈ s.mesh.tri, p.regName ≠ "__default__".toList → ok p.Ks ∧ AllV ok p.uk ∧ (C.isNaN p.V = false → ok p.V) ∧
    (s.spin.enable = true → AllV ok p.uP ∧ AllV ok p.s)
  initialTime : C.isNaN s.initialTime = false → ok s.initialTime
  threshold : ok s.recentering.threshold
  tol : ok s.fem.tol
  time : ok s.time.duMax ∧ ok s.time.dtMin ∧ ok s.time.dtMax

/-- what the built-in defaults (default-settings.yml) leave in the settings, as far as it matters here -/
structure Builtin (C : Conv D) (b : All D) : Prop where
  simName : b.simName = []
  directory : b.outputs.directory = ['.']
  userMetadata : b.outputs.userMetadata = []
  pbName : b.mesh.pbName = []
  scale : C.nonpos b.mesh.scale = false
  savePeriod : 0 ≤ b.outputs.savePeriod
  tetra : ∃ d, b.mesh.tetra = [d] ∧ d.regName = "__default__".toList
  tri : ∃ d, b.mesh.tri = [d] ∧ d.regName = "__default__".toList
  mag : b.mag.sM = [] ∧ b.mag.restoreFileName = [] ∧ b.mag.parser = some (.exprs "x,y,z".toList b.mag.sMx b.mag.sMy b.mag.sMz) ∧
    C.compiles (exprText "x,y,z".toList b.mag.sMx b.mag.sMy b.mag.sMz) = true
  initialTime : C.isNaN b.initialTime = true
  direction : b.recentering.direction = 2
  field : b.field.type = .RtoR3 ∧ b.field.sB = [] ∧ b.field.parser = some (.exprs "t".toList b.field.sBx b.field.sBy b.field.sBz) ∧
    C.compiles (exprText "t".toList b.field.sBx b.field.sBy b.field.sBz) = true
  nbThreads : 0 < b.nbThreads ∨ b.nbThreads = C.cpuCount

/-- a file gives an applied field -/
def givesField (file : Option Yaml) : Bool :=
  match file with
  | none => false
  | some y => match y.at ["Bext".toList] with
    | none => false
    | some .null => false
    | some _ => true

/-- the settings `s` are those of a run: read from files on top of the built-in defaults `b`; the initial magnetization and the
applied field are given by one file at most (the defaults not counted), the numbers can be printed, and the columns have names -/
structure Run (C : Conv D) (ok : D → Prop) (b : All D) (files : List (Option Yaml)) (s : All D) : Prop where
  builtin : Settings.read C (start C) defaults = some b
  read : readFiles C b files = some s
  mag : (files.filterMap givenMag).length ≤ 1
  field : (files.filter givesField).length ≤ 1
  parts : ∀ f ∈ files, FieldParts f
  compiles : C.compiles [] = false
  printable : Printable C ok s
  columns : s.outputs.evolColumns ≠ []
  names : ∀ c ∈ s.outputs.evolColumns, c ≠ []

/-- a real number that can be written with six significant digits -/
def SixDigits (x : ℝ) : Prop := ∃ m e : ℤ, |m| < 10 ^ 6 ∧ x = m * (10 : ℝ) ^ e

end Verif.Settings
