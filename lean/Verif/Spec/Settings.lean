import Verif.Model.Settings

/-!
# Specification of layered settings

The value of a setting is the one given by the last file that gives one.
-/

namespace Verif.Settings

open Verif.Text

/-- the node at a path of keys -/
def Yaml.at : Yaml → List Str → Option Yaml
  | y, [] => some y
  | .map l, k :: ks => (l.find? fun p => p.1 == k).bind fun p => p.2.at ks
  | _, _ :: _ => none
termination_by _ ks => ks.length

/-- the text that a file gives at a path, if any -/
def given (path : List Str) (file : Option Yaml) : Option Str :=
  match file with
  | none => none
  | some y =>
    match y.at path with
    | some (.scalar s) => some s
    | _ => none

/-- the text given by the last file that gives one -/
def lastGiven (path : List Str) (files : List (Option Yaml)) : Option Str := (files.filterMap (given path)).getLast?

/-- a setting: where it stands in the files, how its text is understood, which variable holds it -/
structure Entry (D : Type) where
  α : Type
  path : List Str
  conv : Str → Option α
  var : All D → α

variable {D : Type}

/-- the scalar settings -/
def entries (C : Conv D) : List (Entry D) :=
  [⟨Str, ["outputs".toList, "directory".toList], fun s => some (normalizeDir s), fun s => s.outputs.directory⟩,
   ⟨D, ["outputs".toList, "evol_time_step".toList], C.toD, fun s => s.outputs.timeStep⟩,
   ⟨D, ["outputs".toList, "final_time".toList], C.toD, fun s => s.outputs.finalTime⟩,
   ⟨ℤ, ["outputs".toList, "mag_config_every".toList],
     fun s => if s = "true".toList then none else if s = "false".toList then some 0 else (C.toInt s).map (max 0),
     fun s => s.outputs.savePeriod⟩,
   ⟨Str, ["mesh".toList, "filename".toList], some, fun s => s.mesh.pbName⟩,
   ⟨D, ["mesh".toList, "length_unit".toList], fun s => (C.toD s).filter (fun x => !C.nonpos x), fun s => s.mesh.scale⟩,
   ⟨D, ["initial_time".toList], C.toD, fun s => s.initialTime⟩,
   ⟨Bool, ["recentering".toList, "enable".toList], C.toBool, fun s => s.recentering.enable⟩,
   ⟨D, ["recentering".toList, "threshold".toList], C.toD, fun s => s.recentering.threshold⟩,
   ⟨Bool, ["spin_accumulation".toList, "enable".toList], C.toBool, fun s => s.spin.enable⟩,
   ⟨Bool, ["spin_accumulation".toList, "V_file".toList], C.toBool, fun s => s.spin.vFile⟩,
   ⟨ℤ, ["finite_element_solver".toList, "max(iter)".toList], C.toInt, fun s => s.fem.maxIter⟩,
   ⟨D, ["finite_element_solver".toList, "tolerance".toList], C.toD, fun s => s.fem.tol⟩,
   ⟨D, ["time_integration".toList, "max(du)".toList], C.toD, fun s => s.time.duMax⟩,
   ⟨D, ["time_integration".toList, "min(dt)".toList], C.toD, fun s => s.time.dtMin⟩,
   ⟨D, ["time_integration".toList, "max(dt)".toList], C.toD, fun s => s.time.dtMax⟩]

/-- the metadata items that a file gives, in order -/
def givenItems (file : Option Yaml) : List (Str × Str) :=
  match file with
  | none => []
  | some y =>
    match y.at ["outputs".toList, "metadata".toList] with
    | some (.map l) => l.filterMap fun p => match p.2 with
      | .scalar v => some (p.1, v)
      | _ => none
    | _ => []

/-- the list of columns that a file gives -/
def givenColumns (file : Option Yaml) : Option (List Str) :=
  match file with
  | none => none
  | some y =>
    match y.at ["outputs".toList, "evol_columns".toList] with
    | some (.seq l) => some (l.filterMap fun p => match p with
      | .scalar v => some v
      | _ => none)
    | _ => none

/-- where the initial magnetization comes from: a file, else a function (fem.h:102-109, mesh.h:221-277) -/
inductive MagSource
  | file (name : Str)
  | fn (f : Option Fn)
  deriving DecidableEq

def All.magSource (s : All D) : MagSource :=
  if s.mag.restoreFileName = [] then .fn s.mag.parser else .file s.mag.restoreFileName

/-- what a file says about the initial magnetization -/
def givenMag (file : Option Yaml) : Option MagSource :=
  match file with
  | none => none
  | some y =>
    match y.at ["initial_magnetization".toList] with
    | some (.scalar s) => if occurs "function".toList s && occurs ['{'] s then some (.fn (some (.code s))) else some (.file s)
    | some (.seq [.scalar a, .scalar b, .scalar c]) => some (.fn (some (.exprs "x,y,z".toList a b c)))
    | _ => none

/-- where the applied field comes from: a function of time, or a product of a function of space and one of time
(settings.h:290-317) -/
inductive FieldSource
  | undef
  | time (f : Option Fn)
  | product (space time : Option Fn)
  deriving DecidableEq

def All.fieldSource (s : All D) : FieldSource :=
  match s.field.type with
  | .undef => .undef
  | .RtoR3 => .time s.field.parser
  | .R4toR3 => .product s.field.spaceParser s.field.timeParser

/-- what a file says about the applied field -/
def givenField (file : Option Yaml) : Option FieldSource :=
  match file with
  | none => none
  | some y =>
    match y.at ["Bext".toList] with
    | some (.scalar s) => some (.time (some (.code s)))
    | some (.seq [.scalar a, .scalar b, .scalar c]) => some (.time (some (.exprs "t".toList a b c)))
    | some (.map l) =>
      match given ["Bext".toList, "space".toList] (some y), given ["Bext".toList, "time".toList] (some y) with
      | some sp, some ti => some (.product (some (.code sp)) (some (.code ti)))
      | _, _ => none
    | _ => none

/-- the space and time parts, if given, are texts -/
def FieldParts (file : Option Yaml) : Prop :=
  ∀ y l, file = some y → y.at ["Bext".toList] = some (.map l) →
    (given ["Bext".toList, "space".toList] (some y)).isSome ∧ (given ["Bext".toList, "time".toList] (some y)).isSome

/-- the value of a metadata item -/
def item (k : Str) (l : List (Str × Str)) : Option Str := (l.find? fun p => p.1 == k).map Prod.snd

/-- the text at a key of a region -/
def textAt (y : Yaml) (k : Str) : Option Str :=
  match y.at [k] with
  | some (.scalar s) => some s
  | _ => none

/-- nothing is given at a key of a region: the key is missing, or its value is `null` -/
def Absent (y : Yaml) (k : Str) : Prop := y.at [k] = none ∨ y.at [k] = some .null

/-- a volume region made from a base region `p` and the values of `y`: each one given replaces that of the base -/
structure Overrides (C : Conv D) (p q : TetraPrm D) (name : Str) (y : Yaml) : Prop where
  name : q.regName = name
  A : some q.A = match textAt y "Ae".toList with | some t => C.toD t | none => some p.A
  K : some q.K = match textAt y "K".toList with | some t => C.toD t | none => some p.K
  K3 : some q.K3 = match textAt y "K3".toList with | some t => C.toD t | none => some p.K3
  alpha : some q.alpha = match textAt y "alpha_LLG".toList with | some t => C.toD t | none => some p.alpha
  sigma : some q.sigma = match textAt y "sigma".toList with | some t => C.toD t | none => some p.sigma
  N0 : some q.N0 = match textAt y "dens_state".toList with | some t => C.toD t | none => some p.N0
  P : some q.P = match textAt y "P".toList with | some t => C.toD t | none => some p.P
  lsd : some q.lsd = match textAt y "l_sd".toList with | some t => C.toD t | none => some p.lsd
  lsf : some q.lsf = match textAt y "l_sf".toList with | some t => C.toD t | none => some p.lsf
  Ms : some q.Ms = match textAt y "Js".toList, textAt y "Ms".toList with
    | some t, _ => (C.toD t).map C.divMu0
    | none, some t => C.toD t
    | none, none => some p.Ms
  notBoth : textAt y "Js".toList = none ∨ textAt y "Ms".toList = none
  uk : Absent y "uk".toList → q.uk = p.uk
  ex : Absent y "ex".toList → q.ex = p.ex
  ey : Absent y "ey".toList → q.ey = p.ey
  ez : Absent y "ez".toList → q.ez = p.ez
  uk' : ∀ a b c, y.at ["uk".toList] = some (.seq [.scalar a, .scalar b, .scalar c]) →
    ∃ u v w, C.toD a = some u ∧ C.toD b = some v ∧ C.toD c = some w ∧ q.uk = C.normalize (u, v, w)
  ex' : ∀ a b c, y.at ["ex".toList] = some (.seq [.scalar a, .scalar b, .scalar c]) →
    ∃ u v w, C.toD a = some u ∧ C.toD b = some v ∧ C.toD c = some w ∧ q.ex = C.normalize (u, v, w)
  ey' : ∀ a b c, y.at ["ey".toList] = some (.seq [.scalar a, .scalar b, .scalar c]) →
    ∃ u v w, C.toD a = some u ∧ C.toD b = some v ∧ C.toD c = some w ∧ q.ey = C.normalize (u, v, w)
  ez' : ∀ a b c, y.at ["ez".toList] = some (.seq [.scalar a, .scalar b, .scalar c]) →
    ∃ u v w, C.toD a = some u ∧ C.toD b = some v ∧ C.toD c = some w ∧ q.ez = C.normalize (u, v, w)

/-- the directory that a text denotes: none given is the working directory; one slash at the end is dropped -/
inductive DirOf : Str → Str → Prop
  | empty : DirOf [] ['.']
  | slash (t : Str) (h : t ≠ []) : DirOf (t ++ ['/']) t
  | same (t : Str) (h : t ≠ []) (h' : t = ['/'] ∨ t.getLast? ≠ some '/') : DirOf t t

/-- a surface region made from a base region `p` and the values of `y`: the charges, the constant and the axis of the anisotropy
are those of the base unless given; the values for the electrons are NaN unless given, whatever those of the base -/
structure OverridesSurface (C : Conv D) (p q : TriPrm D) (name : Str) (y : Yaml) : Prop where
  name : q.regName = name
  suppress : some q.suppressCharges = match textAt y "suppress_charges".toList with
    | some t => C.toBool t
    | none => some p.suppressCharges
  Ks : some q.Ks = match textAt y "Ks".toList with | some t => C.toD t | none => some p.Ks
  jn : some q.jn = match textAt y "jn".toList with | some t => C.toD t | none => some C.nan
  V : some q.V = match textAt y "V".toList with | some t => C.toD t | none => some C.nan
  notBoth : C.isNaN q.jn ∨ C.isNaN q.V
  uk : Absent y "uk".toList → q.uk = p.uk
  uP : Absent y "uP".toList → q.uP = (C.nan, C.nan, C.nan)
  s : Absent y "s".toList → q.s = (C.nan, C.nan, C.nan)
  uk' : ∀ a b c, y.at ["uk".toList] = some (.seq [.scalar a, .scalar b, .scalar c]) →
    ∃ u v w, C.toD a = some u ∧ C.toD b = some v ∧ C.toD c = some w ∧ q.uk = C.normalize (u, v, w)
  uP' : ∀ a b c, y.at ["uP".toList] = some (.seq [.scalar a, .scalar b, .scalar c]) →
    ∃ u v w, C.toD a = some u ∧ C.toD b = some v ∧ C.toD c = some w ∧ q.uP = C.normalize (u, v, w)
  s' : ∀ a b c, y.at ["s".toList] = some (.seq [.scalar a, .scalar b, .scalar c]) →
    ∃ u v w, C.toD a = some u ∧ C.toD b = some v ∧ C.toD c = some w ∧ q.s = (u, v, w)

end Verif.Settings
