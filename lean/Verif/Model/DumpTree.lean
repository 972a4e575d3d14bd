import Verif.Model.Settings

/-!
# The settings printed by `--verify` and `-v` (src/settings.cpp:155-271), as the tree that a YAML reader makes of them

The text is not modelled here but the tree that the library reads from it, assuming that every printed string is read as itself
(Model/Dump.lean and C49 are about that). A key with nothing after it is a null; this is also what becomes of an empty string
printed without quotes, and of an empty list or map.
-/

namespace Verif.Settings

open Verif.Text

variable {D : Type}

/-- printing of numbers by the standard library -/
structure Printer (D : Type) where
  /-- `std::cout << x` with the default precision, and `%g`: six significant digits -/
  num : D → Str
  int : ℤ → Str
  /-- `x == 0` -/
  isZero : D → Bool

/-- `str(bool)`, settings.cpp:80 -/
def boolText (b : Bool) : Str := if b then "true".toList else "false".toList

/-- a string printed without quotes -/
def rawNode (s : Str) : Yaml := if s = [] then .null else .scalar s

/-- a block sequence or a block map with nothing in it is a null -/
def seqNode (l : List Yaml) : Yaml := if l = [] then .null else .seq l

def mapNode (l : List (Str × Yaml)) : Yaml := if l = [] then .null else .map l

/-- `str(Eigen::Vector3d)`, settings.cpp:85-90 -/
def vecNode (P : Printer D) (v : D × D × D) : Yaml :=
  .seq [.scalar (P.num v.1), .scalar (P.num v.2.1), .scalar (P.num v.2.2)]

/-- a number, nothing if it is NaN (settings.cpp:209-218, 232-236) -/
def numOrNull (C : Conv D) (P : Printer D) (x : D) : Yaml := if C.isNaN x then .null else .scalar (P.num x)

/-- section `outputs`, settings.cpp:157-170 -/
def dumpOutputs (P : Printer D) (s : All D) : Yaml :=
  .map [("directory".toList, rawNode s.outputs.directory), ("file_basename".toList, rawNode s.simName),
    ("evol_time_step".toList, .scalar (P.num s.outputs.timeStep)), ("final_time".toList, .scalar (P.num s.outputs.finalTime)),
    ("evol_columns".toList, seqNode (s.outputs.evolColumns.map rawNode)),
    ("mag_config_every".toList, .scalar (P.int s.outputs.savePeriod)),
    ("metadata".toList, mapNode (s.outputs.userMetadata.map fun p => (p.1, .scalar p.2)))]

/-- one volume region, settings.cpp:180-198 -/
def dumpVolume (P : Printer D) (p : TetraPrm D) : Str × Yaml :=
  (p.regName, .map ([("Ae".toList, .scalar (P.num p.A)), ("Ms".toList, .scalar (P.num p.Ms)), ("K".toList, .scalar (P.num p.K))] ++
    (if P.isZero p.K then [] else [("uk".toList, vecNode P p.uk)]) ++ [("K3".toList, .scalar (P.num p.K3))] ++
    (if P.isZero p.K3 then []
      else [("ex".toList, vecNode P p.ex), ("ey".toList, vecNode P p.ey), ("ez".toList, vecNode P p.ez)]) ++
    [("alpha_LLG".toList, .scalar (P.num p.alpha)), ("sigma".toList, .scalar (P.num p.sigma)),
      ("dens_state".toList, .scalar (P.num p.N0)), ("P".toList, .scalar (P.num p.P)), ("l_sd".toList, .scalar (P.num p.lsd)),
      ("l_sf".toList, .scalar (P.num p.lsf))]))

/-- one surface region, settings.cpp:205-224; the current density is printed with the key `J` (line 209) -/
def dumpSurface (C : Conv D) (P : Printer D) (spin : Bool) (p : TriPrm D) : Str × Yaml :=
  (p.regName, .map ([("suppress_charges".toList, .scalar (boolText p.suppressCharges)), ("Ks".toList, .scalar (P.num p.Ks))] ++
    (if P.isZero p.Ks then [] else [("uk".toList, vecNode P p.uk)]) ++
    [("J".toList, numOrNull C P p.jn), ("V".toList, numOrNull C P p.V)] ++
    (if spin then [("uP".toList, vecNode P p.uP), ("s".toList, vecNode P p.s)] else [])))

/-- section `mesh`, settings.cpp:171-224: the regions named `__default__` are skipped -/
def dumpMesh (C : Conv D) (P : Printer D) (s : All D) : Yaml :=
  .map [("filename".toList, rawNode s.mesh.pbName), ("length_unit".toList, .scalar (P.num s.mesh.scale)),
    ("volume_regions".toList,
      mapNode ((s.mesh.tetra.filter fun p => p.regName != "__default__".toList).map (dumpVolume P))),
    ("surface_regions".toList,
      mapNode ((s.mesh.tri.filter fun p => p.regName != "__default__".toList).map (dumpSurface C P s.spin.enable)))]

/-- `initial_magnetization`, settings.cpp:225-231 -/
def dumpMag (m : Mag) : Yaml :=
  if m.sM ≠ [] then .scalar m.sM
  else if m.restoreFileName = [] then .seq [.scalar m.sMx, .scalar m.sMy, .scalar m.sMz]
  else rawNode m.restoreFileName

/-- `recentering`, settings.cpp:237-250 -/
def dumpRecentering (P : Printer D) (r : Recentering D) : Yaml :=
  .map ([("enable".toList, .scalar (boolText r.enable))] ++
    if r.enable then
      [("direction".toList, .scalar (if r.direction = 0 then ['X'] else if r.direction = 1 then ['Y'] else if r.direction = 2 then ['Z']
        else "UNDEF".toList)), ("threshold".toList, .scalar (P.num r.threshold))]
    else [])

/-- `Bext`, settings.cpp:251-257 -/
def dumpField (f : Field) : Yaml :=
  if f.type = .R4toR3 then .map [("space".toList, .scalar f.sSpace), ("time".toList, .scalar f.sTime)]
  else if f.sB ≠ [] then .scalar f.sB
  else .seq [.scalar f.sBx, .scalar f.sBy, .scalar f.sBz]

/-- `spin_accumulation`, settings.cpp:258-261 -/
def dumpSpin (s : SpinS) : Yaml :=
  .map ([("enable".toList, .scalar (boolText s.enable))] ++
    if s.enable then [("V_file".toList, .scalar (boolText s.vFile))] else [])

/-- `Settings::toYaml`, settings.cpp:155-271 -/
def dump (C : Conv D) (P : Printer D) (s : All D) : Yaml :=
  .map [("outputs".toList, dumpOutputs P s), ("mesh".toList, dumpMesh C P s), ("initial_magnetization".toList, dumpMag s.mag),
    ("initial_time".toList, numOrNull C P s.initialTime), ("recentering".toList, dumpRecentering P s.recentering),
    ("Bext".toList, dumpField s.field), ("spin_accumulation".toList, dumpSpin s.spin),
    ("demagnetizing_field_solver".toList, .map [("nb_threads".toList, .scalar (P.int s.nbThreads))]),
    ("finite_element_solver".toList, .map [("max(iter)".toList, .scalar (P.int s.fem.maxIter)),
      ("tolerance".toList, .scalar (P.num s.fem.tol))]),
    ("time_integration".toList, .map [("max(du)".toList, .scalar (P.num s.time.duMax)),
      ("min(dt)".toList, .scalar (P.num s.time.dtMin)), ("max(dt)".toList, .scalar (P.num s.time.dtMax))])]

/-! ## the built-in defaults -/

/-- the members of `Settings` before anything is read, settings.cpp:134-141, settings.h: strings, lists and maps are empty; the
initial time is NaN (settings.h:196); numbers without an initial value are given as NaN or 0 here -/
def start (C : Conv D) : All D where
  outputs := ⟨[], C.nan, C.nan, 0, [], []⟩
  simName := []
  mesh := ⟨[], C.nan, [], []⟩
  mag := ⟨[], [], [], [], [], none⟩
  initialTime := C.nan
  recentering := ⟨false, -1, C.nan⟩
  field := ⟨[], [], [], [], [], [], none, none, none, .undef⟩
  spin := ⟨false, false⟩
  nbThreads := 0
  fem := ⟨0, C.nan⟩
  time := ⟨C.nan, C.nan, C.nan⟩

/-- three numbers -/
def vec3 (a b c : String) : Yaml := .seq [.scalar a.toList, .scalar b.toList, .scalar c.toList]

/-- default-settings.yml, compiled into the program and read by the constructor (settings.cpp:142) -/
def defaults : Yaml :=
  .map [
    ("outputs".toList, .map [("directory".toList, .scalar ".".toList), ("file_basename".toList, .null),
      ("evol_time_step".toList, .scalar "5e-13".toList), ("final_time".toList, .scalar "1e-10".toList),
      ("evol_columns".toList, .seq [.scalar "t".toList, .scalar "<Mx>".toList, .scalar "<My>".toList, .scalar "<Mz>".toList,
        .scalar "E_ex".toList, .scalar "E_demag".toList, .scalar "E_zeeman".toList, .scalar "E_tot".toList]),
      ("mag_config_every".toList, .scalar "100".toList), ("metadata".toList, .null)]),
    ("mesh".toList, .map [("filename".toList, .null), ("length_unit".toList, .scalar "1e-9".toList),
      ("volume_regions".toList, .map [("__default__".toList, .map [("Ae".toList, .scalar "1e-11".toList),
        ("Ms".toList, .scalar "795774.7".toList), ("K".toList, .scalar "0".toList), ("uk".toList, vec3 "0" "0" "1"),
        ("K3".toList, .scalar "0".toList), ("ex".toList, vec3 "1" "0" "0"), ("ey".toList, vec3 "0" "1" "0"),
        ("ez".toList, vec3 "0" "0" "1"), ("alpha_LLG".toList, .scalar "0.5".toList), ("sigma".toList, .scalar "0".toList),
        ("dens_state".toList, .scalar "0".toList), ("P".toList, .scalar "0".toList), ("l_sd".toList, .scalar "0".toList),
        ("l_sf".toList, .scalar "0".toList)])]),
      ("surface_regions".toList, .map [("__default__".toList, .map [("suppress_charges".toList, .scalar "false".toList),
        ("Ks".toList, .scalar "0".toList), ("uk".toList, vec3 "0" "0" "1"), ("jn".toList, .null), ("V".toList, .null),
        ("uP".toList, vec3 "0" "0" "1"), ("s".toList, .null)])])]),
    ("initial_magnetization".toList, vec3 "0" "0" "1"),
    ("initial_time".toList, .null),
    ("recentering".toList, .map [("enable".toList, .scalar "false".toList), ("direction".toList, .scalar "Z".toList),
      ("threshold".toList, .scalar "0.1".toList)]),
    ("Bext".toList, vec3 "0" "0" "0"),
    ("spin_accumulation".toList, .map [("enable".toList, .scalar "false".toList), ("V_file".toList, .scalar "false".toList)]),
    ("demagnetizing_field_solver".toList, .map [("nb_threads".toList, .scalar "0".toList)]),
    ("finite_element_solver".toList, .map [("max(iter)".toList, .scalar "700".toList), ("tolerance".toList, .scalar "1e-6".toList)]),
    ("time_integration".toList, .map [("max(du)".toList, .scalar "0.02".toList), ("min(dt)".toList, .scalar "1e-16".toList),
      ("max(dt)".toList, .scalar "5e-13".toList)])]

end Verif.Settings
