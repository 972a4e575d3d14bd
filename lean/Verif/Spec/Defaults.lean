import Verif.Spec.Settings

/-!
# The documented default values

`feellgood --print-defaults` shows src/default-settings.yml, whose first lines say that it holds the default values of all
settings. These are the values a reader of this text expects.
-/

namespace Verif.Settings

open Verif.Text

/-- where a setting stands, and the text of its default value (settings with a single number or word) -/
def documentedTexts : List (List Str × Str) :=
  [(["outputs".toList, "directory".toList], ".".toList),
   (["outputs".toList, "evol_time_step".toList], "5e-13".toList),
   (["outputs".toList, "final_time".toList], "1e-10".toList),
   (["outputs".toList, "mag_config_every".toList], "100".toList),
   (["mesh".toList, "length_unit".toList], "1e-9".toList),
   (["recentering".toList, "enable".toList], "false".toList),
   (["recentering".toList, "threshold".toList], "0.1".toList),
   (["spin_accumulation".toList, "enable".toList], "false".toList),
   (["spin_accumulation".toList, "V_file".toList], "false".toList),
   (["finite_element_solver".toList, "max(iter)".toList], "700".toList),
   (["finite_element_solver".toList, "tolerance".toList], "1e-6".toList),
   (["time_integration".toList, "max(du)".toList], "0.02".toList),
   (["time_integration".toList, "min(dt)".toList], "1e-16".toList),
   (["time_integration".toList, "max(dt)".toList], "5e-13".toList)]

/-- the default columns -/
def documentedColumns : List Str :=
  ["t".toList, "<Mx>".toList, "<My>".toList, "<Mz>".toList, "E_ex".toList, "E_demag".toList, "E_zeeman".toList, "E_tot".toList]

variable {D : Type}

/-- a direction given by three texts -/
def Direction (C : Conv D) (v : D × D × D) (a b c : String) : Prop :=
  ∃ x y z, C.toD a.toList = some x ∧ C.toD b.toList = some y ∧ C.toD c.toList = some z ∧ v = C.normalize (x, y, z)

/-- the default volume region -/
structure DocumentedVolume (C : Conv D) (p : TetraPrm D) : Prop where
  A : C.toD "1e-11".toList = some p.A
  Ms : C.toD "795774.7".toList = some p.Ms
  K : C.toD "0".toList = some p.K
  uk : Direction C p.uk "0" "0" "1"
  K3 : C.toD "0".toList = some p.K3
  ex : Direction C p.ex "1" "0" "0"
  ey : Direction C p.ey "0" "1" "0"
  ez : Direction C p.ez "0" "0" "1"
  alpha : C.toD "0.5".toList = some p.alpha
  sigma : C.toD "0".toList = some p.sigma
  N0 : C.toD "0".toList = some p.N0
  P : C.toD "0".toList = some p.P
  lsd : C.toD "0".toList = some p.lsd
  lsf : C.toD "0".toList = some p.lsf

/-- the default surface region: `jn`, `V` and `s` are documented as not given -/
structure DocumentedSurface (C : Conv D) (p : TriPrm D) : Prop where
  suppress : C.toBool "false".toList = some p.suppressCharges
  Ks : C.toD "0".toList = some p.Ks
  uk : Direction C p.uk "0" "0" "1"
  jn : p.jn = C.nan
  V : p.V = C.nan
  uP : Direction C p.uP "0" "0" "1"
  s : p.s = (C.nan, C.nan, C.nan)

/-- what a file says about a region; `kind` is "volume_regions" or "surface_regions" -/
def regionIn (kind name : Str) (file : Option Yaml) : Option Yaml := file.bind (·.at ["mesh".toList, kind, name])

/-- the first file that says something about a region says `node` -/
def FirstSaid (kind name : Str) (files : List (Option Yaml)) (node : Yaml) : Prop :=
  (files.filterMap (regionIn kind name)).head? = some node

end Verif.Settings
