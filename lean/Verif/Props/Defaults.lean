import Verif.Props.DumpTree
import Verif.Spec.Defaults

/-!
# C106: a setting that is not given has the documented default value

The settings of a run are the built-in defaults, then the files of the command line.
-/

namespace Verif.Settings

open Verif.Text

variable {D : Type}

theorem files_cons {C : Conv D} {b s s' : All D} {y : Yaml} {files : List (Option Yaml)} (hb : read C s y = some b) (hy : y ≠ .null)
    (h : readFiles C b files = some s') : readFiles C s (some y :: files) = some s' := by
  have h1 : ∃ r, readFile C s (some y) = some (b, r) := by
    unfold readFile
    cases y with
    | null => exact absurd rfl hy
    | scalar t => exact ⟨_, by dsimp only; rw [hb]; rfl⟩
    | seq t => exact ⟨_, by dsimp only; rw [hb]; rfl⟩
    | map t => exact ⟨_, by dsimp only; rw [hb]; rfl⟩
  obtain ⟨r, h1⟩ := h1
  unfold readFiles
  rw [h1]
  exact h

theorem lastGiven_first {path : List Str} {f : Option Yaml} {files : List (Option Yaml)} (h : lastGiven path files = none) :
    lastGiven path (f :: files) = given path f := by
  unfold lastGiven at h ⊢
  have h0 : files.filterMap (given path) = [] := List.getLast?_eq_none_iff.mp h
  rw [List.filterMap_cons, h0]
  cases given path f <;> rfl

theorem given_at {y : Yaml} {l l2 : List (Str × Yaml)} {k k2 v : Str} (h : y = .map l)
    (h1 : (l.find? fun p => p.1 == k).map Prod.snd = some (.map l2))
    (h2 : (l2.find? fun p => p.1 == k2).map Prod.snd = some (.scalar v)) : given [k, k2] (some y) = some v := by
  subst h
  have g1 : (Yaml.map l).get k = some (some (.map l2)) := congrArg some h1
  have g2 : (Yaml.map l2).get k2 = some (some (.scalar v)) := congrArg some h2
  exact given_two g1 rfl g2

theorem given_defaults : ∀ e ∈ documentedTexts, given e.1 (some defaults) = some e.2 := by
  intro e he
  simp only [documentedTexts, List.mem_cons, List.not_mem_nil, or_false] at he
  rcases he with rfl | rfl | rfl | rfl | rfl | rfl | rfl | rfl | rfl | rfl | rfl | rfl | rfl | rfl <;>
    exact given_at rfl (by rfl) (by rfl)

/-- **C106** (numbers and words) A setting that no file gives has the documented default value. -/
theorem C106_text (C : Conv D) (b s : All D) (hb : read C (start C) defaults = some b) (files : List (Option Yaml))
    (h : readFiles C b files = some s) :
    ∀ d ∈ documentedTexts, ∀ e ∈ entries C, e.path = d.1 → lastGiven d.1 files = none → some (e.var s) = e.conv d.2 := by
  intro d hd e he hp hn
  have := C48_scalar C (some defaults :: files) (start C) s (files_cons hb (by intro hc; cases hc) h) e he
  rw [hp, lastGiven_first hn, given_defaults d hd] at this
  exact this

theorem defaults_at (k : Str) (ks : List Str) (y : Yaml) (h : defaults.get k = some (some y)) : defaults.at (k :: ks) = y.at ks := by
  rw [at_cons, get_at h]
  rfl

/-- **C106** (initial time) If no file gives an initial time, it is undefined (the documented `null`). -/
theorem C106_initial_time (C : Conv D) (b s : All D) (hb : read C (start C) defaults = some b) (files : List (Option Yaml))
    (h : readFiles C b files = some s) (hn : lastGiven ["initial_time".toList] files = none) : s.initialTime = C.nan := by
  have := C48_scalar C (some defaults :: files) (start C) s (files_cons hb (by intro hc; cases hc) h)
    ⟨D, ["initial_time".toList], C.toD, fun s => s.initialTime⟩ (by
      unfold entries
      simp only [List.mem_cons, true_or, or_true])
  dsimp only at this
  have g : defaults.get "initial_time".toList = some (some .null) := rfl
  rw [lastGiven_first hn, given_one g] at this
  injection this

/-- **C106** (columns) If no file gives a list of columns, the documented ones are written. -/
theorem C106_columns (C : Conv D) (b s : All D) (hb : read C (start C) defaults = some b) (files : List (Option Yaml))
    (h : readFiles C b files = some s) (hn : files.filterMap givenColumns = []) : s.outputs.evolColumns = documentedColumns := by
  have := C48_columns C (some defaults :: files) (start C) s (files_cons hb (by intro hc; cases hc) h)
  rw [this, List.filterMap_cons, hn]
  have e : givenColumns (some defaults) = some documentedColumns := by
    unfold givenColumns
    dsimp only
    rw [defaults_at _ _ _ rfl, get_at rfl]
    rfl
  rw [e]
  rfl

/-- **C106** (threads) If no file gives a number of threads, there are as many as processors. -/
theorem C106_threads (C : Conv D) (b s : All D) (hb : read C (start C) defaults = some b) (files : List (Option Yaml))
    (h : readFiles C b files = some s) (hcpu : 0 < C.cpuCount) (hz : C.toInt "0".toList = some 0)
    (hn : lastGiven ["demagnetizing_field_solver".toList, "nb_threads".toList] files = none) : s.nbThreads = C.cpuCount := by
  have hbt : b.nbThreads = C.cpuCount := by
    obtain ⟨n8, g8, r8⟩ := (read_inv hb).fmm
    have e8 := some_get (show defaults.get "demagnetizing_field_solver".toList = some (some _) from rfl) g8
    subst e8
    obtain ⟨k, hk, e⟩ := bind_some (show (do
      let n ← C.toInt "0".toList
      return if n ≤ 0 then C.cpuCount else n) = some b.nbThreads from r8)
    rw [hz] at hk
    injection hk with hk
    subst hk
    injection e with e
    rw [← e]
    rfl
  have := (C48_threads C files b s h hcpu (by rw [hbt]; exact hcpu)).2
  rw [hn, hbt] at this
  injection this

/-- **C106** (direction) If no file gives a direction of recentering, it is Z. -/
theorem C106_direction (C : Conv D) (b s : All D) (hb : read C (start C) defaults = some b) (files : List (Option Yaml))
    (h : readFiles C b files = some s) (hn : lastGiven ["recentering".toList, "direction".toList] files = none) :
    s.recentering.direction = 2 := by
  have hb2 : b.recentering.direction = 2 := by
    obtain ⟨n5, g5, r5⟩ := (read_inv hb).recentering
    have e5 := some_get (show defaults.get "recentering".toList = some (some _) from rfl) g5
    subst e5
    rcases recentering_inv r5 with ⟨hp, -⟩ | ⟨y', hp, -, ⟨m, k, a⟩, -⟩
    · cases hp
    · injection hp with hp
      subst hp
      have := some_get (show Yaml.get "direction".toList _ = some (some (.scalar "Z".toList)) from rfl) k
      subst this
      injection a with a
      exact a.symm
  clear hb
  induction files generalizing b with
  | nil => injection h with h; rw [← h]; exact hb2
  | cons f fs ih =>
    obtain ⟨⟨s1, r⟩, h1, h⟩ := bind_some h
    have hfs : lastGiven ["recentering".toList, "direction".toList] fs = none ∧
        given ["recentering".toList, "direction".toList] f = none := by
      unfold lastGiven at hn ⊢
      have h0 := List.getLast?_eq_none_iff.mp hn
      rw [List.filterMap_cons] at h0
      cases hg : given ["recentering".toList, "direction".toList] f with
      | none => rw [hg] at h0; exact ⟨List.getLast?_eq_none_iff.mpr h0, rfl⟩
      | some t => rw [hg] at h0; cases h0
    refine ih s1 h hfs.1 ?_
    rcases readFile_inv h1 with ⟨rfl, -⟩ | ⟨y, rfl, hr⟩
    · exact hb2
    · obtain ⟨n, g, r⟩ := (read_inv hr).recentering
      rcases recentering_inv r with ⟨-, e⟩ | ⟨y', hp, -, ⟨m, hm, hdir⟩, -⟩
      · rw [e]; exact hb2
      · have hg := hfs.2
        rw [given_two g hp hm] at hg
        unfold readDirection at hdir
        cases m with
        | none => injection hdir with hdir; exact hdir.symm
        | some m =>
          cases m with
          | scalar t => cases hg
          | null => injection hdir with hdir; exact hdir.symm
          | seq l => injection hdir with hdir; exact hdir.symm
          | map l => injection hdir with hdir; exact hdir.symm

/-- **C106** (initial magnetization) If no file says what it is, the magnetization starts from the function `[0, 0, 1]`. -/
theorem C106_magnetization (C : Conv D) (b s : All D) (hb : read C (start C) defaults = some b) (files : List (Option Yaml))
    (h : readFiles C b files = some s) (hn : files.filterMap givenMag = []) :
    s.magSource = .fn (some (.exprs "x,y,z".toList "0".toList "0".toList "1".toList)) := by
  have e : givenMag (some defaults) = some (.fn (some (.exprs "x,y,z".toList "0".toList "0".toList "1".toList))) := by
    unfold givenMag
    dsimp only
    rw [get_at (show defaults.get "initial_magnetization".toList = some (some _) from rfl)]
    rfl
  have := C48_magnetization_partial C (some defaults :: files) (start C) s (files_cons hb (by intro hc; cases hc) h) rfl (by
    intro f hf name hm
    rcases List.mem_cons.mp hf with rfl | hf
    · rw [e] at hm; cases hm
    · have : MagSource.file name ∈ files.filterMap givenMag := List.mem_filterMap.mpr ⟨f, hf, hm⟩
      rw [hn] at this
      cases this)
  rw [this, List.filterMap_cons, hn, e]
  rfl

/-- **C106** (applied field) If no file says what it is, the applied field is zero at all times. -/
theorem C106_field (C : Conv D) (b s : All D) (hb : read C (start C) defaults = some b) (files : List (Option Yaml))
    (h : readFiles C b files = some s) (hp : ∀ f ∈ files, FieldParts f) (hn : files.filterMap givenField = []) :
    s.fieldSource = .time (some (.exprs "t".toList "0".toList "0".toList "0".toList)) := by
  have g : defaults.at ["Bext".toList] = some (vec3 "0" "0" "0") := get_at rfl
  have e : givenField (some defaults) = some (.time (some (.exprs "t".toList "0".toList "0".toList "0".toList))) := by
    unfold givenField
    dsimp only
    rw [g]
    rfl
  have := C48_field_partial C (some defaults :: files) (start C) s (files_cons hb (by intro hc; cases hc) h) (by
    intro f hf
    rcases List.mem_cons.mp hf with rfl | hf
    · intro y l hy hl
      injection hy with hy
      rw [← hy, g] at hl
      cases hl
    · exact hp f hf)
  rw [this, List.filterMap_cons, hn, e]
  rfl

/-! ## regions -/

theorem builtin_volume {C : Conv D} {b : All D} (hb : read C (start C) defaults = some b) :
    ∃ d, b.mesh.tetra = [d] ∧ d.regName = "__default__".toList ∧ DocumentedVolume C d := by
  obtain ⟨n2, g2, r2⟩ := (read_inv hb).mesh
  have e2 := some_get (show defaults.get "mesh".toList = some (some _) from rfl) g2
  subst e2
  rcases mesh_inv r2 with ⟨hp, -⟩ | ⟨y', hp, -, -, ⟨m3, k3, a3⟩, -⟩
  · cases hp
  · injection hp with hp
    subst hp
    have := some_get (show Yaml.get "volume_regions".toList _ = some (some _) from rfl) k3
    subst this
    obtain ⟨d, hd, h⟩ := bind_some (show readVolumes C (blankTetra C) [(_, _)] [] = some b.mesh.tetra from a3)
    injection h with h
    have o := readVolume_overrides hd
    have t : ∀ {k v : Str} {l : List (Str × Yaml)}, (l.find? fun p => p.1 == k).map Prod.snd = some (.scalar v) →
        textAt (.map l) k = some v := fun {_ _ l} h => textAt_eq (y := .map l) (congrArg some h)
    have u : ∀ {k : Str} {l : List (Str × Yaml)} {y : Yaml}, (l.find? fun p => p.1 == k).map Prod.snd = some y →
        (Yaml.map l).at [k] = some y := fun {_ l _} h => get_at (y := .map l) (congrArg some h)
    have eMs := o.Ms
    rw [show textAt _ "Js".toList = none from textAt_eq (n := none) rfl, t rfl] at eMs
    refine ⟨d, h.symm, o.name, ?_⟩
    have eA := o.A; rw [t rfl] at eA
    have eK := o.K; rw [t rfl] at eK
    have eK3 := o.K3; rw [t rfl] at eK3
    have eal := o.alpha; rw [t rfl] at eal
    have esi := o.sigma; rw [t rfl] at esi
    have eN := o.N0; rw [t rfl] at eN
    have eP := o.P; rw [t rfl] at eP
    have esd := o.lsd; rw [t rfl] at esd
    have esf := o.lsf; rw [t rfl] at esf
    exact ⟨eA.symm, eMs.symm, eK.symm, o.uk' _ _ _ (u rfl), eK3.symm, o.ex' _ _ _ (u rfl), o.ey' _ _ _ (u rfl),
      o.ez' _ _ _ (u rfl), eal.symm, esi.symm, eN.symm, eP.symm, esd.symm, esf.symm⟩

theorem builtin_surface {C : Conv D} {b : All D} (hb : read C (start C) defaults = some b) :
    ∃ d, b.mesh.tri = [d] ∧ d.regName = "__default__".toList ∧ DocumentedSurface C d := by
  obtain ⟨n2, g2, r2⟩ := (read_inv hb).mesh
  have e2 := some_get (show defaults.get "mesh".toList = some (some _) from rfl) g2
  subst e2
  rcases mesh_inv r2 with ⟨hp, -⟩ | ⟨y', hp, -, -, -, ⟨m3, k3, a3⟩⟩
  · cases hp
  · injection hp with hp
    subst hp
    have := some_get (show Yaml.get "surface_regions".toList _ = some (some _) from rfl) k3
    subst this
    obtain ⟨d, hd, h⟩ := bind_some (show readSurfaces C (blankTri C) [(_, _)] [] = some b.mesh.tri from a3)
    injection h with h
    have o := readSurface_overrides hd
    have t : ∀ {k v : Str} {l : List (Str × Yaml)}, (l.find? fun p => p.1 == k).map Prod.snd = some (.scalar v) →
        textAt (.map l) k = some v := fun {_ _ l} h => textAt_eq (y := .map l) (congrArg some h)
    have u : ∀ {k : Str} {l : List (Str × Yaml)} {y : Yaml}, (l.find? fun p => p.1 == k).map Prod.snd = some y →
        (Yaml.map l).at [k] = some y := fun {_ l _} h => get_at (y := .map l) (congrArg some h)
    refine ⟨d, h.symm, o.name, ?_⟩
    have es := o.suppress; rw [t rfl] at es
    have eK := o.Ks; rw [t rfl] at eK
    have ej := o.jn; rw [show textAt _ "jn".toList = none from textAt_eq (n := some .null) rfl] at ej
    have eV := o.V; rw [show textAt _ "V".toList = none from textAt_eq (n := some .null) rfl] at eV
    refine ⟨es.symm, eK.symm, o.uk' _ _ _ (u rfl), Option.some.inj ej, Option.some.inj eV, o.uP' _ _ _ (u rfl), o.s (Or.inr (u rfl))⟩

theorem at_region {y node : Yaml} {a b c : Str} (h : y.at [a, b, c] = some node) :
    ∃ l, y.at [a, b] = some (.map l) ∧ l.find? (fun e => e.1 == c) = some (c, node) := by
  have map_of : ∀ {y n : Yaml} {k : Str} {ks : List Str}, y.at (k :: ks) = some n →
      ∃ l p, y = .map l ∧ l.find? (fun e => e.1 == k) = some p ∧ p.2.at ks = some n := by
    intro y n k ks h
    cases y with
    | null => rw [null_at] at h; cases h
    | scalar t => rw [Yaml.at] at h; cases h; intro l hl; cases hl
    | seq t => rw [Yaml.at] at h; cases h; intro l hl; cases hl
    | map l =>
      rw [Yaml.at] at h
      obtain ⟨p, hp, h⟩ := Option.bind_eq_some_iff.mp h
      exact ⟨l, p, rfl, hp, h⟩
  obtain ⟨l1, p1, rfl, h1, h⟩ := map_of h
  obtain ⟨l2, p2, e2, h2, h⟩ := map_of h
  obtain ⟨l3, p3, e3, h3, h⟩ := map_of h
  refine ⟨l3, ?_, ?_⟩
  · rw [Yaml.at, h1]
    show p1.2.at [b] = _
    rw [e2, Yaml.at, h2]
    show p2.2.at [] = _
    rw [Yaml.at, e3]
  · have : p3.1 = c := by simpa using List.find?_some h3
    rw [Yaml.at] at h
    injection h with h
    rw [h3, ← this, ← h]

theorem region_none {y : Yaml} {a b c : Str} {l : List (Str × Yaml)} (h : y.at [a, b] = some (.map l))
    (hn : y.at [a, b, c] = none) : l.find? (fun e => e.1 == c) = none := by
  have : y.at [a, b, c] = (y.at [a, b]).bind fun n => n.at [c] := by
    rw [at_cons, at_cons (ks := [b])]
    cases y.at [a] with
    | none => rfl
    | some n =>
      show n.at [b, c] = (n.at [b]).bind _
      rw [at_cons]
  rw [this, h] at hn
  have hn : (Yaml.map l).at [c] = none := hn
  rw [Yaml.at] at hn
  cases hf : l.find? (fun e => e.1 == c) with
  | none => rfl
  | some p => rw [hf] at hn; simp [Yaml.at] at hn

theorem forall_none {α : Type} {g : α → Str} {l : List (Str × Yaml)} {new : List α} {R : Str × Yaml → α → Prop} {name : Str}
    (h : List.Forall₂ R l new) (hR : ∀ e p, R e p → g p = e.1) (hl : l.find? (fun e => e.1 == name) = none) :
    new.find? (fun p => g p == name) = none := by
  induction h with
  | nil => rfl
  | cons h1 h2 ih =>
    rename_i e p l new
    rw [List.find?_cons] at hl ⊢
    rw [hR e p h1]
    cases he : e.1 == name with
    | true => rw [he] at hl; cases hl
    | false => rw [he] at hl; exact ih hl

/-- a file that says nothing about a region does not make it known -/
theorem unknown_stays {C : Conv D} {s s' : All D} {y : Yaml} (h : read C s y = some s') (name : Str) :
    (regionIn "volume_regions".toList name (some y) = none → findTetra name s.mesh.tetra = none →
      findTetra name s'.mesh.tetra = none) ∧
    (regionIn "surface_regions".toList name (some y) = none → findTri name s.mesh.tri = none →
      findTri name s'.mesh.tri = none) := by
  obtain ⟨n, g, r⟩ := (read_inv h).mesh
  rcases mesh_inv r with ⟨-, e⟩ | ⟨y', hp, -, -, ⟨m1, k1, hv⟩, ⟨m2, k2, hs⟩⟩
  · rw [e]; exact ⟨fun _ h => h, fun _ h => h⟩
  · constructor
    · intro hr hs
      have hat := at_two g hp k1
      unfold readVolumeRegions at hv
      split at hv
      · injection hv with hv; rw [← hv]; exact hs
      · rename_i l hm
        obtain ⟨new, e, hf⟩ := readVolumes_prefix _ _ _ hv
        have hm1 : m1 = some (.map l) := by
          cases m1 with
          | none => cases hm
          | some m => cases m <;> first | (cases hm; done) | exact hm
        rw [hm1] at hat
        have := forall_none (g := fun p : TetraPrm D => p.regName) hf (fun e p h => (readVolume_overrides h).name)
          (region_none hat hr)
        rw [e]
        unfold findTetra at hs ⊢
        rw [List.find?_append, hs]
        exact this
      · cases hv
    · intro hr hs'
      have hat := at_two g hp k2
      unfold readSurfaceRegions at hs
      split at hs
      · injection hs with hs; rw [← hs]; exact hs'
      · rename_i l hm
        obtain ⟨new, e, hf⟩ := readSurfaces_prefix _ _ _ hs
        have hm2 : m2 = some (.map l) := by
          cases m2 with
          | none => cases hm
          | some m => cases m <;> first | (cases hm; done) | exact hm
        rw [hm2] at hat
        have := forall_none (g := fun p : TriPrm D => p.regName) hf (fun e p h => (readSurface_overrides h).name)
          (region_none hat hr)
        rw [e]
        unfold findTri at hs' ⊢
        rw [List.find?_append, hs']
        exact this
      · cases hs

theorem first_region {C : Conv D} {kind name : Str} {node : Yaml} : ∀ {files : List (Option Yaml)} {b s : All D},
    readFiles C b files = some s → FirstSaid kind name files node → ∃ pre y post s1 s2, files = pre ++ some y :: post ∧
      readFiles C b pre = some s1 ∧ (∀ f ∈ pre, regionIn kind name f = none) ∧ read C s1 y = some s2 ∧
      readFiles C s2 post = some s ∧ y.at ["mesh".toList, kind, name] = some node := by
  intro files
  induction files with
  | nil => intro b s _ hf; cases hf
  | cons f fs ih =>
    intro b s h hf
    obtain ⟨⟨s1, r⟩, h1, h2⟩ := bind_some h
    unfold FirstSaid at hf
    rw [List.filterMap_cons] at hf
    cases hg : regionIn kind name f with
    | none =>
      rw [hg] at hf
      obtain ⟨pre, y, post, t1, t2, e, i1, i2, i3, i4, i5⟩ := ih h2 hf
      refine ⟨f :: pre, y, post, t1, t2, by rw [e]; rfl, ?_, ?_, i3, i4, i5⟩
      · unfold readFiles
        rw [h1]
        exact i1
      · intro f' hf'
        rcases List.mem_cons.mp hf' with rfl | hf'
        · exact hg
        · exact i2 f' hf'
    | some n =>
      rw [hg] at hf
      injection hf with hf
      subst hf
      rcases readFile_inv h1 with ⟨-, rfl | rfl⟩ | ⟨y, rfl, hr⟩
      · cases hg
      · have hg : Yaml.null.at _ = some n := hg
        rw [null_at] at hg
        cases hg
      · exact ⟨[], y, fs, b, s1, rfl, rfl, by simp, hr, h2, hg⟩

theorem unknown_files {C : Conv D} {name : Str} : ∀ {files : List (Option Yaml)} {b s : All D}, readFiles C b files = some s →
    ((∀ f ∈ files, regionIn "volume_regions".toList name f = none) → findTetra name b.mesh.tetra = none →
      findTetra name s.mesh.tetra = none) ∧
    ((∀ f ∈ files, regionIn "surface_regions".toList name f = none) → findTri name b.mesh.tri = none →
      findTri name s.mesh.tri = none) := by
  intro files
  induction files with
  | nil => intro b s h; injection h with h; subst h; exact ⟨fun _ h => h, fun _ h => h⟩
  | cons f fs ih =>
    intro b s h
    obtain ⟨⟨s1, r⟩, h1, h⟩ := bind_some h
    obtain ⟨i1, i2⟩ := ih h
    rcases readFile_inv h1 with ⟨rfl, -⟩ | ⟨y, rfl, hr⟩
    · exact ⟨fun hn => i1 fun f hf => hn f (List.mem_cons_of_mem _ hf), fun hn => i2 fun f hf => hn f (List.mem_cons_of_mem _ hf)⟩
    · obtain ⟨j1, j2⟩ := unknown_stays hr name
      exact ⟨fun hn hb => i1 (fun f hf => hn f (List.mem_cons_of_mem _ hf)) (j1 (hn _ List.mem_cons_self) hb),
        fun hn hb => i2 (fun f hf => hn f (List.mem_cons_of_mem _ hf)) (j2 (hn _ List.mem_cons_self) hb)⟩

/-- **C106** (volume regions) A volume region named by some file has, for each parameter that the first file naming it does not
give, the documented default value. -/
theorem C106_volume (C : Conv D) (b s : All D) (hb : read C (start C) defaults = some b) (files : List (Option Yaml))
    (h : readFiles C b files = some s) (name : Str) (hname : name ≠ "__default__".toList) (node : Yaml)
    (hf : FirstSaid "volume_regions".toList name files node) :
    ∃ d q, DocumentedVolume C d ∧ findTetra name s.mesh.tetra = some q ∧ Overrides C d q name node := by
  obtain ⟨d, hd, hdn, doc⟩ := builtin_volume hb
  obtain ⟨pre, y, post, s1, s2, -, hpre, hno, hr, hpost, hat⟩ := first_region h hf
  obtain ⟨l, hl, hfind⟩ := at_region hat
  have hfd : findTetra "__default__".toList b.mesh.tetra = some d := by
    rw [hd]; unfold findTetra; rw [List.find?_cons, beq_iff_eq.mpr hdn]
  have hnew : findTetra name b.mesh.tetra = none := by
    rw [hd]; unfold findTetra
    rw [List.find?_cons, beq_eq_false_iff_ne.mpr (by rw [hdn]; exact hname.symm)]
    rfl
  obtain ⟨q, hq, ov⟩ := C48_region_partial C s1 s2 y hr name d ((unknown_files hpre).1 hno hnew)
    ((C48_negation_region C pre b s1 hpre _).1 d hfd) l hl node hfind
  exact ⟨d, q, doc, (C48_negation_region C post s2 s hpost name).1 q hq, ov⟩

/-- **C106** (surface regions, the part that holds) A surface region named by some file has the documented charges, anisotropy
constant, axis, current, potential and spin for whatever the first file naming it does not give. The polarization is missing: see
`C106_negation_polarization`. -/
theorem C106_surface_partial (C : Conv D) (b s : All D) (hb : read C (start C) defaults = some b) (files : List (Option Yaml))
    (h : readFiles C b files = some s) (name : Str) (hname : name ≠ "__default__".toList) (node : Yaml)
    (hf : FirstSaid "surface_regions".toList name files node) :
    ∃ d q, DocumentedSurface C d ∧ findTri name s.mesh.tri = some q ∧ OverridesSurface C d q name node := by
  obtain ⟨d, hd, hdn, doc⟩ := builtin_surface hb
  obtain ⟨pre, y, post, s1, s2, -, hpre, hno, hr, hpost, hat⟩ := first_region h hf
  obtain ⟨l, hl, hfind⟩ := at_region hat
  have hfd : findTri "__default__".toList b.mesh.tri = some d := by
    rw [hd]; unfold findTri; rw [List.find?_cons, beq_iff_eq.mpr hdn]
  have hnew : findTri name b.mesh.tri = none := by
    rw [hd]; unfold findTri
    rw [List.find?_cons, beq_eq_false_iff_ne.mpr (by rw [hdn]; exact hname.symm)]
    rfl
  obtain ⟨q, hq, ov⟩ := C48_surface C s1 s2 y hr name d ((unknown_files hpre).2 hno hnew)
    ((C48_negation_region C pre b s1 hpre _).2 d hfd) l hl node hfind
  exact ⟨d, q, doc, (C48_negation_region C post s2 s hpost name).2 q hq, ov⟩

/-- **C106** (negation) The documented default `uP: [0, 0, 1]` is never used: a surface region whose first description does not
give `uP` has no polarization (NaN), whatever the documented direction. -/
theorem C106_negation_polarization (C : Conv D) (b s : All D) (hb : read C (start C) defaults = some b)
    (files : List (Option Yaml)) (h : readFiles C b files = some s) (name : Str) (hname : name ≠ "__default__".toList) (node : Yaml)
    (hf : FirstSaid "surface_regions".toList name files node) (hu : Absent node "uP".toList) :
    ∃ d q, Direction C d "0" "0" "1" ∧ findTri name s.mesh.tri = some q ∧ q.uP = (C.nan, C.nan, C.nan) ∧
      (d ≠ (C.nan, C.nan, C.nan) → q.uP ≠ d) := by
  obtain ⟨d, q, doc, hq, ov⟩ := C106_surface_partial C b s hb files h name hname node hf
  have e := ov.uP hu
  exact ⟨d.uP, q, doc.uP, hq, e, fun hd => by rw [e]; exact hd.symm⟩

/-! ## A concrete case -/

/-- the hypotheses are met by the file of C86, which gives a final time but no time step and leaves the region `side` without a
polarization; the conclusion is not trivial: the final time is not the default one -/
example : ∃ b s, read verifyConv (start verifyConv) defaults = some b ∧ readFiles verifyConv b [none, some verifyFile] = some s ∧
    lastGiven ["outputs".toList, "evol_time_step".toList] [none, some verifyFile] = none ∧
    s.outputs.timeStep = "5e-13".toList ∧ s.outputs.finalTime = "1e-9".toList := by
  obtain ⟨b, s, h, -⟩ := verify_run
  have hn : lastGiven ["outputs".toList, "evol_time_step".toList] [none, some verifyFile] = none := by
    have : given ["outputs".toList, "evol_time_step".toList] (some verifyFile) = none :=
      given_two (y := verifyFile) (n := some _) rfl rfl (m := none) rfl
    unfold lastGiven
    rw [List.filterMap_cons, List.filterMap_cons, this]
    rfl
  refine ⟨b, s, h.builtin, h.read, hn, ?_, ?_⟩
  · have := C106_text verifyConv b s h.builtin _ h.read _
      (show (["outputs".toList, "evol_time_step".toList], "5e-13".toList) ∈ documentedTexts from .tail _ (.head _)) _
      (show ⟨Str, ["outputs".toList, "evol_time_step".toList], verifyConv.toD, fun s => s.outputs.timeStep⟩ ∈ entries verifyConv from
        .tail _ (.head _)) rfl hn
    exact Option.some.inj this
  · have := C48_scalar verifyConv _ b s h.read
      ⟨Str, ["outputs".toList, "final_time".toList], verifyConv.toD, fun s => s.outputs.finalTime⟩ (.tail _ (.tail _ (.head _)))
    have hl : lastGiven ["outputs".toList, "final_time".toList] [none, some verifyFile] = some "1e-9".toList := by
      have : given ["outputs".toList, "final_time".toList] (some verifyFile) = some "1e-9".toList :=
        given_at (l2 := _) rfl (by rfl) (by rfl)
      unfold lastGiven
      rw [List.filterMap_cons, List.filterMap_cons, this]
      rfl
    dsimp only at this
    rw [hl] at this
    exact Option.some.inj this

/-- a region with its first description: the surface `side` of the same file, whose polarization is absent -/
example : FirstSaid "surface_regions".toList "side".toList [none, some verifyFile]
    (.map [("suppress_charges".toList, .scalar "true".toList)]) ∧
    Absent (.map [("suppress_charges".toList, .scalar "true".toList)]) "uP".toList := by
  have : regionIn "surface_regions".toList "side".toList (some verifyFile) =
      some (.map [("suppress_charges".toList, .scalar "true".toList)]) := by
    show verifyFile.at _ = _
    rw [at_cons, get_at (show verifyFile.get "mesh".toList = some (some _) from rfl)]
    show Yaml.at _ _ = _
    rw [at_cons, get_at (show Yaml.get "surface_regions".toList _ = some (some _) from rfl)]
    show Yaml.at _ _ = _
    exact get_at rfl
  refine ⟨?_, Or.inl (get_at rfl)⟩
  unfold FirstSaid
  rw [List.filterMap_cons, List.filterMap_cons, this]
  rfl

end Verif.Settings
