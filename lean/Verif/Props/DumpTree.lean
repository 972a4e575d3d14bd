import Verif.Proofs.DumpTree
import Mathlib.Tactic.Linarith
import Mathlib.Tactic.NormNum
import Mathlib.Tactic.Positivity
import Mathlib.Tactic.Ring

/-!
# C86: the settings printed by `--verify`, used as a settings file

A user who keeps the printed settings next to the results expects that the same run can be made from them.
-/

namespace Verif.Settings

open Verif.Text

variable {D : Type}

/-! ## the built-in defaults -/

theorem volume_one {C : Conv D} {base : TetraPrm D} {name : Str} {y : Yaml} {r : List (TetraPrm D)}
    (h : readVolumes C base [(name, y)] [] = some r) : ∃ d, r = [d] ∧ d.regName = name := by
  obtain ⟨p, hp, h⟩ := bind_some h
  injection h with h
  exact ⟨p, h.symm, (readVolume_overrides hp).name⟩

theorem surface_one {C : Conv D} {base : TriPrm D} {name : Str} {y : Yaml} {r : List (TriPrm D)}
    (h : readSurfaces C base [(name, y)] [] = some r) : ∃ d, r = [d] ∧ d.regName = name := by
  obtain ⟨p, hp, h⟩ := bind_some h
  injection h with h
  exact ⟨p, h.symm, (readSurface_overrides hp).name⟩

theorem some_get {y n : Yaml} {m : Option Yaml} {k : Str} (e : y.get k = some (some n)) (g : y.get k = some m) : m = some n := by
  rw [e] at g
  injection g with g
  exact g.symm

/-- what default-settings.yml leaves in the settings -/
theorem builtin_defaults {C : Conv D} {b : All D} (hnan : C.isNaN C.nan = true) (h : read C (start C) defaults = some b) :
    Builtin C b := by
  have inv := read_inv h
  obtain ⟨n1, sn, g1, r1, hname⟩ := inv.outputs
  have e1 := some_get (show defaults.get "outputs".toList = some (some _) from rfl) g1
  subst e1
  obtain ⟨n2, g2, r2⟩ := inv.mesh
  have e2 := some_get (show defaults.get "mesh".toList = some (some _) from rfl) g2
  subst e2
  obtain ⟨n3, g3, r3⟩ := inv.mag
  have e3 := some_get (show defaults.get "initial_magnetization".toList = some (some _) from rfl) g3
  subst e3
  obtain ⟨n4, g4, r4⟩ := inv.initialTime
  have e4 := some_get (show defaults.get "initial_time".toList = some (some _) from rfl) g4
  subst e4
  obtain ⟨n5, g5, r5⟩ := inv.recentering
  have e5 := some_get (show defaults.get "recentering".toList = some (some _) from rfl) g5
  subst e5
  obtain ⟨n6, g6, r6⟩ := inv.field
  have e6 := some_get (show defaults.get "Bext".toList = some (some _) from rfl) g6
  subst e6
  obtain ⟨n8, g8, r8⟩ := inv.fmm
  have e8 := some_get (show defaults.get "demagnetizing_field_solver".toList = some (some _) from rfl) g8
  subst e8
  -- the section `mesh`
  have hmesh : b.mesh.pbName = [] ∧ C.nonpos b.mesh.scale = false ∧
      (∃ d, b.mesh.tetra = [d] ∧ d.regName = "__default__".toList) ∧
      (∃ d, b.mesh.tri = [d] ∧ d.regName = "__default__".toList) := by
    rcases mesh_inv r2 with ⟨hp, -⟩ | ⟨y', hp, ⟨m1, k1, a1⟩, ⟨m2, k2, a2⟩, ⟨m3, k3, a3⟩, ⟨m4, k4, a4⟩⟩
    · cases hp
    · injection hp with hp
      subst hp
      refine ⟨?_, ?_, ?_, ?_⟩
      · have := some_get (show Yaml.get "filename".toList _ = some (some .null) from rfl) k1
        subst this
        injection a1 with a1
        exact a1.symm
      · have := some_get (show Yaml.get "length_unit".toList _ = some (some (.scalar "1e-9".toList)) from rfl) k2
        subst this
        obtain ⟨x, -, e⟩ := bind_some (show readScale C "1e-9".toList = some b.mesh.scale from a2)
        split at e
        · cases e
        · rename_i hx
          injection e with e
          rw [← e]
          exact Bool.eq_false_iff.mpr hx
      · have := some_get (show Yaml.get "volume_regions".toList _ = some (some _) from rfl) k3
        subst this
        exact volume_one a3
      · have := some_get (show Yaml.get "surface_regions".toList _ = some (some _) from rfl) k4
        subst this
        exact surface_one a4
  have hout : b.outputs.directory = ['.'] ∧ sn = [] ∧ 0 ≤ b.outputs.savePeriod ∧ b.outputs.userMetadata = [] := by
    rcases outputs_inv r1 with ⟨hp, -⟩ | ⟨y', hp, ⟨m1, k1, a1⟩, ⟨m2, k2, a2⟩, -, -, ⟨m5, k5, a5⟩, -, ⟨m7, k7, a7⟩⟩
    · cases hp
    · injection hp with hp
      subst hp
      refine ⟨?_, ?_, ?_, ?_⟩
      · have := some_get (show Yaml.get "directory".toList _ = some (some (.scalar ".".toList)) from rfl) k1
        subst this
        injection a1 with a1
        exact a1.symm
      · have := some_get (show Yaml.get "file_basename".toList _ = some (some .null) from rfl) k2
        subst this
        injection a2 with a2
        exact a2.symm
      · have := some_get (show Yaml.get "mag_config_every".toList _ = some (some (.scalar "100".toList)) from rfl) k5
        subst this
        obtain ⟨n, -, e⟩ := bind_some (show (do
          let n ← C.toInt "100".toList
          return if n < 0 then 0 else n) = some b.outputs.savePeriod from a5)
        injection e with e
        rw [← e]
        split <;> omega
      · have := some_get (show Yaml.get "metadata".toList _ = some (some .null) from rfl) k7
        subst this
        injection a7 with a7
        exact a7.symm
  refine ⟨?_, hout.1, hout.2.2.2, hmesh.1, hmesh.2.1, hout.2.2.1, hmesh.2.2.1, hmesh.2.2.2, ?_, ?_, ?_, ?_, ?_⟩
  · rw [hname, hmesh.1, hout.2.1]
    rfl
  · have r3 : (if C.compiles (exprText "x,y,z".toList ['0'] ['0'] ['1']) then
        some (⟨[], [], ['0'], ['0'], ['1'], some (.exprs "x,y,z".toList ['0'] ['0'] ['1'])⟩ : Mag) else none) = some b.mag := r3
    split at r3
    · rename_i hc
      injection r3 with r3
      rw [← r3]
      exact ⟨rfl, rfl, rfl, hc⟩
    · cases r3
  · injection r4 with r4
    rw [← r4]
    exact hnan
  · rcases recentering_inv r5 with ⟨hp, -⟩ | ⟨y', hp, -, ⟨m, k, a⟩, -⟩
    · cases hp
    · injection hp with hp
      subst hp
      have := some_get (show Yaml.get "direction".toList _ = some (some (.scalar "Z".toList)) from rfl) k
      subst this
      injection a with a
      exact a.symm
  · have r6 : (if C.compiles (exprText "t".toList ['0'] ['0'] ['0']) then
        some (⟨[], ['0'], ['0'], ['0'], [], [], some (.exprs "t".toList ['0'] ['0'] ['0']), none, none, .RtoR3⟩ : Field)
        else none) = some b.field := r6
    split at r6
    · rename_i hc
      injection r6 with r6
      rw [← r6]
      exact ⟨rfl, rfl, rfl, hc⟩
    · cases r6
  · obtain ⟨k, -, e⟩ := bind_some (show (do
      let n ← C.toInt "0".toList
      return if n ≤ 0 then C.cpuCount else n) = some b.nbThreads from r8)
    injection e with e
    rw [← e]
    split
    · exact Or.inr rfl
    · left; omega

/-! ## the property -/

theorem readFiles_dump (C : Conv D) (P : Printer D) (b s : All D) :
    readFiles C b [some (dump C P s)] = read C b (dump C P s) := by
  show ((read C b (dump C P s) >>= fun s => some (s, true)) >>= fun p => some p.1) = _
  cases read C b (dump C P s) <;> rfl

theorem run_read {C : Conv D} {P : Printer D} {ok : D → Prop} {r : D → D} (R : Reads C P ok r) {b s : All D}
    {files : List (Option Yaml)} (h : Run C ok b files s) :
    ∃ s' newS, readFiles C b [some (dump C P s)] = some s' ∧ Builtin C b ∧ s'.mesh.tri = b.mesh.tri ++ newS ∧
      List.Forall₂ (fun p q => q.regName = p.regName ∧ q.jn = C.nan ∧
          (C.isNaN p.jn = true → SameSurface C P r s.spin.enable p q))
        (s.mesh.tri.filter fun p => p.regName != "__default__".toList) newS ∧
      ((∀ p ∈ s.mesh.tri, p.regName ≠ "__default__".toList → C.isNaN p.jn = true) → SameSettings C P r s s') := by
  have hb := builtin_defaults R.nan h.builtin
  obtain ⟨s', newS, e, h1, h2, h3⟩ := dump_read R s b hb h.printable (kept_files files b s (kept_builtin hb) h.read)
    (mag_files files b s h.read (Or.inl ⟨hb.mag, h.mag⟩))
    (field_files h.compiles files b s h.read h.parts (Or.inl ⟨hb.field, h.field⟩)) h.columns h.names
  refine ⟨s', newS, ?_, hb, h1, h2, h3⟩
  rw [readFiles_dump, e]

/-- **C86** The settings printed by `--verify` or `-v`, used as the only settings file, give the same run up to the rounding of the
numbers: the same outputs, mesh, regions, initial magnetization, recentering, field, solvers and time steps. Missing: current
densities of surface regions (`C86_negation_current`); files that replace the magnetization or the field of another one
(`C86_negation_magnetization`, `C86_negation_field`); surface regions without polarization in a run with spin accumulation
(`C86_negation_spin`); no column (`C86_negation_columns`). The rounding is not harmless: `C86_negation_digits`. -/
theorem C86_verify_partial (C : Conv D) (P : Printer D) (ok : D → Prop) (r : D → D) (R : Reads C P ok r) (b s : All D)
    (files : List (Option Yaml)) (h : Run C ok b files s)
    (hj : ∀ p ∈ s.mesh.tri, p.regName ≠ "__default__".toList → C.isNaN p.jn = true) :
    ∃ s', readFiles C b [some (dump C P s)] = some s' ∧ SameSettings C P r s s' := by
  obtain ⟨s', _, e, -, -, -, h3⟩ := run_read R h
  exact ⟨s', e, h3 hj⟩

/-- **C86** (negation) A current density is lost: the surface region has none after reading the printed settings. -/
theorem C86_negation_current (C : Conv D) (P : Printer D) (ok : D → Prop) (r : D → D) (R : Reads C P ok r) (b s : All D)
    (files : List (Option Yaml)) (h : Run C ok b files s) (name : Str) (hname : name ≠ "__default__".toList) (p : TriPrm D)
    (hp : findTri name s.mesh.tri = some p) (hj : C.isNaN p.jn = false) (hr : ∀ x, C.isNaN x = false → C.isNaN (r x) = false) :
    ∃ s' q, readFiles C b [some (dump C P s)] = some s' ∧ findTri name s'.mesh.tri = some q ∧ C.isNaN q.jn = true ∧
      ¬ SameSettings C P r s s' := by
  obtain ⟨s', newS, e, hb, h1, h2, -⟩ := run_read R h
  obtain ⟨dS, hdS, hdS'⟩ := hb.tri
  have h2' : List.Forall₂ (fun p q : TriPrm D => q.regName = p.regName ∧ (fun _ q : TriPrm D => q.jn = C.nan) p q)
      (s.mesh.tri.filter fun p => p.regName != "__default__".toList) newS := h2.imp fun _ _ h => ⟨h.1, h.2.1⟩
  have := find_related TriPrm.regName (fun _ q : TriPrm D => q.jn = C.nan) name _ _ h2'
  rw [find_filter TriPrm.regName name "__default__".toList hname] at this
  have hfind : findTri name s'.mesh.tri = newS.find? fun p => p.regName == name := by
    unfold findTri
    rw [h1, hdS]
    exact find_skip TriPrm.regName name dS newS (by rw [hdS']; exact hname.symm)
  have hp' : (s.mesh.tri.find? fun p => p.regName == name) = some p := hp
  rw [hp', ← hfind] at this
  cases hq : findTri name s'.mesh.tri with
  | none => rw [hq] at this; exact this.elim
  | some q =>
    rw [hq] at this
    have hq1 : q.jn = C.nan := this
    refine ⟨s', q, e, hq, by rw [hq1]; exact R.nan, ?_⟩
    intro same
    have hs := same.surfaces name hname
    rw [hp, hq] at hs
    have hs' := (show SameSurface C P r s.spin.enable p q from hs).jn
    rw [hj] at hs'
    have hs' : q.jn = r p.jn := hs'
    rw [hq1] at hs'
    have := hr _ hj
    rw [← hs', R.nan] at this
    cases this

theorem six_digits_default (x : ℝ) (h1 : 795774 < x) (h2 : x < 795775) : ¬ SixDigits x := by
  rintro ⟨m, e, hm, h⟩
  by_cases he : 0 ≤ e
  · obtain ⟨n, rfl⟩ := Int.eq_ofNat_of_zero_le he
    rw [zpow_natCast] at h
    have hx : x = ((m * 10 ^ n : ℤ) : ℝ) := by push_cast; exact h
    rw [hx] at h1 h2
    have h1 : (795774 : ℤ) < m * 10 ^ n := by exact_mod_cast h1
    have h2 : m * 10 ^ n < (795775 : ℤ) := by exact_mod_cast h2
    omega
  · obtain ⟨n, hn⟩ := Int.eq_ofNat_of_zero_le (show 0 ≤ -e - 1 by omega)
    have hen : e = -((n + 1 : ℕ) : ℤ) := by push_cast; omega
    rw [hen, zpow_neg, zpow_natCast, ← div_eq_mul_inv, eq_div_iff (by positivity)] at h
    have hm' : (m : ℝ) < 10 ^ 6 := by exact_mod_cast (abs_lt.mp hm).2
    have hpos : (1 : ℝ) ≤ 10 ^ n := one_le_pow₀ (by norm_num)
    rw [pow_succ] at h
    nlinarith

/-- **C86** (negation) Six digits are printed, but the default saturation magnetization 795774.7 has seven: a region that keeps it
has another one after reading the printed settings. `val` is the real number that a number of the program stands for; the default
is known to the program up to its own precision. -/
theorem C86_negation_digits (C : Conv D) (P : Printer D) (ok : D → Prop) (r : D → D) (R : Reads C P ok r) (b s : All D)
    (files : List (Option Yaml)) (h : Run C ok b files s)
    (hj : ∀ p ∈ s.mesh.tri, p.regName ≠ "__default__".toList → C.isNaN p.jn = true)
    (val : D → ℝ) (hr : ∀ x, ok x → SixDigits (val (r x)))
    (name : Str) (hname : name ≠ "__default__".toList) (p : TetraPrm D) (hp : findTetra name s.mesh.tetra = some p)
    (hMs : |val p.Ms - 795774.7| < 0.1) :
    ∃ s' q, readFiles C b [some (dump C P s)] = some s' ∧ findTetra name s'.mesh.tetra = some q ∧ val q.Ms ≠ val p.Ms := by
  obtain ⟨s', e, same⟩ := C86_verify_partial C P ok r R b s files h hj
  have hv := same.volumes name hname
  rw [hp] at hv
  cases hq : findTetra name s'.mesh.tetra with
  | none => rw [hq] at hv; exact hv.elim
  | some q =>
    rw [hq] at hv
    refine ⟨s', q, e, hq, ?_⟩
    rw [(show SameVolume C P r p q from hv).Ms]
    have hsix := hr _ (h.printable.tetra p (List.mem_of_find?_eq_some hp)).1.2.1
    intro heq
    rw [heq] at hsix
    rw [abs_lt] at hMs
    exact six_digits_default _ (by linarith [hMs.1]) (by linarith [hMs.2]) hsix

/-! ## what a file leaves behind -/

theorem readMag_code {C : Conv D} {m m' : Mag} {y : Yaml} {n : Option Yaml} {f : Str}
    (hn : y.get "initial_magnetization".toList = some n) (h : readMag C m n = some m')
    (hg : givenMag (some y) = some (.fn (some (.code f)))) : m'.sM = f ∧ f ≠ [] := by
  unfold givenMag at hg
  dsimp only at hg
  rw [get_at hn] at hg
  split at hg
  · rename_i t
    split at hg
    · rename_i hc
      injection hg with hg
      injection hg with hg
      injection hg with hg
      injection hg with hg
      subst hg
      have h : (if (!occurs "function".toList t || !occurs ['{'] t) = true then some { m with restoreFileName := t }
        else if C.compiles t then some { m with sM := t, parser := some (.code t) } else none) = some m' := h
      rw [if_neg (by rw [← Bool.not_and, hc]; decide)] at h
      split at h
      · injection h with h
        subst h
        exact ⟨rfl, occurs_ne (Bool.and_eq_true_iff.mp hc).2⟩
      · cases h
    · injection hg with hg
      cases hg
  · injection hg with hg
    injection hg with hg
    injection hg with hg
    cases hg
  · cases hg

theorem readMag_keeps {C : Conv D} {m m' : Mag} {y : Yaml} {n : Option Yaml}
    (hn : y.get "initial_magnetization".toList = some n) (h : readMag C m n = some m')
    (hg : ∀ g, givenMag (some y) ≠ some (.fn (some (.code g)))) : m'.sM = m.sM := by
  unfold givenMag at hg
  dsimp only at hg
  rw [get_at hn] at hg
  unfold readMag at h
  split at h
  · injection h with h; rw [← h]
  · rename_i t ht
    split at h
    · injection h with h; rw [← h]
    · rename_i hc
      exfalso
      have hn' : n = some (.scalar t) := by
        cases n with
        | none => cases ht
        | some n =>
          cases n with
          | null => cases ht
          | scalar _ => exact ht
          | seq _ => cases ht
          | map _ => cases ht
      subst hn'
      refine hg t ?_
      dsimp only
      rw [if_pos]
      rwa [← Bool.not_and, Bool.not_eq_true', Bool.not_eq_false] at hc
  · obtain ⟨_, -, h⟩ := bind_some h
    obtain ⟨_, -, h⟩ := bind_some h
    obtain ⟨_, -, h⟩ := bind_some h
    split at h
    · injection h with h; rw [← h]
    · cases h
  · cases h

/-- **C86** (negation) A first file gives a function for the initial magnetization, a second one expressions or a .sol file: the run
starts from the latter, the printed settings from the function. -/
theorem C86_negation_magnetization (C : Conv D) (P : Printer D) (b s1 s : All D) (hnan : C.isNaN C.nan = true)
    (hb : read C (start C) defaults = some b) (y1 y2 : Yaml) (h1 : read C b y1 = some s1) (h2 : read C s1 y2 = some s)
    (f : Str) (src : MagSource) (hf : givenMag (some y1) = some (.fn (some (.code f)))) (hsrc : givenMag (some y2) = some src)
    (hcode : ∀ g, src ≠ .fn (some (.code g))) (hfile : src ≠ .file []) :
    s.magSource = src ∧ ∀ s', readFiles C b [some (dump C P s)] = some s' → s'.magSource = .fn (some (.code f)) := by
  have B := builtin_defaults hnan hb
  obtain ⟨n1, g1, r1⟩ := (read_inv h1).mag
  obtain ⟨n2, g2, r2⟩ := (read_inv h2).mag
  obtain ⟨e1, hne⟩ := readMag_code g1 r1 hf
  have e2 := readMag_keeps g2 r2 (fun g => by rw [hsrc]; intro e; injection e with e; exact hcode g e)
  have i1 := readMag_given g1 r1
  rw [hf] at i1
  have i2 := readMag_given g2 r2
  rw [hsrc] at i2
  constructor
  · unfold All.magSource
    cases src with
    | file name =>
      rw [i2.1, if_neg (fun e => hfile (by rw [e]))]
    | fn p =>
      rw [i2.1, i1.1, B.mag.2.1, if_pos rfl, i2.2]
  · intro s' h
    rw [readFiles_dump] at h
    obtain ⟨n3, g3, r3⟩ := (read_inv h).mag
    have e3 := some_get (show (dump C P s).get "initial_magnetization".toList = some (some (dumpMag s.mag)) from rfl) g3
    subst e3
    have i3 : s'.mag.restoreFileName = [] ∧ s'.mag.parser = some (.code f) := by
      unfold dumpMag at r3
      rw [e2, e1, if_pos hne] at r3
      have hfn : (occurs "function".toList f && occurs ['{'] f) = true := by
        unfold givenMag at hf
        dsimp only at hf
        split at hf
        · split at hf
          · rename_i hc
            injection hf with hf
            injection hf with hf
            injection hf with hf
            injection hf with hf
            subst hf
            exact hc
          · injection hf with hf
            cases hf
        · injection hf with hf
          injection hf with hf
          injection hf with hf
          cases hf
        · cases hf
      have r3 : (if (!occurs "function".toList f || !occurs ['{'] f) = true then some { b.mag with restoreFileName := f }
        else if C.compiles f then some { b.mag with sM := f, parser := some (.code f) } else none) = some s'.mag := r3
      rw [if_neg (by rw [← Bool.not_and, hfn]; decide)] at r3
      split at r3
      · injection r3 with r3
        rw [← r3]
        exact ⟨B.mag.2.1, rfl⟩
      · cases r3
    unfold All.magSource
    rw [i3.1, if_pos rfl, i3.2]

/-- **C86** (negation) The same for the applied field: a first file gives a function, a second one three expressions. -/
theorem C86_negation_field (C : Conv D) (P : Printer D) (b s1 s : All D) (y1 y2 : Yaml) (h1 : read C b y1 = some s1)
    (h2 : read C s1 y2 = some s) (f u v w : Str) (hf : y1.at ["Bext".toList] = some (.scalar f)) (hne : f ≠ [])
    (he : y2.at ["Bext".toList] = some (.seq [.scalar u, .scalar v, .scalar w])) :
    s.fieldSource = .time (some (.exprs "t".toList u v w)) ∧
      ∀ s', readFiles C b [some (dump C P s)] = some s' → s'.fieldSource = .time (some (.code f)) := by
  obtain ⟨n1, g1, r1⟩ := (read_inv h1).field
  obtain ⟨n2, g2, r2⟩ := (read_inv h2).field
  rw [get_at g1] at hf
  rw [get_at g2] at he
  subst hf he
  have r1 : (if C.compiles f then some { b.field with sB := f, parser := some (.code f), type := .RtoR3 } else none) =
    some s1.field := r1
  have r2 : (if C.compiles (exprText "t".toList u v w) then
      some { s1.field with sBx := u, sBy := v, sBz := w, parser := some (.exprs "t".toList u v w), type := .RtoR3 }
      else none) = some s.field := r2
  split at r1
  · rename_i hk
    injection r1 with r1
    split at r2
    · injection r2 with r2
      constructor
      · unfold All.fieldSource
        rw [← r2]
      · intro s' h
        rw [readFiles_dump] at h
        obtain ⟨n3, g3, r3⟩ := (read_inv h).field
        have e3 := some_get (show (dump C P s).get "Bext".toList = some (some (dumpField s.field)) from rfl) g3
        subst e3
        have hd : dumpField s.field = .scalar f := by
          unfold dumpField
          rw [← r2, ← r1]
          dsimp only
          rw [if_neg (by decide), if_pos hne]
        rw [hd] at r3
        have r3 : (if C.compiles f then some { b.field with sB := f, parser := some (.code f), type := .RtoR3 } else none) =
          some s'.field := r3
        rw [if_pos hk] at r3
        injection r3 with r3
        unfold All.fieldSource
        rw [← r3]
    · cases r2
  · cases r1

/-- **C86** (negation) With spin accumulation, a surface region without polarization is printed with a vector of NaN, which the
library does not read: the printed settings are refused. -/
theorem C86_negation_spin (C : Conv D) (P : Printer D) (b s : All D) (hspin : s.spin.enable = true) (p : TriPrm D)
    (hp : p ∈ s.mesh.tri) (hname : p.regName ≠ "__default__".toList) (hu : p.uP = (C.nan, C.nan, C.nan))
    (hnan : C.toD (P.num C.nan) = none) : readFiles C b [some (dump C P s)] = none := by
  cases h : readFiles C b [some (dump C P s)] with
  | none => rfl
  | some s' =>
    exfalso
    rw [readFiles_dump] at h
    obtain ⟨n, g, r⟩ := (read_inv h).mesh
    have e := some_get (show (dump C P s).get "mesh".toList = some (some (dumpMesh C P s)) from rfl) g
    subst e
    rcases mesh_inv r with ⟨hp, -⟩ | ⟨y', hy, -, -, -, ⟨m, hm, hv⟩⟩
    · cases hp
    · have hy : dumpMesh C P s = y' := Option.some.inj hy
      subst hy
      have e := some_get (show (dumpMesh C P s).get "surface_regions".toList = some (some (mapNode ((s.mesh.tri.filter fun p =>
        p.regName != "__default__".toList).map (dumpSurface C P s.spin.enable)))) from rfl) hm
      subst e
      have hmem : dumpSurface C P s.spin.enable p ∈ (s.mesh.tri.filter fun p =>
          p.regName != "__default__".toList).map (dumpSurface C P s.spin.enable) :=
        List.mem_map.mpr ⟨p, List.mem_filter.mpr ⟨hp, bne_iff_ne.mpr hname⟩, rfl⟩
      unfold mapNode at hv
      rw [if_neg (List.ne_nil_of_mem hmem)] at hv
      obtain ⟨new, -, hf⟩ := readSurfaces_prefix _ _ _ hv
      have : ∃ q, readSurface C ((findTri "__default__".toList b.mesh.tri).getD (blankTri C)) (dumpSurface C P s.spin.enable p).1
          (dumpSurface C P s.spin.enable p).2 = some q := by
        clear hv r g hm
        generalize (s.mesh.tri.filter fun p => p.regName != "__default__".toList).map (dumpSurface C P s.spin.enable) = l at hf hmem
        induction hf with
        | nil => cases hmem
        | cons h1 h2 ih =>
          rcases List.mem_cons.mp hmem with e | e
          · rw [e]; exact ⟨_, h1⟩
          · exact ih e
      obtain ⟨q, hq⟩ := this
      have ov := (readSurface_overrides hq).uP' (P.num C.nan) (P.num C.nan) (P.num C.nan) (by
        unfold dumpSurface
        rw [hspin, hu]
        by_cases hK : P.isZero p.Ks = true
        · rw [if_pos hK]
          exact get_at (show Yaml.get "uP".toList _ = _ from rfl)
        · rw [if_neg hK]
          exact get_at (show Yaml.get "uP".toList _ = _ from rfl))
      obtain ⟨u, v, w, hu, -⟩ := ov
      rw [hnan] at hu
      cases hu

/-- **C86** (negation) An empty list of columns is printed as nothing; the printed settings have the default columns. -/
theorem C86_negation_columns (C : Conv D) (P : Printer D) (b s s' : All D) (hc : s.outputs.evolColumns = [])
    (h : readFiles C b [some (dump C P s)] = some s') : s'.outputs.evolColumns = b.outputs.evolColumns := by
  rw [readFiles_dump] at h
  obtain ⟨n, sn, g, r, -⟩ := (read_inv h).outputs
  have e := some_get (show (dump C P s).get "outputs".toList = some (some (dumpOutputs P s)) from rfl) g
  subst e
  rcases outputs_inv r with ⟨hp, -⟩ | ⟨y', hy, -, -, -, -, -, ⟨m, hm, hv⟩, -⟩
  · cases hp
  · have hy : dumpOutputs P s = y' := Option.some.inj hy
    subst hy
    have e := some_get (show (dumpOutputs P s).get "evol_columns".toList =
      some (some (seqNode (s.outputs.evolColumns.map rawNode))) from rfl) hm
    subst e
    rw [hc] at hv
    injection hv with hv
    exact hv.symm

/-! ## A concrete case -/

/-- numbers are their texts, except that the word "nan" is not read; integers are written as a row of strokes -/
def verifyConv : Conv Str where
  toD s := if s = "nan".toList then none else some s
  toInt s := match s with
    | '-' :: l => some (-(l.length : ℤ))
    | l => some (l.length : ℤ)
  toBool s := if s = "true".toList then some true else if s = "false".toList then some false else none
  nan := "nan".toList
  isNaN s := s == "nan".toList
  nonpos s := s == ['0']
  divMu0 := id
  normalize := id
  compiles s := s != []
  cpuCount := 4

/-- the default saturation magnetization to six digits -/
def verifyRound (s : Str) : Str := if s = "795774.7".toList then "795775".toList else s

def verifyPrinter : Printer Str where
  num := verifyRound
  int n := if n < 0 then '-' :: List.replicate n.natAbs '|' else List.replicate n.natAbs '|'
  isZero s := s == ['0']

theorem verify_reads : Reads verifyConv verifyPrinter (fun x => x ≠ "nan".toList) verifyRound where
  num x hx := by
    show (if verifyRound x = "nan".toList then none else some (verifyRound x)) = _
    unfold verifyRound
    by_cases h : x = "795774.7".toList
    · rw [if_pos h]
      rfl
    · rw [if_neg h, if_neg hx]
  int n := by
    by_cases hn : n < 0
    · show verifyConv.toInt (if n < 0 then _ else _) = _
      rw [if_pos hn]
      show some (-(((List.replicate n.natAbs '|').length : ℕ) : ℤ)) = _
      rw [List.length_replicate]
      congr 1
      omega
    · show verifyConv.toInt (if n < 0 then _ else _) = _
      rw [if_neg hn]
      obtain ⟨k, rfl⟩ := Int.eq_ofNat_of_zero_le (not_lt.mp hn)
      cases k with
      | zero => rfl
      | succ k =>
        show some (((List.replicate (k + 1) '|').length : ℕ) : ℤ) = _
        rw [List.length_replicate]
  intWord n := by
    have h : ∀ w : Str, ('t' ∈ w ∨ 'f' ∈ w) → verifyPrinter.int n ≠ w := by
      intro w hw e
      subst e
      show False
      unfold verifyPrinter at hw
      dsimp only at hw
      split at hw <;> simp at hw
    exact ⟨h _ (by decide), h _ (by decide)⟩
  bool := ⟨rfl, rfl⟩
  pos x _ h := by
    unfold verifyRound
    split
    · rfl
    · exact h
  nan := rfl

instance (v : Str × Str × Str) : Decidable (AllV (fun x => x ≠ "nan".toList) v) := inferInstanceAs (Decidable (_ ∧ _ ∧ _))

/-- a mesh, two volume regions, a magnetization read from a file, a field along z that depends on the time, recentering -/
def verifyFile : Yaml :=
  .map [
    ("outputs".toList, .map [("directory".toList, .scalar "data/".toList), ("final_time".toList, .scalar "1e-9".toList),
      ("metadata".toList, .map [("author".toList, .scalar "nobody".toList)])]),
    ("mesh".toList, .map [("filename".toList, .scalar "disk.msh".toList),
      ("volume_regions".toList, .map [("in".toList, .map [("Ms".toList, .scalar "8e5".toList)]),
        ("out".toList, .map [("K".toList, .scalar "1e4".toList)])]),
      ("surface_regions".toList, .map [("side".toList, .map [("suppress_charges".toList, .scalar "true".toList)])])]),
    ("initial_magnetization".toList, .scalar "start.sol".toList),
    ("recentering".toList, .map [("enable".toList, .scalar "true".toList), ("direction".toList, .scalar ['X'])]),
    ("Bext".toList, .seq [.scalar ['0'], .scalar ['0'], .scalar "sin(t)".toList])]

/-- the hypotheses of `C86_verify_partial` are met -/
theorem verify_run : ∃ b s, Run verifyConv (fun x => x ≠ "nan".toList) b [none, some verifyFile] s ∧
    (∀ p ∈ s.mesh.tri, p.regName ≠ "__default__".toList → verifyConv.isNaN p.jn = true) ∧
    s.outputs.directory = "data".toList ∧ s.simName = "disk".toList ∧
    (findTetra "out".toList s.mesh.tetra).map (fun p => (p.K, p.Ms)) = some ("1e4".toList, "795774.7".toList) := by
  refine ⟨_, _, ⟨rfl, rfl, ?_, ?_, ?_, rfl, ?_, by decide, by decide⟩, by decide, rfl, rfl, rfl⟩
  · rw [List.filterMap_cons_none rfl]
    exact List.length_filterMap_le _ _
  · rw [List.filter_cons_of_neg (show ¬ givesField none = true from fun h => Bool.noConfusion h)]
    exact List.length_filter_le _ _
  · intro f hf y l e h
    rcases List.mem_cons.mp hf with rfl | hf
    · cases e
    · rw [List.mem_singleton] at hf
      rw [hf] at e
      injection e with e
      subst e
      rw [get_at (show verifyFile.get "Bext".toList = _ from rfl)] at h
      cases h
  · exact ⟨by decide, by decide, by decide, by decide, by decide, by decide, by decide, by decide, by decide⟩

/-- and those of `C86_negation_digits`, for the region `out` -/
example : ∃ (b s s' : All Str) (q : TetraPrm Str), Run verifyConv (fun x => x ≠ "nan".toList) b [none, some verifyFile] s ∧
    readFiles verifyConv b [some (dump verifyConv verifyPrinter s)] = some s' ∧
    findTetra "out".toList s'.mesh.tetra = some q ∧ q.Ms ≠ "795774.7".toList := by
  obtain ⟨b, s, h, hj, -, -, ho⟩ := verify_run
  cases hp : findTetra "out".toList s.mesh.tetra with
  | none => rw [hp] at ho; cases ho
  | some p =>
    rw [hp] at ho
    injection ho with ho
    injection ho with ho1 ho2
    obtain ⟨s', q, e, hq, hne⟩ := C86_negation_digits verifyConv verifyPrinter _ _ verify_reads b s _ h hj
      (fun t => if t = "795774.7".toList then 795774.7 else if t = "795775".toList then 795775 else 0) (by
        intro x hx
        unfold verifyRound
        split
        · refine ⟨795775, 0, by decide, ?_⟩
          rw [if_neg (by decide), if_pos rfl]
          norm_num
        · split
          · exact ⟨795775, 0, by decide, by norm_num⟩
          · exact ⟨0, 0, by decide, by norm_num⟩) "out".toList (by decide) p hp (by
        rw [ho2]
        norm_num)
    refine ⟨b, s, s', q, h, e, hq, ?_⟩
    intro hq
    rw [hq, ho2] at hne
    exact hne rfl

/-- a run with spin accumulation: a surface region with its current density, another one with a polarization -/
def verifySpin : Yaml :=
  .map [
    ("mesh".toList, .map [("filename".toList, .scalar "wire.msh".toList),
      ("volume_regions".toList, .map [("wire".toList, .map [])]),
      ("surface_regions".toList, .map [("left".toList, .map [("jn".toList, .scalar "1e12".toList)]),
        ("right".toList, .map [("V".toList, .scalar "0".toList), ("uP".toList, vec3 "1" "0" "0"), ("s".toList, vec3 "0" "0" "0")])])]),
    ("initial_magnetization".toList, .seq [.scalar ['1'], .scalar ['0'], .scalar ['0']]),
    ("spin_accumulation".toList, .map [("enable".toList, .scalar "true".toList)])]

/-- its settings are accepted, those printed are not -/
example : ∃ b s, read verifyConv (start verifyConv) defaults = some b ∧ readFiles verifyConv b [some verifySpin] = some s ∧
    readFiles verifyConv b [some (dump verifyConv verifyPrinter s)] = none := by
  refine ⟨_, _, rfl, rfl, ?_⟩
  refine C86_negation_spin _ _ _ _ rfl _ (List.mem_cons_of_mem _ List.mem_cons_self) (by decide) rfl rfl

end Verif.Settings
