import Verif.Proofs.Main
import Verif.Props.Evol
import Verif.Props.Options
import Verif.Props.TimeLoop

/-!
# C87: the files and the exit status of a run
-/

namespace Verif.Main

open Verif.Text Verif.Settings Verif.TimeLoop

variable {D ET : Type} {n : ℕ}

theorem main_run {w : World D n ET} {argv : List Str} {file : Str} {seed : Option ℕ} (h : AsksRun w argv file seed) (k : ℕ) :
    main w argv k = runFile w file seed k := by
  obtain ⟨v, h⟩ := h
  unfold main
  rw [h]

/-- no other command line makes the program touch the file system -/
theorem main_ops {w : World D n ET} {argv : List Str} {k : ℕ} {op : Op n ET} (h : op ∈ (main w argv k).ops) :
    ∃ file seed, AsksRun w argv file seed := by
  cases hp : Options.parseOptions w.toSeed w.randomDevice 0 argv with
  | run file v seed => exact ⟨file, seed, v, hp⟩
  | verify file v =>
    exfalso
    unfold main at h
    rw [hp] at h
    dsimp only at h
    split at h
    · exact absurd h (by simp)
    · split at h <;> exact absurd h (by simp)
  | help => unfold main at h; rw [hp] at h; exact absurd h (by simp)
  | version => unfold main at h; rw [hp] at h; exact absurd h (by simp)
  | defaults => unfold main at h; rw [hp] at h; exact absurd h (by simp)
  | template => unfold main at h; rw [hp] at h; exact absurd h (by simp)
  | usage => unfold main at h; rw [hp] at h; exact absurd h (by simp)
  | outOfBounds => unfold main at h; rw [hp] at h; exact absurd h (by simp)

/-- **C87** (the part that holds) Whatever the command line, the files, the file system and the answers of the solvers, and however the
program ends: it touches the file system only for a run whose settings were read and accepted. It creates no directory but the output
directory, and this only if it does not exist. Every file that it writes has one of the three documented names in this directory, or
is the file of the potential.
The mesh, the initial magnetization and the boundary conditions were accepted before any file is written.
Missing: the file of the potential is in the working directory (`C87_negation_potential`). -/
theorem C87_own_files_partial (w : World D n ET) (argv : List Str) (k : ℕ) (op : Op n ET) (h : op ∈ (main w argv k).ops) :
    ∃ file seed s, AsksRun w argv file seed ∧ HasSettings w file s ∧ DirUsable w s.outputs.directory ∧
      ((op = .mkdir s.outputs.directory ∧ w.stat s.outputs.directory = .absent) ∨
       ∃ p c, op = .write p c ∧ InputAccepted w s ∧
        (OwnFile s.outputs.directory s.simName p ∨
          (p = s.simName ++ "_V.sol".toList ∧ s.spin.enable = true ∧ s.spin.vFile = true))) := by
  obtain ⟨file, seed, hr⟩ := main_ops h
  rw [main_run hr] at h
  by_cases hs : ∃ s, HasSettings w file s
  · obtain ⟨s, hs⟩ := hs
    refine ⟨file, seed, s, hr, hs, ?_⟩
    rw [runFile_some hs] at h
    cases hc : createDir w s.outputs.directory with
    | none => rw [hc] at h; exact absurd h (by simp)
    | some ops =>
      rw [hc] at h
      dsimp only at h
      obtain ⟨hd, hm⟩ := createDir_ops hc
      refine ⟨hd, ?_⟩
      have hsp := spinSetup_ops (w := w) (s := s)
      have hmk : op ∈ ops → (op = .mkdir s.outputs.directory ∧ w.stat s.outputs.directory = .absent) := hm op
      by_cases hf : w.femOk s = true
      · rw [if_pos hf] at h
        have hV : op ∈ (spinSetup w s).1 → ∃ p c, op = .write p c ∧ InputAccepted w s ∧
            (OwnFile s.outputs.directory s.simName p ∨
              (p = s.simName ++ "_V.sol".toList ∧ s.spin.enable = true ∧ s.spin.vFile = true)) := by
          intro ho
          obtain ⟨e, h1, h2, h3, h4, -⟩ := hsp.1 op ho
          exact ⟨_, _, e, ⟨hd, hf, fun _ => ⟨h3, h4⟩⟩, Or.inr ⟨rfl, h1, h2⟩⟩
        by_cases h2 : (spinSetup w s).2 = true
        · rw [if_pos h2] at h
          by_cases hg : w.sigactionOk = true
          · rw [if_pos hg] at h
            simp only [List.mem_append] at h
            rcases h with (h | h) | h
            · exact Or.inl (hmk h)
            · exact Or.inr (hV h)
            · obtain ⟨p, c, e, ho⟩ := integrate_own w s seed k op h
              exact Or.inr ⟨p, c, e, ⟨hd, hf, fun he => ⟨(hsp.2 h2 he).1, (hsp.2 h2 he).2.1⟩⟩, Or.inl ho⟩
          · rw [if_neg hg] at h
            rcases List.mem_append.mp h with h | h
            · exact Or.inl (hmk h)
            · exact Or.inr (hV h)
        · rw [if_neg h2] at h
          rcases List.mem_append.mp h with h | h
          · exact Or.inl (hmk h)
          · exact Or.inr (hV h)
      · rw [if_neg hf] at h
        exact Or.inl (hmk h)
  · rw [runFile_none (fun s h => hs ⟨s, h⟩)] at h
    exact absurd h (by simp)

theorem mem_paths {ops : List (Op n ET)} {p : Str} : p ∈ paths ops ↔ ∃ c, Op.write p c ∈ ops := by
  unfold paths
  rw [List.mem_filterMap]
  constructor
  · rintro ⟨o, ho, e⟩
    cases o with
    | mkdir q => exact absurd e (by simp)
    | write q c =>
      simp only [Option.some.injEq] at e
      subst e
      exact ⟨c, ho⟩
  · rintro ⟨c, h⟩
    exact ⟨_, h, rfl⟩

theorem paths_append (a b : List (Op n ET)) : paths (a ++ b) = paths a ++ paths b := by
  unfold paths
  rw [List.filterMap_append]

theorem nodup_of_paths {ops : List (Op n ET)} (h : (paths ops).Nodup) {i j : ℕ} {p : Str} {c c' : Content n ET}
    (hi : ops[i]? = some (.write p c)) (hj : ops[j]? = some (.write p c')) : i = j := by
  induction ops generalizing i j with
  | nil => exact absurd hi (by simp)
  | cons o ops ih =>
    have ht : (paths ops).Nodup := by
      unfold paths at h ⊢
      rw [List.filterMap_cons] at h
      split at h
      · exact h
      · exact h.of_cons
    have hno : ∀ c c' (j : ℕ), o = .write p c → ops[j]? = some (.write p c') → False := by
      rintro c c' j rfl hj
      unfold paths at h
      rw [List.filterMap_cons] at h
      simp only at h
      exact (List.nodup_cons.mp h).1 (mem_paths.mpr ⟨c', List.mem_of_getElem? hj⟩)
    cases i with
    | zero =>
      cases j with
      | zero => rfl
      | succ j =>
        simp only [List.getElem?_cons_zero, Option.some.injEq] at hi
        simp only [List.getElem?_cons_succ] at hj
        exact (hno _ _ j hi hj).elim
    | succ i =>
      cases j with
      | zero =>
        simp only [List.getElem?_cons_zero, Option.some.injEq] at hj
        simp only [List.getElem?_cons_succ] at hi
        exact (hno _ _ i hj hi).elim
      | succ j =>
        simp only [List.getElem?_cons_succ] at hi hj
        rw [ih ht hi hj]

theorem paths_dir {w : World D n ET} {dir : Str} {ops : List (Op n ET)} (h : createDir w dir = some ops) : paths ops = [] := by
  apply List.eq_nil_iff_forall_not_mem.mpr
  intro p hp
  obtain ⟨c, hc⟩ := mem_paths.mp hp
  exact absurd ((createDir_ops h).2 _ hc).1 (by simp)

theorem paths_spin (w : World D n ET) (s : All D) : paths (spinSetup w s).1 = [] ∨ paths (spinSetup w s).1 = [s.simName ++ "_V.sol".toList] := by
  unfold spinSetup
  split_ifs
  · dsimp only
    split_ifs
    · exact Or.inr rfl
    · exact Or.inl rfl
  all_goals exact Or.inl rfl

/-- No file is written twice by a run: what it has saved is never overwritten by itself. -/
theorem C87_once (w : World D n ET) (argv : List Str) (k i j : ℕ) (p : Str) (c c' : Content n ET)
    (hi : (main w argv k).ops[i]? = some (.write p c)) (hj : (main w argv k).ops[j]? = some (.write p c')) : i = j := by
  refine nodup_of_paths ?_ hi hj
  obtain ⟨file, seed, hr⟩ := main_ops (List.mem_of_getElem? hi)
  rw [main_run hr]
  by_cases hs : ∃ s, HasSettings w file s
  · obtain ⟨s, hs⟩ := hs
    rw [runFile_some hs]
    cases hc : createDir w s.outputs.directory with
    | none => exact List.nodup_nil
    | some ops =>
      dsimp only
      have hsp : (paths (spinSetup w s).1).Nodup := by
        rcases paths_spin w s with e | e <;> rw [e] <;> simp
      split_ifs
      · rw [paths_append, paths_append, paths_dir hc, List.nil_append]
        refine List.nodup_append.mpr ⟨hsp, integrate_once w s seed k, ?_⟩
        rintro a ha b hb rfl
        rcases paths_spin w s with e | e
        · rw [e] at ha
          exact absurd ha (by simp)
        · rw [e, List.mem_singleton] at ha
          subst ha
          obtain ⟨c, hc⟩ := mem_paths.mp hb
          obtain ⟨p, c', e, ho⟩ := integrate_own w s seed k _ hc
          cases e
          exact own_potential ho
      · rw [paths_append, paths_dir hc, List.nil_append]; exact hsp
      · rw [paths_append, paths_dir hc, List.nil_append]; exact hsp
      · rw [paths_dir hc]; exact List.nodup_nil
  · rw [runFile_none (fun s h => hs ⟨s, h⟩)]
    exact List.nodup_nil

/-- Two runs that write the same file, each with any settings, have the same output directory and base name; or the file is that of the
potential, and they have the same base name. -/
theorem C87_separate (w w' : World D n ET) (argv argv' : List Str) (k k' : ℕ) (p : Str) (c c' : Content n ET)
    (h : .write p c ∈ (main w argv k).ops) (h' : .write p c' ∈ (main w' argv' k').ops) :
    ∃ file file' s s', HasSettings w file s ∧ HasSettings w' file' s' ∧
      (s.outputs.directory ++ "/".toList ++ s.simName = s'.outputs.directory ++ "/".toList ++ s'.simName ∨
        (p = s.simName ++ "_V.sol".toList ∧ s.simName = s'.simName)) := by
  obtain ⟨file, seed, s, -, hs, -, h⟩ := C87_own_files_partial w argv k _ h
  obtain ⟨file', seed', s', -, hs', -, h'⟩ := C87_own_files_partial w' argv' k' _ h'
  refine ⟨file, file', s, s', hs, hs', ?_⟩
  rcases h with ⟨h, -⟩ | ⟨q, d, e, -, h⟩
  · exact absurd h (by simp)
  rcases h' with ⟨h', -⟩ | ⟨q', d', e', -, h'⟩
  · exact absurd h' (by simp)
  cases e
  cases e'
  rcases h with h | ⟨h, -⟩
  · rcases h' with h' | ⟨rfl, -⟩
    · exact Or.inl (own_base h h')
    · exact absurd h own_potential
  · rcases h' with h' | ⟨h', -⟩
    · subst h
      exact absurd h' own_potential
    · refine Or.inr ⟨h, ?_⟩
      rw [h] at h'
      exact List.append_cancel_right h'

/-! ## refused runs -/

/-- A run that is refused because of its command line, its settings, its output directory, its mesh or its boundary conditions ends with
a status different from zero and leaves every file as it was.
Missing: the columns of the table are checked too late (`C87_negation_columns`). -/
theorem C87_refused_partial (w : World D n ET) (argv : List Str) (k : ℕ) (hi : ¬ AsksInfo w argv)
    (hv : ∀ file, ¬ AsksVerify w argv file)
    (h : ∀ file seed s, AsksRun w argv file seed → HasSettings w file s → ¬ InputAccepted w s) :
    (∀ p c, Op.write p c ∉ (main w argv k).ops) ∧ (main w argv k).status = .exit 1 := by
  constructor
  · intro p c hm
    obtain ⟨file, seed, s, hr, hs, -, hw⟩ := C87_own_files_partial w argv k _ hm
    rcases hw with ⟨hw, -⟩ | ⟨q, d, -, ha, -⟩
    · exact absurd hw (by simp)
    · exact h file seed s hr hs ha
  · have hb := Options.C52_in_bounds w.toSeed w.randomDevice 0 argv
    cases hp : Options.parseOptions w.toSeed w.randomDevice 0 argv with
    | help => exact absurd (Or.inl hp) hi
    | version => exact absurd (Or.inr (Or.inl hp)) hi
    | defaults => exact absurd (Or.inr (Or.inr (Or.inl hp))) hi
    | template => exact absurd (Or.inr (Or.inr (Or.inr hp))) hi
    | usage => unfold main; rw [hp]
    | outOfBounds => exact absurd hp hb
    | verify file v => exact absurd ⟨v, hp⟩ (hv file)
    | run file v seed =>
      rw [main_run ⟨v, hp⟩]
      by_cases hs : ∃ s, HasSettings w file s
      · obtain ⟨s, hs⟩ := hs
        have hn := h file seed s ⟨v, hp⟩ hs
        rw [runFile_some hs]
        cases hc : createDir w s.outputs.directory with
        | none => rfl
        | some ops =>
          dsimp only
          have hsp := (spinSetup_ops (w := w) (s := s)).2
          by_cases hf : w.femOk s = true
          · rw [if_pos hf]
            by_cases h2 : (spinSetup w s).2 = true
            · exact absurd ⟨(createDir_ops hc).1, hf, fun he => ⟨(hsp h2 he).1, (hsp h2 he).2.1⟩⟩ hn
            · rw [if_neg h2]
          · rw [if_neg hf]
      · rw [runFile_none (fun s h => hs ⟨s, h⟩)]

/-! ## exit status -/

theorem column_unknown {regions : List Str} {needed : Bool} {c : Str} (hc : ':' ∉ c) (h : ∀ q, (c, q) ∉ Evol.wholeTable) :
    Evol.column regions needed c = none := by
  unfold Evol.column
  rw [Evol.splitColon_none hc]
  show Evol.cell needed (-1) c = none
  unfold Evol.cell
  have hk : ∀ k ∈ Evol.wholeTable.map Prod.fst, c ≠ k := by
    intro k hk hck
    obtain ⟨⟨k', q⟩, hm, rfl⟩ := List.mem_map.mp hk
    subst hck
    exact h q hm
  simp only [Evol.wholeTable, List.map_cons, List.map_nil, List.mem_cons, List.not_mem_nil, or_false, forall_eq_or_imp, forall_eq] at hk
  obtain ⟨a1, a2, a3, a4, a5, a6, a7, a8, a9, a10, a11, a12, a13, a14, a15, a16, a17, a18, a19, a20⟩ := hk
  rw [if_neg a1, if_neg a2, if_neg a3, if_neg a4, if_neg a5, if_neg a6, if_neg a7, if_neg a8, if_neg a9, if_neg a10, if_neg a11,
    if_neg a12, if_neg a13, if_neg a14, if_neg a15, if_neg a16, if_neg a17, if_neg a18, if_neg a19, if_neg a20]

theorem row_unknown {s : All D} (h : UnknownColumn s) (fmt : Evol.Quantity → Str) :
    (Evol.row fmt (s.mesh.tetra.map (·.regName)) s.outputs.evolColumns).2 = false := by
  obtain ⟨c, hc, h1, h2⟩ := h
  exact Evol.C50_unknown fmt _ _ c hc (column_unknown h1 h2)

theorem row_meaningful {s : All D} (h : Meaningful s) (fmt : Evol.Quantity → Str) :
    (Evol.row fmt (s.mesh.tetra.map (·.regName)) s.outputs.evolColumns).2 = true := by
  unfold Evol.row
  have key : ∀ (cols : List Str) (i : ℕ), (∀ c ∈ cols, ∃ q, Evol.column (s.mesh.tetra.map (·.regName))
      (Evol.fieldNeeded s.outputs.evolColumns) c = some q) →
      (Evol.loop fmt (s.mesh.tetra.map (·.regName)) (Evol.fieldNeeded s.outputs.evolColumns) s.outputs.evolColumns.length i cols).2
        = true := by
    intro cols
    induction cols with
    | nil => intro i _; rfl
    | cons c cols ih =>
      intro i hc
      obtain ⟨q, hq⟩ := hc c (by simp)
      unfold Evol.loop
      rw [hq]
      exact ih (i + 1) fun d hd => hc d (by simp [hd])
  refine key _ 0 fun c hc => ?_
  obtain ⟨q, hq⟩ := h.2 c hc
  by_cases hf : ∃ d, q = .field d
  · refine ⟨q, Evol.column_means hq _ fun _ => ?_⟩
    cases hq with
    | whole hm =>
      have := Evol.field_needed_of _ hm hf
      unfold Evol.fieldNeeded at this ⊢
      simp only [List.any_cons, List.any_nil, Bool.or_false] at this
      exact List.any_eq_true.mpr ⟨_, hc, this⟩
    | region hi hj hm =>
      obtain ⟨d, rfl⟩ := hf
      simp [Evol.regionTable] at hm
  · exact ⟨q, Evol.column_means hq _ fun hh => absurd hh hf⟩

theorem startsAt_iff (w : World D n ET) (s : All D) (t0 : ℝ) : StartsAt w s t0 ↔ t0 = startTime w s := by
  unfold startTime
  constructor
  · rintro ⟨h1, h2, h3⟩
    split_ifs with h h'
    · exact h3 h h'
    · exact h2 h h'
    · exact h1 (by simpa using h)
  · intro h
    refine ⟨fun e => ?_, fun e e' => ?_, fun e e' => ?_⟩
    · rw [h, if_neg (by simp [e])]
    · rw [h, if_pos e, if_neg e']
    · rw [h, if_pos e, if_pos e']

/-- **C87** An exit status of zero means: information was asked for; or a verification, and both files could be read; or a run that
was accepted, whose table contains every row asked for, from the initial time to the final time, and all the magnetizations asked for
were saved. A table that is not empty has no unknown column. -/
theorem C87_status (w : World D n ET) (argv : List Str) (k : ℕ) (h : (main w argv k).status = .exit 0) :
    AsksInfo w argv ∨ (∃ file, AsksVerify w argv file) ∨
    ∃ file seed s rows, AsksRun w argv file seed ∧ HasSettings w file s ∧ InputAccepted w s ∧ (s.spin.enable = true → w.spinOk s = true) ∧
      .write (s.outputs.directory ++ "/".toList ++ s.simName ++ ".evol".toList) (.table rows) ∈ (main w argv k).ops ∧
      (rows ≠ [] → ¬ UnknownColumn s) ∧
      (∀ t0, StartsAt w s t0 → Valid (cfgOf w s) →
        rows.map (·.t) = gridTimes t0 (w.num s.outputs.timeStep) (rowCount w s t0) ∧
        ∀ i, (hi : i < rows.length) → 0 < s.outputs.savePeriod → s.outputs.savePeriod ∣ i →
          ∃ f, .write (s.outputs.directory ++ "/".toList ++ s.simName ++ "_iter".toList ++ (toString i).toList ++ ".sol".toList) (.sol f) ∈
            (main w argv k).ops ∧ f.t = rows[i].t ∧ ∀ a, f.u a = (rows[i].nodes a).next.u) := by
  cases hp : Options.parseOptions w.toSeed w.randomDevice 0 argv with
  | help => exact Or.inl (Or.inl hp)
  | version => exact Or.inl (Or.inr (Or.inl hp))
  | defaults => exact Or.inl (Or.inr (Or.inr (Or.inl hp)))
  | template => exact Or.inl (Or.inr (Or.inr (Or.inr hp)))
  | usage => unfold main at h; rw [hp] at h; exact absurd h (by simp)
  | outOfBounds => unfold main at h; rw [hp] at h; exact absurd h (by simp)
  | verify file v => exact Or.inr (Or.inl ⟨file, v, hp⟩)
  | run file v seed =>
    refine Or.inr (Or.inr ?_)
    rw [main_run ⟨v, hp⟩] at h ⊢
    by_cases hs : ∃ s, HasSettings w file s
    · obtain ⟨s, hs⟩ := hs
      rw [runFile_some hs] at h ⊢
      cases hc : createDir w s.outputs.directory with
      | none => rw [hc] at h; exact absurd h (by simp)
      | some ops =>
        rw [hc] at h
        dsimp only at h ⊢
        have hsp := (spinSetup_ops (w := w) (s := s)).2
        by_cases hf : w.femOk s = true
        · rw [if_pos hf] at h ⊢
          by_cases h2 : (spinSetup w s).2 = true
          · rw [if_pos h2] at h ⊢
            by_cases hg : w.sigactionOk = true
            · rw [if_pos hg] at h ⊢
              dsimp only at h ⊢
              have hb : s.outputs.directory ++ "/".toList ++ s.simName = baseName s := by
                unfold baseName; simp
              have key : ∃ rows, rows = (run (cfgOf w s) (startTime w s) (w.nodes s) (w.pot s) (w.inp s seed) k).rows ∧
                  (run (cfgOf w s) (startTime w s) (w.nodes s) (w.pot s) (w.inp s seed) k).ctl = .done 0 ∧
                  (rows ≠ [] → ¬ UnknownColumn s) ∧
                  Op.write (baseName s ++ ".evol".toList) (.table rows) ∈ (integrate w s seed k).ops ∧
                  ∀ f ∈ (run (cfgOf w s) (startTime w s) (w.nodes s) (w.pot s) (w.inp s seed) k).sols,
                    Op.write (solName s f) (.sol f) ∈ (integrate w s seed k).ops := by
                unfold integrate at h ⊢
                dsimp only at h ⊢
                generalize run (cfgOf w s) (startTime w s) (w.nodes s) (w.pot s) (w.inp s seed) k = st at h ⊢
                by_cases ho : w.canOpen (baseName s ++ ".evol".toList) = true
                · rw [if_pos ho] at h ⊢
                  by_cases he : s.outputs.evolColumns = []
                  · rw [if_pos he] at h
                    exact absurd h (by simp)
                  · rw [if_neg he] at h ⊢
                    by_cases hrw : st.rows ≠ [] ∧
                        (Evol.row (fun _ => []) (s.mesh.tetra.map (·.regName)) s.outputs.evolColumns).2 = false
                    · rw [if_pos hrw] at h
                      exact absurd h (by simp)
                    · rw [if_neg hrw] at h ⊢
                      have hu : st.rows ≠ [] → ¬ UnknownColumn s := fun hn hu => hrw ⟨hn, row_unknown hu _⟩
                      cases hw : (writeSols w s st.sols).2 with
                      | some f => rw [hw] at h; exact absurd h (by simp)
                      | none =>
                        rw [hw] at h
                        dsimp only at h ⊢
                        refine ⟨st.rows, rfl, ?_, hu, List.mem_cons_self, ?_⟩
                        · cases hctl : st.ctl with
                          | running => rw [hctl] at h; exact absurd h (by simp [statusOf])
                          | signalled => rw [hctl] at h; exact absurd h (by simp [statusOf])
                          | noDomainWall => rw [hctl] at h; exact absurd h (by simp [statusOf])
                          | done j =>
                            rw [hctl] at h
                            simp only [statusOf, Status.exit.injEq] at h
                            rw [h]
                        · intro f hf
                          rw [writeSols_all w s _ hw]
                          exact List.mem_cons_of_mem _ (List.mem_map.mpr ⟨f, hf, rfl⟩)
                · rw [if_neg ho] at h
                  exact absurd h (by simp)
              obtain ⟨rows, hrows, hctl, hu, hwr, hsols⟩ := key
              refine ⟨file, seed, s, rows, ⟨v, hp⟩, hs, ⟨(createDir_ops hc).1, hf, fun he => ⟨(hsp h2 he).1, (hsp h2 he).2.1⟩⟩,
                fun he => (hsp h2 he).2.2, ?_, hu, fun t0 h0 hv => ?_⟩
              · rw [hb]
                exact List.mem_append_right _ hwr
              obtain rfl := (startsAt_iff w s t0).mp h0
              refine ⟨?_, ?_⟩
              · have := (C01_output_grid (cfgOf w s) hv (startTime w s) (w.nodes s) (w.pot s) (w.inp s seed) k).2.2 hctl
                rw [hrows]
                exact this
              · intro i hi hpos hdvd
                have h9 := C09_sol_cadence (cfgOf w s) hv (startTime w s) (w.nodes s) (w.pot s) (w.inp s seed) k
                dsimp only at h9
                have hpn : (cfgOf w s).savePeriod = s.outputs.savePeriod.toNat := rfl
                have hm : i ∈ (run (cfgOf w s) (startTime w s) (w.nodes s) (w.pot s) (w.inp s seed) k).sols.filterMap (·.nt) := by
                  rw [h9.1, List.mem_filter, List.mem_range, ← hrows]
                  refine ⟨hi, ?_⟩
                  rw [hpn]
                  refine decide_eq_true ⟨by omega, ?_⟩
                  have e : ((s.outputs.savePeriod.toNat : ℕ) : ℤ) = s.outputs.savePeriod := Int.toNat_of_nonneg hpos.le
                  rw [← e] at hdvd
                  exact_mod_cast hdvd
                obtain ⟨f, hf, hfn⟩ := List.mem_filterMap.mp hm
                obtain ⟨hlt, ht, hmag⟩ := h9.2.1 f hf i hfn
                refine ⟨f, ?_, ?_, ?_⟩
                · rw [hb]
                  have e : solName s f = baseName s ++ "_iter".toList ++ (toString i).toList ++ ".sol".toList := by
                    unfold solName
                    rw [hfn]
                    simp [Nat.repr]
                  rw [← e]
                  exact List.mem_append_right _ (hsols f hf)
                · subst hrows; exact ht
                · subst hrows; exact hmag
            · rw [if_neg hg] at h
              exact absurd h (by simp)
          · rw [if_neg h2] at h
            exact absurd h (by simp)
        · rw [if_neg hf] at h
          exact absurd h (by simp)
    · rw [runFile_none (fun s h => hs ⟨s, h⟩)] at h
      exact absurd h (by simp)

/-- A run that is accepted, with documented columns and files that can be opened, ends with status zero, unless a signal is received,
the domain wall is lost or an attempted step gives a reason to abort. -/
theorem C87_complete (w : World D n ET) (argv : List Str) (file : Str) (seed : Option ℕ) (s : All D) (hr : AsksRun w argv file seed)
    (hs : HasSettings w file s) (hi : InputAccepted w s) (hsp : s.spin.enable = true → w.spinOk s = true) (hsig : w.sigactionOk = true)
    (hown : ∀ p, OwnFile s.outputs.directory s.simName p → w.canOpen p = true)
    (hV : s.spin.vFile = true → w.canOpen (s.simName ++ "_V.sol".toList) = true) (hcol : Meaningful s) (hv : Valid (cfgOf w s))
    (hg : 0 ≤ w.gamma0) (h9 : 9 * w.num s.time.dtMin ≤ w.num s.time.dtMax) (hts : w.num s.time.dtMin ≤ w.num s.outputs.timeStep)
    (hrec : s.recentering.enable = true → ∀ nd, w.recenter s nd ≠ none) (hnosig : ∀ k, (w.inp s seed k).sig = false)
    (t0 : ℝ) (h0 : StartsAt w s t0)
    (hno : ∀ k, ¬ AbortReason (cfgOf w s) (w.inp s seed k)
      (run (cfgOf w s) t0 (w.nodes s) (w.pot s) (w.inp s seed) k)
      (run (cfgOf w s) t0 (w.nodes s) (w.pot s) (w.inp s seed) (k + 1))) :
    ∃ M, ∀ k, M ≤ k → (main w argv k).status = .exit 0 := by
  obtain rfl := (startsAt_iff w s t0).mp h0
  obtain ⟨M, hM⟩ := C03_completes (cfgOf w s) hv hg h9 hts (by
    intro nd
    show (if s.recentering.enable then w.recenter s nd else some nd) ≠ none
    by_cases he : s.recentering.enable = true
    · rw [if_pos he]; exact hrec he nd
    · rw [if_neg he]; simp) (startTime w s) (w.nodes s) (w.pot s) (w.inp s seed) hnosig hno
  refine ⟨M, fun k hk => ?_⟩
  obtain ⟨hctl, -⟩ := hM k hk
  rw [main_run hr, runFile_some hs]
  obtain ⟨ops, hc⟩ := createDir_some (n := n) (ET := ET) hi.1
  rw [hc]
  dsimp only
  rw [if_pos hi.2.1]
  have h2 : (spinSetup w s).2 = true := by
    unfold spinSetup
    by_cases he : s.spin.enable = true
    · rw [if_pos he, if_pos (hi.2.2 he).1, if_pos (hi.2.2 he).2]
      by_cases hf : s.spin.vFile = true
      · rw [if_pos hf]
        dsimp only
        rw [if_pos (hV hf)]
        exact hsp he
      · rw [if_neg hf]
        exact hsp he
    · rw [if_neg he]
  rw [if_pos h2, if_pos hsig]
  dsimp only
  unfold integrate
  dsimp only
  rw [if_pos (hown _ (own_evol s)), if_neg hcol.1, if_neg (by
    rintro ⟨-, h⟩
    rw [row_meaningful hcol] at h
    cases h)]
  rw [writeSols_open w s _ fun f _ => hown _ (own_sol s f)]
  dsimp only
  rw [hctl]
  rfl

/-! ## a file that cannot be opened -/

theorem writeSols_split (w : World D n ET) (s : All D) (a b : List (SolFile n)) (f : SolFile n) (ha : ∀ g ∈ a, w.canOpen (solName s g) = true)
    (hf : w.canOpen (solName s f) = false) : writeSols w s (a ++ f :: b) = (a, some f) := by
  induction a with
  | nil => simp [writeSols, hf]
  | cons g a ih =>
    have := ih fun x hx => ha x (by simp [hx])
    simp [writeSols, ha g (by simp), this]

theorem not_signalled (cfg : Cfg n ET) (t0 : ℝ) (nodes : Fin n → Node) (pot : Fin n → ℝ × ℝ) (inp : ℕ → Input n) (hs : ∀ k, (inp k).sig = false)
    (k : ℕ) : (run cfg t0 nodes pot inp k).ctl ≠ .signalled := by
  induction k with
  | zero =>
    change (if 0 ≤ stepCount cfg t0 then Ctl.running else Ctl.done 0) ≠ _
    split_ifs <;> simp
  | succ k ih =>
    change (step cfg t0 (inp k) (run cfg t0 nodes pot inp k)).ctl ≠ _
    cases step_kind cfg t0 (inp k) (run cfg t0 nodes pot inp k) with
    | halted _ e => rw [e]; exact ih
    | output hr _ e =>
      rw [e]
      rcases forBody_or cfg t0 (run cfg t0 nodes pot inp k) with h | h <;> rw [h]
      · exact ih
      · simp
    | signal _ _ hi _ => rw [hs] at hi; cases hi
    | small _ _ _ _ e => rw [e]; simp
    | fail _ _ _ _ _ e => rw [e]; exact ih
    | reject _ _ _ _ X _ _ e => rw [e]; exact ih
    | exitRec _ _ _ _ X _ _ _ e => rw [e]; simp
    | accept _ _ _ _ X _ _ nd _ e => rw [e]; exact ih

/-- **C87** If the file for the magnetization of row `i` is the first that cannot be opened, the program ends with status 1 there: the table has the rows
up to `i` and no more, and the magnetizations asked for before are saved. -/
theorem C87_unwritable (w : World D n ET) (argv : List Str) (file : Str) (seed : Option ℕ) (s : All D) (hr : AsksRun w argv file seed)
    (hs : HasSettings w file s) (hi : InputAccepted w s) (he : s.spin.enable = false) (hsig : w.sigactionOk = true)
    (ho : w.canOpen (s.outputs.directory ++ "/".toList ++ s.simName ++ ".evol".toList) = true) (hcol : Meaningful s) (hv : Valid (cfgOf w s))
    (t0 : ℝ) (h0 : StartsAt w s t0) (hnosig : ∀ k, (w.inp s seed k).sig = false) (i : ℕ) (hpos : 0 < s.outputs.savePeriod)
    (hdvd : s.outputs.savePeriod ∣ i)
    (hbad : w.canOpen (s.outputs.directory ++ "/".toList ++ s.simName ++ "_iter".toList ++ (toString i).toList ++ ".sol".toList) = false)
    (hgood : ∀ j : ℕ, j < i →
      w.canOpen (s.outputs.directory ++ "/".toList ++ s.simName ++ "_iter".toList ++ (toString j).toList ++ ".sol".toList) = true)
    (k : ℕ) (hk : i < (run (cfgOf w s) t0 (w.nodes s) (w.pot s) (w.inp s seed) k).rows.length) :
    (main w argv k).status = .exit 1 ∧ ∃ rows,
      .write (s.outputs.directory ++ "/".toList ++ s.simName ++ ".evol".toList) (.table rows) ∈ (main w argv k).ops ∧
      rows.map (·.t) = gridTimes t0 (w.num s.outputs.timeStep) (i + 1) ∧
      ∀ j, (hj : j < rows.length) → j < i → s.outputs.savePeriod ∣ j →
        ∃ f, .write (s.outputs.directory ++ "/".toList ++ s.simName ++ "_iter".toList ++ (toString j).toList ++ ".sol".toList) (.sol f) ∈
          (main w argv k).ops ∧ f.t = rows[j].t ∧ ∀ a, f.u a = (rows[j].nodes a).next.u := by
  obtain rfl := (startsAt_iff w s t0).mp h0
  have hb : s.outputs.directory ++ "/".toList ++ s.simName = baseName s := by
    unfold baseName; simp
  rw [hb] at ho hbad
  simp only [hb] at hgood ⊢
  obtain ⟨c1, c2, c3⟩ := C09_sol_cadence (cfgOf w s) hv (startTime w s) (w.nodes s) (w.pot s) (w.inp s seed) k
  have grid := (C01_output_grid (cfgOf w s) hv (startTime w s) (w.nodes s) (w.pot s) (w.inp s seed) k).1
  have nosig := not_signalled (cfgOf w s) (startTime w s) (w.nodes s) (w.pot s) (w.inp s seed) hnosig k
  obtain ⟨I, hI⟩ : ∃ I, I = integrate w s seed k := ⟨_, rfl⟩
  have hint := hI
  unfold integrate at hint
  dsimp only at hint
  generalize hst : run (cfgOf w s) (startTime w s) (w.nodes s) (w.pot s) (w.inp s seed) k = st at *
  have allNumbered : ∀ f ∈ st.sols, ∃ m, f.nt = some m := by
    intro f hf
    cases hn : f.nt with
    | some m => exact ⟨m, rfl⟩
    | none =>
      refine absurd (c3 (List.ne_nil_of_mem (List.mem_filter.mpr ⟨hf, ?_⟩))) nosig
      rw [hn]; rfl
  have hname : ∀ (f : SolFile n) (m : ℕ), f.nt = some m → solName s f = baseName s ++ "_iter".toList ++ (toString m).toList ++ ".sol".toList := by
    intro f m hm
    unfold solName
    rw [hm]
    simp [Nat.repr]
  have sel : ∀ j : ℕ, j < st.rows.length → s.outputs.savePeriod ∣ j → ∃ f ∈ st.sols, f.nt = some j := by
    intro j hj hd
    have hm : j ∈ st.sols.filterMap (·.nt) := by
      rw [c1, List.mem_filter, List.mem_range]
      refine ⟨hj, ?_⟩
      have hpn : (cfgOf w s).savePeriod = s.outputs.savePeriod.toNat := rfl
      rw [hpn]
      refine decide_eq_true ⟨by omega, ?_⟩
      have e : ((s.outputs.savePeriod.toNat : ℕ) : ℤ) = s.outputs.savePeriod := Int.toNat_of_nonneg hpos.le
      rw [← e] at hd
      exact_mod_cast hd
    exact List.mem_filterMap.mp hm
  obtain ⟨f, hf, hfi⟩ := sel i hk hdvd
  obtain ⟨a, b, hab⟩ := List.append_of_mem hf
  have sorted : (st.sols.filterMap (·.nt)).Pairwise (· < ·) := by
    rw [c1]
    exact List.Pairwise.filter _ (List.pairwise_lt_range)
  have split : st.sols.filterMap (·.nt) = a.filterMap (·.nt) ++ i :: b.filterMap (·.nt) := by
    rw [hab, List.filterMap_append, List.filterMap_cons, hfi]
  rw [split] at sorted
  have below : ∀ g ∈ a, ∃ m, g.nt = some m ∧ m < i := by
    intro g hg
    obtain ⟨m, hm⟩ := allNumbered g (by rw [hab]; simp [hg])
    refine ⟨m, hm, ?_⟩
    exact (List.pairwise_append.mp sorted).2.2 m (List.mem_filterMap.mpr ⟨g, hg, hm⟩) i (by simp)
  have hw : writeSols w s st.sols = (a, some f) := by
    rw [hab]
    refine writeSols_split w s a b f (fun g hg => ?_) (by rw [hname f i hfi]; exact hbad)
    obtain ⟨m, hm, hlt⟩ := below g hg
    rw [hname g m hm]
    exact hgood m hlt
  rw [if_pos ho, if_neg hcol.1, if_neg (by
    rintro ⟨-, h⟩
    rw [row_meaningful hcol] at h
    cases h), hw] at hint
  dsimp only at hint
  rw [hfi] at hint
  dsimp only at hint
  rw [main_run hr, runFile_some hs]
  obtain ⟨ops, hd⟩ := createDir_some (n := n) (ET := ET) hi.1
  rw [hd]
  dsimp only
  have hsp : spinSetup w s = ([], true) := by
    unfold spinSetup
    rw [if_neg (by simp [he])]
  rw [if_pos hi.2.1, hsp, if_pos rfl, if_pos hsig, ← hI, hint]
  refine ⟨rfl, st.rows.take (i + 1), ?_, ?_, ?_⟩
  · exact List.mem_append_right _ List.mem_cons_self
  · obtain ⟨rest, hrest⟩ := grid
    have h1 : (st.rows.take (i + 1)).map (·.t) = (gridTimes (startTime w s) (w.num s.outputs.timeStep) ((cRound (((cfgOf w s).tf - startTime w s) / (cfgOf w s).timeStep) + 1).toNat)).take (i + 1) := by
      change _ = (gridTimes (startTime w s) (cfgOf w s).timeStep _).take (i + 1)
      rw [← hrest, List.take_append_of_le_length (by simpa using hk), List.map_take]
    have hle : i + 1 ≤ (cRound (((cfgOf w s).tf - startTime w s) / (cfgOf w s).timeStep) + 1).toNat := by
      have := congrArg List.length hrest
      simp [gridTimes] at this
      omega
    rw [h1]
    unfold gridTimes
    rw [← List.map_take, List.take_range, min_eq_left hle]
  · intro j hj hji hdj
    obtain ⟨g, hg, hgj⟩ := sel j (by omega) hdj
    obtain ⟨hlt, ht, hu⟩ := c2 g hg j hgj
    have hga : g ∈ a := by
      rw [hab] at hg
      rcases List.mem_append.mp hg with h | h
      · exact h
      · exfalso
        rcases List.mem_cons.mp h with rfl | h
        · rw [hfi] at hgj; cases hgj; omega
        · have := (List.pairwise_cons.mp (List.pairwise_append.mp sorted).2.1).1 j (List.mem_filterMap.mpr ⟨g, h, hgj⟩)
          omega
    refine ⟨g, ?_, ?_, ?_⟩
    · rw [← hname g j hgj]
      exact List.mem_append_right _ (List.mem_cons_of_mem _ (List.mem_map.mpr ⟨g, hga, rfl⟩))
    · rw [List.getElem_take]; exact ht
    · rw [List.getElem_take]; exact hu

/-! ## where the claim fails -/

/-- A run that asks for the file of the potential writes it in the working directory, whatever the output directory, before the
simulation starts; an earlier file of this name is lost even if the run then fails. -/
theorem C87_negation_potential (w : World D n ET) (argv : List Str) (file : Str) (seed : Option ℕ) (s : All D)
    (hr : AsksRun w argv file seed) (hs : HasSettings w file s) (hi : InputAccepted w s) (he : s.spin.enable = true)
    (hv : s.spin.vFile = true) (ho : w.canOpen (s.simName ++ "_V.sol".toList) = true) (k : ℕ) :
    .write (s.simName ++ "_V.sol".toList) .potential ∈ (main w argv k).ops ∧
      (w.spinOk s = false → (main w argv k).status = .exit 1) := by
  rw [main_run hr, runFile_some hs]
  obtain ⟨ops, hc⟩ := createDir_some (n := n) (ET := ET) hi.1
  rw [hc]
  dsimp only
  rw [if_pos hi.2.1]
  have hsp : spinSetup w s = ([.write (s.simName ++ "_V.sol".toList) .potential], w.spinOk s) := by
    unfold spinSetup
    rw [if_pos he, if_pos (hi.2.2 he).1, if_pos (hi.2.2 he).2, if_pos hv]
    dsimp only
    rw [if_pos ho]
  rw [hsp]
  dsimp only
  constructor
  · split_ifs <;> simp
  · intro h
    rw [h]
    rfl

/-- A run with a column that is not documented, and otherwise valid: the table of an earlier run is emptied, then the program ends with
an error, although the settings were known from the start. -/
theorem C87_negation_columns (w : World D n ET) (argv : List Str) (file : Str) (seed : Option ℕ) (s : All D)
    (hr : AsksRun w argv file seed) (hs : HasSettings w file s) (hi : InputAccepted w s) (he : s.spin.enable = false)
    (hsig : w.sigactionOk = true) (ho : w.canOpen (baseName s ++ ".evol".toList) = true) (hc : UnknownColumn s)
    (t0 : ℝ) (h0 : StartsAt w s t0) (ht : 0 < rowCount w s t0) (k : ℕ) (hk : 1 ≤ k) :
    .write (s.outputs.directory ++ "/".toList ++ s.simName ++ ".evol".toList) (.table []) ∈ (main w argv k).ops ∧
      (main w argv k).status = .exit 1 := by
  obtain rfl := (startsAt_iff w s t0).mp h0
  have hrows : ∀ j, 1 ≤ j → (run (cfgOf w s) (startTime w s) (w.nodes s) (w.pot s) (w.inp s seed) j).rows ≠ [] := by
    intro j hj
    induction j with
    | zero => omega
    | succ j ih =>
      rcases Nat.eq_zero_or_pos j with rfl | hj'
      · have hsc : 0 ≤ stepCount (cfgOf w s) (startTime w s) := by
          unfold rowCount at ht
          unfold stepCount
          change 0 ≤ cRound ((w.num s.outputs.finalTime - startTime w s) / w.num s.outputs.timeStep)
          omega
        show (step (cfgOf w s) (startTime w s) (w.inp s seed 0) (init (cfgOf w s) (startTime w s) (w.nodes s) (w.pot s))).rows ≠ []
        have hctl : (init (cfgOf w s) (startTime w s) (w.nodes s) (w.pot s)).ctl = .running := if_pos hsc
        unfold step
        rw [hctl]
        dsimp only
        rw [if_neg (by simp [init, tTarget]), forBody_rows]
        simp [saver]
      · have h := ih hj'
        have hmono : ∀ st : St n ET, st.rows ≠ [] → (step (cfgOf w s) (startTime w s) (w.inp s seed j) st).rows ≠ [] := by
          intro st hst
          cases step_kind (cfgOf w s) (startTime w s) (w.inp s seed j) st with
          | halted _ e => rw [e]; exact hst
          | output hr _ e => rw [e, forBody_rows]; simp [saver]
          | signal hr _ _ e => rw [e]; exact hst
          | small hr _ _ _ e => rw [e]; exact hst
          | fail _ _ _ _ _ e => rw [e]; exact hst
          | reject _ _ _ _ X _ _ e => rw [e]; exact hst
          | exitRec hr _ _ _ X _ _ _ e => rw [e]; exact hst
          | accept _ _ _ _ X _ _ nd hr e => rw [e]; exact hst
        exact hmono _ h
  have hb : s.outputs.directory ++ "/".toList ++ s.simName = baseName s := by
    unfold baseName; simp
  have hne : s.outputs.evolColumns ≠ [] := by
    obtain ⟨c, hc, -⟩ := hc
    exact List.ne_nil_of_mem hc
  rw [main_run hr, runFile_some hs]
  obtain ⟨ops, hd⟩ := createDir_some (n := n) (ET := ET) hi.1
  rw [hd]
  dsimp only
  have hsp : spinSetup w s = ([], true) := by
    unfold spinSetup
    rw [if_neg (by simp [he])]
  rw [if_pos hi.2.1, hsp, if_pos rfl, if_pos hsig, hb]
  have hin : integrate w s seed k = ⟨[.write (baseName s ++ ".evol".toList) (.table [])], .exit 1⟩ := by
    unfold integrate
    dsimp only
    rw [if_pos ho, if_neg hne, if_pos ⟨hrows k hk, row_unknown hc _⟩]
  rw [hin]
  exact ⟨by simp, rfl⟩

/-- A verification of a file that does not exist, or that is empty, ends with status zero (if the user's defaults can be read). -/
theorem C87_negation_verify (w : World D n ET) (argv : List Str) (file : Str) (h : AsksVerify w argv file)
    (hu : w.file w.userDefaults = .missing) (hf : w.file file = .missing ∨ w.file file = .doc .null) (k : ℕ) :
    (main w argv k).status = .exit 0 := by
  obtain ⟨v, h⟩ := h
  have h0 : readSource w w.builtin w.userDefaults = some (w.builtin, false) := by
    unfold readSource
    rw [hu]
    rfl
  have h1 : readSource w w.builtin file = some (w.builtin, false) := by
    unfold readSource
    rcases hf with hf | hf <;> rw [hf] <;> rfl
  unfold main
  rw [h]
  dsimp only
  rw [h0]
  dsimp only
  rw [h1]

/-- A run whose final time is before its initial time by more than half a period ends with status zero and a table without rows, even
if the columns are unknown. -/
theorem C87_negation_past (w : World D n ET) (argv : List Str) (file : Str) (seed : Option ℕ) (s : All D)
    (hr : AsksRun w argv file seed) (hs : HasSettings w file s) (hi : InputAccepted w s) (he : s.spin.enable = false)
    (hsig : w.sigactionOk = true) (ho : w.canOpen (baseName s ++ ".evol".toList) = true) (hc : s.outputs.evolColumns ≠ [])
    (hp : 0 < w.num s.outputs.timeStep) (t0 : ℝ) (h0 : StartsAt w s t0)
    (ht : w.num s.outputs.finalTime < t0 - w.num s.outputs.timeStep / 2) (k : ℕ) :
    .write (s.outputs.directory ++ "/".toList ++ s.simName ++ ".evol".toList) (.table []) ∈ (main w argv k).ops ∧
      (main w argv k).status = .exit 0 := by
  obtain rfl := (startsAt_iff w s t0).mp h0
  have hneg : ¬ 0 ≤ stepCount (cfgOf w s) (startTime w s) := by
    have hx : (w.num s.outputs.finalTime - startTime w s) / w.num s.outputs.timeStep < -(1 / 2) := by
      rw [div_lt_iff₀ hp]
      linarith
    show ¬ 0 ≤ cRound ((w.num s.outputs.finalTime - startTime w s) / w.num s.outputs.timeStep)
    unfold cRound
    rw [if_neg (by linarith)]
    have : (1 : ℤ) ≤ ⌊-((w.num s.outputs.finalTime - startTime w s) / w.num s.outputs.timeStep) + 1 / 2⌋ := by
      apply Int.le_floor.mpr
      push_cast
      linarith
    omega
  have hst : ∀ j, run (cfgOf w s) (startTime w s) (w.nodes s) (w.pot s) (w.inp s seed) j =
      init (cfgOf w s) (startTime w s) (w.nodes s) (w.pot s) := by
    intro j
    induction j with
    | zero => rfl
    | succ j ih =>
      show step _ _ _ _ = _
      rw [ih]
      have hctl : (init (cfgOf w s) (startTime w s) (w.nodes s) (w.pot s)).ctl = .done 0 := if_neg hneg
      unfold step
      rw [hctl]
  have hctl : (init (cfgOf w s) (startTime w s) (w.nodes s) (w.pot s)).ctl = .done 0 := if_neg hneg
  have hb : s.outputs.directory ++ "/".toList ++ s.simName = baseName s := by
    unfold baseName; simp
  rw [main_run hr, runFile_some hs]
  obtain ⟨ops, hd⟩ := createDir_some (n := n) (ET := ET) hi.1
  rw [hd]
  dsimp only
  have hsp : spinSetup w s = ([], true) := by
    unfold spinSetup
    rw [if_neg (by simp [he])]
  rw [if_pos hi.2.1, hsp, if_pos rfl, if_pos hsig, hb]
  have hin : integrate w s seed k = ⟨[.write (baseName s ++ ".evol".toList) (.table [])], .exit 0⟩ := by
    unfold integrate
    dsimp only
    rw [if_pos ho, if_neg hc, hst k, if_neg (by
      rintro ⟨h, -⟩
      exact h rfl)]
    have hsols : (init (cfgOf w s) (startTime w s) (w.nodes s) (w.pot s)).sols = [] := rfl
    rw [hsols]
    show Outcome.mk [Op.write (baseName s ++ ".evol".toList)
      (.table (init (cfgOf w s) (startTime w s) (w.nodes s) (w.pot s)).rows)]
      (statusOf (init (cfgOf w s) (startTime w s) (w.nodes s) (w.pot s)).ctl) = _
    rw [hctl]
    rfl
  rw [hin]
  exact ⟨by simp, rfl⟩

/-! ## a concrete run -/

/-- numbers are real numbers; no text is a number -/
noncomputable def exConv : Conv ℝ where
  toD := fun _ => none
  toInt := fun _ => none
  toBool := fun _ => none
  nan := 0
  isNaN := fun _ => false
  nonpos := fun _ => false
  divMu0 := id
  normalize := id
  compiles := fun _ => true
  cpuCount := 4

/-- one row every 10 until `tf`, a magnetization every two rows -/
noncomputable def exSettings (cols : List Str) (tf : ℝ) (spin : Bool) : All ℝ where
  outputs := ⟨"out".toList, 10, tf, 2, cols, []⟩
  simName := "film".toList
  mesh := ⟨"film.msh".toList, 1, [blankTetra exConv], [blankTri exConv]⟩
  mag := ⟨[], [], "1".toList, "0".toList, "0".toList, none⟩
  initialTime := 0
  recentering := ⟨false, 2, 0⟩
  field := ⟨[], "0".toList, "0".toList, "0".toList, [], [], none, none, none, .RtoR3⟩
  spin := ⟨spin, spin⟩
  nbThreads := 4
  fem := ⟨100, 1⟩
  time := ⟨1, 1, 100⟩

/-- a world where everything works; `a.yml` is a file that keeps the defaults, and nothing moves -/
noncomputable def exWorld (cols : List Str) (tf : ℝ) (spin : Bool) : World ℝ 1 ℝ where
  C := exConv
  builtin := exSettings cols tf spin
  toSeed := fun _ => 0
  randomDevice := 7
  userDefaults := "default.yml".toList
  file := fun f => if f = "a.yml".toList then .doc (.map []) else .missing
  stat := fun _ => .absent
  canMkdir := fun _ => true
  canOpen := fun _ => true
  femOk := fun _ => true
  conditionsOk := fun _ => true
  potentialOk := fun _ => true
  spinOk := fun _ => false
  sigactionOk := true
  num := id
  restoredTime := fun _ => 0
  gamma0 := 1
  magNode := fun _ _ => true
  add := (· + ·)
  energy := fun _ _ t => t
  recenter := fun _ nd => some nd
  nodes := fun _ _ => exNode
  pot := fun _ => exPot
  inp := fun _ _ _ => exIn (some (0, 0))

def exArgs : List Str := ["feellgood".toList, "a.yml".toList]

theorem ex_asks (cols : List Str) (tf : ℝ) (spin : Bool) : AsksRun (exWorld cols tf spin) exArgs "a.yml".toList (some 7) := by
  refine ⟨0, ?_⟩
  exact (Options.C52_run_iff _ _ _ _ _ _ _).mpr ⟨"feellgood".toList, [], rfl, ⟨by decide, by intro f; cases f <;> decide⟩, by simp, rfl, rfl⟩

theorem ex_settings (cols : List Str) (tf : ℝ) (spin : Bool) :
    HasSettings (exWorld cols tf spin) "a.yml".toList (exSettings cols tf spin) :=
  ⟨none, .map [], rfl, rfl, by simp, rfl⟩

theorem ex_accepted (cols : List Str) (tf : ℝ) (spin : Bool) : InputAccepted (exWorld cols tf spin) (exSettings cols tf spin) :=
  ⟨Or.inr ⟨rfl, rfl⟩, rfl, fun _ => ⟨rfl, rfl⟩⟩

theorem ex_start (cols : List Str) (tf : ℝ) (spin : Bool) : StartsAt (exWorld cols tf spin) (exSettings cols tf spin) 0 :=
  ⟨fun _ => rfl, fun h => (by cases h), fun h => (by cases h)⟩

theorem ex_valid (cols : List Str) (tf : ℝ) (spin : Bool) : Valid (cfgOf (exWorld cols tf spin) (exSettings cols tf spin)) := by
  constructor <;> simp [cfgOf, exWorld, exSettings]

/-- a run that ends with status zero -/
theorem ex_completes : ∃ k, (main (exWorld ["t".toList, "<Mz>".toList] 20 false) exArgs k).status = .exit 0 := by
  obtain ⟨M, hM⟩ := C87_complete (exWorld ["t".toList, "<Mz>".toList] 20 false) exArgs _ _ _ (ex_asks _ _ _) (ex_settings _ _ _)
    (ex_accepted _ _ _) (fun h => absurd h (by simp [exSettings])) rfl (fun _ _ => rfl) (fun _ => rfl)
    ⟨by simp [exSettings], by
      intro c hc
      simp only [exSettings, List.mem_cons, List.not_mem_nil, or_false] at hc
      rcases hc with rfl | rfl
      · exact ⟨.t, .whole (by decide)⟩
      · exact ⟨.avgU 2 (-1), .whole (by decide)⟩⟩
    (ex_valid _ _ _) (by norm_num [exWorld]) (by norm_num [exWorld, exSettings]) (by norm_num [exWorld, exSettings])
    (fun h => absurd h (by simp [exSettings])) (fun _ => rfl) 0 (ex_start _ _ _) (fun k => no_abort_zero _ (ex_valid _ _ _) _ rfl _ _)
  exact ⟨M, hM M (le_refl _)⟩

/-- it wrote its table, with three rows, and the magnetization of the third one -/
example : ∃ k rows f, .write "out/film.evol".toList (.table rows) ∈
      (main (exWorld ["t".toList, "<Mz>".toList] 20 false) exArgs k).ops ∧ rows.map (·.t) = [0, 10, 20] ∧
    .write "out/film_iter2.sol".toList (.sol f) ∈ (main (exWorld ["t".toList, "<Mz>".toList] 20 false) exArgs k).ops ∧ f.t = 20 := by
  obtain ⟨k, hk⟩ := ex_completes
  rcases C87_status _ _ _ hk with h | ⟨file, v, h⟩ | ⟨file, seed, s, rows, ⟨v, hr⟩, hs, -, -, hw, -, hv⟩
  · obtain ⟨v, hr⟩ := ex_asks ["t".toList, "<Mz>".toList] 20 false
    unfold AsksInfo at h
    rw [hr] at h
    simp at h
  · obtain ⟨v', hr⟩ := ex_asks ["t".toList, "<Mz>".toList] 20 false
    rw [hr] at h
    cases h
  · obtain ⟨v', hr'⟩ := ex_asks ["t".toList, "<Mz>".toList] 20 false
    rw [hr'] at hr
    cases hr
    have e := has_unique hs (ex_settings _ _ _)
    subst e
    obtain ⟨hg, hsol⟩ := hv 0 (ex_start _ _ _) (ex_valid _ _ _)
    have hrc : rowCount (exWorld ["t".toList, "<Mz>".toList] 20 false) (exSettings ["t".toList, "<Mz>".toList] 20 false) 0 = 3 := by
      have : cRound (((20 : ℝ) - 0) / 10) = 2 := by
        unfold cRound
        rw [if_pos (by norm_num)]
        norm_num [Int.floor_eq_iff]
      show (cRound (((20 : ℝ) - 0) / 10) + 1).toNat = 3
      rw [this]
      rfl
    rw [hrc] at hg
    have hg' : rows.map (·.t) = [0, 10, 20] := by
      rw [hg]
      show (List.range 3).map (fun i : ℕ => (0 : ℝ) + (i : ℝ) * 10) = _
      simp only [show List.range 3 = [0, 1, 2] from rfl, List.map_cons, List.map_nil]
      norm_num
    have hlen : rows.length = 3 := by
      have := congrArg List.length hg'
      simpa using this
    obtain ⟨f, hf, hft, -⟩ := hsol 2 (by omega) (by simp [exSettings]) (by simp [exSettings])
    refine ⟨k, rows, f, hw, hg', hf, ?_⟩
    rw [hft]
    have : (rows.map (·.t))[2]? = some 20 := by rw [hg']; rfl
    rw [List.getElem?_map, List.getElem?_eq_getElem (by omega)] at this
    simpa using this

/-- an unknown column: the hypotheses are met -/
example : .write "out/film.evol".toList (.table []) ∈ (main (exWorld ["time".toList] 20 false) exArgs 1).ops ∧
    (main (exWorld ["time".toList] 20 false) exArgs 1).status = .exit 1 :=
  C87_negation_columns _ _ _ _ _ (ex_asks _ _ _) (ex_settings _ _ _) (ex_accepted _ _ _) rfl rfl rfl
    ⟨"time".toList, by simp [exSettings], by decide, by intro q; simp [Evol.wholeTable]⟩ 0 (ex_start _ _ _) (by
      have : cRound (((20 : ℝ) - 0) / 10) = 2 := by
        unfold cRound
        rw [if_pos (by norm_num)]
        norm_num [Int.floor_eq_iff]
      show 0 < (cRound (((20 : ℝ) - 0) / 10) + 1).toNat
      rw [this]
      decide) 1 (le_refl _)

/-- a final time in the past -/
example : (main (exWorld ["time".toList] (-20) false) exArgs 1).status = .exit 0 :=
  (C87_negation_past _ _ _ _ _ (ex_asks _ _ _) (ex_settings _ _ _) (ex_accepted _ _ _) rfl rfl rfl (by simp [exSettings])
    (by norm_num [exWorld, exSettings]) 0 (ex_start _ _ _) (by norm_num [exWorld, exSettings]) 1).2

/-- the magnetization of the third row cannot be saved: the hypotheses are met -/
example : ∃ k rows, (main { exWorld ["t".toList] 100 false with canOpen := fun p => decide (p ≠ "out/film_iter2.sol".toList) } exArgs k).status = .exit 1 ∧
    .write "out/film.evol".toList (.table rows) ∈
      (main { exWorld ["t".toList] 100 false with canOpen := fun p => decide (p ≠ "out/film_iter2.sol".toList) } exArgs k).ops ∧
    rows.map (·.t) = [0, 10, 20] := by
  set w := { exWorld ["t".toList] 100 false with canOpen := fun p => decide (p ≠ "out/film_iter2.sol".toList) } with hw
  have hval : Valid (cfgOf w (exSettings ["t".toList] 100 false)) := ex_valid ["t".toList] 100 false
  obtain ⟨M, hM⟩ := C03_completes (cfgOf w (exSettings ["t".toList] 100 false)) hval (by norm_num [cfgOf, hw, exWorld])
    (by norm_num [cfgOf, hw, exWorld, exSettings]) (by norm_num [cfgOf, hw, exWorld, exSettings])
    (fun nd => by simp [cfgOf, exSettings]) 0 (fun _ => exNode) exPot (fun _ => exIn (some (0, 0))) (fun _ => rfl)
    (fun k => no_abort_zero _ hval _ rfl _ _)
  have hlen := congrArg List.length (hM M le_rfl).2
  have hcr : cRound (((100 : ℝ) - 0) / 10) = 10 := by
    unfold cRound
    rw [if_pos (by norm_num)]
    norm_num [Int.floor_eq_iff]
  have hcr' : cRound (((cfgOf w (exSettings ["t".toList] 100 false)).tf - 0) / (cfgOf w (exSettings ["t".toList] 100 false)).timeStep) = 10 := hcr
  rw [hcr'] at hlen
  simp only [List.length_map, gridTimes, List.length_range] at hlen
  obtain ⟨h1, rows, h2, h3, -⟩ := C87_unwritable w exArgs _ _ (exSettings ["t".toList] 100 false) (ex_asks ["t".toList] 100 false)
    (ex_settings ["t".toList] 100 false) (ex_accepted ["t".toList] 100 false) rfl rfl (by decide)
    ⟨by simp [exSettings], by
      intro c hc
      simp only [exSettings, List.mem_cons, List.not_mem_nil, or_false] at hc
      subst hc
      exact ⟨.t, .whole (by decide)⟩⟩
    hval 0 ⟨fun _ => rfl, fun h => (by cases h), fun h => (by cases h)⟩ (fun _ => rfl) 2 (by simp [exSettings]) (by simp [exSettings]) (by decide)
    (by
      intro j hj
      have : j = 0 ∨ j = 1 := by omega
      rcases this with rfl | rfl <;> decide)
    M (by
      have : (run (cfgOf w (exSettings ["t".toList] 100 false)) 0 (w.nodes (exSettings ["t".toList] 100 false)) (w.pot (exSettings ["t".toList] 100 false))
        (w.inp (exSettings ["t".toList] 100 false) (some 7)) M).rows.length = 11 := hlen
      omega)
  refine ⟨M, rows, h1, h2, ?_⟩
  rw [h3]
  show (List.range 3).map (fun i : ℕ => (0 : ℝ) + (i : ℝ) * 10) = _
  simp only [show List.range 3 = [0, 1, 2] from rfl, List.map_cons, List.map_nil]
  norm_num

/-- the file of the potential, of a run that fails -/
example : .write "film_V.sol".toList .potential ∈ (main (exWorld ["t".toList] 20 true) exArgs 1).ops ∧
    (main (exWorld ["t".toList] 20 true) exArgs 1).status = .exit 1 :=
  have h := C87_negation_potential (exWorld ["t".toList] 20 true) _ _ _ _ (ex_asks _ _ _) (ex_settings _ _ _) (ex_accepted _ _ _)
    rfl rfl rfl 1
  ⟨h.1, h.2 rfl⟩

/-- the verification of a file that does not exist -/
example : (main (exWorld ["t".toList] 20 false) ["feellgood".toList, "--verify".toList, "b.yml".toList] 0).status = .exit 0 := by
  refine C87_negation_verify _ _ "b.yml".toList ⟨0, ?_⟩ rfl (Or.inl rfl) 0
  rw [Options.parse_eq]
  rfl

/-- a file without settings: nothing is written -/
example : (∀ p c, Op.write p c ∉ (main (exWorld ["t".toList] 20 false) ["feellgood".toList, "b.yml".toList] 5).ops) ∧
    (main (exWorld ["t".toList] 20 false) ["feellgood".toList, "b.yml".toList] 5).status = .exit 1 := by
  have hp : Options.parseOptions (exWorld ["t".toList] 20 false).toSeed (exWorld ["t".toList] 20 false).randomDevice 0
      ["feellgood".toList, "b.yml".toList] = .run "b.yml".toList 0 (some 7) := by
    rw [Options.parse_eq]
    rfl
  refine C87_refused_partial _ _ 5 ?_ ?_ ?_
  · unfold AsksInfo
    rw [hp]
    simp
  · rintro file ⟨v, h⟩
    rw [hp] at h
    cases h
  · rintro file seed s ⟨v, h⟩ ⟨u, y, -, hy, -⟩
    rw [hp] at h
    cases h
    exact absurd hy (by simp [exWorld])

end Verif.Main
