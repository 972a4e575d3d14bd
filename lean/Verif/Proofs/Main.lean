import Verif.Spec.Main
import Verif.Proofs.TimeLoopNodes

/-! Lemmas for the whole program. -/

namespace Verif.Main

open Verif.Text Verif.Settings

variable {D ET : Type} {n : ℕ}

theorem read_two {w : World D n ET} {file : Str} {s : All D} {b : Bool} {s0 : All D} {b0 : Bool}
    (h0 : readSource w w.builtin w.userDefaults = some (s0, b0)) (h : readSource w s0 file = some (s, b)) :
    b = true ↔ HasSettings w file s := by
  have hu : ∃ u : Option Yaml, (match u with
      | none => w.file w.userDefaults = .missing
      | some d => w.file w.userDefaults = .doc d) ∧ readFile w.C w.builtin u = some (s0, b0) := by
    unfold readSource at h0
    cases hf : w.file w.userDefaults with
    | missing => rw [hf] at h0; exact ⟨none, rfl, h0⟩
    | malformed => rw [hf] at h0; exact absurd h0 (by simp)
    | doc y => rw [hf] at h0; exact ⟨some y, rfl, h0⟩
  obtain ⟨u, hu1, hu2⟩ := hu
  constructor
  · rintro rfl
    unfold readSource at h
    cases hf : w.file file with
    | missing => rw [hf] at h; simp [readFile] at h
    | malformed => rw [hf] at h; exact absurd h (by simp)
    | doc y =>
      rw [hf] at h
      refine ⟨u, y, hu1, hf, ?_, ?_⟩
      · rintro rfl
        simp [readFile] at h
      · simp [readFiles, hu2, h]
  · rintro ⟨u', y, hu', hy, hne, hr⟩
    unfold readSource at h
    rw [hy] at h
    dsimp only at h
    cases y with
    | null => exact absurd rfl hne
    | scalar t =>
      simp only [readFile, Option.bind_eq_bind, Option.bind_eq_some_iff] at h
      obtain ⟨_, _, h⟩ := h
      simp at h
      exact h.2
    | seq t =>
      simp only [readFile, Option.bind_eq_bind, Option.bind_eq_some_iff] at h
      obtain ⟨_, _, h⟩ := h
      simp at h
      exact h.2
    | map t =>
      simp only [readFile, Option.bind_eq_bind, Option.bind_eq_some_iff] at h
      obtain ⟨_, _, h⟩ := h
      simp at h
      exact h.2

theorem has_read {w : World D n ET} {file : Str} {s : All D} (h : HasSettings w file s) :
    ∃ s0 b0, readSource w w.builtin w.userDefaults = some (s0, b0) ∧ readSource w s0 file = some (s, true) := by
  obtain ⟨u, y, hu, hy, hne, hr⟩ := h
  simp only [readFiles, Option.bind_eq_bind, Option.bind_eq_some_iff] at hr
  obtain ⟨⟨s0, b0⟩, h0, ⟨s1, b1⟩, h1, h2⟩ := hr
  simp at h2
  subst h2
  have h0' : readSource w w.builtin w.userDefaults = some (s0, b0) := by
    unfold readSource
    cases u with
    | none => simp only at hu; rw [hu]; exact h0
    | some d => simp only at hu; rw [hu]; exact h0
  have h1' : readSource w s0 file = some (s1, b1) := by
    unfold readSource
    rw [hy]
    exact h1
  have hb : b1 = true := (read_two h0' h1').mpr
    ⟨u, y, hu, hy, hne, by simp [readFiles, h0, h1]⟩
  subst hb
  exact ⟨s0, b0, h0', h1'⟩

theorem has_unique {w : World D n ET} {file : Str} {s s' : All D} (h : HasSettings w file s) (h' : HasSettings w file s') :
    s = s' := by
  obtain ⟨s0, b0, h0, h1⟩ := has_read h
  obtain ⟨s0', b0', h0', h1'⟩ := has_read h'
  rw [h0] at h0'
  cases h0'
  rw [h1] at h1'
  cases h1'
  rfl

/-- without settings a run ends at once -/
theorem runFile_none {w : World D n ET} {file : Str} (h : ∀ s, ¬ HasSettings w file s) (seed : Option ℕ) (k : ℕ) :
    runFile w file seed k = ⟨[], .exit 1⟩ := by
  unfold runFile
  cases h0 : readSource w w.builtin w.userDefaults with
  | none => rfl
  | some r =>
    obtain ⟨s0, b0⟩ := r
    dsimp only
    cases h1 : readSource w s0 file with
    | none => rfl
    | some r =>
      obtain ⟨s, b⟩ := r
      cases b with
      | false => rfl
      | true => exact absurd ((read_two h0 h1).mp rfl) (h s)

/-- what a run with settings does -/
theorem runFile_some {w : World D n ET} {file : Str} {s : All D} (h : HasSettings w file s) (seed : Option ℕ) (k : ℕ) :
    runFile w file seed k =
      match createDir w s.outputs.directory with
      | none => ⟨[], .exit 1⟩
      | some dirOps =>
        if w.femOk s then
          if (spinSetup w s).2 then
            if w.sigactionOk then
              ⟨dirOps ++ (spinSetup w s).1 ++ (integrate w s seed k).ops, (integrate w s seed k).status⟩
            else ⟨dirOps ++ (spinSetup w s).1, .exit 1⟩
          else ⟨dirOps ++ (spinSetup w s).1, .exit 1⟩
        else ⟨dirOps, .exit 1⟩ := by
  obtain ⟨s0, b0, h0, h1⟩ := has_read h
  unfold runFile
  rw [h0]
  dsimp only
  rw [h1]
  rfl

theorem createDir_ops {w : World D n ET} {dir : Str} {ops : List (Op n ET)} (h : createDir w dir = some ops) :
    DirUsable w dir ∧ ∀ op ∈ ops, op = .mkdir dir ∧ w.stat dir = .absent := by
  unfold createDir at h
  cases hs : w.stat dir with
  | error => rw [hs] at h; exact absurd h (by simp)
  | other => rw [hs] at h; exact absurd h (by simp)
  | directory =>
    rw [hs] at h
    simp only [Option.some.injEq] at h
    subst h
    exact ⟨Or.inl hs, by simp⟩
  | absent =>
    rw [hs] at h
    simp only at h
    by_cases hm : w.canMkdir dir = true
    · rw [if_pos hm] at h
      simp only [Option.some.injEq] at h
      subst h
      exact ⟨Or.inr ⟨hs, hm⟩, by simp⟩
    · rw [if_neg hm] at h
      exact absurd h (by simp)

theorem createDir_some {w : World D n ET} {dir : Str} (h : DirUsable w dir) : ∃ ops : List (Op n ET), createDir w dir = some ops := by
  unfold createDir
  rcases h with h | ⟨h, hm⟩
  · rw [h]; exact ⟨_, rfl⟩
  · rw [h]; exact ⟨_, if_pos hm⟩

theorem createDir_none {w : World D n ET} {dir : Str} (h : ¬ DirUsable w dir) : createDir w dir = none := by
  cases hc : createDir w dir with
  | none => rfl
  | some ops => exact absurd (createDir_ops hc).1 h

theorem spinSetup_ops {w : World D n ET} {s : All D} :
    (∀ op ∈ (spinSetup w s).1, op = .write (s.simName ++ "_V.sol".toList) .potential ∧ s.spin.enable = true ∧ s.spin.vFile = true ∧
      w.conditionsOk s = true ∧ w.potentialOk s = true ∧ w.canOpen (s.simName ++ "_V.sol".toList) = true) ∧
    ((spinSetup w s).2 = true → s.spin.enable = true → w.conditionsOk s = true ∧ w.potentialOk s = true ∧ w.spinOk s = true) := by
  unfold spinSetup
  by_cases he : s.spin.enable = true
  · rw [if_pos he]
    by_cases hc : w.conditionsOk s = true
    · rw [if_pos hc]
      by_cases hp : w.potentialOk s = true
      · rw [if_pos hp]
        by_cases hv : s.spin.vFile = true
        · rw [if_pos hv]
          dsimp only
          by_cases ho : w.canOpen (s.simName ++ "_V.sol".toList) = true
          · rw [if_pos ho]
            refine ⟨fun op h => ?_, fun h _ => ⟨hc, hp, h⟩⟩
            simp only [List.mem_singleton] at h
            exact ⟨h, he, hv, hc, hp, ho⟩
          · rw [if_neg ho]
            exact ⟨by simp, by simp⟩
        · rw [if_neg hv]
          exact ⟨by simp, fun h _ => ⟨hc, hp, h⟩⟩
      · rw [if_neg hp]
        exact ⟨by simp, by simp⟩
    · rw [if_neg hc]
      exact ⟨by simp, by simp⟩
  · rw [if_neg he]
    exact ⟨by simp, fun _ h => absurd h he⟩

theorem digits_toDigits (k : ℕ) : Digits (Nat.toDigits 10 k) :=
  ⟨by
    intro h
    have h2 : 0 < (Nat.toDigits 10 k).length := Nat.length_toDigits_pos
    rw [h] at h2
    exact absurd h2 (by simp), fun c hc => Nat.isDigit_of_mem_toDigits (by decide) (by decide) hc⟩

theorem own_sol (s : All D) (f : SolFile n) : OwnFile s.outputs.directory s.simName (solName s f) := by
  unfold solName baseName
  cases f.nt with
  | none =>
    have h := OwnFile.atExit (dir := s.outputs.directory) (name := s.simName)
    simpa using h
  | some k =>
    have h := OwnFile.iter (dir := s.outputs.directory) (name := s.simName) (digits_toDigits k)
    simpa using h

theorem own_evol (s : All D) : OwnFile s.outputs.directory s.simName (baseName s ++ ".evol".toList) := by
  have h := OwnFile.evol (dir := s.outputs.directory) (name := s.simName)
  unfold baseName
  simpa using h

theorem integrate_own (w : World D n ET) (s : All D) (seed : Option ℕ) (k : ℕ) :
    ∀ op ∈ (integrate w s seed k).ops, ∃ p c, op = .write p c ∧ OwnFile s.outputs.directory s.simName p := by
  intro op hop
  unfold integrate at hop
  dsimp only at hop
  have hw : ∀ (rows : List (Row n ET)) (l : List (SolFile n)),
      op ∈ Op.write (baseName s ++ ".evol".toList) (.table rows) :: l.map (fun f => Op.write (solName s f) (.sol f)) →
      ∃ p c, op = .write p c ∧ OwnFile s.outputs.directory s.simName p := by
    intro rows l h
    rcases List.mem_cons.mp h with rfl | h
    · exact ⟨_, _, rfl, own_evol s⟩
    · obtain ⟨f, -, rfl⟩ := List.mem_map.mp h
      exact ⟨_, _, rfl, own_sol s f⟩
  split at hop
  · split at hop
    · exact hw [] [] hop
    · split at hop
      · exact hw [] [] hop
      · split at hop
        · exact hw _ _ hop
        · exact hw _ _ hop
  · exact absurd hop (by simp)

/-! ### names of files -/

theorem takeWhile_digits {d : Str} (h : ∀ c ∈ d, c.isDigit = true) {a : Char} (ha : a.isDigit = false) (x : Str) :
    (d ++ a :: x).takeWhile Char.isDigit = d := by
  rw [List.takeWhile_append_of_pos h, List.takeWhile_cons, if_neg (by simp [ha]), List.append_nil]

/-- a path that ends with one of the names of a run tells which run -/
theorem own_base {dir name dir' name' p : Str} (h : OwnFile dir name p) (h' : OwnFile dir' name' p) :
    dir ++ "/".toList ++ name = dir' ++ "/".toList ++ name' := by
  have key : ∀ b b' : Str, ∀ d d' : Str, Digits d → Digits d' →
      b ++ "_iter".toList ++ d ++ ".sol".toList = b' ++ "_iter".toList ++ d' ++ ".sol".toList → b = b' := by
    intro b b' d d' hd hd' e
    have e1 := List.append_cancel_right e
    have e2 := congrArg List.reverse e1
    have f : ∀ (b d : Str), (b ++ "_iter".toList ++ d).reverse = d.reverse ++ 'r' :: ("eti_".toList ++ b.reverse) := by
      intro b d; simp
    rw [f, f] at e2
    have g : d.reverse = d'.reverse := by
      have := congrArg (List.takeWhile Char.isDigit) e2
      rwa [takeWhile_digits (by simpa using hd.2) (by decide), takeWhile_digits (by simpa using hd'.2) (by decide)] at this
    have g' : d = d' := List.reverse_injective g
    subst g'
    have e3 := List.append_cancel_right e1
    exact List.append_cancel_right e3
  have k2 : ∀ b b' d : Str, Digits d → b ++ "_iter".toList ++ d ++ ".sol".toList ≠ b' ++ "_at_exit.sol".toList := by
    intro b b' d hd e
    have e1 : b ++ "_iter".toList ++ d = b' ++ "_at_exit".toList := by
      refine List.append_cancel_right (bs := ".sol".toList) ?_
      rw [e]; simp
    obtain ⟨d0, c, rfl⟩ : ∃ d0 c, d = d0 ++ [c] := by
      rcases List.eq_nil_or_concat d with h | ⟨d0, c, h⟩
      · exact absurd h hd.1
      · exact ⟨d0, c, by simpa using h⟩
    have e2 := congrArg List.getLast? e1
    rw [← List.append_assoc, List.getLast?_append] at e2
    have h3 : (b' ++ "_at_exit".toList).getLast? = some 't' := by
      rw [List.getLast?_append]; rfl
    rw [h3] at e2
    simp at e2
    have := hd.2 c (by simp)
    rw [e2] at this
    exact absurd this (by decide)
  have k3 : ∀ b b' x : Str, b ++ x ++ ".sol".toList ≠ b' ++ ".evol".toList := by
    intro b b' x e
    have e2 := congrArg (fun l => (List.reverse l).take 3) e
    simp at e2
  cases h with
  | evol =>
    generalize hq : dir ++ "/".toList ++ name ++ ".evol".toList = q at h'
    cases h' with
    | evol => exact List.append_cancel_right hq
    | iter hd => exact absurd hq.symm (by rw [List.append_assoc (dir' ++ _ ++ _)]; exact k3 _ _ _)
    | atExit => exact absurd hq.symm (by simpa using k3 (dir' ++ "/".toList ++ name') (dir ++ "/".toList ++ name) "_at_exit".toList)
  | @iter d hd =>
    generalize hq : dir ++ "/".toList ++ name ++ "_iter".toList ++ d ++ ".sol".toList = q at h'
    cases h' with
    | evol => exact absurd hq (by rw [List.append_assoc (dir ++ _ ++ _)]; exact k3 _ _ _)
    | iter hd' => exact key _ _ _ _ hd hd' hq
    | atExit => exact absurd hq (k2 _ _ _ hd)
  | atExit =>
    generalize hq : dir ++ "/".toList ++ name ++ "_at_exit.sol".toList = q at h'
    cases h' with
    | evol => exact absurd hq (by simpa using k3 (dir ++ "/".toList ++ name) (dir' ++ "/".toList ++ name') "_at_exit".toList)
    | iter hd' => exact absurd hq.symm (k2 _ _ _ hd')
    | atExit => exact List.append_cancel_right hq

/-- the file of the potential is never one of those of a run -/
theorem own_potential {dir name x : Str} : ¬ OwnFile dir name (x ++ "_V.sol".toList) := by
  intro h
  generalize hq : x ++ "_V.sol".toList = q at h
  cases h with
  | evol =>
    have := congrArg (fun l => (List.reverse l).take 5) hq
    simp at this
  | @iter d hd =>
    obtain ⟨d0, c, rfl⟩ : ∃ d0 c, d = d0 ++ [c] := by
      rcases List.eq_nil_or_concat d with h | ⟨d0, c, h⟩
      · exact absurd h hd.1
      · exact ⟨d0, c, by simpa using h⟩
    have := congrArg (fun l => (List.reverse l).take 5) hq
    simp at this
    have h2 := hd.2 c (by simp)
    rw [← this] at h2
    exact absurd h2 (by decide)
  | atExit =>
    have := congrArg (fun l => (List.reverse l).take 5) hq
    simp at this

theorem solName_inj {s : All D} {f g : SolFile n} (h : solName s f = solName s g) : f.nt = g.nt := by
  have k2 : ∀ b d : Str, Digits d → b ++ "_iter".toList ++ d ++ ".sol".toList ≠ b ++ "_at_exit.sol".toList := by
    intro b d hd e
    have e1 : "_iter".toList ++ d ++ ".sol".toList = "_at_exit.sol".toList := by
      refine List.append_cancel_left (as := b) ?_
      rw [← e]; simp
    simp at e1
  unfold solName at h
  cases hf : f.nt with
  | none =>
    cases hg : g.nt with
    | none => rfl
    | some k =>
      rw [hf, hg] at h
      exact absurd h.symm (k2 _ _ (digits_toDigits k))
  | some j =>
    cases hg : g.nt with
    | none =>
      rw [hf, hg] at h
      exact absurd h (k2 _ _ (digits_toDigits j))
    | some k =>
      rw [hf, hg] at h
      simp only at h
      have e := List.append_cancel_left (List.append_cancel_right h)
      have := congrArg (fun l => Nat.ofDigitChars 10 l 0) e
      simp only [Nat.ofDigitChars_toDigits (show 1 < 10 by decide) (le_refl _)] at this
      rw [this]

/-! ### each file is written once -/

structure OnceInv (s : St n ET) : Prop where
  nodup : (s.sols.map (·.nt)).Nodup
  lt : ∀ f ∈ s.sols, ∀ m, f.nt = some m → m < s.rows.length

open TimeLoop in
theorem onceInv_run (cfg : Cfg n ET) (t0 : ℝ) (nodes : Fin n → Node) (pot : Fin n → ℝ × ℝ)
    (inp : ℕ → Input n) (k : ℕ) : OnceInv (run cfg t0 nodes pot inp k) := by
  induction k with
  | zero => exact ⟨List.nodup_nil, fun f hf => absurd hf (by simp [run, init])⟩
  | succ k ih =>
    have hS := solInv_run cfg t0 nodes pot inp k
    have hno : (run cfg t0 nodes pot inp k).ctl = .running → none ∉ (run cfg t0 nodes pot inp k).sols.map (·.nt) := by
      intro hr hm
      obtain ⟨f, hf, hn⟩ := List.mem_map.mp hm
      have := hS.exit (List.ne_nil_of_mem (List.mem_filter.mpr ⟨hf, by simp [hn]⟩))
      rw [hr] at this
      cases this
    show OnceInv (step cfg t0 (inp k) (run cfg t0 nodes pot inp k))
    generalize run cfg t0 nodes pot inp k = s at *
    cases step_kind cfg t0 (inp k) s with
    | halted _ e => rw [e]; exact ih
    | output hr _ e =>
      rw [e]
      constructor
      · rw [forBody_sols]
        simp only [saver]
        split_ifs with hc
        · rw [List.map_append, List.nodup_append]
          refine ⟨ih.nodup, by simp, ?_⟩
          rintro a ha b hb rfl
          simp only [List.map_cons, List.map_nil, List.mem_singleton] at hb
          subst hb
          obtain ⟨f, hf, hn⟩ := List.mem_map.mp ha
          have := ih.lt f hf _ hn
          omega
        · exact ih.nodup
      · intro f hf m hm
        rw [forBody_sols] at hf
        rw [forBody_rows]
        simp only [saver, List.length_append, List.length_singleton] at hf ⊢
        split_ifs at hf with hc
        · rcases List.mem_append.mp hf with hf | hf
          · have := ih.lt f hf m hm; omega
          · simp only [List.mem_singleton] at hf
            subst hf
            simp only [Option.some.injEq] at hm
            omega
        · have := ih.lt f hf m hm; omega
    | signal hr _ _ e =>
      rw [e]
      constructor
      · simp only [onSignal]
        split_ifs
        · rw [List.map_append, List.nodup_append]
          refine ⟨ih.nodup, by simp, ?_⟩
          rintro a ha b hb rfl
          simp only [List.map_cons, List.map_nil, List.mem_singleton] at hb
          subst hb
          exact hno hr ha
        · exact ih.nodup
      · intro f hf m hm
        simp only [onSignal] at hf ⊢
        split_ifs at hf
        · rcases List.mem_append.mp hf with hf | hf
          · exact ih.lt f hf m hm
          · simp only [List.mem_singleton] at hf
            subst hf
            cases hm
        · exact ih.lt f hf m hm
    | small hr _ _ _ e => rw [e]; exact ⟨ih.nodup, ih.lt⟩
    | fail _ _ _ _ _ e => rw [e]; exact ⟨ih.nodup, ih.lt⟩
    | reject _ _ _ _ X _ _ e => rw [e]; exact ⟨ih.nodup, ih.lt⟩
    | exitRec hr _ _ _ X _ _ _ e => rw [e]; exact ⟨ih.nodup, ih.lt⟩
    | accept _ _ _ _ X _ _ nd hr e => rw [e]; exact ⟨ih.nodup, ih.lt⟩

theorem writeSols_sub (w : World D n ET) (s : All D) : ∀ l : List (SolFile n), (writeSols w s l).1 <+: l := by
  intro l
  induction l with
  | nil => exact List.prefix_refl _
  | cons f l ih =>
    unfold writeSols
    split
    · exact List.cons_prefix_cons.mpr ⟨rfl, ih⟩
    · exact List.nil_prefix

theorem writeSols_all (w : World D n ET) (s : All D) : ∀ l : List (SolFile n), (writeSols w s l).2 = none →
    (writeSols w s l).1 = l := by
  intro l
  induction l with
  | nil => intro _; rfl
  | cons f l ih =>
    unfold writeSols
    split
    · intro h
      simp only at h ⊢
      rw [ih h]
    · intro h
      exact absurd h (by simp)

theorem writeSols_open (w : World D n ET) (s : All D) : ∀ l : List (SolFile n), (∀ f ∈ l, w.canOpen (solName s f) = true) →
    (writeSols w s l).2 = none := by
  intro l
  induction l with
  | nil => intro _; rfl
  | cons f l ih =>
    intro h
    unfold writeSols
    rw [if_pos (h f (by simp))]
    exact ih fun g hg => h g (by simp [hg])

/-- the paths written -/
def paths (ops : List (Op n ET)) : List Str := ops.filterMap fun o => match o with
  | .write p _ => some p
  | .mkdir _ => none

theorem integrate_once (w : World D n ET) (s : All D) (seed : Option ℕ) (k : ℕ) : (paths (integrate w s seed k).ops).Nodup := by
  have hI := onceInv_run (cfgOf w s) (startTime w s) (w.nodes s) (w.pot s) (w.inp s seed) k
  have hw : ∀ (rows : List (Row n ET)) (l : List (SolFile n)), (l.map (·.nt)).Nodup →
      (paths (Op.write (baseName s ++ ".evol".toList) (.table rows) :: l.map (fun f => Op.write (solName s f) (.sol f)))).Nodup := by
    intro rows l hl
    have e : paths (Op.write (baseName s ++ ".evol".toList) (.table rows) :: l.map (fun f => Op.write (solName s f) (.sol f))) =
        (baseName s ++ ".evol".toList) :: l.map (solName s) := by
      unfold paths
      rw [List.filterMap_cons]
      simp only [List.filterMap_map]
      congr 1
      induction l with
      | nil => rfl
      | cons f l ih =>
        rw [List.filterMap_cons]
        simp only [Function.comp, List.map_cons]
        congr 1
        exact ih (List.Nodup.of_cons hl)
    rw [e, List.nodup_cons]
    constructor
    · intro hm
      obtain ⟨f, -, hf⟩ := List.mem_map.mp hm
      unfold solName at hf
      have k3 : ∀ b b' x : Str, b ++ x ++ ".sol".toList ≠ b' ++ ".evol".toList := by
        intro b b' x e
        have e2 := congrArg (fun l => (List.reverse l).take 3) e
        simp at e2
      split at hf
      · exact k3 _ _ _ hf
      · exact absurd hf (by simp)
    · have : (l.map (solName s)).Nodup := by
        have h2 : l.Pairwise (fun f g => f.nt ≠ g.nt) := by
          simpa [List.Nodup, List.pairwise_map] using hl
        refine List.pairwise_map.mpr (h2.imp ?_)
        intro f g hfg h
        exact hfg (solName_inj h)
      exact this
  unfold integrate
  dsimp only
  split
  · split
    · exact hw [] [] List.nodup_nil
    · split
      · exact hw [] [] List.nodup_nil
      · have hsub := (((writeSols_sub w s _).sublist.map (·.nt)).nodup hI.nodup)
        split
        · exact hw _ _ hsub
        · exact hw _ _ hsub
  · exact List.nodup_nil

end Verif.Main
