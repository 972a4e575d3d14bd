import Verif.Spec.Options
import Mathlib.Tactic.Ring
import Mathlib.Tactic.Linarith

/-!
# C52: the command line
-/

namespace Verif.Options

open Verif.Text

/-- the same loop on the remaining arguments -/
def scan (toSeed : Str → ℕ) : List Str → St → List Str × St
  | [], s => ([], s)
  | w :: ws, s =>
    match findOpt w options with
    | none => (w :: ws, s)
    | some o =>
      if o.longOpt = "--seed".toList then
        match ws with
        | [] => ([], s.incr o.setting)
        | v :: ws => scan toSeed ws { s.incr o.setting with seed := some (toSeed v) }
      else scan toSeed ws (s.incr o.setting)

theorem scan_length (toSeed : Str → ℕ) : ∀ (n : ℕ) (ws : List Str) (s : St), ws.length ≤ n →
    (scan toSeed ws s).1.length ≤ ws.length := by
  intro n
  induction n with
  | zero =>
    intro ws s h
    have : ws = [] := List.length_eq_zero_iff.mp (by omega)
    subst this
    exact le_refl _
  | succ n ih =>
    intro ws s h
    cases ws with
    | nil => exact le_refl _
    | cons w ws =>
      unfold scan
      simp only [List.length_cons] at h ⊢
      split
      · exact le_refl _
      · split
        · split
          · simp
          · rename_i v ws'
            simp only [List.length_cons] at h ⊢
            exact le_trans (ih ws' _ (by omega : ws'.length ≤ n)) (by omega)
        · exact le_trans (ih ws _ (by omega)) (by omega)

theorem loop_eq (toSeed : Str → ℕ) (argv : List Str) : ∀ (n i : ℕ) (s : St), argv.length - i ≤ n → i ≤ argv.length →
    loop toSeed argv i s =
      some (argv.length - (scan toSeed (argv.drop i) s).1.length, (scan toSeed (argv.drop i) s).2) := by
  intro n
  induction n with
  | zero =>
    intro i s h hi
    have e : i = argv.length := by omega
    subst e
    rw [loop, if_neg (lt_irrefl _), List.drop_length]
    rfl
  | succ n ih =>
    intro i s h hi
    by_cases hlt : i < argv.length
    · rw [loop, if_pos hlt, List.getElem?_eq_getElem hlt]
      rw [List.drop_eq_getElem_cons hlt]
      dsimp only
      unfold scan
      cases hf : findOpt argv[i] options with
      | none =>
        dsimp only
        congr 2
        simp only [List.length_cons, List.length_drop]
        omega
      | some o =>
        dsimp only
        by_cases hs : o.longOpt = "--seed".toList
        · rw [if_pos hs]
          by_cases hlast : i + 1 < argv.length
          · rw [if_pos ⟨hs, by omega⟩, List.getElem?_eq_getElem hlast, List.drop_eq_getElem_cons hlast]
            dsimp only
            exact ih (i + 1 + 1) _ (by omega) (by omega)
          · rw [if_neg (fun hc => hlast (by omega)), ih (i + 1) _ (by omega) (by omega),
              List.drop_eq_nil_of_le (by omega)]
            rfl
        · rw [if_neg hs, if_neg (fun hc => hs hc.1)]
          exact ih (i + 1) _ (by omega) (by omega)
    · have e : i = argv.length := by omega
      subst e
      rw [loop, if_neg (lt_irrefl _), List.drop_length]
      rfl

/-! ## the table -/

theorem findOpt_mem {w : Str} {o : Opt} : ∀ {os : List Opt}, findOpt w os = some o →
    o ∈ os ∧ (w = o.shortOpt ∨ w = o.longOpt) := by
  intro os
  induction os with
  | nil => intro h; cases h
  | cons o' os ih =>
    intro h
    unfold findOpt at h
    split at h
    · rename_i hw
      cases h
      exact ⟨List.mem_cons_self, hw⟩
    · obtain ⟨h1, h2⟩ := ih h
      exact ⟨List.mem_cons_of_mem _ h1, h2⟩

theorem table : ∀ o ∈ options, (o.shortOpt ∈ words o.setting ∨ o.shortOpt = []) ∧ o.longOpt ∈ words o.setting ∧
    (o.longOpt = "--seed".toList ↔ o.setting = .fixedSeed) := by
  decide

theorem findOpt_some {w : Str} {o : Opt} (h : findOpt w options = some o) :
    (w ∈ words o.setting ∨ (w = [] ∧ o.setting = .defaults)) ∧
      (o.longOpt = "--seed".toList ↔ o.setting = .fixedSeed) := by
  obtain ⟨h1, h2⟩ := findOpt_mem h
  obtain ⟨t1, t2, t3⟩ := table o h1
  refine ⟨?_, t3⟩
  rcases h2 with rfl | rfl
  · rcases t1 with t1 | t1
    · exact Or.inl t1
    · right
      refine ⟨t1, ?_⟩
      rw [t1] at h
      have e : findOpt [] options = some ⟨"".toList, "--print-defaults".toList, .defaults⟩ := rfl
      rw [e] at h
      cases h
      rfl
  · exact Or.inl t2

theorem findOpt_word {f : Flag} {w : Str} (h : w ∈ words f) :
    ∃ o, findOpt w options = some o ∧ o.setting = f ∧ (o.longOpt = "--seed".toList ↔ f = .fixedSeed) := by
  have key : ∀ w' ∈ words f, (findOpt w' options).map Opt.setting = some f := by
    cases f <;> decide
  obtain ⟨o, h1, h2⟩ := Option.map_eq_some_iff.mp (key w h)
  exact ⟨o, h1, h2, h2 ▸ (findOpt_some h1).2⟩

theorem findOpt_none {w : Str} : findOpt w options = none ↔ IsFile w := by
  constructor
  · intro h
    refine ⟨?_, ?_⟩
    · rintro rfl
      exact absurd h (by decide)
    · intro f hf
      obtain ⟨o, ho, -⟩ := findOpt_word hf
      rw [ho] at h
      cases h
  · rintro ⟨h1, h2⟩
    cases h : findOpt w options with
    | none => rfl
    | some o =>
      rcases (findOpt_some h).1 with hw | ⟨hw, -⟩
      · exact absurd hw (h2 _)
      · exact absurd hw h1

/-! ## the counters -/

theorem incr_count (s : St) (f g : Flag) : (s.incr f).count g = s.count g + if g = f then 1 else 0 := by
  unfold St.incr
  dsimp only
  split <;> rfl

theorem scan_mono (toSeed : Str → ℕ) (g : Flag) : ∀ (n : ℕ) (ws : List Str) (s : St), ws.length ≤ n →
    s.count g ≤ (scan toSeed ws s).2.count g := by
  intro n
  induction n with
  | zero =>
    intro ws s h
    have : ws = [] := List.length_eq_zero_iff.mp (by omega)
    subst this
    exact le_refl _
  | succ n ih =>
    intro ws s h
    cases ws with
    | nil => exact le_refl _
    | cons w ws =>
      unfold scan
      simp only [List.length_cons] at h
      have hi : ∀ f, s.count g ≤ (s.incr f).count g := fun f => by rw [incr_count]; omega
      split
      · exact le_refl _
      · split
        · split
          · exact hi _
          · rename_i v ws'
            simp only [List.length_cons] at h
            exact le_trans (hi _) (ih ws' { s.incr _ with seed := some (toSeed v) } (by omega))
        · exact le_trans (hi _) (ih ws _ (by omega))

/-- no option that ends the program by itself has been seen -/
def Quiet (s : St) : Prop :=
  s.count .help = 0 ∧ s.count .version = 0 ∧ s.count .defaults = 0 ∧ s.count .template = 0

theorem quiet_of_scan {toSeed : Str → ℕ} {ws : List Str} {s : St} (h : Quiet (scan toSeed ws s).2) : Quiet s := by
  have m := fun g => scan_mono toSeed g ws.length ws s (le_refl _)
  have := m .help
  have := m .version
  have := m .defaults
  have := m .template
  obtain ⟨h1, h2, h3, h4⟩ := h
  exact ⟨by omega, by omega, by omega, by omega⟩

/-- the effect of the options that do not end the program -/
def effect (toSeed : Str → ℕ) (s : St) : Item → St
  | .word f _ => s.incr f
  | .seed v => { s.incr .fixedSeed with seed := some (toSeed v) }

theorem scan_items (toSeed : Str → ℕ) (file : Str) (hf : IsFile file) : ∀ (items : List Item) (s : St),
    (∀ i ∈ items, i.Runs) →
    scan toSeed (items.flatMap Item.args ++ [file]) s = ([file], items.foldl (effect toSeed) s) := by
  intro items
  induction items with
  | nil =>
    intro s _
    show scan toSeed [file] s = _
    unfold scan
    rw [findOpt_none.mpr hf]
    rfl
  | cons i items ih =>
    intro s h
    have hi := h i List.mem_cons_self
    have ih := fun s => ih s (fun j hj => h j (List.mem_cons_of_mem _ hj))
    rw [List.flatMap_cons, List.append_assoc, List.foldl_cons]
    cases i with
    | word f w =>
      obtain ⟨hfl, hw⟩ := hi
      obtain ⟨o, h1, h2, h3⟩ := findOpt_word hw
      show scan toSeed (w :: (items.flatMap Item.args ++ [file])) s = _
      rw [scan, h1]
      dsimp only
      rw [if_neg (fun hc => by rcases hfl with rfl | rfl <;> exact absurd (h3.mp hc) (by decide)), h2]
      exact ih _
    | seed v =>
      show scan toSeed ("--seed".toList :: v :: (items.flatMap Item.args ++ [file])) s = _
      obtain ⟨o, h1, h2, h3⟩ := findOpt_word (f := .fixedSeed) (w := "--seed".toList) (by decide)
      rw [scan, h1]
      dsimp only
      rw [if_pos (h3.mpr rfl), h2]
      exact ih _

theorem items_of_scan (toSeed : Str → ℕ) (file : Str) : ∀ (n : ℕ) (ws : List Str) (s s' : St), ws.length ≤ n →
    scan toSeed ws s = ([file], s') → Quiet s' →
    ∃ items : List Item, (∀ i ∈ items, i.Runs) ∧ IsFile file ∧ ws = items.flatMap Item.args ++ [file] := by
  intro n
  induction n with
  | zero =>
    intro ws s s' hn h
    have : ws = [] := List.length_eq_zero_iff.mp (by omega)
    subst this
    cases h
  | succ n ih =>
    intro ws s s' hn h hq
    cases ws with
    | nil => cases h
    | cons w ws =>
      simp only [List.length_cons] at hn
      rw [scan] at h
      cases hf : findOpt w options with
      | none =>
        rw [hf] at h
        dsimp only at h
        have h1 := congrArg Prod.fst h
        dsimp only at h1
        rw [h1]
        refine ⟨[], by simp, ?_, rfl⟩
        have : w = file := by injection h1
        rw [← this]
        exact findOpt_none.mp hf
      | some o =>
        rw [hf] at h
        dsimp only at h
        obtain ⟨hw, hs⟩ := findOpt_some hf
        by_cases hseed : o.longOpt = "--seed".toList
        · rw [if_pos hseed] at h
          have hset := hs.mp hseed
          have hw : w = "--seed".toList := by
            rcases hw with hw | ⟨-, hc⟩
            · rw [hset] at hw
              simpa only [words, List.mem_singleton] using hw
            · rw [hset] at hc; cases hc
          cases ws with
          | nil => cases h
          | cons v ws =>
            dsimp only at h
            simp only [List.length_cons] at hn
            obtain ⟨items, h1, h2, h3⟩ := ih ws _ s' (by omega) h hq
            refine ⟨.seed v :: items, ?_, h2, ?_⟩
            · intro i hi
              rcases List.mem_cons.mp hi with rfl | hi
              · trivial
              · exact h1 i hi
            · rw [h3, hw]; rfl
        · rw [if_neg hseed] at h
          obtain ⟨items, h1, h2, h3⟩ := ih ws _ s' (by omega) h hq
          have hq1 : Quiet (s.incr o.setting) := by
            refine quiet_of_scan (toSeed := toSeed) (ws := ws) ?_
            rw [h]
            exact hq
          have hset : o.setting = .verbose ∨ o.setting = .verify := by
            obtain ⟨q1, q2, q3, q4⟩ := hq1
            rw [incr_count] at q1 q2 q3 q4
            cases hc : o.setting with
            | help => rw [hc] at q1; simp at q1
            | version => rw [hc] at q2; simp at q2
            | defaults => rw [hc] at q3; simp at q3
            | template => rw [hc] at q4; simp at q4
            | verify => exact Or.inr rfl
            | verbose => exact Or.inl rfl
            | fixedSeed => exact absurd (hs.mpr hc) hseed
          refine ⟨.word o.setting w :: items, ?_, h2, ?_⟩
          · intro i hi
            rcases List.mem_cons.mp hi with rfl | hi
            · refine ⟨hset, ?_⟩
              rcases hw with hw | ⟨-, hc⟩
              · exact hw
              · rw [hc] at hset; rcases hset with hset | hset <;> cases hset
            · exact h1 i hi
          · rw [h3]; rfl

/-! ## the variables after the options -/

theorem fold_count (toSeed : Str → ℕ) (g : Flag) (hg : g ≠ .fixedSeed) : ∀ (items : List Item) (s : St),
    (items.foldl (effect toSeed) s).count g =
      s.count g + items.countP (fun i => match i with | .word f _ => f = g | _ => false) := by
  intro items
  induction items with
  | nil => intro s; rfl
  | cons i items ih =>
    intro s
    rw [List.foldl_cons, ih, List.countP_cons]
    cases i with
    | word f w =>
      show (s.incr f).count g + _ = _
      rw [incr_count]
      by_cases h : g = f
      · simp [h]; omega
      · simp [h, Ne.symm h]
    | seed v =>
      show (s.incr .fixedSeed).count g + _ = _
      rw [incr_count, if_neg hg]
      simp

theorem fold_seed (toSeed : Str → ℕ) : ∀ (items : List Item) (s : St), (∀ i ∈ items, i.Runs) →
    (s.count .fixedSeed = 0 ↔ s.seed = none) →
    (items.foldl (effect toSeed) s).seed = (lastSeed toSeed items).or s.seed ∧
    ((items.foldl (effect toSeed) s).count .fixedSeed = 0 ↔ (items.foldl (effect toSeed) s).seed = none) := by
  intro items
  induction items with
  | nil => intro s _ h; exact ⟨rfl, h⟩
  | cons i items ih =>
    intro s hr h
    have hr' := fun j hj => hr j (List.mem_cons_of_mem _ hj)
    rw [List.foldl_cons]
    cases i with
    | word f w =>
      have hf : Flag.fixedSeed ≠ f := by
        obtain ⟨h1 | h1, -⟩ := hr _ List.mem_cons_self <;> rw [h1] <;> decide
      obtain ⟨h1, h2⟩ := ih (s.incr f) hr' (by rw [incr_count, if_neg hf]; exact h)
      exact ⟨h1, h2⟩
    | seed v =>
      obtain ⟨h1, h2⟩ := ih { s.incr .fixedSeed with seed := some (toSeed v) } hr' (by
        constructor
        · intro hc
          have hc : (s.incr .fixedSeed).count .fixedSeed = 0 := hc
          rw [incr_count, if_pos rfl] at hc
          omega
        · intro hc; cases hc)
      refine ⟨?_, h2⟩
      show (items.foldl (effect toSeed) { s.incr .fixedSeed with seed := some (toSeed v) }).seed = _
      rw [h1]
      unfold lastSeed
      rw [List.filterMap_cons]
      dsimp only
      rw [List.getLast?_cons]
      cases (List.filterMap (fun i => match i with | .seed v => some (toSeed v) | _ => none) items).getLast? <;> rfl

/-! ## the theorems -/

/-- start of the variables -/
def start (v0 : ℕ) : St := ⟨fun f => if f = .verbose then v0 else 0, none⟩

theorem parse_eq (toSeed : Str → ℕ) (rd v0 : ℕ) (prog : Str) (ws : List Str) :
    parseOptions toSeed rd v0 (prog :: ws) =
      if (scan toSeed ws (start v0)).2.count .help ≠ 0 then .help
      else if (scan toSeed ws (start v0)).2.count .version ≠ 0 then .version
      else if (scan toSeed ws (start v0)).2.count .defaults ≠ 0 then .defaults
      else if (scan toSeed ws (start v0)).2.count .template ≠ 0 then .template
      else match (scan toSeed ws (start v0)).1 with
        | [file] =>
          if (scan toSeed ws (start v0)).2.count .verify ≠ 0 then
            .verify file ((scan toSeed ws (start v0)).2.count .verbose)
          else if (scan toSeed ws (start v0)).2.count .fixedSeed = 0 then
            .run file ((scan toSeed ws (start v0)).2.count .verbose) (some rd)
          else .run file ((scan toSeed ws (start v0)).2.count .verbose) (scan toSeed ws (start v0)).2.seed
        | _ => .usage := by
  unfold parseOptions
  have e := loop_eq toSeed (prog :: ws) (prog :: ws).length 1 (start v0) (by simp) (by simp)
  unfold start at e
  rw [e]
  dsimp only
  have hs : (prog :: ws).drop 1 = ws := rfl
  rw [hs]
  change (if (scan toSeed ws (start v0)).2.count .help ≠ 0 then _ else _) = _
  have hsuf : ∀ (n : ℕ) (ws : List Str) (s : St), ws.length ≤ n → (scan toSeed ws s).1 <:+ ws := by
    intro n
    induction n with
    | zero =>
      intro ws s h
      have : ws = [] := List.length_eq_zero_iff.mp (by omega)
      subst this
      exact List.suffix_refl _
    | succ n ih =>
      intro ws s h
      cases ws with
      | nil => exact List.suffix_refl _
      | cons w ws =>
        unfold scan
        simp only [List.length_cons] at h
        split
        · exact List.suffix_refl _
        · split
          · split
            · exact List.nil_suffix
            · rename_i v ws'
              simp only [List.length_cons] at h
              exact ((ih ws' _ (by omega)).trans (List.suffix_cons v ws')).trans (List.suffix_cons w _)
          · exact (ih ws _ (by omega)).trans (List.suffix_cons w ws)
  have hsf := hsuf ws.length ws (start v0) (le_refl _)
  change (if (scan toSeed ws (start v0)).2.count .help ≠ 0 then _ else
    if (scan toSeed ws (start v0)).2.count .version ≠ 0 then _ else
    if (scan toSeed ws (start v0)).2.count .defaults ≠ 0 then _ else
    if (scan toSeed ws (start v0)).2.count .template ≠ 0 then _ else
    if (((prog :: ws).length - (scan toSeed ws (start v0)).1.length : ℕ) : ℤ) ≠ _ then _ else
      match (prog :: ws)[(prog :: ws).length - (scan toSeed ws (start v0)).1.length]? with
      | none => Result.outOfBounds
      | some file =>
        if (scan toSeed ws (start v0)).2.count .verify ≠ 0 then
            .verify file ((scan toSeed ws (start v0)).2.count .verbose)
          else if (scan toSeed ws (start v0)).2.count .fixedSeed = 0 then
            .run file ((scan toSeed ws (start v0)).2.count .verbose) (some rd)
          else .run file ((scan toSeed ws (start v0)).2.count .verbose) (scan toSeed ws (start v0)).2.seed) = _
  generalize (scan toSeed ws (start v0)).2 = s
  generalize hr : (scan toSeed ws (start v0)).1 = r at hsf
  have hlen : r.length ≤ ws.length := hsf.length_le
  congr 1
  congr 1
  congr 1
  congr 1
  match r, hsf, hlen with
  | [], _, hlen => exact if_pos (by simp)
  | [file], hsf, hlen =>
    simp only [List.length_cons, List.length_nil] at hlen ⊢
    rw [if_neg (by omega)]
    obtain ⟨pre, hpre⟩ := hsf
    have hl : ws.length + 1 - (0 + 1) = (prog :: pre).length := by
      rw [← hpre]; simp
    rw [hl, ← hpre, ← List.cons_append, List.getElem?_append_right (le_refl _)]
    simp
  | a :: b :: r, _, hlen =>
    simp only [List.length_cons] at hlen ⊢
    exact if_pos (by omega)

/-- **C52** No element of `argv` is read out of bounds, whatever the arguments (none at all included). -/
theorem C52_in_bounds (toSeed : Str → ℕ) (rd v0 : ℕ) (argv : List Str) :
    parseOptions toSeed rd v0 argv ≠ .outOfBounds := by
  cases argv with
  | nil =>
    unfold parseOptions
    rw [loop]
    simp
  | cons prog ws =>
    rw [parse_eq]
    split
    · exact fun h => by cases h
    split
    · exact fun h => by cases h
    split
    · exact fun h => by cases h
    split
    · exact fun h => by cases h
    split
    · split
      · exact fun h => by cases h
      split <;> exact fun h => by cases h
    · exact fun h => by cases h

/-- **C52** The parser returns exactly for the command lines of the documentation: options among `-v`, `--verbose` and
`--seed value`, then one argument that is not an option, the file. The number of `-v` is counted, the seed is the last one
given, else the one of the random device; it is initialized in every case. -/
theorem C52_run_iff (toSeed : Str → ℕ) (rd v0 : ℕ) (argv : List Str) (file : Str) (verbose : ℕ) (seed : Option ℕ) :
    parseOptions toSeed rd v0 argv = .run file verbose seed ↔
      ∃ (prog : Str) (items : List Item), argv = prog :: (items.flatMap Item.args ++ [file]) ∧ IsFile file ∧
        (∀ i ∈ items, i.Runs ∧ i.isVerify = false) ∧ verbose = v0 + items.countP Item.isVerbose ∧
        seed = some ((lastSeed toSeed items).getD rd) := by
  have hst : ∀ items : List Item, (∀ i ∈ items, i.Runs) →
      (items.foldl (effect toSeed) (start v0)).count .verbose = v0 + items.countP Item.isVerbose ∧
      ((items.foldl (effect toSeed) (start v0)).count .verify = 0 ↔ ∀ i ∈ items, i.isVerify = false) ∧
      (items.foldl (effect toSeed) (start v0)).seed = lastSeed toSeed items ∧
      ((items.foldl (effect toSeed) (start v0)).count .fixedSeed = 0 ↔ lastSeed toSeed items = none) := by
    intro items hr
    obtain ⟨h1, h2⟩ := fold_seed toSeed items (start v0) hr (by simp [start])
    have h1 : (items.foldl (effect toSeed) (start v0)).seed = lastSeed toSeed items := by
      rw [h1]
      exact Option.or_none
    rw [h1] at h2
    refine ⟨?_, ?_, h1, h2⟩
    · rw [fold_count toSeed .verbose (by decide)]
      show v0 + _ = _
      congr 2
      funext i
      cases i with
      | word f w => cases f <;> rfl
      | seed v => rfl
    · rw [fold_count toSeed .verify (by decide)]
      show 0 + _ = 0 ↔ _
      rw [Nat.zero_add, List.countP_eq_zero]
      refine forall_congr' fun i => forall_congr' fun _ => ?_
      cases i with
      | word f w => cases f <;> simp [Item.isVerify]
      | seed v => simp [Item.isVerify]
  have hq : ∀ items : List Item, (∀ i ∈ items, i.Runs) → Quiet (items.foldl (effect toSeed) (start v0)) := by
    intro items hr
    have key : ∀ g, g ≠ Flag.verbose → g ≠ .verify → g ≠ .fixedSeed →
        (items.foldl (effect toSeed) (start v0)).count g = 0 := by
      intro g g1 g2 g3
      rw [fold_count toSeed g g3]
      have e0 : (start v0).count g = 0 := if_neg g1
      rw [e0, Nat.zero_add, List.countP_eq_zero]
      intro i hi
      have := hr i hi
      cases i with
      | word f w =>
        obtain ⟨h1 | h1, -⟩ := this
        · simp [h1, Ne.symm g1]
        · simp [h1, Ne.symm g2]
      | seed v => simp
    exact ⟨key _ (by decide) (by decide) (by decide), key _ (by decide) (by decide) (by decide),
      key _ (by decide) (by decide) (by decide), key _ (by decide) (by decide) (by decide)⟩
  constructor
  · intro h
    cases argv with
    | nil =>
      unfold parseOptions at h
      rw [loop] at h
      simp at h
    | cons prog ws =>
      rw [parse_eq] at h
      split at h
      · cases h
      rename_i n1
      split at h
      · cases h
      rename_i n2
      split at h
      · cases h
      rename_i n3
      split at h
      · cases h
      rename_i n4
      have hquiet : Quiet (scan toSeed ws (start v0)).2 :=
        ⟨not_not.mp n1, not_not.mp n2, not_not.mp n3, not_not.mp n4⟩
      split at h
      swap
      · cases h
      rename_i file' hsc
      have hsc' : scan toSeed ws (start v0) = ([file'], (scan toSeed ws (start v0)).2) := by rw [← hsc]
      obtain ⟨items, i1, i2, i3⟩ := items_of_scan toSeed file' ws.length ws (start v0) _ (le_refl _) hsc' hquiet
      have e2 : (scan toSeed ws (start v0)).2 = items.foldl (effect toSeed) (start v0) := by
        rw [i3, scan_items toSeed file' i2 items _ i1]
      rw [e2] at h
      obtain ⟨s1, s2, s3, s4⟩ := hst items i1
      split at h
      · cases h
      rename_i nv
      have nv := s2.mp (not_not.mp nv)
      have hfin : Result.run file' ((items.foldl (effect toSeed) (start v0)).count .verbose)
          (some ((lastSeed toSeed items).getD rd)) = .run file verbose seed := by
        split at h
        · rename_i hz
          rw [s4.mp hz]
          exact h
        · rename_i hz
          rw [s3] at h
          cases hl : lastSeed toSeed items with
          | none => exact absurd (s4.mpr hl) hz
          | some x => rw [hl] at h; exact h
      injection hfin with f1 f2 f3
      subst f1
      exact ⟨prog, items, by rw [i3], i2, fun i hi => ⟨i1 i hi, nv i hi⟩, by rw [← f2, s1], f3.symm⟩
  · rintro ⟨prog, items, rfl, hfile, hi, rfl, rfl⟩
    have hr := fun i h => (hi i h).1
    obtain ⟨s1, s2, s3, s4⟩ := hst items hr
    obtain ⟨q1, q2, q3, q4⟩ := hq items hr
    rw [parse_eq, scan_items toSeed file hfile items _ hr]
    dsimp only
    rw [if_neg (not_not.mpr q1), if_neg (not_not.mpr q2), if_neg (not_not.mpr q3), if_neg (not_not.mpr q4),
      if_neg (not_not.mpr (s2.mpr (fun i h => (hi i h).2))), s1, s3]
    cases hl : lastSeed toSeed items with
    | none => rw [if_pos (s4.mpr hl)]; rfl
    | some x => rw [if_neg (fun hc => by rw [s4.mp hc] at hl; cases hl)]; rfl

/-- **C52** The file that is returned or verified is the last argument. -/
theorem C52_last (toSeed : Str → ℕ) (rd v0 : ℕ) (argv : List Str) (file : Str) (verbose : ℕ) :
    (∀ seed, parseOptions toSeed rd v0 argv = .run file verbose seed → argv.getLast? = some file ∧ seed.isSome) ∧
    (parseOptions toSeed rd v0 argv = .verify file verbose → argv.getLast? = some file) := by
  constructor
  · intro seed h
    obtain ⟨prog, items, rfl, -, -, -, rfl⟩ := (C52_run_iff toSeed rd v0 argv file verbose seed).mp h
    refine ⟨?_, rfl⟩
    rw [← List.cons_append, List.getLast?_append]
    rfl
  · intro h
    cases argv with
    | nil =>
      unfold parseOptions at h
      rw [loop] at h
      simp at h
    | cons prog ws =>
      rw [parse_eq] at h
      split at h
      · cases h
      rename_i n1
      split at h
      · cases h
      rename_i n2
      split at h
      · cases h
      rename_i n3
      split at h
      · cases h
      rename_i n4
      split at h
      swap
      · cases h
      rename_i file' hsc
      have hsc' : scan toSeed ws (start v0) = ([file'], (scan toSeed ws (start v0)).2) := by rw [← hsc]
      obtain ⟨items, i1, i2, i3⟩ := items_of_scan toSeed file' ws.length ws (start v0) _ (le_refl _) hsc'
        ⟨not_not.mp n1, not_not.mp n2, not_not.mp n3, not_not.mp n4⟩
      split at h
      · injection h with h1
        subst h1
        rw [i3, ← List.cons_append, List.getLast?_append]
        rfl
      · split at h <;> cases h

/-- Help wins over every other option, wherever it stands among the options. -/
theorem C52_help (toSeed : Str → ℕ) (rd v0 : ℕ) (prog w : Str) (items : List Item) (hi : ∀ i ∈ items, i.Runs)
    (hw : w ∈ words .help) (rest : List Str) :
    parseOptions toSeed rd v0 (prog :: (items.flatMap Item.args ++ w :: rest)) = .help := by
  rw [parse_eq]
  refine if_pos ?_
  have key : ∀ (items : List Item) (s : St), (∀ i ∈ items, i.Runs) →
      (scan toSeed (items.flatMap Item.args ++ w :: rest) s).2.count .help ≠ 0 := by
    intro items
    induction items with
    | nil =>
      intro s _
      show (scan toSeed (w :: rest) s).2.count .help ≠ 0
      obtain ⟨o, h1, h2, h3⟩ := findOpt_word hw
      rw [scan, h1]
      dsimp only
      rw [if_neg (fun hc => absurd (h3.mp hc) (by decide))]
      have := scan_mono toSeed .help rest.length rest (s.incr o.setting) (le_refl _)
      rw [incr_count, h2, if_pos rfl] at this
      rw [h2]
      omega
    | cons i items ih =>
      intro s h
      have hi := h i List.mem_cons_self
      have ih := fun s => ih s (fun j hj => h j (List.mem_cons_of_mem _ hj))
      rw [List.flatMap_cons, List.append_assoc]
      cases i with
      | word f w' =>
        obtain ⟨hfl, hw'⟩ := hi
        obtain ⟨o, h1, h2, h3⟩ := findOpt_word hw'
        show (scan toSeed (w' :: (items.flatMap Item.args ++ w :: rest)) s).2.count .help ≠ 0
        rw [scan, h1]
        dsimp only
        rw [if_neg (fun hc => by rcases hfl with rfl | rfl <;> exact absurd (h3.mp hc) (by decide))]
        exact ih _
      | seed v =>
        show (scan toSeed ("--seed".toList :: v :: (items.flatMap Item.args ++ w :: rest)) s).2.count .help ≠ 0
        obtain ⟨o, h1, h2, h3⟩ := findOpt_word (f := .fixedSeed) (w := "--seed".toList) (by decide)
        rw [scan, h1]
        dsimp only
        rw [if_pos (h3.mpr rfl)]
        exact ih _
  exact key items _ hi

/-- An empty argument is not an error: it is taken for `--print-defaults`, the first option without a short form. -/
theorem C52_empty_argument (toSeed : Str → ℕ) (rd v0 : ℕ) (prog : Str) :
    parseOptions toSeed rd v0 [prog, []] = .defaults := by
  rw [parse_eq]
  rfl

/-- the hypotheses of `C52_run_iff` on a command line -/
example : parseOptions (fun v => v.length) 7 0
    ["feellgood".toList, "-v".toList, "--seed".toList, "123".toList, "--verbose".toList, "a.yml".toList] =
      .run "a.yml".toList 2 (some 3) :=
  (C52_run_iff _ _ _ _ _ _ _).mpr ⟨"feellgood".toList,
    [.word .verbose "-v".toList, .seed "123".toList, .word .verbose "--verbose".toList], rfl,
    findOpt_none.mp (by decide), by
      intro i hi
      simp only [List.mem_cons, List.not_mem_nil, or_false] at hi
      rcases hi with rfl | rfl | rfl
      · exact ⟨⟨Or.inl rfl, by decide⟩, rfl⟩
      · exact ⟨trivial, rfl⟩
      · exact ⟨⟨Or.inl rfl, by decide⟩, rfl⟩, rfl, rfl⟩

/-- two files are a usage error -/
example : parseOptions (fun v => v.length) 7 0 ["feellgood".toList, "a".toList, "b".toList] = .usage := by
  rw [parse_eq]
  rfl

/-- a seed without a value is a usage error -/
example : parseOptions (fun v => v.length) 7 0 ["feellgood".toList, "--seed".toList] = .usage := by
  rw [parse_eq]
  rfl

end Verif.Options
