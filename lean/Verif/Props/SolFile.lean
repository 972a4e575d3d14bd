import Verif.Model.SolFile
import Verif.Props.Metadata
import Verif.Spec.SortNodes
import Mathlib.Data.List.Perm.Basic
import Mathlib.Data.List.Nodup
import Mathlib.Tactic.Ring

/-!
# C29: saved configurations can be read back
-/

namespace Verif.SolFile

open Verif.Text Verif.Metadata

/-- all saved values are finite numbers -/
def ND.Finite (d : ND) : Prop := d.ux.IsFin ∧ d.uy.IsFin ∧ d.uz.IsFin ∧ d.phi.IsFin

/-- the values rounded to the digits of the file -/
def ND.rounded (f : Format) (d : ND) : ND := ⟨print f d.ux, print f d.uy, print f d.uz, print f d.phi⟩

/-- a numbering of `n` nodes: file index ↦ index in memory -/
def Numbering (n : ℕ) (nodeIndex : List ℕ) : Prop := nodeIndex.Perm (List.range n)

theorem isFin_print (f : Format) (x : Fl) : (print f x).IsFin ↔ x.IsFin := by cases x <;> rfl

theorem readRow_finite (f : Format) (i : ℕ) (d : ND) (h : d.Finite) (rest : List Tok) :
    readRow f (rowToks f i d none ++ rest) = .row i (d.rounded f) rest := by
  obtain ⟨ux, uy, uz, phi⟩ := d
  obtain ⟨h1, h2, h3, h4⟩ := h
  cases ux <;> first | exact h1.elim | skip
  cases uy <;> first | exact h2.elim | skip
  cases uz <;> first | exact h3.elim | skip
  cases phi <;> first | exact h4.elim | skip
  rfl

theorem readRow_infinite (f : Format) (i : ℕ) (d : ND) (h : ¬ d.Finite) (s : Option (Fl × Fl × Fl)) (rest : List Tok) :
    readRow f (rowToks f i d s ++ rest) = .failed := by
  obtain ⟨ux, uy, uz, phi⟩ := d
  cases ux <;> first | rfl | skip
  cases uy <;> first | rfl | skip
  cases uz <;> first | rfl | skip
  cases phi <;> first | rfl | skip
  exact (h ⟨trivial, trivial, trivial, trivial⟩).elim

theorem readRows_finite (f : Format) (nodeIndex : List ℕ) (t : ℝ) (data : ℕ → ND) (g : ℕ → ℕ) :
    ∀ (is : List ℕ) (node : List ND) (rest : List Tok),
      (∀ i ∈ is, nodeIndex[i]? = some (g i) ∧ g i < node.length ∧ (data i).Finite) →
      readRows f nodeIndex t is node (is.flatMap (fun i => rowToks f i (data i) none) ++ rest) =
        .ok t (is.foldl (fun nd i => nd.set (g i) ((data i).rounded f)) node) := by
  intro is
  induction is with
  | nil => intro node rest _; rfl
  | cons i is ih =>
    intro node rest h
    obtain ⟨h1, h2, h3⟩ := h i List.mem_cons_self
    rw [List.flatMap_cons, List.append_assoc]
    unfold readRows
    rw [readRow_finite f i (data i) h3]
    simp only [h1, h2, if_true]
    rw [ih]
    · rfl
    · intro k hk
      obtain ⟨k1, k2, k3⟩ := h k (List.mem_cons_of_mem _ hk)
      exact ⟨k1, by rw [List.length_set]; exact k2, k3⟩

theorem readRows_infinite (f : Format) (nodeIndex : List ℕ) (t : ℝ) (data : ℕ → ND) (g : ℕ → ℕ) :
    ∀ (is : List ℕ) (node : List ND) (rest : List Tok),
      (∀ i ∈ is, nodeIndex[i]? = some (g i) ∧ g i < node.length) → (∃ i ∈ is, ¬ (data i).Finite) →
      readRows f nodeIndex t is node (is.flatMap (fun i => rowToks f i (data i) none) ++ rest) = .undefined := by
  intro is
  induction is with
  | nil => intro node rest _ h; obtain ⟨i, hi, _⟩ := h; simp at hi
  | cons i is ih =>
    intro node rest h hex
    obtain ⟨h1, h2⟩ := h i List.mem_cons_self
    rw [List.flatMap_cons, List.append_assoc]
    unfold readRows
    by_cases h3 : (data i).Finite
    · rw [readRow_finite f i (data i) h3]
      simp only [h1, h2, if_true]
      apply ih
      · intro k hk
        obtain ⟨k1, k2⟩ := h k (List.mem_cons_of_mem _ hk)
        exact ⟨k1, by rw [List.length_set]; exact k2⟩
      · obtain ⟨k, hk, hf⟩ := hex
        rcases List.mem_cons.mp hk with rfl | hk
        · exact absurd h3 hf
        · exact ⟨k, hk, hf⟩
    · rw [readRow_infinite f i (data i) h3]

/-- assignments at distinct places -/
theorem foldl_set_get {β : Type} (g : ℕ → ℕ) (v : ℕ → β) : ∀ (is : List ℕ) (l : List β), is.Nodup →
    (∀ i ∈ is, ∀ k ∈ is, g i = g k → i = k) → (∀ i ∈ is, g i < l.length) →
    (is.foldl (fun nd i => nd.set (g i) (v i)) l).length = l.length ∧
    (∀ i ∈ is, (is.foldl (fun nd i => nd.set (g i) (v i)) l)[g i]? = some (v i)) ∧
    (∀ j, (∀ i ∈ is, g i ≠ j) → (is.foldl (fun nd i => nd.set (g i) (v i)) l)[j]? = l[j]?) := by
  intro is
  induction is with
  | nil => intro l _ _ _; exact ⟨rfl, by simp, fun j _ => rfl⟩
  | cons a is ih =>
    intro l hnd hinj hlt
    obtain ⟨ha, hnd'⟩ := List.nodup_cons.mp hnd
    obtain ⟨h1, h2, h3⟩ := ih (l.set (g a) (v a)) hnd'
      (fun i hi k hk => hinj i (List.mem_cons_of_mem _ hi) k (List.mem_cons_of_mem _ hk))
      (fun i hi => by rw [List.length_set]; exact hlt i (List.mem_cons_of_mem _ hi))
    simp only [List.foldl_cons]
    refine ⟨by rw [h1, List.length_set], ?_, ?_⟩
    · intro i hi
      rcases List.mem_cons.mp hi with rfl | hi
      · rw [h3 (g i) fun k hk e => ha (by
          rw [← hinj k (List.mem_cons_of_mem _ hk) i List.mem_cons_self e]; exact hk)]
        rw [List.getElem?_set_self (hlt i List.mem_cons_self)]
      · exact h2 i hi
    · intro j hj
      rw [h3 j fun i hi => hj i (List.mem_cons_of_mem _ hi), List.getElem?_set_ne (hj a List.mem_cons_self)]

theorem numbering_get {n : ℕ} {idx : List ℕ} (h : Numbering n idx) (i : ℕ) (hi : i < n) :
    ∃ j, idx[i]? = some j ∧ j < n := by
  have hl : idx.length = n := by simpa using h.length_eq
  refine ⟨idx[i]'(by omega), List.getElem?_eq_getElem (by omega), ?_⟩
  exact List.mem_range.mp (h.mem_iff.mp (List.getElem_mem _))

theorem mapM_some_map {β γ : Type} (k : β → Option γ) (v : β → γ) : ∀ l : List β, (∀ x ∈ l, k x = some (v x)) →
    l.mapM k = some (l.map v) := by
  intro l
  induction l with
  | nil => intro _; rfl
  | cons a l ih =>
    intro h
    rw [List.mapM_cons, h a List.mem_cons_self, ih fun x hx => h x (List.mem_cons_of_mem _ hx)]
    rfl

/-- the rows that are written -/
theorem savesol_rows (f : Format) (meta' : Str) (node : List ND) (idx : List ℕ) (h : Numbering node.length idx) :
    ∃ data : ℕ → ND, (∀ i < node.length, ∃ j, idx[i]? = some j ∧ node[j]? = some (data i)) ∧
      savesol f meta' node idx none =
        some ⟨meta', (List.range node.length).flatMap fun i => rowToks f i (data i) none⟩ := by
  have key : ∀ i < node.length, ∃ j d, idx[i]? = some j ∧ node[j]? = some d := by
    intro i hi
    obtain ⟨j, h1, h2⟩ := numbering_get h i hi
    exact ⟨j, node[j], h1, List.getElem?_eq_getElem h2⟩
  classical
  let dflt : ND := ⟨.nan, .nan, .nan, .nan⟩
  let data : ℕ → ND := fun i => if hi : i < node.length then (key i hi).choose_spec.choose else dflt
  refine ⟨data, ?_, ?_⟩
  · intro i hi
    have e : data i = (key i hi).choose_spec.choose := dif_pos hi
    exact ⟨(key i hi).choose, (key i hi).choose_spec.choose_spec.1, by
      rw [e]; exact (key i hi).choose_spec.choose_spec.2⟩
  · unfold savesol
    rw [mapM_some_map _ (fun i => rowToks f i (data i) none)]
    · rfl
    · intro i hi
      have hi' := List.mem_range.mp hi
      have e : data i = (key i hi').choose_spec.choose := dif_pos hi'
      rw [(key i hi').choose_spec.choose_spec.1]
      show (node[(key i hi').choose]?).bind _ = _
      rw [(key i hi').choose_spec.choose_spec.2, e]
      rfl

/-! ## the header -/

theorem readHeader_tag (f : Format) (l : Str) (ls : List Str) (t : Option ℝ) (h : l.head? = some '#') (r : Str)
    (hr : afterTag timeTag l = some r) :
    readHeader f (l :: ls) t = match f.stod r with
      | none => .exception
      | some t' => readHeader f ls (some t') := by
  rw [readHeader, if_pos (Or.inr h), hr]
  rfl

theorem readHeader_notag (f : Format) (l : Str) (ls : List Str) (t : Option ℝ) (h : l.head? = some '#')
    (hr : afterTag timeTag l = none) : readHeader f (l :: ls) t = readHeader f ls t := by
  rw [readHeader, if_pos (Or.inr h), hr]

theorem readHeader_append (f : Format) : ∀ (a b : List Str) (t : Option ℝ),
    (∀ l ∈ a, l = [] ∨ l.head? = some '#') → (∀ l ∈ a, ∀ r, afterTag timeTag l = some r → f.stod r ≠ none) →
    ∃ t', readHeader f (a ++ b) t = readHeader f b t' := by
  intro a
  induction a with
  | nil => intro b t _ _; exact ⟨t, rfl⟩
  | cons l a ih =>
    intro b t h1 h2
    have ih' := fun t => ih b t (fun x hx => h1 x (List.mem_cons_of_mem _ hx)) fun x hx => h2 x (List.mem_cons_of_mem _ hx)
    have e : readHeader f (l :: (a ++ b)) t =
        match afterTag timeTag l with
        | none => readHeader f (a ++ b) t
        | some r =>
          match f.stod r with
          | none => .exception
          | some t' => readHeader f (a ++ b) (some t') := if_pos (h1 l List.mem_cons_self)
    rw [List.cons_append, e]
    cases hl : afterTag timeTag l with
    | none => exact ih' t
    | some r =>
      cases hr : f.stod r with
      | none => exact absurd hr (h2 l List.mem_cons_self r hl)
      | some t' =>
        simp only [hr]
        exact ih' (some t')

/-- no line of the common part of the header looks like a time that cannot be parsed -/
def TimeReadable (f : Format) (m : Info) : Prop :=
  ∀ c, common m = some c → ∀ l ∈ lines c, ∀ r, afterTag timeTag l = some r → f.stod r ≠ none

theorem readHeader_sol (f : Format) (m : Info) (hm : Clean m) (hs : m.spinAcc = false) (ht : TimeReadable f m) (t t' : ℝ)
    (hn : '\n' ∉ f.time t) (hp : f.stod (' ' :: f.time t) = some t') (header : Str)
    (hh : Metadata.sol m (f.time t) = some header) :
    readHeader f (lines header) none = .time (some t') := by
  unfold Metadata.sol at hh
  cases hc : common m with
  | none => rw [hc] at hh; have h' : (none : Option Str) = some header := hh; exact absurd h' (by simp)
  | some c =>
    rw [hc] at hh
    have e : header = c ++ "## time: ".toList ++ f.time t ++ ['\n'] ++
        "## columns: idx\tmx\tmy\tmz\tphi".toList ++ (if m.spinAcc then "\tsx\tsy\tsz".toList else []) ++ ['\n'] := by
      have h' : some _ = some header := hh
      injection h' with h'
      exact h'.symm
    obtain ⟨h1, a, ea⟩ := common_comments m hm c hc
    have hl : lines header = lines c ++ [timeTag ++ ' ' :: f.time t, "## columns: idx\tmx\tmy\tmz\tphi".toList] := by
      rw [hs] at e
      have e2 : header = a ++ '\n' :: ((timeTag ++ ' ' :: f.time t) ++ '\n' ::
          ("## columns: idx\tmx\tmy\tmz\tphi".toList ++ '\n' :: [])) := by
        rw [e, ea]
        have e3 : "## time: ".toList = timeTag ++ [' '] := by decide
        rw [e3]
        generalize "## columns: idx\tmx\tmy\tmz\tphi".toList = k
        generalize timeTag = tg
        simp
      have hno : '\n' ∉ timeTag ++ ' ' :: f.time t := by
        rw [List.mem_append, not_or]
        refine ⟨by decide, ?_⟩
        intro h
        rcases List.mem_cons.mp h with h | h
        · exact absurd h (by decide)
        · exact hn h
      rw [e2, lines_append_newline, lines_line _ _ hno,
        lines_line "## columns: idx\tmx\tmy\tmz\tphi".toList [] (by decide), ea]
      rfl
    rw [hl]
    obtain ⟨t0, e0⟩ := readHeader_append f (lines c) [timeTag ++ ' ' :: f.time t, "## columns: idx\tmx\tmy\tmz\tphi".toList] none
      (by
        intro l hl
        obtain ⟨r, hr⟩ := h1 l hl
        right; rw [hr]; rfl) (ht c hc)
    rw [e0]
    have htag : afterTag timeTag (timeTag ++ ' ' :: f.time t) = some (' ' :: f.time t) := by
      show afterTag timeTag ('#' :: ("# time:".toList ++ ' ' :: f.time t)) = _
      have hpre : timeTag.isPrefixOf ('#' :: ("# time:".toList ++ ' ' :: f.time t)) = true := rfl
      rw [afterTag, if_pos hpre]
      rfl
    have hcol : afterTag timeTag "## columns: idx\tmx\tmy\tmz\tphi".toList = none := by decide
    have hcolhead : ("## columns: idx\tmx\tmy\tmz\tphi".toList).head? = some '#' := by decide
    have hhead : (timeTag ++ ' ' :: f.time t).head? = some '#' := rfl
    rw [readHeader_tag f _ _ _ hhead _ htag, hp]
    exact readHeader_notag f _ _ _ hcolhead hcol

/-- For every state with finite values, saved without spin accumulation: reading the file back on the same mesh gives
every node (identified by its index in the mesh file) the values saved for it, rounded to the digits of the file, and
the time with the digits of the header. `idx` and `idx'` are the node numberings of the saving and of the reading
program, which may differ. The magnetic state the reading program holds before (`node'`) does not matter.

Missing from the full property: states with NaN values (`C29_negation_nan`), spin accumulation columns
(`C29_negation_spin`), user metadata named `time` (`C29_negation_time`). -/
theorem C29_round_trip_partial (f : Format) (m : Info) (hm : Clean m) (hs : m.spinAcc = false) (ht : TimeReadable f m)
    (t t' : ℝ) (hn : '\n' ∉ f.time t) (hp : f.stod (' ' :: f.time t) = some t') (header : Str)
    (hh : Metadata.sol m (f.time t) = some header)
    (node node' : List ND) (hlen : node'.length = node.length) (idx idx' : List ℕ)
    (h : Numbering node.length idx) (h' : Numbering node.length idx') (hfin : ∀ d ∈ node, d.Finite) :
    ∃ file res, savesol f header node idx none = some file ∧ readSol f node' idx' file = .ok t' res ∧
      res.length = node.length ∧
      ∀ i < node.length, ∃ j j' d, idx[i]? = some j ∧ idx'[i]? = some j' ∧ node[j]? = some d ∧
        res[j']? = some (d.rounded f) := by
  obtain ⟨data, hd, hsave⟩ := savesol_rows f header node idx h
  have hl' : idx'.length = node.length := by simpa using h'.length_eq
  let g : ℕ → ℕ := fun i => (idx'[i]?).getD 0
  have hg : ∀ i < node.length, idx'[i]? = some (g i) ∧ g i < node.length := by
    intro i hi
    obtain ⟨j, h1, h2⟩ := numbering_get h' i hi
    have : g i = j := by show (idx'[i]?).getD 0 = j; rw [h1]; rfl
    rw [this]; exact ⟨h1, h2⟩
  have hinj : ∀ i < node.length, ∀ k < node.length, g i = g k → i = k := by
    intro i hi k hk e
    have hnd : idx'.Nodup := (h'.nodup_iff).mpr List.nodup_range
    have h1 := (hg i hi).1
    have h2 := (hg k hk).1
    rw [List.getElem?_eq_getElem (by omega)] at h1 h2
    have e1 : idx'[i]'(by omega) = idx'[k]'(by omega) := by
      injection h1 with h1; injection h2 with h2; rw [h1, h2, e]
    exact (List.Nodup.getElem_inj_iff hnd).mp e1
  obtain ⟨f1, f2, _⟩ := foldl_set_get g (fun i => (data i).rounded f) (List.range node.length) node' List.nodup_range
    (fun i hi k hk => hinj i (List.mem_range.mp hi) k (List.mem_range.mp hk))
    (fun i hi => by rw [hlen]; exact (hg i (List.mem_range.mp hi)).2)
  refine ⟨_, (List.range node.length).foldl (fun nd i => nd.set (g i) ((data i).rounded f)) node', hsave, ?_,
    f1.trans hlen, ?_⟩
  · unfold readSol
    rw [readHeader_sol f m hm hs ht t t' hn hp header hh, hlen]
    have := readRows_finite f idx' t' data g (List.range node.length) node' [] (by
      intro i hi
      have hi' := List.mem_range.mp hi
      obtain ⟨j, _, hj⟩ := hd i hi'
      exact ⟨(hg i hi').1, by rw [hlen]; exact (hg i hi').2, hfin _ (List.mem_of_getElem? hj)⟩)
    rw [List.append_nil] at this
    exact this
  · intro i hi
    obtain ⟨j, h1, h2⟩ := hd i hi
    exact ⟨j, g i, data i, h1, (hg i hi).1, h2, f2 i (List.mem_range.mpr hi)⟩

theorem readHeader_time (f : Format) : ∀ (ls : List Str) (t0 : Option ℝ) (t : ℝ), readHeader f ls t0 = .time (some t) →
    t0 = some t ∨ ∃ l ∈ ls, ∃ r, afterTag "## time:".toList l = some r ∧ f.stod r = some t := by
  intro ls
  induction ls with
  | nil =>
    intro t0 t h
    injection h with h
    exact Or.inl h
  | cons l ls ih =>
    intro t0 t h
    unfold readHeader at h
    split at h
    · cases ht : afterTag timeTag l with
      | none =>
        rw [ht] at h
        rcases ih t0 t h with h | ⟨k, hk, e⟩
        · exact Or.inl h
        · exact Or.inr ⟨k, List.mem_cons_of_mem _ hk, e⟩
      | some r =>
        rw [ht] at h
        dsimp only at h
        cases hr : f.stod r with
        | none => rw [hr] at h; cases h
        | some t' =>
          rw [hr] at h
          rcases ih _ t h with h | ⟨k, hk, e⟩
          · injection h with h
            subst h
            exact Or.inr ⟨l, List.mem_cons_self, r, ht, hr⟩
          · exact Or.inr ⟨k, List.mem_cons_of_mem _ hk, e⟩
    · cases h

theorem readRow_row {f : Format} {toks rest : List Tok} {k : ℕ} {d : ND} (h : readRow f toks = .row k d rest) :
    d.Finite ∧ toks = [.idx k, .num d.ux, .num d.uy, .num d.uz, .num d.phi] ++ rest := by
  unfold readRow at h
  split at h
  · injection h with h1 h2 h3
    subst h1 h2 h3
    exact ⟨⟨trivial, trivial, trivial, trivial⟩, rfl⟩
  · cases h
  · cases h

theorem readRows_ok (f : Format) (idx : List ℕ) (t t' : ℝ) : ∀ (is : List ℕ) (node res : List ND) (toks : List Tok),
    readRows f idx t is node toks = .ok t' res → t' = t ∧ ∃ (d : ℕ → ND) (rest : List Tok),
      (is.Nodup → toks = is.flatMap (fun i => [.idx i, .num (d i).ux, .num (d i).uy, .num (d i).uz, .num (d i).phi]) ++ rest) ∧
      (∀ i ∈ is, (d i).Finite) := by
  intro is
  induction is with
  | nil =>
    intro node res toks h
    injection h with h1 h2
    exact ⟨h1.symm, fun _ => ⟨.fin 0, .fin 0, .fin 0, .fin 0⟩, toks, fun _ => rfl, by simp⟩
  | cons i is ih =>
    intro node res toks h
    unfold readRows at h
    cases hr : readRow f toks with
    | failed => rw [hr] at h; cases h
    | lead k => rw [hr] at h; dsimp only at h; split at h <;> cases h
    | row k d rest =>
      rw [hr] at h
      dsimp only at h
      cases hj : idx[i]? with
      | none => rw [hj] at h; cases h
      | some j =>
        rw [hj] at h
        dsimp only at h
        split at h
        · rename_i hk
          split at h
          · obtain ⟨ht, d', rest', e, hf⟩ := ih _ _ _ h
            obtain ⟨hd, et⟩ := readRow_row hr
            subst hk
            refine ⟨ht, fun m => if m = k then d else d' m, rest', ?_, ?_⟩
            · intro hnd
              obtain ⟨hni, hnd⟩ := List.nodup_cons.mp hnd
              rw [et, e hnd, List.flatMap_cons, List.append_assoc]
              dsimp only
              rw [if_pos rfl]
              congr 2
              apply List.flatMap_congr
              intro m hm
              rw [if_neg (fun e : m = k => hni (e ▸ hm))]
            · intro m hm
              dsimp only
              by_cases e : m = k
              · rw [if_pos e]; exact hd
              · rw [if_neg e]
                rcases List.mem_cons.mp hm with hm | hm
                · exact absurd hm e
                · exact hf m hm
          · cases h
        · cases h

/-- Only a file with a readable time, and with rows for the nodes 0, 1, … in this order, each of them with four finite numbers, is
accepted: a file that is too short or has its rows in another order does not silently give a magnetization. -/
theorem C29_accepted (f : Format) (node res : List ND) (idx : List ℕ) (file : File) (t : ℝ)
    (h : readSol f node idx file = .ok t res) :
    (∃ l ∈ lines file.header, ∃ r, afterTag "## time:".toList l = some r ∧ f.stod r = some t) ∧
    ∃ (d : ℕ → ND) (rest : List Tok), (∀ i < node.length, (d i).Finite) ∧
      file.toks = (List.range node.length).flatMap
        (fun i => [.idx i, .num (d i).ux, .num (d i).uy, .num (d i).uz, .num (d i).phi]) ++ rest := by
  unfold readSol at h
  cases hh : readHeader f (lines file.header) none with
  | exception => rw [hh] at h; cases h
  | stopped => rw [hh] at h; cases h
  | time t0 =>
    rw [hh] at h
    cases t0 with
    | none => cases h
    | some t1 =>
      obtain ⟨ht, d, rest, e, hf⟩ := readRows_ok f idx t1 t _ _ _ _ h
      subst ht
      refine ⟨?_, d, rest, fun i hi => hf i (List.mem_range.mpr hi), e List.nodup_range⟩
      rcases readHeader_time f _ _ _ hh with h | h
      · cases h
      · exact h

/-- **C29** (what is not checked) Rows after those of the nodes of the mesh are ignored: the file of a larger mesh is accepted. -/
theorem C29_negation_longer (f : Format) (node res : List ND) (idx : List ℕ) (file : File) (t : ℝ) (more : List Tok)
    (h : readSol f node idx file = .ok t res) : readSol f node idx { file with toks := file.toks ++ more } = .ok t res := by
  have row : ∀ {toks rest : List Tok} {k : ℕ} {d : ND}, readRow f toks = .row k d rest →
      readRow f (toks ++ more) = .row k d (rest ++ more) := by
    intro toks rest k d h
    unfold readRow at h
    split at h
    · injection h with h1 h2 h3
      subst h1 h2 h3
      rfl
    · cases h
    · cases h
  have rows : ∀ (t1 : ℝ) (is : List ℕ) (node res : List ND) (toks : List Tok), readRows f idx t1 is node toks = .ok t res →
      readRows f idx t1 is node (toks ++ more) = .ok t res := by
    intro t1 is
    induction is with
    | nil => intro node res toks h; exact h
    | cons i is ih =>
      intro node res toks h
      unfold readRows at h ⊢
      cases hr : readRow f toks with
      | failed => rw [hr] at h; cases h
      | lead k => rw [hr] at h; dsimp only at h; split at h <;> cases h
      | row k d rest =>
        rw [hr] at h
        rw [row hr]
        dsimp only at h ⊢
        cases hj : idx[i]? with
        | none => rw [hj] at h; cases h
        | some j =>
          rw [hj] at h
          dsimp only at h ⊢
          split at h
          · rename_i hk
            rw [if_pos hk]
            split at h
            · rename_i hl
              rw [if_pos hl]
              exact ih _ _ _ h
            · cases h
          · cases h
  unfold readSol at h ⊢
  dsimp only
  cases hh : readHeader f (lines file.header) none with
  | exception => rw [hh] at h; cases h
  | stopped => rw [hh] at h; cases h
  | time t0 =>
    rw [hh] at h
    cases t0 with
    | none => cases h
    | some t1 => exact rows t1 _ _ _ _ h

/-- a file with one node and its time is accepted -/
example : readSol ⟨id, fun _ => [], fun _ => some 5, fun _ => 0⟩ [⟨.nan, .nan, .nan, .nan⟩] [0]
    ⟨"## time: 5".toList, [.idx 0, .num (.fin 0), .num (.fin 0), .num (.fin 1), .num (.fin 0)]⟩ =
    .ok 5 [⟨.fin 0, .fin 0, .fin 1, .fin 0⟩] := by
  have e : lines "## time: 5".toList = ["## time: 5".toList] := by decide
  have t : afterTag timeTag "## time: 5".toList = some " 5".toList := by decide
  unfold readSol
  dsimp only
  rw [e]
  have hh : ("## time: 5".toList).head? = some '#' := by decide
  have : readHeader ⟨id, fun _ => [], fun _ => some 5, fun _ => 0⟩ ["## time: 5".toList] none = .time (some 5) := by
    rw [readHeader_tag _ _ _ _ hh _ t]
    rfl
  rw [this]
  rfl

/-- If the decimal digits are enough to represent the saved numbers, the restored values are the saved ones. -/
theorem C29_exact (f : Format) (d : ND) (hd : d.Finite)
    (h : ∀ x, d.ux = .fin x ∨ d.uy = .fin x ∨ d.uz = .fin x ∨ d.phi = .fin x → f.row x = x) : d.rounded f = d := by
  obtain ⟨ux, uy, uz, phi⟩ := d
  obtain ⟨h1, h2, h3, h4⟩ := hd
  cases ux with
  | nan => exact h1.elim
  | inf _ => exact h1.elim
  | fin a =>
    cases uy with
    | nan => exact h2.elim
    | inf _ => exact h2.elim
    | fin b =>
      cases uz with
      | nan => exact h3.elim
      | inf _ => exact h3.elim
      | fin c =>
        cases phi with
        | nan => exact h4.elim
        | inf _ => exact h4.elim
        | fin e =>
          show (⟨.fin (f.row a), .fin (f.row b), .fin (f.row c), .fin (f.row e)⟩ : ND) = _
          rw [h a (Or.inl rfl), h b (Or.inr (Or.inl rfl)), h c (Or.inr (Or.inr (Or.inl rfl))), h e (Or.inr (Or.inr (Or.inr rfl)))]

/-- A state with a value that is not finite at some node (all nodes outside of the magnetic regions have NaN
magnetization) cannot be read back: the extraction of the word `nan` fails and uninitialised variables are used. -/
theorem C29_negation_nan (f : Format) (m : Info) (hm : Clean m) (hs : m.spinAcc = false) (ht : TimeReadable f m)
    (t t' : ℝ) (hn : '\n' ∉ f.time t) (hp : f.stod (' ' :: f.time t) = some t') (header : Str)
    (hh : Metadata.sol m (f.time t) = some header)
    (node node' : List ND) (hlen : node'.length = node.length) (idx idx' : List ℕ)
    (h : Numbering node.length idx) (h' : Numbering node.length idx') (hinf : ∃ d ∈ node, ¬ d.Finite) :
    ∃ file, savesol f header node idx none = some file ∧ readSol f node' idx' file = .undefined := by
  obtain ⟨data, hd, hsave⟩ := savesol_rows f header node idx h
  have hl : idx.length = node.length := by simpa using h.length_eq
  let g : ℕ → ℕ := fun i => (idx'[i]?).getD 0
  have hg : ∀ i < node.length, idx'[i]? = some (g i) ∧ g i < node.length := by
    intro i hi
    obtain ⟨j, h1, h2⟩ := numbering_get h' i hi
    have : g i = j := by show (idx'[i]?).getD 0 = j; rw [h1]; rfl
    rw [this]; exact ⟨h1, h2⟩
  refine ⟨_, hsave, ?_⟩
  unfold readSol
  rw [readHeader_sol f m hm hs ht t t' hn hp header hh, hlen]
  have := readRows_infinite f idx' t' data g (List.range node.length) node' [] (by
      intro i hi
      have hi' := List.mem_range.mp hi
      exact ⟨(hg i hi').1, by rw [hlen]; exact (hg i hi').2⟩) (by
      obtain ⟨d, hdm, hdn⟩ := hinf
      obtain ⟨j, hj, e⟩ := List.getElem_of_mem hdm
      obtain ⟨i, hi, e'⟩ := List.getElem_of_mem (h.mem_iff.mpr (List.mem_range.mpr hj))
      refine ⟨i, List.mem_range.mpr (by omega), ?_⟩
      obtain ⟨j', k1, k2⟩ := hd i (by omega)
      rw [List.getElem?_eq_getElem hi, e'] at k1
      injection k1 with k1
      rw [← k1, List.getElem?_eq_getElem hj, e] at k2
      injection k2 with k2
      rw [← k2]; exact hdn)
  rw [List.append_nil] at this
  exact this

/-- A file saved with spin accumulation columns is rejected with an index mismatch as soon as the mesh has two nodes
and the first digits of the spin of node 0 are not `1` (in particular if the spin accumulation is 0). -/
theorem C29_negation_spin (f : Format) (header : Str) (t : ℝ) (hh : readHeader f (lines header) none = .time (some t))
    (a b : ND) (ha : a.Finite) (sx : ℝ) (sy sz : Fl) (s1 : Fl × Fl × Fl) (hlead : f.lead (f.row sx) ≠ 1)
    (node' : List ND) (hlen : node'.length = 2) :
    ∃ file, savesol f header [a, b] [0, 1] (some [(.fin sx, sy, sz), s1]) = some file ∧
      readSol f node' [0, 1] file = .exit := by
  refine ⟨_, rfl, ?_⟩
  unfold readSol
  rw [hh, hlen]
  show readRows f [0, 1] t [0, 1] node' (rowToks f 0 a (some (.fin sx, sy, sz)) ++ rowToks f 1 b (some s1) ++ []) = .exit
  have e : rowToks f 0 a (some (.fin sx, sy, sz)) ++ rowToks f 1 b (some s1) ++ [] =
    rowToks f 0 a none ++ (Tok.num (.fin (f.row sx)) :: (.num (print f sy) :: .num (print f sz) :: rowToks f 1 b (some s1))) := by
    rw [List.append_nil]; rfl
  rw [e, readRows, readRow_finite f 0 a ha]
  show (if 0 = 0 then if 0 < node'.length then readRows f [0, 1] t [1] (node'.set 0 (a.rounded f))
    (Tok.num (.fin (f.row sx)) :: (.num (print f sy) :: .num (print f sz) :: rowToks f 1 b (some s1))) else .undefined else .exit) = .exit
  rw [if_pos rfl, if_pos (by omega)]
  show (if f.lead (f.row sx) = 1 then Outcome.undefined else .exit) = .exit
  rw [if_neg hlead]

/-- A user metadata item named `time` whose value is not a number makes the file unreadable. -/
theorem C29_negation_time (f : Format) (v : Str) (hv : '\n' ∉ v) (hne : v ≠ []) (hstod : f.stod (' ' :: v) = none) (t : ℝ) :
    ∃ header, Metadata.sol (plain [("time".toList, v)]) (f.time t) = some header ∧
      ∀ node idx toks, readSol f node idx ⟨header, toks⟩ = .exception := by
  obtain ⟨header, hh⟩ := (C51_defined (plain [("time".toList, v)])
    (by intro i hi; simp only [plain, List.mem_singleton] at hi; rw [hi]; exact hne) (by simp [plain])).2 (f.time t)
  refine ⟨header, hh, ?_⟩
  have hitem : userItem ("time".toList, v) = some (timeTag ++ ' ' :: v ++ ['\n']) := by
    unfold userItem
    obtain ⟨last, hlast⟩ : ∃ x, v.getLast? = some x := ⟨v.getLast hne, List.getLast?_eq_some_getLast hne⟩
    show (match v.getLast? with
      | none => none
      | some last => _) = _
    rw [hlast]
    have hl : last ≠ '\n' := fun e => hv (e ▸ List.mem_of_getLast? hlast)
    show some ("## ".toList ++ "time".toList ++ ": ".toList ++ replace ['\n'] "\n##  ".toList (if last = '\n' then v.dropLast else v) ++ ['\n']) = _
    rw [if_neg hl, replace_char]
    have : (v.flatMap fun c => if c = '\n' then "\n##  ".toList else [c]) = v := by
      clear hlast hne hstod hh
      induction v with
      | nil => rfl
      | cons c v ih =>
        rw [List.flatMap_cons, ih fun h => hv (List.mem_cons_of_mem _ h), if_neg fun e => hv (by rw [e]; exact List.mem_cons_self)]
        rfl
    rw [this]
    have e : "## ".toList ++ "time".toList ++ ": ".toList = timeTag ++ [' '] := by decide
    rw [e]
    simp
  have hcommon : ∃ rest, header = "## feeLLGood version: 1".toList ++ '\n' :: ("## real-world time: now".toList ++ '\n' ::
      ("## settings file: s.yml".toList ++ '\n' :: ((timeTag ++ ' ' :: v) ++ '\n' :: rest))) := by
    unfold Metadata.sol common at hh
    have hm : (plain [("time".toList, v)]).user.mapM userItem = some [timeTag ++ ' ' :: v ++ ['\n']] := by
      show [("time".toList, v)].mapM userItem = _
      rw [List.mapM_cons, hitem]; rfl
    rw [hm] at hh
    have h' : some _ = some header := hh
    injection h' with h'
    refine ⟨"## time: ".toList ++ f.time t ++ ['\n'] ++ "## columns: idx\tmx\tmy\tmz\tphi".toList ++ [] ++ ['\n'], ?_⟩
    rw [← h']
    show "## feeLLGood version: ".toList ++ "1".toList ++ ['\n'] ++ [] ++ "## real-world time: ".toList ++ "now".toList ++ ['\n'] ++
      "## settings file: ".toList ++ "s.yml".toList ++ ['\n'] ++ [timeTag ++ ' ' :: v ++ ['\n']].flatten ++
      "## time: ".toList ++ f.time t ++ ['\n'] ++ "## columns: idx\tmx\tmy\tmz\tphi".toList ++ [] ++ ['\n'] = _
    have e1 : "## feeLLGood version: ".toList ++ "1".toList = "## feeLLGood version: 1".toList := by decide
    have e2 : "## real-world time: ".toList ++ "now".toList = "## real-world time: now".toList := by decide
    have e3 : "## settings file: ".toList ++ "s.yml".toList = "## settings file: s.yml".toList := by decide
    rw [← e1, ← e2, ← e3]
    generalize "## feeLLGood version: ".toList = k1
    generalize "## real-world time: ".toList = k2
    generalize "## settings file: ".toList = k3
    generalize "## time: ".toList = k4
    generalize "## columns: idx\tmx\tmy\tmz\tphi".toList = k5
    generalize timeTag = k6
    generalize "1".toList = k7
    generalize "now".toList = k8
    generalize "s.yml".toList = k9
    simp
  obtain ⟨rest, e⟩ := hcommon
  intro node idx toks
  unfold readSol
  have hlines : lines header = "## feeLLGood version: 1".toList :: "## real-world time: now".toList ::
      "## settings file: s.yml".toList :: (timeTag ++ ' ' :: v) :: lines rest := by
    rw [e, lines_line _ _ (by decide), lines_line _ _ (by decide), lines_line _ _ (by decide), lines_line]
    rw [List.mem_append, not_or]
    refine ⟨by decide, ?_⟩
    intro h
    rcases List.mem_cons.mp h with h | h
    · exact absurd h (by decide)
    · exact hv h
  have n1 : afterTag timeTag "## feeLLGood version: 1".toList = none := by decide
  have n2 : afterTag timeTag "## real-world time: now".toList = none := by decide
  have n3 : afterTag timeTag "## settings file: s.yml".toList = none := by decide
  have htag : afterTag timeTag (timeTag ++ ' ' :: v) = some (' ' :: v) := by
    show afterTag timeTag ('#' :: ("# time:".toList ++ ' ' :: v)) = _
    have hpre : timeTag.isPrefixOf ('#' :: ("# time:".toList ++ ' ' :: v)) = true := rfl
    rw [afterTag, if_pos hpre]
    rfl
  have hx : readHeader f (lines header) none = .exception := by
    have hhead : (timeTag ++ ' ' :: v).head? = some '#' := rfl
    rw [hlines, readHeader_notag f _ _ _ (by decide) n1, readHeader_notag f _ _ _ (by decide) n2,
      readHeader_notag f _ _ _ (by decide) n3, readHeader_tag f _ _ _ hhead _ htag, hstod]
  dsimp only
  rw [hx]

/-- the hypotheses of `C29_round_trip_partial` are met with two nodes stored in reverse order, and user metadata -/
example : ∃ (f : Format) (m : Info) (t t' : ℝ) (header : Str) (node : List ND) (idx : List ℕ),
    Clean m ∧ m.user ≠ [] ∧ m.spinAcc = false ∧ TimeReadable f m ∧ '\n' ∉ f.time t ∧
    f.stod (' ' :: f.time t) = some t' ∧ Metadata.sol m (f.time t) = some header ∧
    node.length = 2 ∧ Numbering node.length idx ∧ ∀ d ∈ node, d.Finite := by
  refine ⟨⟨id, fun _ => "5".toList, fun s => if s = " 5".toList then some 5 else none, fun _ => 0⟩,
    plain [("a".toList, "b".toList)], 5, 5, _,
    [⟨.fin 1, .fin 0, .fin 0, .fin 7⟩, ⟨.fin 0, .fin 1, .fin 0, .fin 8⟩], [1, 0], ?_, by simp [plain], rfl, ?_, ?_, ?_,
    rfl, rfl, ?_, ?_⟩
  · refine ⟨by decide, ?_, by decide, by decide, ?_, ?_⟩
    · intro h e; exact absurd e (by simp [plain])
    · intro item hi
      simp only [plain, List.mem_singleton] at hi
      rw [hi]; decide
    · intro c hc
      simp only [plain, List.mem_singleton] at hc
      rw [hc]; decide
  · intro c hc l hl r hr
    exfalso
    have h0 : replace ['\n'] "\n##  ".toList "b".toList = "b".toList := by rw [replace_char]; decide
    have hi : userItem ("a".toList, "b".toList) = some "## a: b\n".toList := by
      show some ("## ".toList ++ "a".toList ++ ": ".toList ++ replace ['\n'] "\n##  ".toList "b".toList ++ ['\n']) = _
      rw [h0]; decide
    have hm : (plain [("a".toList, "b".toList)]).user.mapM userItem = some ["## a: b\n".toList] := by
      show [("a".toList, "b".toList)].mapM userItem = _
      rw [List.mapM_cons, hi]; rfl
    unfold common at hc
    rw [hm] at hc
    have h' : some _ = some c := hc
    injection h' with h'
    rw [← h'] at hl
    have key : ∀ l ∈ lines ("## feeLLGood version: ".toList ++ "1".toList ++ ['\n'] ++ [] ++ "## real-world time: ".toList ++ "now".toList ++ ['\n'] ++
      "## settings file: ".toList ++ "s.yml".toList ++ ['\n'] ++ ["## a: b\n".toList].flatten), afterTag timeTag l = none := by
      decide
    have := key l hl
    rw [this] at hr
    exact absurd hr (by simp)
  · show '\n' ∉ "5".toList
    decide
  · have e : ' ' :: "5".toList = " 5".toList := by decide
    show (if ' ' :: "5".toList = " 5".toList then some (5 : ℝ) else none) = some 5
    rw [if_pos e]
  · exact List.Perm.swap 0 1 []
  · intro d hd
    rcases List.mem_cons.mp hd with rfl | hd
    · exact ⟨trivial, trivial, trivial, trivial⟩
    · rw [List.mem_singleton.mp hd]
      exact ⟨trivial, trivial, trivial, trivial⟩

end Verif.SolFile
