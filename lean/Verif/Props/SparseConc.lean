import Mathlib.Algebra.BigOperators.Fin
import Mathlib.Algebra.BigOperators.Pi
import Mathlib.Algebra.BigOperators.Group.Finset.Basic
import Mathlib.Tactic.Abel
import Mathlib.Tactic.FinCases
import Verif.Model.SparseConc
import Verif.Proofs.SparseMat

/-!
# C20: concurrent assembly
-/

namespace Verif.SparseConc

open Verif.SparseMat

variable {α : Type} {T : ℕ}

/-- specification: sum of the values that the calls of `l` add at cell `(i, k)` -/
def addedAt [AddCommMonoid α] (look : ℕ → ℕ → ℕ) (l : List (Call α)) (i k : ℕ) : α :=
  (l.map fun c => if c.i = i ∧ look c.i c.j = k then c.v else 0).sum

/-- specification: sum of the values that the calls of `l` add at position `(i, j)` of the matrix -/
def addedTo [AddCommMonoid α] (l : List (Call α)) (i j : ℕ) : α :=
  (l.map fun c => if c.i = i ∧ c.j = j then c.v else 0).sum

/-- calls whose store is still to come -/
def pending (th : Thread α) : List (Call α) :=
  match th.phase with
  | .stored _ => th.todo.tail
  | _ => th.todo

/-- the row whose mutex a thread holds -/
def holds (th : Thread α) : Option ℕ :=
  match th.todo, th.phase with
  | c :: _, .locked _ => some c.i
  | c :: _, .loaded _ _ => some c.i
  | c :: _, .stored _ => some c.i
  | _, _ => none

/-- local consistency of a thread -/
def Thread.Ok (look : ℕ → ℕ → ℕ) (mem : ℕ → ℕ → α) (th : Thread α) : Prop :=
  match th.todo, th.phase with
  | _, .idle => True
  | [], _ => False
  | c :: _, .found k => k = look c.i c.j
  | c :: _, .locked k => k = look c.i c.j
  | c :: _, .loaded k x => k = look c.i c.j ∧ x = mem c.i k
  | c :: _, .stored k => k = look c.i c.j

structure Inv [AddCommMonoid α] (look : ℕ → ℕ → ℕ) (tot : ℕ → ℕ → α) (s : St α T) : Prop where
  sum : ∀ i k, s.mem i k + ∑ t, addedAt look (pending (s.thr t)) i k = tot i k
  ok : ∀ t, (s.thr t).Ok look s.mem
  mutex : ∀ i t, s.lock i = some t ↔ holds (s.thr t) = some i

theorem sum_update [AddCommMonoid α] (f : Fin T → Thread α) (t : Fin T) (th : Thread α) (g : Thread α → α)
    (h : g th = g (f t)) : ∑ t', g (Function.update f t th t') = ∑ t', g (f t') := by
  refine Finset.sum_congr rfl fun t' _ => ?_
  by_cases e : t' = t
  · subst e; simp [h]
  · simp [e]

theorem inv_step [AddCommMonoid α] {look : ℕ → ℕ → ℕ} {tot : ℕ → ℕ → α} {s s' : St α T} {t : Fin T}
    (hI : Inv look tot s) (hs : Step look s t s') : Inv look tot s' := by
  have upd_ok : ∀ (th : Thread α), th.Ok look s.mem → ∀ t', (Function.update s.thr t th t').Ok look s.mem := by
    intro th hth t'
    by_cases e : t' = t
    · subst e; simpa using hth
    · simpa [e] using hI.ok t'
  have upd_mutex : ∀ (th : Thread α), holds th = holds (s.thr t) →
      ∀ i t', s.lock i = some t' ↔ holds (Function.update s.thr t th t') = some i := by
    intro th hth i t'
    by_cases e : t' = t
    · subst e; simp only [Function.update_self]; rw [hth]; exact hI.mutex i t'
    · simpa [e] using hI.mutex i t'
  have upd_sum : ∀ (th : Thread α), pending th = pending (s.thr t) →
      ∀ i k, s.mem i k + ∑ t', addedAt look (pending (Function.update s.thr t th t')) i k = tot i k := by
    intro th hth i k
    rw [sum_update s.thr t th (fun th => addedAt look (pending th) i k) (by simp [hth])]
    exact hI.sum i k
  cases hs with
  | find c rest h =>
    refine ⟨upd_sum _ (by simp [pending, h]), upd_ok _ (by simp [Thread.Ok]), upd_mutex _ (by simp [holds, h])⟩
  | lock c rest k h free =>
    have hk : k = look c.i c.j := by
      have := hI.ok t; simpa [Thread.Ok, h] using this
    refine ⟨upd_sum _ (by simp [pending, h]), upd_ok _ (by simp [Thread.Ok, hk]), ?_⟩
    intro i t'
    dsimp only
    by_cases e : t' = t
    · subst e
      simp only [Function.update_self]
      by_cases ei : i = c.i
      · subst ei; simp [holds]
      · rw [Function.update_of_ne ei, hI.mutex]
        simp [holds, h, Ne.symm ei]
    · rw [Function.update_of_ne e]
      by_cases ei : i = c.i
      · subst ei
        simp only [Function.update_self]
        have := hI.mutex c.i t'
        rw [free] at this
        constructor
        · intro hc; exact absurd (Option.some.inj hc).symm e
        · intro hc; rw [hc] at this; simp at this
      · rw [Function.update_of_ne ei, hI.mutex]
  | load c rest k h =>
    have hk : k = look c.i c.j := by
      have := hI.ok t; simpa [Thread.Ok, h] using this
    exact ⟨upd_sum _ (by simp [pending, h]), upd_ok _ (by simp [Thread.Ok, hk]), upd_mutex _ (by simp [holds, h])⟩
  | store c rest k x h =>
    have hok : k = look c.i c.j ∧ x = s.mem c.i k := by
      have := hI.ok t; simpa [Thread.Ok, h] using this
    have hlock : s.lock c.i = some t := (hI.mutex c.i t).mpr (by simp [holds, h])
    refine ⟨?_, ?_, upd_mutex _ (by simp [holds, h])⟩
    · intro i k'
      have h0 := hI.sum i k'
      have hsplit : ∀ f : Fin T → Thread α, ∑ t', addedAt look (pending (f t')) i k' =
          addedAt look (pending (f t)) i k' + ∑ t' ∈ Finset.univ.erase t, addedAt look (pending (f t')) i k' :=
        fun f => (Finset.add_sum_erase _ _ (Finset.mem_univ t)).symm
      rw [hsplit] at h0
      show wr s.mem c.i k (x + c.v) i k' + ∑ t', addedAt look (pending (Function.update s.thr t _ t')) i k' = _
      rw [hsplit (Function.update s.thr t _)]
      have hrest : ∑ t' ∈ Finset.univ.erase t, addedAt look (pending (Function.update s.thr t ⟨c :: rest, .stored k⟩ t')) i k' =
          ∑ t' ∈ Finset.univ.erase t, addedAt look (pending (s.thr t')) i k' := by
        refine Finset.sum_congr rfl fun t' ht' => ?_
        rw [Function.update_of_ne (Finset.ne_of_mem_erase ht')]
      rw [hrest, Function.update_self, ← h0]
      have hp : addedAt look (pending (s.thr t)) i k' =
          (if c.i = i ∧ look c.i c.j = k' then c.v else 0) + addedAt look rest i k' := by
        rw [h]; simp [pending, addedAt]
      have hp' : addedAt look (pending (⟨c :: rest, .stored k⟩ : Thread α)) i k' = addedAt look rest i k' := rfl
      rw [hp, hp']
      unfold wr
      by_cases e : i = c.i ∧ k' = k
      · obtain ⟨rfl, rfl⟩ := e
        rw [if_pos ⟨rfl, rfl⟩, if_pos ⟨rfl, hok.1.symm⟩, hok.2]
        abel
      · rw [if_neg e, if_neg (by rintro ⟨a, b⟩; exact e ⟨a.symm, by rw [← b, hok.1]⟩)]
        abel
    · intro t'
      dsimp only
      by_cases e : t' = t
      · subst e
        simp [Thread.Ok, hok.1]
      · rw [Function.update_of_ne e]
        have ht := hI.ok t'
        have hm := hI.mutex c.i t'
        rw [hlock] at hm
        have hne : holds (s.thr t') ≠ some c.i := by
          intro hc
          exact e (Option.some.inj (hm.mpr hc)).symm
        revert ht hne
        generalize s.thr t' = th
        obtain ⟨todo, phase⟩ := th
        cases todo with
        | nil => cases phase <;> exact fun h _ => h
        | cons c' rest' =>
          cases phase with
          | loaded k2 x2 =>
            intro ht hne
            refine ⟨ht.1, ?_⟩
            have : c'.i ≠ c.i := fun hc => hne (by simp [holds, hc])
            show x2 = wr s.mem c.i k (x + c.v) c'.i k2
            rw [wr, if_neg (by rintro ⟨a, _⟩; exact this a)]
            exact ht.2
          | idle => exact fun h _ => h
          | found _ => exact fun h _ => h
          | locked _ => exact fun h _ => h
          | stored _ => exact fun h _ => h
  | unlock c rest k h =>
    have hlock : s.lock c.i = some t := (hI.mutex c.i t).mpr (by simp [holds, h])
    refine ⟨upd_sum _ (by simp [pending, h]), upd_ok _ (by simp [Thread.Ok]), ?_⟩
    intro i t'
    dsimp only
    by_cases e : t' = t
    · subst e
      simp only [Function.update_self]
      by_cases ei : i = c.i
      · subst ei; simp [holds]
      · rw [Function.update_of_ne ei, hI.mutex]
        simp [holds, h, Ne.symm ei]
    · rw [Function.update_of_ne e]
      by_cases ei : i = c.i
      · subst ei
        simp only [Function.update_self]
        have := hI.mutex c.i t'
        rw [hlock] at this
        constructor
        · intro hc; cases hc
        · intro hc
          exact absurd (Option.some.inj (this.mpr hc)).symm e
      · rw [Function.update_of_ne ei, hI.mutex]

theorem inv_reach [AddCommMonoid α] {look : ℕ → ℕ → ℕ} {mem : ℕ → ℕ → α} {prog : Fin T → List (Call α)}
    {s : St α T} (h : Reach look (start mem prog) s) :
    Inv look (fun i k => mem i k + ∑ t, addedAt look (prog t) i k) s := by
  induction h with
  | init =>
    refine ⟨fun i k => rfl, fun t => by simp [start, Thread.Ok], ?_⟩
    intro i t
    simp [start, holds]
  | step t _ hs ih => exact inv_step ih hs

/-- **C20**: in every interleaving, when all threads are done every coefficient holds its initial value
plus the sum of all values added to it: no update is lost. -/
theorem C20_no_lost_update [AddCommMonoid α] (look : ℕ → ℕ → ℕ) (mem : ℕ → ℕ → α)
    (prog : Fin T → List (Call α)) (s : St α T) (h : Reach look (start mem prog) s) (hd : Done s) (i k : ℕ) :
    s.mem i k = mem i k + ∑ t, addedAt look (prog t) i k := by
  have hI := inv_reach h
  have h0 := hI.sum i k
  have : ∀ t, addedAt look (pending (s.thr t)) i k = 0 := by
    intro t
    have hp : pending (s.thr t) = [] := by
      unfold pending
      split <;> simp [hd t]
    rw [hp]; rfl
  simp only [this, Finset.sum_const_zero, add_zero] at h0
  exact h0

/-- **C20**: mutual exclusion: two threads never hold the mutex of the same row, and a thread reads or
writes a coefficient only while it holds the mutex of its row (no data race). -/
theorem C20_mutual_exclusion [AddCommMonoid α] (look : ℕ → ℕ → ℕ) (mem : ℕ → ℕ → α)
    (prog : Fin T → List (Call α)) (s : St α T) (h : Reach look (start mem prog) s) (t t' : Fin T) (i : ℕ)
    (h1 : holds (s.thr t) = some i) (h2 : holds (s.thr t') = some i) : t = t' := by
  have hI := inv_reach h
  have e1 := (hI.mutex i t).mpr h1
  have e2 := (hI.mutex i t').mpr h2
  rw [e1] at e2
  exact Option.some.inj e2

/-- **C20**: no deadlock: as long as some thread has not finished, some thread can make a step. -/
theorem C20_no_deadlock [AddCommMonoid α] (look : ℕ → ℕ → ℕ) (mem : ℕ → ℕ → α)
    (prog : Fin T → List (Call α)) (s : St α T) (h : Reach look (start mem prog) s) (hd : ¬ Done s) :
    ∃ t s', Step look s t s' := by
  have hI := inv_reach h
  unfold Done at hd
  push Not at hd
  obtain ⟨t, ht⟩ := hd
  cases hth : s.thr t with
  | mk todo phase =>
    cases htodo : todo with
    | nil => rw [hth, htodo] at ht; exact absurd rfl ht
    | cons c rest =>
      subst htodo
      cases phase with
      | idle => exact ⟨t, _, .find c rest hth⟩
      | locked k => exact ⟨t, _, .load c rest k hth⟩
      | loaded k x => exact ⟨t, _, .store c rest k x hth⟩
      | stored k => exact ⟨t, _, .unlock c rest k hth⟩
      | found k =>
        cases hl : s.lock c.i with
        | none => exact ⟨t, _, .lock c rest k hth hl⟩
        | some t' =>
          -- the owner of the mutex can proceed
          have hh := (hI.mutex c.i t').mp hl
          cases hth' : s.thr t' with
          | mk todo' phase' =>
            rw [hth'] at hh
            cases todo' with
            | nil => simp [holds] at hh
            | cons c' rest' =>
              cases phase' with
              | idle => simp [holds] at hh
              | found _ => simp [holds] at hh
              | locked k => exact ⟨t', _, .load c' rest' k hth'⟩
              | loaded k x => exact ⟨t', _, .store c' rest' k x hth'⟩
              | stored k => exact ⟨t', _, .unlock c' rest' k hth'⟩

/-- steps left to a thread -/
def work (th : Thread α) : ℕ :=
  5 * th.todo.length - match th.phase with
    | .idle => 0 | .found _ => 1 | .locked _ => 2 | .loaded _ _ => 3 | .stored _ => 4

/-- **C20**: every schedule ends: each step decreases the total work left by one. -/
theorem C20_terminates [Add α] (look : ℕ → ℕ → ℕ) (s s' : St α T) (t : Fin T) (h : Step look s t s') :
    ∑ t, work (s'.thr t) + 1 = ∑ t, work (s.thr t) := by
  have key : ∀ th : Thread α, work th + 1 = work (s.thr t) →
      ∑ t', work (Function.update s.thr t th t') + 1 = ∑ t', work (s.thr t') := by
    intro th hw
    rw [← Finset.add_sum_erase _ _ (Finset.mem_univ t), ← Finset.add_sum_erase _ (fun t' => work (s.thr t')) (Finset.mem_univ t)]
    have : ∑ t' ∈ Finset.univ.erase t, work (Function.update s.thr t th t') =
        ∑ t' ∈ Finset.univ.erase t, work (s.thr t') :=
      Finset.sum_congr rfl fun t' ht' => by rw [Function.update_of_ne (Finset.ne_of_mem_erase ht')]
    rw [this, Function.update_self]
    omega
  cases h with
  | find c rest h => exact key _ (by rw [h]; simp [work]; omega)
  | lock c rest k h _ => exact key _ (by rw [h]; simp [work]; omega)
  | load c rest k h => exact key _ (by rw [h]; simp [work]; omega)
  | store c rest k x h => exact key _ (by rw [h]; simp [work]; omega)
  | unlock c rest k h => exact key _ (by rw [h]; simp [work]; omega)

/-! ## in terms of the matrix -/

theorem withMem_get [Zero α] {shape : Shape} {m : Sp α} (w : m.WF shape) (mem : ℕ → ℕ → α) {i j : ℕ}
    (h : InShape shape i j) : (withMem m mem).get i j = some (mem i (lookOf m i j)) := by
  obtain ⟨s, hs, hj⟩ := h
  obtain ⟨r, hr, wr⟩ := w.2 i s hs
  have hr' : (withMem m mem).rows[i]? = some { r with values := r.values.mapIdx fun k _ => mem i k } := by
    simp [withMem, hr]
  have wr' : ({ r with values := r.values.mapIdx fun k _ => mem i k } : Row α).WF s :=
    ⟨wr.indices, by simpa using wr.length⟩
  unfold Sp.get
  rw [hr']
  dsimp only
  rw [wr'.get_some hj]
  have hlook : lookOf m i j = lowerBound r.indices j := by simp [lookOf, hr]
  rw [hlook]
  show (r.values.mapIdx fun k _ => mem i k)[lowerBound r.indices j]? = _
  rw [List.getElem?_mapIdx, List.getElem?_eq_getElem (wr.lb_lt hj)]
  rfl

/-- **C20** at matrix level: threads adding at positions of the shape of a matrix leave, in every
interleaving, every coefficient equal to its previous value plus the sum of the values added there. -/
theorem C20_matrix [AddCommMonoid α] (shape : Shape) (m : Sp α) (w : m.WF shape)
    (prog : Fin T → List (Call α)) (hin : ∀ t, ∀ c ∈ prog t, InShape shape c.i c.j) (s : St α T)
    (h : Reach (lookOf m) (start (memOf m) prog) s) (hd : Done s) (i j : ℕ) (hij : InShape shape i j) :
    ∃ x, m.get i j = some x ∧
      (withMem m s.mem).get i j = some (x + ∑ t, addedTo (prog t) i j) := by
  obtain ⟨st, hs, hj⟩ := hij
  obtain ⟨r, hr, wr⟩ := w.2 i st hs
  have hlook : ∀ j', lookOf m i j' = lowerBound r.indices j' := fun j' => by simp [lookOf, hr]
  refine ⟨memOf m i (lookOf m i j), ?_, ?_⟩
  · unfold Sp.get
    rw [hr]
    dsimp only
    rw [wr.get_some hj, hlook]
    simp only [memOf, hr, Option.map_some, Option.getD_some]
    rw [List.getElem?_eq_getElem (wr.lb_lt hj)]
    rfl
  · rw [withMem_get w s.mem ⟨st, hs, hj⟩, C20_no_lost_update _ _ _ s h hd]
    congr 2
    refine Finset.sum_congr rfl fun t _ => ?_
    unfold addedAt addedTo
    congr 1
    apply List.map_congr_left
    intro c hc
    by_cases e : c.i = i
    · have hcs : c.j ∈ st := by
        obtain ⟨s', hs', hc'⟩ := hin t c hc
        rw [e, hs] at hs'
        cases hs'
        exact hc'
      have : (lookOf m c.i c.j = lookOf m i j) ↔ c.j = j := by
        rw [e, hlook, hlook]
        constructor
        · intro hl
          have hsort : r.indices.Pairwise (· < ·) := wr.indices ▸ sorted_sort st
          exact lowerBound_inj hsort (by rw [wr.indices]; simpa using hcs) (by rw [wr.indices]; simpa using hj) hl
        · rintro rfl; rfl
      simp [e, ← this]
    · simp [e]

/-- two threads adding to the same coefficient: the hypotheses are met, and an interleaving in which both
have looked up the coefficient before either locks it leads to a finished state -/
example : ∃ s : St ℤ 2, Reach (fun _ j => j) (start (fun _ _ => 0) (fun t => [⟨0, 0, (t : ℤ) + 1⟩])) s ∧ Done s := by
  have h0 : Reach (fun _ j => j) (start (fun _ _ => (0 : ℤ)) (fun t : Fin 2 => [⟨0, 0, (t : ℤ) + 1⟩])) _ := .init
  have h1 := h0.step 0 (.find ⟨0, 0, 1⟩ [] rfl)
  have h2 := h1.step 1 (.find ⟨0, 0, 2⟩ [] rfl)
  have h3 := h2.step 1 (.lock ⟨0, 0, 2⟩ [] 0 rfl rfl)
  have h4 := h3.step 1 (.load ⟨0, 0, 2⟩ [] 0 rfl)
  have h5 := h4.step 1 (.store ⟨0, 0, 2⟩ [] 0 _ rfl)
  have h6 := h5.step 1 (.unlock ⟨0, 0, 2⟩ [] 0 rfl)
  have h7 := h6.step 0 (.lock ⟨0, 0, 1⟩ [] 0 rfl rfl)
  have h8 := h7.step 0 (.load ⟨0, 0, 1⟩ [] 0 rfl)
  have h9 := h8.step 0 (.store ⟨0, 0, 1⟩ [] 0 _ rfl)
  have h10 := h9.step 0 (.unlock ⟨0, 0, 1⟩ [] 0 rfl)
  refine ⟨_, h10, ?_⟩
  intro t
  fin_cases t <;> rfl

end Verif.SparseConc
