import Mathlib.Logic.Function.Basic
import Mathlib.Data.Fintype.Basic
import Verif.Model.SparseMat

/-!
# Concurrent `add` (src/algebra/sparseMat.h:114-124)

Threads run programs made of calls to `add` (in the code: the `std::for_each` over tetrahedrons of
solver.cpp:12-23, each calling buildMat, solver.h:109-129). One call is five elementary steps: find the
address of the coefficient (line 120, reads only the indices, which never change), lock the mutex of the
row (line 121), load the value, store the sum (line 122), unlock (line 123). Steps of different threads
interleave in any way; memory is sequentially consistent (every access to a value is made with the mutex
of its row held, which is what is proved, so the C++ memory model gives the same outcome).
-/

namespace Verif.SparseConc

open Verif.SparseMat

variable {α : Type} {T : ℕ}

/-- one call `add(i, j, v)` -/
structure Call (α : Type) where
  i : ℕ
  j : ℕ
  v : α

/-- progress of a thread within its current call -/
inductive Phase (α : Type)
  | idle
  | found (k : ℕ)
  | locked (k : ℕ)
  | loaded (k : ℕ) (x : α)
  | stored (k : ℕ)

/-- a thread: calls still to be completed (the head is the current one) and its progress -/
structure Thread (α : Type) where
  todo : List (Call α)
  phase : Phase α

/-- values of the matrix (row, position in the row), owner of each row mutex, threads -/
structure St (α : Type) (T : ℕ) where
  mem : ℕ → ℕ → α
  lock : ℕ → Option (Fin T)
  thr : Fin T → Thread α

/-- store to one coefficient -/
def wr (mem : ℕ → ℕ → α) (i k : ℕ) (x : α) : ℕ → ℕ → α := fun a b => if a = i ∧ b = k then x else mem a b

/-- one elementary step of thread `t`; `look i j` is the position found by the lookup in row `i` -/
inductive Step [Add α] (look : ℕ → ℕ → ℕ) (s : St α T) (t : Fin T) : St α T → Prop
  | find (c : Call α) (rest : List (Call α)) (h : s.thr t = ⟨c :: rest, .idle⟩) :
      Step look s t { s with thr := Function.update s.thr t ⟨c :: rest, .found (look c.i c.j)⟩ }
  | lock (c : Call α) (rest : List (Call α)) (k : ℕ) (h : s.thr t = ⟨c :: rest, .found k⟩)
      (free : s.lock c.i = none) :
      Step look s t { s with
        lock := Function.update s.lock c.i (some t)
        thr := Function.update s.thr t ⟨c :: rest, .locked k⟩ }
  | load (c : Call α) (rest : List (Call α)) (k : ℕ) (h : s.thr t = ⟨c :: rest, .locked k⟩) :
      Step look s t { s with thr := Function.update s.thr t ⟨c :: rest, .loaded k (s.mem c.i k)⟩ }
  | store (c : Call α) (rest : List (Call α)) (k : ℕ) (x : α) (h : s.thr t = ⟨c :: rest, .loaded k x⟩) :
      Step look s t { s with
        mem := wr s.mem c.i k (x + c.v)
        thr := Function.update s.thr t ⟨c :: rest, .stored k⟩ }
  | unlock (c : Call α) (rest : List (Call α)) (k : ℕ) (h : s.thr t = ⟨c :: rest, .stored k⟩) :
      Step look s t { s with
        lock := Function.update s.lock c.i none
        thr := Function.update s.thr t ⟨rest, .idle⟩ }

/-- states reachable under some schedule -/
inductive Reach [Add α] (look : ℕ → ℕ → ℕ) (s0 : St α T) : St α T → Prop
  | init : Reach look s0 s0
  | step {s s' : St α T} (t : Fin T) (h : Reach look s0 s) (hs : Step look s t s') : Reach look s0 s'

/-- all threads ready to run their programs, all mutexes free -/
def start (mem : ℕ → ℕ → α) (prog : Fin T → List (Call α)) : St α T :=
  ⟨mem, fun _ => none, fun t => ⟨prog t, .idle⟩⟩

/-- every thread has completed its program -/
def Done (s : St α T) : Prop := ∀ t, (s.thr t).todo = []

/-- the values of a matrix, as memory -/
def memOf [Zero α] (m : Sp α) : ℕ → ℕ → α := fun i k => ((m.rows[i]?.map fun r => r.values[k]?.getD 0).getD 0)

/-- the lookup of sparseMat.h:70-73 in the rows of a matrix -/
def lookOf (m : Sp α) : ℕ → ℕ → ℕ := fun i j => (m.rows[i]?.map fun r => lowerBound r.indices j).getD 0

/-- the matrix with the values of the memory -/
def withMem (m : Sp α) (mem : ℕ → ℕ → α) : Sp α :=
  ⟨m.rows.mapIdx fun i r => { r with values := r.values.mapIdx fun k _ => mem i k }⟩

end Verif.SparseConc
