import Mathlib.Analysis.SpecialFunctions.Log.Basic
import Verif.Model.Fl

/-!
# Running statistics (src/log-stats.h)
-/

namespace Verif.LogStats

open Classical in
/-- `std::log` -/
noncomputable def log : Fl → Fl
  | .nan => .nan
  | .inf s => if s then .nan else .inf false
  | .fin x => if x < 0 then .nan else if x = 0 then .inf true else .fin (Real.log x)

/-- `std::exp` -/
noncomputable def exp : Fl → Fl
  | .nan => .nan
  | .inf s => if s then .fin 0 else .inf false
  | .fin x => .fin (Real.exp x)

/-- the members, log-stats.h:57-60; `n` (long) is supposed not to overflow -/
structure Stats where
  n : ℕ
  m : Fl
  s : Fl

/-- log-stats.h:58-60 -/
noncomputable def Stats.new : Stats := ⟨0, 0, 0⟩

/-- `add`, log-stats.h:22-30 -/
noncomputable def Stats.add (st : Stats) (x : Fl) : Stats :=
  let x := log x
  let n := st.n + 1
  let delta1 := x - st.m
  let m := st.m + delta1 / .fin n
  let delta2 := x - m
  let s := st.s + delta1 * delta2
  ⟨n, m, s⟩

/-- `count`, log-stats.h:33 -/
def Stats.count (st : Stats) : ℕ := st.n

/-- `mean`, log-stats.h:43 -/
noncomputable def Stats.mean (st : Stats) : Fl := exp st.m

/-- `stddev`, log-stats.h:55 -/
noncomputable def Stats.stddev (st : Stats) : Fl := (st.s / .fin st.n).sqrt

/-- samples added one after the other -/
noncomputable def Stats.addAll (l : List Fl) : Stats := l.foldl Stats.add Stats.new

end Verif.LogStats
