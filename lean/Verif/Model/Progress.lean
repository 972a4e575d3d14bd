import Verif.Model.TimeLoop

/-! The progress display of a run, time_integration.cpp:69-97, 242, 248.

Not modelled: the decimal rounding of `%.2f`, and the characters around the percentage. -/

namespace Verif.TimeLoop

variable {n : ℕ} {ET : Type}

/-- a line written by `show_progress` -/
inductive Line
  /-- time_integration.cpp:94: percentage and spinner. `now` is the reading of the clock at that moment. -/
  | update (now pct : ℝ) (spin : Char)
  /-- time_integration.cpp:85: "100.00%" and the end of the line -/
  | final

/-- the static variables of `show_progress`, time_integration.cpp:76-78, and what was written -/
structure Prog where
  pos : ℕ
  last : ℝ
  done : Bool
  out : List Line

/-- `spinner[i]`, time_integration.cpp:75 -/
def spinner (i : ℕ) : Char := ['|', '/', '-', '\\'].getD i '\x00'

open Classical in
/-- `show_progress`, time_integration.cpp:73-97; `now` is the time in seconds since the epoch of the clock -/
noncomputable def showProgress (now fraction : ℝ) (p : Prog) : Prog :=
  if p.done then p
  else if fraction = 1 then { p with done := true, out := p.out ++ [.final] }
  else if now - p.last < 0.5 then p
  else { p with last := now, out := p.out ++ [.update now (100 * fraction) (spinner p.pos)]
                pos := (p.pos + 1) % 4 }

/-- the static variables before the first call -/
def prog0 : Prog := { pos := 0, last := 0, done := false, out := [] }

open Classical in
/-- what one transition of the run adds to the display: line 242 after an accepted step (not reached if `recenter` exits),
line 248 after the `for`. The test `!settings.verbose` is left to the caller. -/
noncomputable def progStep (cfg : Cfg n ET) (now : ℝ) (s s' : St n ET) (p : Prog) : Prog :=
  if s'.nt = s.nt + 1 ∧ s'.ctl ≠ .noDomainWall then showProgress now (s'.t / cfg.tf) p
  else if s.ctl = .running ∧ s'.ctl = .done 0 then showProgress now 1 p
  else p

open Classical in
/-- the display after `k` transitions of the run; `clock k` is what the clock shows during transition `k`. If the `for` has
no iteration, line 248 is reached at once. -/
noncomputable def progress (verbose : Bool) (clock : ℕ → ℝ) (cfg : Cfg n ET) (t0 : ℝ) (nodes : Fin n → Node)
    (pot : Fin n → ℝ × ℝ) (inp : ℕ → Input n) : ℕ → Prog
  | 0 => if verbose then prog0
         else if (run cfg t0 nodes pot inp 0).ctl = .done 0 then showProgress 0 1 prog0 else prog0
  | k + 1 => if verbose then progress verbose clock cfg t0 nodes pot inp k
             else progStep cfg (clock k) (run cfg t0 nodes pot inp k) (run cfg t0 nodes pot inp (k + 1))
               (progress verbose clock cfg t0 nodes pot inp k)

end Verif.TimeLoop
