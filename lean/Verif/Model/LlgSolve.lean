import Verif.Model.Node
import Verif.Model.Krylov
import Verif.Model.Electro
import Verif.Spec.Krylov

/-!
# The linear solve of a time step, from the assembled system to the vector of unknowns (src/solver.cpp,
src/linear_algebra.cpp, src/linear_algebra.h)
-/

namespace Verif.LlgSolve

open Verif.SparseMat Verif.Krylov

/-- `lvd`, linear_algebra.h:55-63, as indices of a vector of size `2 n`: the unknowns of the nodes that are not magnetic
(no entry is out of range) -/
def lvd (n : ℕ) (magN : List Bool) : List (Fin (2 * n)) :=
  (Assembly.lvd magN n).filterMap fun r => if h : r < 2 * n then some ⟨r, h⟩ else none

/-- `buildInitGuess`, linear_algebra.cpp:13-24 -/
noncomputable def initGuess {n : ℕ} (gamma0 : ℝ) (magN : List Bool) (nodes : Fin n → Node) (r : Fin (2 * n)) : ℝ :=
  let i : Fin n := ⟨r / 2, by omega⟩
  if magN.getD i false = true then (if (r : ℕ) % 2 = 0 then (nodes i).projEp / gamma0 else (nodes i).projEq / gamma0) else 0

/-- `LinAlgebra::solve` once the matrix `K` and the right hand side are assembled, solver.cpp:9 and 59-69: the iterative solver
is started from the guess, with the mask; `none` when failure is reported. The entries of the system are real numbers, those
computed by the solver may be infinite or NaN. -/
noncomputable def solve {n : ℕ} (it : Iter) (gamma0 : ℝ) (magN : List Bool) (nodes : Fin n → Node) (K : Sp ℝ) (L : List ℝ) :
    Option (Vec (2 * n)) :=
  llgSolve it (Electro.rowsOf (2 * n) (Electro.liftSp K)) (lift (initGuess gamma0 magN nodes)) (lift fun r => L.getD r 0)
    (lvd n magN)

end Verif.LlgSolve
