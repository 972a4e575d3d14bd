import Verif.Model.Mesh
import Verif.Model.SparseMat

/-!
# Assembly of the linear systems (src/solver.h, src/solver.cpp, src/electrostatSolver.cpp,
src/spinAccumulationSolver.cpp, src/linear_algebra.h)
-/

namespace Verif.Assembly

open Verif.Mesh Verif.SparseMat

variable {α : Type}

/-- `shape[r].insert(c)` (an out of range row is undefined behaviour in the code; here nothing happens,
theorems assume indices in range) -/
def insertAt (shape : Shape) (r c : ℕ) : Shape := shape.modify r (insert c)

/-- `add_block`, solver.h:80-87 -/
def addBlock (D : ℕ) (shape : Shape) (i j : ℕ) : Shape :=
  (List.range D).foldl (fun s k => (List.range D).foldl (fun s l => insertAt s (D * i + k) (D * j + l)) s) shape

/-- `build_shape`, solver.h:75-104 -/
def buildShape (D nod : ℕ) (edges : List (ℕ × ℕ)) (filter : ℕ × ℕ → Bool) : Shape :=
  let s0 : Shape := List.replicate (D * nod) ∅
  let s1 := (List.range nod).foldl (fun s i => addBlock D s i i) s0
  edges.foldl (fun s e => if filter e then addBlock D (addBlock D s e.1 e.2) e.2 e.1 else s) s1

/-- an element to assemble: node indices, element matrix `Ke(row, column)` and vector `Le[row]` -/
structure Elem (N : ℕ) (α : Type) where
  ind : Fin N → ℕ
  Ke : ℕ → ℕ → α
  Le : ℕ → α

/-- the calls to `K.add` made by `buildMat`, solver.h:109-129 -/
def buildMat (D : ℕ) {N : ℕ} (e : Elem N α) : List (Op α) :=
  (List.finRange N).flatMap fun ie => (List.finRange N).flatMap fun je =>
    (List.range D).flatMap fun di => (List.range D).map fun dj =>
      Op.add (D * e.ind ie + di) (D * e.ind je + dj) (e.Ke (di * N + ie) (dj * N + je))

/-- `v[k] += x` on a vector; `none` when out of range -/
def vecAdd [Add α] (v : List α) (k : ℕ) (x : α) : Option (List α) :=
  if k < v.length then some (v.modify k (· + x)) else none

/-- the additions made by `buildVect`, solver.h:134-143 -/
def buildVectCalls (D : ℕ) {N : ℕ} (e : Elem N α) : List (ℕ × α) :=
  (List.finRange N).flatMap fun ie => (List.range D).map fun di => (D * e.ind ie + di, e.Le (di * N + ie))

/-- run additions one after the other -/
def runVect [Add α] (v : List α) : List (ℕ × α) → Option (List α)
  | [] => some v
  | (k, x) :: l => (vecAdd v k x).bind fun v' => runVect v' l

/-- `lvd`, linear_algebra.h:55-63 -/
def lvd (magN : List Bool) (nod : ℕ) : List ℕ :=
  (List.range nod).flatMap fun i => if !(magN.getD i false) then [2 * i, 2 * i + 1] else []

/-- edge filter of the LLG solver, linear_algebra.h:43 -/
def magFilter (magN : List Bool) (e : ℕ × ℕ) : Bool := magN.getD e.1 false && magN.getD e.2 false

/-- shape of the LLG matrix, linear_algebra.h:41-44 with solver.h:75-104 -/
def llgShape (mag : ℕ → Bool) (nod : ℕ) (tets : List Tet) : Shape :=
  buildShape 2 nod (edges tets) (magFilter (magNode mag nod tets))

/-- matrix operations of `LinAlgebra::solve`, solver.cpp:11-17 and 46-48. `elem t` gives the matrix `Kp` and
vector `Lp` of a tetrahedron; `order` is the order in which the elements are processed -/
def llgOps [One α] (magN : List Bool) (nod : ℕ) (order : List (Elem 4 α)) : List (Op α) :=
  Op.clear :: (order.flatMap (buildMat 2) ++ (lvd magN nod).map fun i => Op.set i i 1)

/-- matrix operations of `electrostatSolver::solve` (D = 1, electrostatSolver.cpp:100-106) and
`spinAcc::solve` (D = 3, spinAccumulationSolver.cpp:170-178): all tetrahedrons, no clear -/
def fullOps (D : ℕ) (order : List (Elem 4 α)) : List (Op α) := order.flatMap (buildMat D)

/-- shape of the electrostatic and spin diffusion matrices (default filter, solver.h:34-35) -/
def fullShape (D nod : ℕ) (tets : List Tet) : Shape := buildShape D nod (edges tets) fun _ => true

/-- right hand side of `LinAlgebra::solve`, solver.cpp:25-45: zero, tetrahedrons, triangles, then
`applyMask(lvd, L_rhs)` (algebra.h: the masked components are set to zero) -/
def llgRhs [Zero α] [Add α] (magN : List Bool) (nod : ℕ) (tets : List (Elem 4 α)) (tris : List (Elem 3 α)) :
    Option (List α) :=
  (runVect (List.replicate (2 * nod) 0)
    (tets.flatMap (buildVectCalls 2) ++ tris.flatMap (buildVectCalls 2))).map fun v =>
      (lvd magN nod).foldl (fun v i => v.set i 0) v

end Verif.Assembly
