import Verif.Model.Fl

/-!
# Iteration monitor and Krylov solvers (src/algebra/iter.h, bicg.h, cg.h, algebra.h, algebraCore.h)

Vectors are functions on `Fin n`; sizes are not modelled (all vectors have the size of the system).
Sums are taken in the order of the code (left folds); `mult` runs in parallel over rows but each row is
computed sequentially (sparseMat.h:162-169).
-/

namespace Verif.Krylov

open Verif

/-- `algoStatus`, iter.h:24-30 -/
inductive Status
  | UNDEFINED | CONVERGED | ITER_OVERFLOW | CANNOT_CONVERGE
  deriving DecidableEq

/-- `class iteration<T>`, iter.h:36-57, 92-96 -/
structure Iter where
  rhsn : Fl
  maxiter : ℤ
  noise : Bool
  nit : ℕ
  res : Fl
  written : Bool
  status : Status
  resmax : Fl

namespace Iter

/-- `std::numeric_limits<double>::max()` -/
noncomputable def dblMax : ℝ := (2 - 1 / 2 ^ 52) * 2 ^ 1023

/-- `reset`, iter.h:99-106 -/
noncomputable def reset (it : Iter) : Iter :=
  { it with rhsn := .fin 1, nit := 0, res := .fin dblMax, written := false, status := .UNDEFINED }

/-- constructor, iter.h:87-90 -/
noncomputable def mk' (resmax : Fl) (noise : Bool) (maxiter : ℤ) : Iter :=
  { rhsn := .fin 1, maxiter := maxiter, noise := noise, nit := 0, res := .fin dblMax
    written := false, status := .UNDEFINED, resmax := resmax }

/-- `operator++`, iter.h:119-128 -/
def incr (it : Iter) : Iter :=
  let it := { it with nit := it.nit + 1, written := false }
  if it.maxiter ≤ it.nit then { it with status := .ITER_OVERFLOW } else it

open Classical in
/-- `converged()`, iter.h:144-156 -/
noncomputable def converged0 (it : Iter) : Bool × Iter :=
  if it.res.IsNan then (false, { it with status := .CANNOT_CONVERGE })
  else if it.res.le (it.rhsn * it.resmax) then (true, { it with status := .CONVERGED })
  else (false, it)

/-- `converged(T nr)`, iter.h:159-163 -/
noncomputable def converged (it : Iter) (nr : Fl) : Bool × Iter :=
  converged0 { it with res := nr.abs }

/-- `finished(T nr)`, iter.h:167-178 (printing omitted) -/
noncomputable def finished (it : Iter) (nr : Fl) : Bool × Iter :=
  if it.noise && !it.written then
    (converged { (converged it nr).2 with written := true } nr)
  else converged it nr

end Iter

variable {n : ℕ}

abbrev Vec (n : ℕ) := Fin n → Fl

/-- rows of a sparse matrix: column indices with their values (see `Model/SparseMat.lean`) -/
abbrev Mat (n : ℕ) := Fin n → List (Fin n × Fl)

/-- `dot`, algebraCore.h:10-13: `std::inner_product` starting from 0 -/
noncomputable def dot (X Y : Vec n) : Fl :=
  (List.finRange n).foldl (fun acc i => acc + X i * Y i) 0

/-- `norm`, algebraCore.h:17 -/
noncomputable def norm (X : Vec n) : Fl := ((dot X X).abs).sqrt

/-- `scaled`, algebra.h:35-36 -/
noncomputable def scaled (a : Fl) (Y : Vec n) : Vec n := fun i => Y i * a

/-- `p_direct`, algebra.h:40-41 -/
noncomputable def pDirect (X Y : Vec n) : Vec n := fun i => X i * Y i

/-- `add`, algebra.h:45-49 (value of `Y` after `add(X, Y)`) -/
noncomputable def add (X Y : Vec n) : Vec n := fun i => Y i + X i

/-- `sub`, algebra.h:53-57 -/
noncomputable def sub (X Y : Vec n) : Vec n := fun i => Y i - X i

/-- `scaled_add`, algebra.h:61-65 -/
noncomputable def scaledAdd (X : Vec n) (a : Fl) (Y : Vec n) : Vec n := fun i => Y i + a * X i

/-- `applyMask`, algebra.h:76-77 -/
def applyMask (ld : List (Fin n)) (X : Vec n) : Vec n := fun i => if i ∈ ld then 0 else X i

/-- `SparseMatrix::mult`, sparseMat.h:158-170 -/
noncomputable def mult (A : Mat n) (X : Vec n) : Vec n := fun i =>
  (A i).foldl (fun val e => val + e.2 * X e.1) 0

/-- `operator()(i, j)`, sparseMat.h:144-154: the value stored for column `j`, 0 if none -/
def coef (A : Mat n) (i j : Fin n) : Fl := ((A i).find? (fun e => e.1 = j)).elim 0 (·.2)

/-- `build_diag_precond`, sparseMat.h:174-183 -/
noncomputable def diagPrecond (A : Mat n) : Vec n := fun i => .fin 1 / coef A i i

/-! ## Stabilized biconjugate gradient

The three functions of bicg.h have the same loop; they differ in the right-hand side and by the mask
(`bicg`, bicg.h:14-73, is the case of an empty mask, where `applyMask` does nothing). -/

/-- variables of bicg.h:86-89 that survive from one iteration to the next -/
structure BState (n : ℕ) where
  iter : Iter
  x : Vec n
  r : Vec n
  rt : Vec n
  p : Vec n
  v : Vec n
  rho2 : Fl
  alpha : Fl
  omega : Fl

open Classical in
/-- one iteration of the loop, bicg.h:105-152 (185-232, 29-72); `true` when the loop is left -/
noncomputable def bicgBody (A : Mat n) (D : Vec n) (ld : List (Fin n)) (st : BState n) : Bool × BState n :=
  -- while (!iter.finished(norm(r)))
  let c := st.iter.finished (norm st.r)
  let it := c.2
  if c.1 then (true, { st with iter := it })
  else
    let rho1 := dot st.rt st.r
    if 0 < it.nit ∧ (st.rho2.isZero ∨ st.omega.isZero) then
      (true, { st with iter := { it with status := .CANNOT_CONVERGE } })
    else
      let beta := (rho1 / st.rho2) * (st.alpha / st.omega)
      let p := if 0 < it.nit then add st.r (scaled beta (sub (scaled st.omega st.v) st.p)) else st.p
      let phat := pDirect D p
      let v := applyMask ld (mult A phat)
      let alpha := rho1 / dot v st.rt
      let s := scaledAdd v (-alpha) st.r
      let c := it.finished (norm s)
      let it := c.2
      if c.1 then
        (true, { st with iter := it, x := scaledAdd phat alpha st.x, p := p, v := v, alpha := alpha })
      else if it.status = .ITER_OVERFLOW ∨ it.status = .CANNOT_CONVERGE then
        (true, { st with iter := it, p := p, v := v, alpha := alpha })
      else
        let shat := pDirect D s
        let t := applyMask ld (mult A shat)
        let omega := dot t s / dot t t
        let x := scaledAdd shat omega (scaledAdd phat alpha st.x)
        let t' := scaled omega t
        let r := sub t' s
        (false, { iter := it.incr, x := x, r := r, rt := st.rt, p := p, v := v, rho2 := rho1
                  alpha := alpha, omega := omega })

/-- a `while` loop with a bound on the number of times its body is entered -/
def loop {S : Type} (body : S → Bool × S) : ℕ → S → Option S
  | 0, _ => none
  | k + 1, st =>
    let c := body st
    if c.1 then some c.2 else loop body k c.2

/-- state before the loop, bicg.h:91-104 (173-184, 21-28), for the right-hand side `b` -/
noncomputable def bicgInit (it : Iter) (A : Mat n) (ld : List (Fin n)) (x b : Vec n) : BState n :=
  let r := applyMask ld (sub (mult A x) b)
  { iter := { it with rhsn := norm b }, x := x, r := r, rt := r, p := r, v := mult A x
    rho2 := 0, alpha := 0, omega := 0 }

/-- bound used for the loop: proved sufficient in `Props/Krylov.lean` (C14) -/
def fuel (it : Iter) : ℕ := (max 1 it.maxiter).toNat + 1

/-- `bicg_dir` without prescribed values, bicg.h:163-234 -/
noncomputable def bicgMask (it : Iter) (A : Mat n) (x rhs : Vec n) (ld : List (Fin n)) : Option (BState n) :=
  let D := applyMask ld (diagPrecond A)
  let b := applyMask ld rhs
  loop (bicgBody A D ld) (fuel it) (bicgInit it A ld x b)

/-- `bicg`, bicg.h:14-73 -/
noncomputable def bicg (it : Iter) (A : Mat n) (x rhs : Vec n) : Option (BState n) :=
  loop (bicgBody A (diagPrecond A) []) (fuel it) (bicgInit it A [] x rhs)

/-- `bicg_dir` with prescribed values `xd`, bicg.h:83-154 -/
noncomputable def bicgDir (it : Iter) (A : Mat n) (x rhs xd : Vec n) (ld : List (Fin n)) :
    Option (BState n) :=
  let D := applyMask ld (diagPrecond A)
  let b := applyMask ld (sub (mult A xd) rhs)
  (loop (bicgBody A D ld) (fuel it) (bicgInit it A ld x b)).map
    fun st => { st with x := add xd st.x }

/-! ## Conjugate gradient -/

/-- variables of cg.h:71-73 that survive from one iteration to the next (`z` is a temporary) -/
structure CState (n : ℕ) where
  iter : Iter
  x : Vec n
  r : Vec n
  p : Vec n
  rho : Fl
  rho1 : Fl

open Classical in
/-- one iteration of the loop, cg.h:92-118 (31-55); `true` when the loop is left -/
noncomputable def cgBody (A : Mat n) (D : Vec n) (ld : List (Fin n)) (st : CState n) : Bool × CState n :=
  let c := st.iter.finished (norm st.r)
  let it := c.2
  if c.1 ∨ it.status = .ITER_OVERFLOW ∨ it.status = .CANNOT_CONVERGE then (true, { st with iter := it })
  else
    let z := pDirect D st.r
    let rho := if 0 < it.nit then dot z st.r else st.rho
    let p := if 0 < it.nit then add z (scaled (rho / st.rho1) st.p) else st.p
    let q := applyMask ld (mult A p)
    let qp := dot q p
    if qp.isZero then
      (true, { st with iter := { it with status := .CANNOT_CONVERGE }, p := p, rho := rho })
    else
      let a := rho / qp
      (false, { iter := it.incr, x := scaledAdd p a st.x, r := scaledAdd q (-a) st.r, p := p
                rho := rho, rho1 := rho })

/-- state before the loop, cg.h:75-91 (21-30) -/
noncomputable def cgInit (it : Iter) (A : Mat n) (D : Vec n) (ld : List (Fin n)) (x b : Vec n) : CState n :=
  let r := applyMask ld (sub (mult A x) b)
  let z := pDirect D r
  { iter := { it with rhsn := norm b }, x := x, r := r, p := z, rho := dot z r, rho1 := 0 }

/-- `cg`, cg.h:15-57 -/
noncomputable def cg (it : Iter) (A : Mat n) (x rhs : Vec n) : Option (CState n) :=
  let D := diagPrecond A
  loop (cgBody A D []) (fuel it) (cgInit it A D [] x rhs)

/-- `cg_dir`, cg.h:67-121 -/
noncomputable def cgDir (it : Iter) (A : Mat n) (x rhs xd : Vec n) (ld : List (Fin n)) :
    Option (CState n) :=
  let D := applyMask ld (diagPrecond A)
  let b := applyMask ld (sub (mult A xd) rhs)
  (loop (cgBody A D ld) (fuel it) (cgInit it A D ld x b)).map
    fun st => { st with x := add xd st.x }

/-! ## The LLG solve -/

open Classical in
/-- decision of `LinAlgebra::solve`, solver.cpp:60-69: `none` is failure; the system `K`, `L_rhs`, mask
`lvd` and initial guess `Xw` are those of solver.cpp:11-60 -/
noncomputable def llgSolve (it : Iter) (K : Mat n) (guess L : Vec n) (lvd : List (Fin n)) : Option (Vec n) :=
  match bicgMask it.reset K guess L lvd with
  | none => none
  | some st =>
    if st.iter.status = .ITER_OVERFLOW ∨ st.iter.status = .CANNOT_CONVERGE ∨ st.iter.res.gt st.iter.resmax
    then none else some st.x

end Verif.Krylov
