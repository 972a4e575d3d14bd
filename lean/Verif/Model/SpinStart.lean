import Verif.Model.Electro

/-!
# The start of the spin accumulation (src/spinAccumulationSolver.cpp:8-39)

`Electro.spinMat` is the matrix of an element over the reals, for lengths and densities that are not zero. Here the divisors may be
zero, so the coefficients are `double`s. The right hand side does not depend on the lengths; it is the one of `Model/Electro.lean`.
-/

namespace Verif.SpinStart

open Verif.Mesh Verif.Assembly Verif.SparseMat Verif.Electro

/-- `getDiffusionCst`, spinAccumulationSolver.cpp:124-128 -/
noncomputable def diffusionCst (c : Consts) (m : VolPrm) : Fl := .fin 2 * .fin m.sigma / (.fin (c.e * c.e) * m.N0)

/-- `D0 / sq(lsf)` and `D0 / sq(lsd)`, spinAccumulationSolver.cpp:235, 245 -/
noncomputable def rate (c : Consts) (m : VolPrm) (l : ℝ) : Fl := diffusionCst c m / .fin (l * l)

/-- `calcDiagBlock`, tetra.cpp:133-140 -/
noncomputable def diagBlock (G : Tetra.Rule) (p : Fin 4 → V3) (c : Fl) (x : Fin 4 → Fl) (i k : Fin 4) : Fl :=
  let a := .fin ((Tetra.da p * (Tetra.da p).transpose) i k) * (c * .fin (Tetra.calcVol G p))
  if i = k then a + x i else a

/-- the matrix `AE` of `spinAcc::integrales`, spinAccumulationSolver.cpp:219-257, from the zeros of line 173: row `(d, i)` stands for
row `d N + i`; the off-diagonal blocks are changed on their diagonals, in magnetic elements -/
noncomputable def spinMat (G : Tetra.Rule) (c : Consts) (m : VolPrm) (isMag : Bool) (p u : Fin 4 → V3) (r q : Fin 3 × Fin 4) : Fl :=
  let block := diagBlock G p (diffusionCst c m) fun i => rate c m m.lsf * .fin (Tetra.aw G p i)
  let diag := fun x : ℝ => rate c m m.lsd * (.fin (Tetra.aw G p r.2) * .fin x)
  if r.1 = q.1 then 0 + block r.2 q.2
  else if isMag = true ∧ r.2 = q.2 then
    if r.1 = 1 ∧ q.1 = 2 then 0 + diag (u r.2).x
    else if r.1 = 2 ∧ q.1 = 1 then 0 - diag (u r.2).x
    else if r.1 = 0 ∧ q.1 = 2 then 0 - diag (u r.2).y
    else if r.1 = 2 ∧ q.1 = 0 then 0 + diag (u r.2).y
    else if r.1 = 0 ∧ q.1 = 1 then 0 + diag (u r.2).z
    else 0 - diag (u r.2).z
  else 0

/-- matrix of an element, spinAccumulationSolver.cpp:170-178 -/
noncomputable def spinTet (G : Tetra.Rule) (c : Consts) (p : ℕ → V3) (mag : ℕ → Bool) (vol : ℕ → VolPrm) (s : MagState)
    (t : Tet) : Elem 4 Fl where
  ind := t.ind
  Ke := fun r q => spinMat G c (vol t.reg) (t.isMagnetic mag) (MeshElem.nod4 p t) (MeshElem.nod4 s.cur t)
    (Fin.ofNat 3 (r / 4), Fin.ofNat 4 (r % 4)) (Fin.ofNat 3 (q / 4), Fin.ofNat 4 (q % 4))
  Le := fun _ => 0

/-- `spinAcc::solve`, spinAccumulationSolver.cpp:166-217, the first time; `none` is undefined behaviour (an index out of range) -/
noncomputable def spinFirst (it : Krylov.Iter) (G : Tetra.Rule) (H : TriElem.Rule) (c : Consts) (nod : ℕ) (p : ℕ → V3)
    (mag : ℕ → Bool) (vol : ℕ → VolPrm) (surf : ℕ → SurfPrm) (V : ℕ → ℝ) (tets : List Tet) (tris : List Tri) (s : MagState) :
    Option (Krylov.BState (3 * nod)) := do
  let K ← (ofShape (fullShape 3 nod tets) : Sp Fl).run (fullOps 3 (tets.map (spinTet G c p mag vol s)))
  let L ← runVect (List.replicate (3 * nod) (0 : ℝ))
    ((tets.map (Electro.spinTet G c p mag vol V s)).flatMap (buildVectCalls 3))
  let L ← runVect L ((tris.map (spinTri H c p surf)).flatMap (buildVectCalls 3))
  let d := spinDirichlet c nod surf tris
  Krylov.bicgDir it.reset (rowsOf (3 * nod) K) (fun _ => 0) (vecOf (3 * nod) (L.map .fin)) (vecOf (3 * nod) d.1)
    (idxOf (3 * nod) (suppressCopies d.2))

/-- how the constructor of `spinAcc` ends: the program stops, or there is a first spin accumulation -/
inductive Start (nod : ℕ)
  | exit (status : ℕ)
  | ready (s : Krylov.Vec (3 * nod))

/-- a region beyond the end of the list is not modelled -/
noncomputable def noVol : VolPrm := ⟨"", 0, 0, .nan, .nan, 0, 0⟩

/-- a region beyond the end of the list is not modelled -/
noncomputable def noSurf : SurfPrm := ⟨"", .nan, .nan, fun _ => .nan, fun _ => .nan⟩

open Classical in
/-- the constructor of `spinAcc` when `spin_acc` is set, spinAccumulationSolver.cpp:15-38, with `electrostatSolver::compute`
(electrostatSolver.cpp:78-94) and `spinAcc::compute` (spinAccumulationSolver.cpp:151-164); `itV`, `itS` are the monitors of the two
solvers. Not modelled here: the file of the potential (`Model/Main.lean`); the values of the potential are supposed finite -/
noncomputable def start (itV itS : Krylov.Iter) (G : Tetra.Rule) (H : TriElem.Rule) (c : Consts) (nod : ℕ) (p : ℕ → V3)
    (mag : ℕ → Bool) (vols : List VolPrm) (surfs : List SurfPrm) (tets : List Tet) (tris : List Tri) (s : MagState) :
    Option (Start nod) :=
  let vol := fun r => vols.getD r noVol
  let surf := fun r => surfs.getD r noSurf
  if checkS vols surfs = false then some (.exit 1)
  else if checkV surfs = false then some (.exit 1)
  else (potSolve itV G H nod p (fun r => (vol r).sigma) surf tets tris).bind fun st =>
    if st.iter.status ≠ .CONVERGED then some (.exit 1)
    else
      let V := fun i => if h : i < nod then (st.x ⟨i, h⟩).val else 0
      (spinFirst itS G H c nod p mag vol surf V tets tris s).bind fun st' =>
        if st'.iter.status ≠ .CONVERGED then some (.exit 1) else some (.ready st'.x)

end Verif.SpinStart
