import Verif.Model.LlgElem
import Verif.Model.Krylov
import Verif.Model.TriElem

/-!
# Electrostatic potential and spin accumulation
(src/electrostatSolver.cpp, src/spinAccumulationSolver.cpp)

Matrices and vectors are assembled with exact reals and handed to the solvers of `Model/Krylov.lean` as
finite numbers. The parameters compared by the checks may be infinite or NaN.
-/

namespace Verif.Electro

open Verif.Mesh Verif.Assembly Verif.SparseMat

/-- norm of an Eigen vector -/
noncomputable def norm3 (v : Fin 3 → Fl) : Fl := (v 0 * v 0 + v 1 * v 1 + v 2 * v 2).sqrt

/-- `Triangle::prm`, triangle.h:69-81 (transport part): NaN stands for "not given", settings.cpp:427-450 -/
structure SurfPrm where
  regName : String
  jn : Fl
  V : Fl
  uP : Fin 3 → Fl
  s : Fin 3 → Fl

/-- `Tetra::prm`, tetra.h:86-112 (transport part); `sigma`, `lsd`, `lsf` are supposed finite -/
structure VolPrm where
  regName : String
  Ms : ℝ
  sigma : ℝ
  N0 : Fl
  P : Fl
  lsd : ℝ
  lsf : ℝ

/-- value of the constants `BOHRS_MUB`, `CHARGE_ELECTRON` (config.h.in) -/
structure Consts where
  mub : ℝ
  e : ℝ

/-! ## Checks -/

open Classical in
/-- `electrostatSolver::checkBoundaryConditions`, electrostatSolver.cpp:10-28; `false` is `exit(1)` -/
noncomputable def checkV (prms : List SurfPrm) : Bool :=
  let nbSurfJ := prms.countP fun p => decide p.jn.IsFin
  let nbSurfV := prms.countP fun p => decide p.V.IsFin
  nbSurfJ == 1 && nbSurfV == 1

open Classical in
/-- `spinAcc::checkBoundaryConditions`, spinAccumulationSolver.cpp:41-80; `false` is `exit(1)` -/
noncomputable def checkS (vol : List VolPrm) (prms : List SurfPrm) : Bool :=
  let nbVolN0 := 1 + vol.countP fun p => p.regName != "__default__" && decide (p.N0.IsFin ∧ p.N0.val ≠ 0)
  let nbVolP := 1 + vol.countP fun p => p.regName != "__default__" && decide (p.P.IsFin ∧ 0 ≤ p.P.val ∧ p.P.val < 1)
  let nbSurfJ := prms.countP fun p => p.regName != "__default__" && decide p.jn.IsFin
  let nbSurfS := prms.countP fun p => p.regName != "__default__" && decide (norm3 p.s).IsFin
  nbSurfJ == 1 && nbSurfS == 1 && nbVolN0 == vol.length && nbVolP == vol.length

/-! ## Electrostatic potential -/

/-- the matrix `AE` of `electrostatSolver::integrales`, electrostatSolver.cpp:42-65 -/
noncomputable def potMat (G : Tetra.Rule) (sigma : ℝ) (p : Fin 4 → V3) (i k : Fin 4) : ℝ :=
  ∑ j, sigma * Tetra.weight G p j *
    (Tetra.da p i 0 * Tetra.da p k 0 + Tetra.da p i 1 * Tetra.da p k 1 + Tetra.da p i 2 * Tetra.da p k 2)

open Classical in
/-- `getCurrentDensity`, electrostatSolver.cpp:162-168 -/
noncomputable def currentDensity (p : SurfPrm) : ℝ := if p.jn.IsFin then p.jn.val else 0

/-- the vector `BE` of `electrostatSolver::integrales`, electrostatSolver.cpp:67-76 -/
noncomputable def potVec (H : TriElem.Rule) (J : ℝ) (p : Fin 3 → V3) (i : Fin 3) : ℝ :=
  ∑ j, -(H.a i j * (J * TriElem.weight H p j))

/-- element of the potential problem, electrostatSolver.cpp:100-106 -/
noncomputable def potTet (G : Tetra.Rule) (p : ℕ → V3) (sigma : ℕ → ℝ) (t : Tet) : Elem 4 ℝ where
  ind := t.ind
  Ke := fun r c => potMat G (sigma t.reg) (MeshElem.nod4 p t) (Fin.ofNat 4 r) (Fin.ofNat 4 c)
  Le := fun _ => 0

/-- surface element of the potential problem, electrostatSolver.cpp:108-113 -/
noncomputable def potTri (H : TriElem.Rule) (p : ℕ → V3) (prm : ℕ → SurfPrm) (t : Tri) : Elem 3 ℝ where
  ind := t.ind
  Ke := fun _ _ => 0
  Le := fun r => potVec H (currentDensity (prm t.reg)) (MeshElem.nod3 p t) (Fin.ofNat 3 r)

open Classical in
/-- the loop over the triangles, electrostatSolver.cpp:115-130: `Vd` and `ld` -/
noncomputable def potDirichlet (nod : ℕ) (prm : ℕ → SurfPrm) (tris : List Tri) : List Fl × List ℕ :=
  tris.foldl (fun st f =>
    if (prm f.reg).V.IsNan then st
    else (List.finRange 3).foldl (fun st i => (st.1.set (f.ind i) (prm f.reg).V, st.2 ++ [f.ind i])) st)
    (List.replicate nod 0, [])

/-- the values of a `double` matrix that are reals -/
def liftSp (m : Sp ℝ) : Sp Fl := ⟨m.rows.map fun r => ⟨r.indices, r.values.map .fin⟩⟩

/-- rows of a sparse matrix, as in `Props/SparseMat.lean` -/
def rowsOf (n : ℕ) (m : Sp Fl) : Krylov.Mat n := fun i =>
  match m.rows[(i : ℕ)]? with
  | none => []
  | some r => (r.indices.zip r.values).filterMap fun e => if h : e.1 < n then some (⟨e.1, h⟩, e.2) else none

/-- a vector handed to a solver -/
def vecOf (n : ℕ) (v : List Fl) : Krylov.Vec n := fun i => v.getD i 0

/-- a list of indices handed to a solver -/
def idxOf (n : ℕ) (l : List ℕ) : List (Fin n) := l.filterMap fun i => if h : i < n then some ⟨i, h⟩ else none

/-- the assembly in `electrostatSolver::solve`, electrostatSolver.cpp:96-113, on a new object (`K` and `L_rhs` zero); `none` is
undefined behaviour (an index out of range) -/
noncomputable def potSystem (G : Tetra.Rule) (H : TriElem.Rule) (nod : ℕ) (p : ℕ → V3) (sigma : ℕ → ℝ) (prm : ℕ → SurfPrm)
    (tets : List Tet) (tris : List Tri) : Option (Sp ℝ × List ℝ) := do
  let K ← (ofShape (fullShape 1 nod tets) : Sp ℝ).run (fullOps 1 (tets.map (potTet G p sigma)))
  let L ← runVect (List.replicate (1 * nod) (0 : ℝ)) ((tris.map (potTri H p prm)).flatMap (buildVectCalls 1))
  pure (K, L)

/-- `electrostatSolver::solve`, electrostatSolver.cpp:96-136: the state in which `cg_dir` leaves. `V` has been filled with zeros by
`resize`, spinAccumulationSolver.cpp:26. `none` is undefined behaviour -/
noncomputable def potSolve (it : Krylov.Iter) (G : Tetra.Rule) (H : TriElem.Rule) (nod : ℕ) (p : ℕ → V3)
    (sigma : ℕ → ℝ) (prm : ℕ → SurfPrm) (tets : List Tet) (tris : List Tri) : Option (Krylov.CState nod) := do
  let (K, L) ← potSystem G H nod p sigma prm tets tris
  let (Vd, ld) := potDirichlet nod prm tris
  Krylov.cgDir it.reset (rowsOf nod (liftSp K)) (fun _ => 0) (vecOf nod (L.map .fin)) (vecOf nod Vd)
    (idxOf nod (suppressCopies ld))

/-! ## Spin accumulation -/

/-- `getDiffusionCst`, spinAccumulationSolver.cpp:124-128 -/
noncomputable def diffusionCst (c : Consts) (m : VolPrm) : ℝ := 2 * m.sigma / (c.e * c.e * m.N0.val)

/-- the matrix `AE` of `spinAcc::integrales`, spinAccumulationSolver.cpp:219-257; `u` is `d[CURRENT].u`
(`calcOffDiagBlock`, tetra.cpp:142-148). Row `(d, i)` stands for row `d N + i` -/
noncomputable def spinMat (G : Tetra.Rule) (c : Consts) (m : VolPrm) (isMag : Bool) (p u : Fin 4 → V3) :
    Matrix (Fin 3 × Fin 4) (Fin 3 × Fin 4) ℝ := fun r q =>
  let D0 := diffusionCst c m
  let block := Tetra.calcDiagBlock G p D0 fun i => D0 / (m.lsf * m.lsf) * Tetra.aw G p i
  let diag := fun x : ℝ => if r.2 = q.2 then D0 / (m.lsd * m.lsd) * (Tetra.aw G p r.2 * x) else 0
  (if r.1 = q.1 then block r.2 q.2 else 0)
  + (if isMag then
      (if r.1 = 1 ∧ q.1 = 2 then diag (u r.2).x else 0)
      + (if r.1 = 2 ∧ q.1 = 1 then - diag (u r.2).x else 0)
      + (if r.1 = 0 ∧ q.1 = 2 then - diag (u r.2).y else 0)
      + (if r.1 = 2 ∧ q.1 = 0 then diag (u r.2).y else 0)
      + (if r.1 = 0 ∧ q.1 = 1 then diag (u r.2).z else 0)
      + (if r.1 = 1 ∧ q.1 = 0 then - diag (u r.2).z else 0)
    else 0)

/-- the vector `BE` of `spinAcc::integrales`, spinAccumulationSolver.cpp:259-286; `u` is `d[NEXT].u`
(`getNode_u`, mesh.h:156), `V` the potential at the nodes -/
noncomputable def spinVec (G : Tetra.Rule) (c : Consts) (m : VolPrm) (isMag : Bool) (p u : Fin 4 → V3)
    (V : Fin 4 → ℝ) (r : Fin 3 × Fin 4) : ℝ :=
  if isMag then
    ∑ j, (((c.mub * m.P.val * m.sigma / c.e) * Tetra.weight G p j) * Tetra.gradV p V).dot (Tetra.daRow p r.2)
      * (u r.2).comp r.1
  else 0

/-- the surface value of a triangle, spinAccumulationSolver.cpp:186-189: `s`, replaced when `jn` and `uP` are finite -/
noncomputable def surfValue (c : Consts) (m : SurfPrm) : Fin 3 → Fl := open Classical in
  if m.jn.IsFin ∧ (norm3 m.uP).IsFin then fun d => (-m.jn) * .fin (c.mub / c.e) * m.uP d else m.s

open Classical in
/-- the vector `Le` of a triangle, spinAccumulationSolver.cpp:183-204 -/
noncomputable def spinTriVec (H : TriElem.Rule) (c : Consts) (m : SurfPrm) (p : Fin 3 → V3) (r : Fin 3 × Fin 3) : ℝ :=
  if (norm3 (surfValue c m)).IsFin then
    ∑ j, -((surfValue c m r.1).val * (TriElem.weight H p j * H.a r.2 j))
  else 0

/-- state of the nodes seen by the solver -/
structure MagState where
  cur : ℕ → V3
  next : ℕ → V3

/-- element of the spin problem, spinAccumulationSolver.cpp:170-179 -/
noncomputable def spinTet (G : Tetra.Rule) (c : Consts) (p : ℕ → V3) (mag : ℕ → Bool) (prm : ℕ → VolPrm) (V : ℕ → ℝ)
    (s : MagState) (t : Tet) : Elem 4 ℝ where
  ind := t.ind
  Ke := fun r q => spinMat G c (prm t.reg) (t.isMagnetic mag) (MeshElem.nod4 p t) (MeshElem.nod4 s.cur t)
    (Fin.ofNat 3 (r / 4), Fin.ofNat 4 (r % 4)) (Fin.ofNat 3 (q / 4), Fin.ofNat 4 (q % 4))
  Le := fun r => spinVec G c (prm t.reg) (t.isMagnetic mag) (MeshElem.nod4 p t) (MeshElem.nod4 s.next t)
    (MeshElem.nod4 V t) (Fin.ofNat 3 (r / 4), Fin.ofNat 4 (r % 4))

/-- surface element of the spin problem, spinAccumulationSolver.cpp:183-206 -/
noncomputable def spinTri (H : TriElem.Rule) (c : Consts) (p : ℕ → V3) (prm : ℕ → SurfPrm) (t : Tri) : Elem 3 ℝ where
  ind := t.ind
  Ke := fun _ _ => 0
  Le := fun r => spinTriVec H c (prm t.reg) (MeshElem.nod3 p t) (Fin.ofNat 3 (r / 3), Fin.ofNat 3 (r % 3))

/-- `fillDirichletData` on the three nodes of a triangle, spinAccumulationSolver.cpp:82-90 and 107-108 -/
def fillDirichlet (f : Tri) (v : Fin 3 → Fl) (st : List Fl × List ℕ) : List Fl × List ℕ :=
  (List.finRange 3).foldl (fun st i => (List.finRange 3).foldl
    (fun st (d : Fin 3) => (st.1.set (3 * f.ind i + d) (v d), st.2 ++ [3 * f.ind i + (d : ℕ)])) st) st

open Classical in
/-- `spinAcc::boundaryConditions`, spinAccumulationSolver.cpp:92-116: `valDirichlet` and `idxDirichlet` before
`suppress_copies` -/
noncomputable def spinDirichlet (c : Consts) (nod : ℕ) (prm : ℕ → SurfPrm) (tris : List Tri) : List Fl × List ℕ :=
  tris.foldl (fun st f =>
    let m := prm f.reg
    if (norm3 m.s).IsNan ∧ m.jn.IsFin then fillDirichlet f (fun d => (-m.jn) * .fin (c.mub / c.e) * m.uP d) st
    else if (norm3 m.s).IsFin ∧ m.jn.IsNan then fillDirichlet f m.s st
    else st)
    (List.replicate (3 * nod) 0, [])

/-- the linear system held by a `spinAcc` object between two computations -/
structure SpinSys where
  K : Sp ℝ
  L : List ℝ

/-- a new object: solver.h:24-39 (zero matrix of the shape of the mesh, zero vector) -/
def SpinSys.new (nod : ℕ) (tets : List Tet) : SpinSys :=
  ⟨ofShape (fullShape 3 nod tets), List.replicate (3 * nod) 0⟩

/-- assembly part of `spinAcc::solve`, spinAccumulationSolver.cpp:166-206: nothing is cleared -/
noncomputable def SpinSys.assemble (G : Tetra.Rule) (H : TriElem.Rule) (c : Consts) (p : ℕ → V3) (mag : ℕ → Bool)
    (vol : ℕ → VolPrm) (surf : ℕ → SurfPrm) (V : ℕ → ℝ) (tets : List Tet) (tris : List Tri) (sys : SpinSys)
    (s : MagState) : Option SpinSys := do
  let K ← sys.K.run (fullOps 3 (tets.map (spinTet G c p mag vol V s)))
  let L ← runVect sys.L ((tets.map (spinTet G c p mag vol V s)).flatMap (buildVectCalls 3))
  let L ← runVect L ((tris.map (spinTri H c p surf)).flatMap (buildVectCalls 3))
  pure ⟨K, L⟩

/-- the systems of successive computations on the same object (`compute` is called once by the constructor, then
once per time step, fem.h:203-224); `none` is undefined behaviour -/
noncomputable def SpinSys.history (G : Tetra.Rule) (H : TriElem.Rule) (c : Consts) (p : ℕ → V3) (mag : ℕ → Bool)
    (vol : ℕ → VolPrm) (surf : ℕ → SurfPrm) (V : ℕ → ℝ) (tets : List Tet) (tris : List Tri) :
    SpinSys → List MagState → Option SpinSys
  | sys, [] => some sys
  | sys, s :: l => (sys.assemble G H c p mag vol surf V tets tris s).bind fun sys' =>
      SpinSys.history G H c p mag vol surf V tets tris sys' l

/-- the solving part of `spinAcc::solve`, spinAccumulationSolver.cpp:207-217, with `iter.reset()` -/
noncomputable def SpinSys.solve (it : Krylov.Iter) (c : Consts) (nod : ℕ) (surf : ℕ → SurfPrm) (tris : List Tri)
    (sys : SpinSys) : Option (Krylov.BState (3 * nod)) :=
  let d := spinDirichlet c nod surf tris
  Krylov.bicgDir it.reset (rowsOf (3 * nod) (liftSp sys.K)) (fun _ => 0) (vecOf (3 * nod) (sys.L.map .fin))
    (vecOf (3 * nod) d.1) (idxOf (3 * nod) (suppressCopies d.2))

end Verif.Electro
