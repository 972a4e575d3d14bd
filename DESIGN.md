# Design of the FeeLLGood model

## Approach

The C++ code in `/repo/src` is read as text and transcribed, function by function, into Lean 4 definitions under
`lean/Verif/Model/`. Every definition cites the file and lines it models, and says where it simplifies. Specifications (what a
property means, independently of the code) are in `lean/Verif/Spec/`, helper lemmas in `lean/Verif/Proofs/`, the property theorems
in `lean/Verif/Props/`, each followed by a concrete case meeting its hypotheses. Properties are in `properties.jsonl`, their
theorems in `MANIFEST.json`, wrong programs tried against the theorems in `seeded/LOG.jsonl`.

All property theorems are unbounded: over all meshes, matrices, texts, argument vectors, schedules or runs, by induction,
invariants or refinement. Where the code does not have the property, the negation is proved and a weaker theorem named `…_partial`
says what remains true.

## Trusted base

* The Lean 4.33.0 kernel and the axioms `propext`, `Classical.choice` and `Quot.sound`. Every theorem of the manifest uses at most
  these three; `Verif.Settings.C49_block`, `Verif.Settings.C49_block_iff`, `Verif.Settings.C49_negation_newline`, `Verif.Settings.C49_negation_quotes`, `Verif.Settings.C49_quotes_partial` do not use `Classical.choice`. There is no axiom, `sorry`, `native_decide` or `bv_decide` in the project.
* The reading of the C++ code: nothing ties the model to the code but the citations. The code was neither compiled nor run.
* Numbers. Exact reals stand for `double` in the finite element computations, the geometry, the step limiter and the statistics;
  rounding, overflow and the sign of zero are not modelled there. In the time loop the addition of times is an arbitrary function
  with an error below `min(dt)/2`. In the Krylov solvers, `max_angle` and the boundary checks the type `Fl` (a finite real, an
  infinity, or NaN, with the IEEE rules for the special values) is used; rounding is still not modelled. The sparse matrix, its
  concurrent version and the assembly work over any commutative ring or monoid: sums do not depend on their order, which rounding
  makes true only approximately (C20, C22, C28). C88 and C89 are the exceptions: there every operation carries a relative error
  below the unit roundoff (standard model, without overflow and underflow).
* `int` is unbounded. Undefined behaviour that matters (an access out of range, a write outside the matrix shape, `back()` of an
  empty string, division by zero in an index) is a distinct outcome (`none` or a constructor of its own). `CMakeLists.txt` compiles
  with `-DNDEBUG`: asserts are not part of the program.
* The memory model: in C20 memory is sequentially consistent. Every access to a coefficient is made with the mutex of its row held
  (C20_mutual_exclusion), so the program is free of data races and C++ gives the same outcomes.
* `std::sort` is any permutation that is sorted (C23-C27, C28), except for `suppress_copies` (C56), where the order is total and the
  result is unique. Parallel reductions are arbitrary reduction trees (C32) or exact sums.
* External libraries are parameters or documented contracts: the multipole algorithm (scalfmm) is a map from charges to potentials
  (C47); the nearest neighbour search (ANN) returns a nearest node (C46); the JavaScript interpreter (Duktape) may do anything with a
  program but keeps the stack discipline of its documentation (C54); yaml-cpp gives a tree, and its conversions of scalars are
  arbitrary functions (C48); gmsh gives the lists of nodes and elements; `atol` and the random device are arbitrary (C52).
* The YAML reader of C49 is a subset of YAML 1.2 written from its definition: double quoted scalars on one line, literal blocks
  with header `|`, plain scalars on one line. It stands for the reader of the dumped settings.
* Number formatting: printing a number and reading it back rounds it to the digits of the file (C29); the text of a number in the
  table of a run is a parameter without white space (C50).

## Modules

| file | models |
|---|---|
| `V3`, `V3Sum`, `Geom` | Eigen vectors, positions |
| `Node` | node.h: basis, update, evolution |
| `TimeStepper`, `TimeLoop` | time_integration.cpp/h; solver.cpp 62-90; fem.h compute_all; saver as far as rows and files |
| `Fl`, `NonFinite`, `Krylov` | algebra/iter.h, bicg.h, cg.h, algebraCore.h; solver.cpp solve |
| `SparseMat`, `SparseConc` | algebra/sparseMat.h |
| `Assembly` | solver.h build, shapes; linear_algebra.h; buildMat, buildVect |
| `Mesh` | mesh.h edges; meshUtils.h suppress_copies |
| `MeshCheck`, `Charge` (Props) | mesh.cpp controlTriangles, regions, charges |
| `MeshRead` | read.cpp readMesh; meshUtils.h; mesh.h init_distrib |
| `SortNodes` | mesh.cpp sortNodes |
| `BoundingBox`, `MaxAngle`, `ExtField`, `FieldKind` | mesh.h constructor and max_angle, mesh.cpp infos and setExtSpaceField, settings.h getField* |
| `Tetra`, `TriElem`, `MeshElem`, `LlgElem` | tetra.cpp/h, triangle.cpp/h, energy.cpp, linear_algebra.cpp prepareElements, mesh.cpp avg |
| `Fmm` | fmm_demag.h |
| `Electro`, `SpinTorque` | electrostatSolver.cpp, spinAccumulationSolver.cpp; tetra.cpp calc_Hst |
| `Recenter`, `RecenterFl` | recentering.cpp; with the NaN of non-magnetic nodes |
| `Text`, `Settings`, `Axes`, `Dump`, `DumpTree`, `Metadata` | settings.cpp, settings.h, default-settings.yml |
| `SolFile`, `Evol` | save.cpp, read.cpp readSol |
| `Parser`, `JsMath` | expression_parser.cpp/h |
| `Rounded`, `RoundedAvg` | node.h setBasis, make_evol; end of solver.cpp; the bound on du; mesh.cpp avg with a parallel reduction; all with rounding errors |
| `Options`, `Main` | main.cpp parseOptions; main, with the files opened by time_integration.cpp, save.cpp, electrostatSolver.cpp |
| `LogStats`, `RunStats` | log-stats.h; time_integration.cpp Stats, print_stats |
| `EnergyAll`, `SurfAniso` | energy.cpp; fem.h evolution |
| `LlgSolve` | solver.cpp solve with the assembled system |
| `Restart` | fem.h constructor |
| `Thiele` | mesh.cpp thiele |
| `Progress` | time_integration.cpp show_progress |
| `Rates` | save.cpp: columns dt, max_dm, averages |
| `StepperFl` | time_integration.cpp:11-38 TimeStepper and time_integration.h:10-43 prefactor, with infinities and NaN |
| `SpinStart` | spinAccumulationSolver.cpp:8-39 constructor, 219-257 element matrix with divisors that may be zero |

## Not modelled

* fmm_demag.h: the multipole operators.
* read.cpp: the gmsh library (its answers are the input of C70), text of the error messages of `readMesh`.
* tags.cpp, chronometer.cpp, `config.h`, the log messages of time_integration.cpp and main.cpp.
* settings.cpp: the numbers in the dump, warnings, the positions of error messages.
* chronology of signals inside one attempt: a signal is seen at the next test, as in the code.
* int overflow, memory exhaustion, failure to open or write files.


## Properties: what is modelled and how it is proved

Status `partial` means that the full statement is false for the code, or not proved in full; the full statement is in
`properties.jsonl`, and the theorems named `…_negation…` show with a witness, or in general, that it fails.

### C01 Output rows fall exactly on the requested time grid — proved

`Model/TimeLoop`: the two nested loops as a transition machine driven by an arbitrary infinite sequence of environment behaviours (solver results, signals, random angles, potentials). Invariant on time, step number and rows (`Inv`), induction over transitions. The addition of times is arbitrary up to `min(dt)/2`, so that exact stamps are due to the code and not to exact arithmetic.

*Limits:* all runs of the loop machine, by induction over transitions; hypothesis: admissible settings (0<min(dt)<=max(dt), period>0, max(du)>=0)

Theorems: `TimeLoop.C01_output_grid`, `TimeLoop.C01_rows_append_only`, `TimeLoop.C01_round_nearest`.

### C02 Every accepted time step respects the user's dt limits — proved

`Model/TimeLoop`: the two nested loops as a transition machine driven by an arbitrary infinite sequence of environment behaviours (solver results, signals, random angles, potentials). Invariant on the step limiter; the step limiter itself is `Model/TimeStepper`.

*Limits:* all runs

Theorems: `TimeLoop.C02_dt_limits`.

### C03 The time integration always terminates — proved

`Model/TimeLoop`: the two nested loops as a transition machine driven by an arbitrary infinite sequence of environment behaviours (solver results, signals, random angles, potentials). A measure (outputs left, remaining time divided by `min(dt)/2`, retries left) decreases at each transition; it bounds the number of transitions uniformly over all environments.

*Limits:* uniform bound on the number of transitions over all environment behaviours, for times added with a rounding error below min(dt)/2; C03_negation_resolution: without that hypothesis (min(dt) below the resolution of the time) the run never ends

Theorems: `TimeLoop.C03_termination`, `TimeLoop.C03_completes`, `TimeLoop.C03_negation_resolution`.

### C04 An accepted step never moves a magnetization vector by more than max(du) — proved

`Model/TimeLoop`: the two nested loops as a transition machine driven by an arbitrary infinite sequence of environment behaviours (solver results, signals, random angles, potentials). Geometry of `Node.makeEvol`: for v orthogonal to a unit u, |normalize(u + dt v) - u| <= dt |v|; the maximum speed is the maximum over the nodes.

*Limits:* all runs; recentering assumed to leave NEXT.u alone and to keep unit vectors (see C46 module)

Theorems: `TimeLoop.C04_du_bound`.

### C05 Magnetization stays normalized forever — proved

`Model/TimeLoop`: the two nested loops as a transition machine driven by an arbitrary infinite sequence of environment behaviours (solver results, signals, random angles, potentials). Invariant: unit vectors at the start and at the end of the step.

*Limits:* all runs; recentering assumed to keep unit vectors

Theorems: `TimeLoop.C05_unit_norm`.

### C06 A rejected attempt is always retried with a strictly smaller step — proved

`Model/TimeLoop`: the two nested loops as a transition machine driven by an arbitrary infinite sequence of environment behaviours (solver results, signals, random angles, potentials). The soft limit after a rejected attempt is at most 0.95 times the step.

*Limits:* all runs

Theorems: `TimeLoop.C06_retry_smaller`.

### C07 A run aborts only for a good reason — partial

`Model/TimeLoop`: the two nested loops as a transition machine driven by an arbitrary infinite sequence of environment behaviours (solver results, signals, random angles, potentials). Decision logic for "exactly when"; a history invariant for the reasons.

*Limits:* first half (abort iff dt<min(dt)) proved; second half is false: the step limiter may cut an admissible step below min(dt) (negation proved with a witness); weaker reason proved under max(dt)>=9 min(dt)

Theorems: `TimeLoop.C07_abort_iff`, `TimeLoop.C07_negation`, `TimeLoop.C07_abort_reason_partial`.

### C08 State saved on a signal is the state at the recorded time — partial

`Model/TimeLoop`: the two nested loops as a transition machine driven by an arbitrary infinite sequence of environment behaviours (solver results, signals, random angles, potentials). Invariant: without recentering and pending rejection, NEXT holds the magnetization of the recorded time.

*Limits:* false as stated: a signal after a max(du) rejection saves the rejected magnetization (negation proved); proved when no such rejection is pending

Theorems: `TimeLoop.C08_negation`, `TimeLoop.C08_signal_state_partial`.

### C09 Configuration files are saved exactly at the requested rows — proved

`Model/TimeLoop`: the two nested loops as a transition machine driven by an arbitrary infinite sequence of environment behaviours (solver results, signals, random angles, potentials). The list of files is a filter of the list of rows (invariant `SolInv`).

*Limits:* all runs

Theorems: `TimeLoop.C09_sol_cadence`.

### C10 Energies in a row are evaluated at the time of the row — partial

`Model/TimeLoop`: the two nested loops as a transition machine driven by an arbitrary infinite sequence of environment behaviours (solver results, signals, random angles, potentials). Invariant `EInv` on the time at which the energies held in the state were evaluated.

*Limits:* false as stated: energies are evaluated at the start of the last step (exact lag proved, negation proved); true for constant fields

Theorems: `TimeLoop.C10_energy_time`, `TimeLoop.C10_negation`, `TimeLoop.C10_energy_time_partial`.

### C11 A failed linear solve leaves the magnetization untouched — proved

`Model/TimeLoop`: the two nested loops as a transition machine driven by an arbitrary infinite sequence of environment behaviours (solver results, signals, random angles, potentials). One transition, from any reachable state.

*Limits:* all runs; the contents of the failing solve itself are in the Krylov module

Theorems: `TimeLoop.C11_failed_solve`.

### C12 BiCGStab: a converged status certifies the residual of the returned solution — proved

`Model/Krylov` over `Fl`. Loop invariant: the recurrence residual is the masked residual of the iterate, or a NaN has appeared and stays in the monitored norm.

*Limits:* IEEE infinities and NaN modelled, rounding and overflow not; the diagonal must be in the matrix shape

Theorems: `Krylov.C12_bicg_mask`, `Krylov.C12_bicg`, `Krylov.C12_bicg_dir`.

### C13 Dirichlet components are exact — partial

Loop invariant on masked components (exact or NaN).

*Limits:* exact whenever convergence is reported; for other outcomes the component is exact or NaN, and a breakdown (omega = 0/0) on a singular system really gives NaN (negation proved)

Theorems: `Krylov.C13_dirichlet_bicg_partial`, `Krylov.C13_dirichlet_cg_partial`, `Krylov.C13_mask_bicg_partial`, `Krylov.C13_converged_exact`, `Krylov.C13_negation`.

### C14 Krylov solvers stop within the iteration limit and always decide — proved

The loops are modelled with recursion on the remaining iterations of the monitor; case analysis of the status.

*Limits:* all entries including NaN and infinities

Theorems: `Krylov.C14_bicg`, `Krylov.C14_bicg_mask`, `Krylov.C14_bicg_dir`, `Krylov.C14_cg`, `Krylov.C14_cg_dir`.

### C15 The LLG solve accepts only converged solutions — proved

Decision logic of `LinAlgebra::solve` composed with C12 and C14.

*Limits:* decision logic of LinAlgebra::solve on top of C12 and C14

Theorems: `Krylov.C15_success_converged`, `Krylov.C15_status`.

### C16 CG: a converged status certifies the residual of the returned solution — proved

As C12, for the conjugate gradient with and without prescribed values.

*Limits:* as C12

Theorems: `Krylov.C16_cg`, `Krylov.C16_cg_dir`.

### C17 NaN is never reported as convergence — proved

NaN propagation in `Fl` through the norm and the monitor.

Theorems: `Krylov.C17_monitor`, `Krylov.C17_bicg_nan`, `Krylov.C17_cg_nan`, `Krylov.C17_rhs_nan`.

### C18 The sparse matrix behaves like a map from index pairs to numbers — proved

`Model/SparseMat`: rows as sorted index arrays with binary search; refinement to a table indexed by pairs, over any sequence of operations.

*Limits:* any commutative-free value type; calls outside the shape are undefined or hit the next stored column (witnessed)

Theorems: `SparseMat.C18_refines_table`, `SparseMat.C18_zero_outside`, `SparseMat.C18_undefined_only_outside`, `SparseMat.C18_outside_corrupts`.

### C19 Sparse product equals the mathematical matrix-vector product — proved

Sum over the stored indices equals the dense sum; the diagonal preconditioner likewise.

*Limits:* exact arithmetic; toMat_represents links the matrix to the one used in the Krylov model

Theorems: `SparseMat.C19_mult`, `SparseMat.C19_diag_precond`, `SparseMat.toMat_represents`.

### C20 Concurrent assembly loses no update — proved

`Model/SparseConc`: small-step interleaving semantics of any number of threads with the five elementary steps of `add`; invariant on schedules, progress and a termination measure.

*Limits:* any number of threads, any programs, any interleaving of the five elementary steps; exact commutative addition (rounding makes the floating point sum order dependent), sequentially consistent memory

Theorems: `SparseConc.C20_no_lost_update`, `SparseConc.C20_mutual_exclusion`, `SparseConc.C20_no_deadlock`, `SparseConc.C20_terminates`, `SparseConc.C20_matrix`.

### C21 Assembly never writes outside the matrix shape — proved

`Model/Assembly`: the shape is built from the edge list, elements add blocks; every added pair is in the shape, for the LLG matrix and the full matrices.

*Limits:* any connectivity with valid node indices, any magnetic regions, any element matrices, any number of steps

Theorems: `Assembly.C21_llg`, `Assembly.C21_full`, `Assembly.C21_diagonal`, `Assembly.C21_columns`.

### C22 The assembled system does not depend on the order of elements — proved

The assembled entry is the sum over the elements of their blocks, hence invariant under permutations and, with C20, under schedules.

*Limits:* exact commutative addition; the electrostatic and spin diffusion right hand sides use the same buildVect but are sequential and not covered by C22_rhs

Theorems: `Assembly.C22_matrix`, `Assembly.C22_concurrent`, `Assembly.C22_rhs`.

### C23 Mesh surface check accepts exactly the consistent meshes — proved

`Model/MeshCheck`: sort, group by vertex set, check of each group; equivalence with a specification on multisets of faces.

*Limits:* for every result of the (unstable) sort; vertex sets as multisets of node indices

Theorems: `MeshCheck.C23_check_iff`.

### C24 Missing surfaces are completed — proved

Same model; which surface triangles are added.

Theorems: `MeshCheck.C24_completed`.

### C25 Automatically created surface regions get fresh names and do not disturb the user's regions — proved

Same model; names of created regions are fresh, the search for a name ends.

*Limits:* the search for a free name is shown to end

Theorems: `MeshCheck.C25_regions`, `MeshCheck.C25_names`.

### C26 Surface charge jump is orientation independent — proved

Parity of the vertex permutation and geometry of the normal.

*Limits:* exact real coordinates

Theorems: `MeshCheck.C26_jump`, `MeshCheck.C26_outer`, `MeshCheck.C26_interface`, `MeshCheck.C26_orientation`.

### C27 Magnetic charge neutrality — proved

Gauss theorem on one tetrahedron, pairing of inner faces, sum over an accepted mesh.

*Limits:* exact reals; hypotheses beyond acceptance by the check: positively oriented tetrahedrons, no two tetrahedrons on the same side of a face, Ms >= 0, no suppress_charges; node renumbering after the check does not change the sums

Theorems: `MeshCheck.C27_neutral`.

### C28 Renumbering nodes changes nothing observable — proved

`Model/SortNodes`: the permutation and its inverse applied to nodes and elements.

*Limits:* any result allowed for the unstable sort, any mesh with valid node indices

Theorems: `SortNodes.C28_renumbering`.

### C29 Saved configurations can be read back — partial

`Model/SolFile`: header, rows of tokens, reader; exact characterisation of what is read back.

*Limits:* proved for finite values without spin accumulation columns, values rounded to the digits of the file; NaN values (non magnetic nodes), spin columns and a user metadata item named time cannot be read back (negations proved)

Theorems: `SolFile.C29_round_trip_partial`, `SolFile.C29_exact`, `SolFile.C29_negation_nan`, `SolFile.C29_negation_spin`, `SolFile.C29_negation_time`, `SolFile.C29_accepted`, `SolFile.C29_negation_longer`.

### C30 The edge list is exactly the set of element edges — proved

`Model/Mesh`: edge generation, sort, removal of copies; equivalence with the set of element edges.

Theorems: `Mesh.C30_edges`, `Mesh.C30_no_loop`.

### C31 The bounding box is the bounding box — partial

Folds over the nodes.

*Limits:* containment and long axis proved; the box is tight exactly when no axis has only coordinates below the smallest positive double (the maximum starts from __DBL_MIN__), negation proved

Theorems: `BoundingBox.C31_contains`, `BoundingBox.C31_tight_iff`, `BoundingBox.C31_tight_partial`, `BoundingBox.C31_negation`, `BoundingBox.C31_long_axis`.

### C32 Maximum angle is independent of the parallel schedule — partial

Reduction trees over `Fl`; without NaN the minimum is associative and commutative.

*Limits:* proved when no edge has a NaN scalar product; with NaN (edge to a non magnetic node) the result depends on the reduction tree, negation proved; exact dot products, acos as a decreasing function

Theorems: `MaxAngle.C32_schedule_partial`, `MaxAngle.C32_value`, `MaxAngle.C32_exists`, `MaxAngle.C32_negation`.

### C33 Averages are true averages — proved

Quadrature weights and shape functions; averages as convex combinations.

*Limits:* exact reals, both compiled quadrature rules, all meshes of positively oriented tetrahedrons

Theorems: `MeshElem.C33_between`, `MeshElem.C33_uniform`, `MeshElem.C33_total`, `MeshElem.C33_nonmagnetic`.

### C34 Tetrahedrons are positively oriented after loading — proved

Sign of the determinant; exchange of two nodes.

*Limits:* exact reals

Theorems: `Tetra.C34_orientation`, `Tetra.C34_rejected`.

### C35 Interpolation and gradients are exact on affine fields — proved

Barycentric coordinates; gradients by cofactor formula.

*Limits:* exact reals

Theorems: `Tetra.C35_partition`, `Tetra.C35_affine`, `Tetra.C35_affine_vector`.

### C36 Integration rules are exact up to degree three — proved

All monomials up to the stated degree against iterated interval integrals over the reference simplex.

*Limits:* against iterated interval integrals over the reference simplex; the constants are taken as exact rationals

Theorems: `Tetra.C36_tetrahedron`, `Tetra.C36_triangle`, `Tetra.C36_one_point_tetrahedron`, `Tetra.C36_one_point_triangle`.

### C37 The tangent basis is orthonormal — proved

`Model/Node` setBasis over the reals.

*Limits:* exact reals

Theorems: `Node.C37_tangent_basis`, `Node.C37_no_division_by_zero`, `Node.C37_paranoid_same`, `Node.C37_velocity_components`.

### C38 Effective damping stays within 10% of the damping — proved

Case analysis of the two branches of `calc_alpha_eff` (field pointing along or against the magnetization), with the cut-off at 10 %.

*Limits:* exact reals

Theorems: `Tetra.C38_bounds`, `Tetra.C38_monotone`, `Tetra.C38_zero`.

### C39 Every time step's linear system is uniquely solvable — proved

The quadratic form of the assembled element matrices is positive; assembly as in C22; injectivity implies unique solvability.

*Limits:* exact reals; for both quadrature rules, any order of assembly and any former content of the matrix; requires alpha>0, A>=0, Ms>0 in magnetic regions and a basis from Node::setBasis

Theorems: `Llg.C39_unique_solution`.

### C40 The diagonal preconditioner never divides by zero — proved

Diagonal entries are values of the quadratic form of C39.

*Limits:* exact reals; same hypotheses as C39

Theorems: `Llg.C40_diagonal`.

### C41 Exchange energy is non-negative and vanishes on uniform states — proved

Sum of squares with positive weights; zero iff the gradient vanishes.

*Limits:* exact reals

Theorems: `Tetra.C41_nonneg`, `Tetra.C41_zero_iff`, `Tetra.C41_gradient`.

### C42 Uniaxial anisotropy energy is bounded and even — proved

Bounds by quadrature and Cauchy-Schwarz.

*Limits:* exact reals

Theorems: `Tetra.C42_bounds`, `Tetra.C42_even`.

### C43 Anisotropy field derives from the anisotropy energy — partial

Densities and forces as polynomials; derivatives along the time step.

*Limits:* uniaxial: proved in full. Cubic: proved without extrapolation; the first order term is wrong (negation proved). Surface: the forces derive from the energy up to a factor: mu0 is missing and the sign follows the orientation of the triangle (negation proved)

Theorems: `Aniso.C43_uniaxial`, `Aniso.C43_uniaxial_derives`, `Aniso.C43_uniaxial_discrete`, `Aniso.C43_cubic_partial`, `Aniso.C43_cubic_negation`, `Aniso.C43_surface_partial`, `Aniso.C43_surface_orientation`, `Aniso.C43_surface_negation`.

### C44 A space dependent field is applied where it was evaluated — partial

Index arithmetic on lists with an undefined outcome.

*Limits:* filled by rank among magnetic tetrahedrons, read by index among all tetrahedrons: right iff magnetic tetrahedrons come first; otherwise out of bounds reads (negation proved)

Theorems: `ExtField.C44_partial`, `ExtField.C44_iff`, `ExtField.C44_out_of_bounds`, `ExtField.C44_negation`.

### C45 Spin accumulation depends only on the current state — partial

`Model/Electro`: the solver as a state that survives between calls; the system after any history is the sum over the history.

*Limits:* the claim is false: matrix and right hand side are never cleared, and the precession term uses the magnetization of the start of the step (negations proved); exact characterisation of the system after any history proved; correct for the first computation and for a constant magnetization

Theorems: `Electro.C45_history`, `Electro.C45_first_partial`, `Electro.C45_repeat_partial`, `Electro.C45_negation`, `Electro.C45_negation_stale`.

### C46 Recentering follows the requested direction — partial

`Model/Recenter` with the conversion from enumeration to character as in the code.

*Limits:* recentering is always along Z: the enumeration value is passed where a letter is expected (negation proved); nearest node search and averaging weights are parameters, exact reals, all nodes magnetic

Theorems: `Recenter.C46_partial`, `Recenter.C46_direction_ignored`, `Recenter.C46_negation`, `Recenter.C46_keeps_next`, `Recenter.C46_keeps_unit`, `Recenter.C46_accepted`.

### C47 Each charge reaches the potential solver at its own position — proved

`Model/Fmm`: positions inserted by index, charges written by index, potentials read by index.

*Limits:* the multipole evaluation is a parameter (exact pair sum); what is proved is which charge sits where and which result goes to which node

Theorems: `Fmm.C47_sources`, `Fmm.C47_targets`, `Fmm.C47_coulomb`.

### C48 Later settings override earlier ones — partial

`Model/Settings`: the reader of one document as a function on the settings; folds over any list of documents; the specification is "last given value".

*Limits:* proved for all scalar settings, columns, metadata, threads and the applied field; false for regions defined twice (the first definition stays), for expressions after a .sol file, for the recentering direction and for a derived base name (general negations proved); the YAML parser and conversions are parameters

Theorems: `Settings.C48_scalar`, `Settings.C48_columns`, `Settings.C48_metadata`, `Settings.C48_threads`, `Settings.C48_basename_partial`, `Settings.C48_magnetization_partial`, `Settings.C48_field_partial`, `Settings.C48_region_partial`, `Settings.C48_negation_region`, `Settings.C48_negation_magnetization`, `Settings.C48_negation_direction`, `Settings.C48_negation_basename`, `Settings.C48_negation_field`, `Settings.C48_surface`, `Settings.C48_negation_surface`, `Settings.C48_directory`.

### C49 Quoted strings survive the YAML round trip — partial

`Model/Dump` prints, `Spec/Dump` reads (independent definition).

*Limits:* exact conditions for strings printed by str: on one line iff no backslash, on several lines iff exactly one final end of line (first line not indented); backslashes, quotes in expressions, missing final end of line, leading spaces and names printed without quotes are not read back (negations proved)

Theorems: `Settings.C49_dump_partial`, `Settings.C49_quoted_iff`, `Settings.C49_block`, `Settings.C49_block_iff`, `Settings.C49_quotes_partial`, `Settings.C49_raw_partial`, `Settings.C49_negation_backslash`, `Settings.C49_negation_quotes`, `Settings.C49_negation_newline`, `Settings.C49_negation_indent`, `Settings.C49_negation_raw`.

### C50 Table header and rows agree — partial

`Model/Evol`: header and row as lists of fields.

*Limits:* rows and header proved to have the same fields for every list of documented columns, region prefix in front of averages and the Thiele length; a prefix in front of energies is ignored, in front of the field it gives NaN, and a region name with a tabulator shifts the header (negations proved); number formatting is a parameter

Theorems: `Evol.C50_rows_partial`, `Evol.C50_unknown`, `Evol.C50_negation_region`, `Evol.C50_negation_field`, `Evol.C50_negation_tab`.

### C51 Metadata never corrupts the files — partial

`Model/Metadata`: text of the header, split into lines.

*Limits:* proved for single-line keys and non-empty values; a key with an end of line breaks the header and an empty value is undefined behaviour (negations proved)

Theorems: `Metadata.C51_comments_partial`, `Metadata.C51_defined`, `Metadata.C51_negation_key`, `Metadata.C51_negation_empty`, `Metadata.C51_no_column`.

### C52 Command line parsing is total and safe — proved

`Model/Options`: the loop over the arguments with checked accesses; equivalence with a grammar.

*Limits:* all argument vectors; atol and the random device are parameters; an empty argument is taken for --print-defaults (C52_empty_argument)

Theorems: `Options.C52_in_bounds`, `Options.C52_run_iff`, `Options.C52_last`, `Options.C52_help`, `Options.C52_empty_argument`.

### C53 Step statistics are the geometric mean and relative deviation of all samples — proved

`Model/LogStats`: Welford recurrence in the logarithm; closed form for any list of samples.

*Limits:* exact reals, all positive samples; a sample that is exactly zero (possible for the largest change of magnetization) makes mean and deviation NaN for ever (C53_negation_zero)

Theorems: `LogStats.C53_statistics`, `LogStats.C53_zero_width`, `LogStats.C53_negation_zero`.

### C54 Evaluating user expressions never leaks or corrupts interpreter state — proved

`Model/Parser`: refinement of the stack machine to "current function".

*Limits:* the JavaScript interpreter is an arbitrary parameter, its documented stack interface is modelled with underflow and overflow as fatal errors; an evaluation before any function is defined is fatal (reachable with Bext.time given as a list)

Theorems: `Parser.C54_refines`, `Parser.C54_stack`, `Parser.C54_no_function`, `Parser.C54_three_components`.

### C55 Region volumes add up — proved

Sums of determinants over lists of elements.

*Limits:* exact reals

Theorems: `MeshElem.C55_region`, `MeshElem.C55_total`, `MeshElem.C55_magnetic`, `MeshElem.C55_positive`.

### C56 Removing duplicates keeps exactly the set of values — proved

Induction over the sorted list.

*Limits:* std::sort modelled as insertion sort; on a total order the result is the same

Theorems: `Mesh.C56_suppress_copies`, `Mesh.C56_unique`.

### C57 Electrostatic boundary conditions are enforced — partial

`Model/Electro`: checks, element matrices, call of the Krylov solver with prescribed values (C13, C16).

*Limits:* checks, element matrices, exactness of prescribed values and residual bound proved in exact reals; two configurations pass the checks although the claim is false: an additional surface with an infinite potential, and a single surface with both jn and s (proved)

Theorems: `Electro.C57_start_potential`, `Electro.C57_start_spin`, `Electro.C57_element`, `Electro.C57_potential`, `Electro.C57_spin`, `Electro.C57_infinite_potential`, `Electro.C57_spin_no_dirichlet`.

### C58 All demagnetizing sources and targets lie inside the octree box — proved

Normalised coordinates from the bounding box; scaling below one.

*Limits:* exact reals

Theorems: `Fmm.C58_inside_box`.

### C59 The potential problem has one solution exactly when every node is tied to a contact — proved

Quadratic form of the stiffness matrix; the kernel consists of constants on connected parts.

*Limits:* exact reals, positively oriented elements, conductivities not negative

Theorems: `Electro.C59_potential_unique`.

### C60 The spin diffusion problem has one solution — proved

Quadratic form with a positive mass term and a skew precession term.

*Limits:* exact reals, positively oriented elements

Theorems: `Electro.C60_spin_unique`.

### C61 The current is conserved — proved

Partition of unity applied to the discrete equations.

*Limits:* exact reals

Theorems: `Electro.C61_current_conserved`.

### C62 Recentering is applied after every accepted step — proved

`Model/TimeLoop`: the two nested loops as a transition machine driven by an arbitrary infinite sequence of environment behaviours (solver results, signals, random angles, potentials). Invariant for an arbitrary predicate guaranteed by the recentering.

*Limits:* invariant over all runs; P is any property guaranteed by the recentering; Model/Recenter.lean gives what the recentering of the code guarantees. Note that recentering writes CURRENT.u only, so the row written at the same time shows the magnetization before the shift (C46_keeps_next).

Theorems: `TimeLoop.C62_recentered`.

### C63 A solved step is rejected exactly when a node moves too far — proved

`Model/TimeLoop`: the two nested loops as a transition machine driven by an arbitrary infinite sequence of environment behaviours (solver results, signals, random angles, potentials). Case analysis of one attempt; the maximum over the nodes is attained.

*Limits:* decision logic of an attempt; gamma0 not negative, max(du) not negative

Theorems: `TimeLoop.C63_reject_iff`.

### C64 The potential of a charged triangle at its own vertices is exact — proved

`Model/TriElem` (`potentialAt`, `correction`), `Model/MeshElem` (`corr`), `Spec/Potential`. The integral over the triangle is turned by the map (s,t) -> (s(1-t), st) into one over a square, where the factor s cancels the singularity; the remaining integral along the opposite side is evaluated with the derivative of `log(x + sqrt(x^2+h^2))`. The mesh statement combines this with C47.

*Limits:* exact real arithmetic; the surface integral is a Lebesgue integral over the reference triangle, shown to exist; the mesh statement supposes that the multipole library returns the Coulomb potential of the charges it was given (ScalFMM is not modelled)

Theorems: `Potential.C64_integrable`, `Potential.C64_self_potential`, `Potential.C64_mesh_potential`.

### C65 The linear system of a time step is the weak form of the equation of motion — proved

`Model/LlgElem`, `Spec/WeakForm`. Per element the 8x8 matrix and the vector tested with components are the residual of the weak form tested with the field having these components; the sum over the elements is the assembled system (C22); tangent fields are exactly the fields with two components, since the bases are orthonormal (C37).

*Limits:* exact real arithmetic; the integrals are the quadrature formulas of the code; Hext, Hst (the field of the spin accumulation) are arbitrary values at the Gauss points; triangles with dMs = 0 and Ks != 0 divide by zero in the code

Theorems: `WeakForm.C65_weak_form`.

### C66 A time step lowers the energy in given fields — partial

`Spec/Energy`, `Proofs/Energy`: derivative of each energy along the normalised motion; C65 tested with the velocity itself makes gyration vanish and leaves damping and the implicit exchange, both positive.

*Limits:* proved when all magnetic regions have the same Ms; for any materials the sum of energy/(mu0 Ms) decreases. The code divides the equation of each element by its own Ms, so with two values of Ms the energy may increase (negation proved with two tetrahedrons). Demagnetizing field frozen during the step (C90 lets it change, and bounds the step length for all states at once); no cubic and surface anisotropy, no spin torque, no moving frame

Theorems: `Energy.C66_reduced_energy`, `Energy.C66_energy_decreases_partial`, `Energy.C66_negation_two_materials`.

### C67 The reported demagnetizing energy is the energy of the magnetization in its field — proved

`Model/MeshElem` (`demagEnergy`). Gauss theorem on the mesh (`gauss`, which also gives C27) applied to the product of potential and magnetization, with the exactness of the four point rule on products.

*Limits:* default quadrature on the triangles (4 points); no overlap, Ms not negative, no suppress_charges; exact real arithmetic

Theorems: `MeshCheck.C67_demag_energy`, `MeshCheck.C67_charges`.

### C68 A time step depends neither on the numbering of the mesh nor on the random tangent bases — proved

Both systems are weak forms (C65); the weak form of the renumbered mesh pulled back is the first one, and the weak form has one tangent solution (`holds_unique`: the difference of two solutions tested with itself).

*Limits:* exact real arithmetic and exact solutions of the linear systems

Theorems: `WeakForm.C68_same_step`.

### C69 A uniform magnetization follows the equation of Landau, Lifshitz and Gilbert — proved

The constant field solving the equation satisfies the weak form (gradients vanish, the shape functions sum to one), and the solution is unique.

*Limits:* exact real arithmetic and exact solution of the linear system; no cubic and surface anisotropy, no spin accumulation field

Theorems: `WeakForm.C69_uniform`.

### C70 The mesh that is simulated is the mesh of the file — partial

`Model/MeshRead`, `Spec/MeshRead` (what the file says). Reading is a function to a mesh, a stop with a message, or an access out of range; inversion of the loops over entities, groups and elements; node tags without gaps by counting.

*Limits:* gmsh is a parameter: its lists of nodes, entities, groups and elements, supposed well formed (distinct node tags, one block per element type, elements refer to nodes). What is read and when it is accepted is proved in full; the claim fails in two places: if the settings name two overlapping groups the common tetrahedrons are read twice (exact count proved), and a named entity without elements makes the program read past the end of an empty array instead of stopping with a message (negations proved)

Theorems: `MeshRead.C70_read`, `MeshRead.C70_accepted_iff`, `MeshRead.C70_count`, `MeshRead.C70_negation_twice`, `MeshRead.C70_negation_empty`.

### C71 The initial magnetization is the expression evaluated for the regions of the node — partial

`Model/MeshRead` (`volumeRegions`, `initNode`). Invariant of the loop that fills the lists of tetrahedrons per region.

*Limits:* the expression is an arbitrary function (C54 for the parser); an expression giving the zero vector is not reported and leaves a magnetization of norm zero (negation proved)

Theorems: `MeshRead.C71_initial`, `MeshRead.C71_regions`, `MeshRead.C71_negation_zero`.

### C72 Every step of a whole run follows the equation of motion — proved

Composition (`Props/Run`): C70 and C28 give valid indices and positive volumes; invariants over the run (positions never change, unit magnetization); the conditions of C39 and C65 then hold at each attempt, and the model of the loop (C05) gives the new magnetization.

*Limits:* composition of the models of the reading, the renumbering, the time loop and the assembly. Exact reals; in C72_step the solution returned by the solver is supposed exact (C12-C17 for the iterative solver); fields, potentials and recentering speed of each attempt are arbitrary

Theorems: `Run.C72_start`, `Run.C72_solvable`, `Run.C72_step`.

### C73 The course of a run does not depend on random numbers, threads or uninitialised memory — partial

Simulation between two runs (`Props/Reproducible`): related states agree on everything but the tangent bases; the exact solutions give the same velocity (C65 + uniqueness), hence the same du, decisions and rows. The drift term is linear in the speed; a witness mesh where its work on a test function is -1/24 gives the negation.

*Limits:* exact reals and exact solutions of the linear systems. Proved in full without recentering; with recentering the claim fails because DW_vz is never initialised: C73_speed_matters says exactly when the speed changes the velocity, C73_negation gives, for any two different values, two runs keeping different magnetizations

Theorems: `Run.C73_same_results_partial`, `Run.C73_speed_matters`, `Run.C73_negation`.

### C74 suppress_charges removes the charges of a surface and nothing else — partial

`Model/SurfAniso`, `Props/Suppress`: the list of triangles of the flagged mesh and the flagged triangles together are those of the unflagged mesh, so each sum splits; congruence for the lost constants; a triangle with an oblique axis for the negation.

*Limits:* what happens to the charges is proved in full; the claim that nothing else changes fails: the constants of surface anisotropy of flagged surfaces have no effect (C74_anisotropy_lost), C74_motion says exactly when the motion is changed, C74_negation gives a witness for energy and motion

Theorems: `Suppress.C74_charges_partial`, `Suppress.C74_anisotropy_lost`, `Suppress.C74_motion`, `Suppress.C74_negation`.

### C75 A successful solve gives the velocity of the equation of motion within the tolerance — proved

`Model/LlgSolve` (mask, guess and solve joined), `Spec/LlgSolve`, `Proofs/SolveError`, `Props/LlgSolve`: the matrix is positive (C39) with the explicit constant 3/4 of the lumped damping, since alpha_eff is at least 3/4 alpha; Cauchy-Schwarz turns the residual certified by C15 into the error; normalization does not increase distances outside the unit ball.

*Limits:* in exact arithmetic; C75_step is the statement for a whole run, with a constant which depends on the mesh and the materials only

Theorems: `LlgSolve.C75_finite`, `LlgSolve.C75_error`, `LlgSolve.C75_step`, `LlgSolve.C75_guess`, `LlgSolve.C75_guess_kept`.

### C76 A magnetization at equilibrium stays there — proved

`Props/Equilibrium`: the right hand side is the image of zero (C65), so the tolerance relative to it is zero and C75 gives zero; invariant over all steps of the run for the data of the nodes; uniform fields as in C69.

*Limits:* the potentials computed at each step are assumed to be those of the start, as the magnetization is

Theorems: `LlgSolve.C76_equilibrium`, `LlgSolve.C76_stops`, `LlgSolve.C76_uniform`.

### C77 The Thiele length of the table is the wall width parameter of the magnetization — partial

`Model/Thiele`, `Props/Thiele`: one term per element with the exact gradient (C35), volumes by C55, lengths by C31; division by zero is a separate outcome of the model.

*Limits:* the length along z is the one of the whole mesh, not of the region: C77_cross_section_partial for regions that span the mesh, C77_negation otherwise

Theorems: `Thiele.C77_value`, `Thiele.C77_finite`, `Thiele.C77_rotation`, `Thiele.C77_scale`, `Thiele.C77_regions`, `Thiele.C77_cross_section_partial`, `Thiele.C77_negation`.

### C78 The statistics printed at the end of a run are those of its time steps — partial

`Model/RunStats` (computed beside the machine of C01), `Props/RunStats`: the accumulators hold the fold over the attempts with a solution (induction over the steps), C53 gives what is printed.

*Limits:* attempts rejected because max(du) was exceeded count as successful (C78_negation); a step without any move makes the width of the moves NaN (C78_zero_velocity)

Theorems: `TimeLoop.C78_samples`, `TimeLoop.C78_printed`, `TimeLoop.C78_max_angle`, `TimeLoop.C78_negation`, `TimeLoop.C78_zero_velocity`.

### C79 A sample turned and shifted as a whole behaves the same — partial

`Spec/Motion`, `Proofs/Motion`, `Props/Motion`: every term of the weak form and of the energies is a function of scalar products, except one term of the cubic anisotropy; simulation between the two runs as in C73. `C79_cubic` is the exact condition on that term, `C79_negation` a quarter turn of two tetrahedrons where it fails.

*Limits:* C79_run_partial for materials without cubic anisotropy (or at rest), exact solves and potentials that do not change under the motion (C79_potential: true of the exact sums); with cubic anisotropy the statement is false (C79_negation): the extrapolation in time multiplies vectors component by component

Theorems: `Run.C79_run_partial`, `Run.C79_energy`, `Run.C79_potential`, `Run.C79_cubic`, `Run.C79_negation`.

### C80 A simulation stopped at an output and restarted from its .sol file continues the same simulation — partial

`Model/Restart` (the constructor of `Fem`), `Props/Restart`: C29 for the file, C01/C03 for the output times of the restarted loop, C05 for the unit norm. `Props/RestartStep`: the difference of the two equations of motion is the work of the field of the lost rates (`lostField`); in a uniform state the solution is explicit and different.

*Limits:* proved: file accepted, magnetization and time restored, first row, output times (exact start time), unit norm after the first kept step. False: the time in the file has 7 digits and shifts all later times (C80_negation_time), file numbers start again at 0 (C80_negation_names), the last velocity and the rate of the potential are lost, and the next step is the same only if their field has no tangent effect (C80_continuation, iff; C80_negation: uniform states)

Theorems: `Restart.C80_restore`, `Restart.C80_fresh`, `Restart.C80_first_row`, `Restart.C80_grid`, `Restart.C80_shift`, `Restart.C80_unit`, `Restart.C80_negation_time`, `Restart.C80_negation_names`, `Run.C80_continuation`, `Run.C80_negation`.

### C81 As max(dt) goes to zero a run converges to the equation of motion discretised in space — proved

`Spec/SemiDiscrete` states the equation without a time step (`Velocity`, `Motion`). `Proofs/SemiDiscrete` solves it node by node (mass lumping), `Proofs/Scheme` writes a step of the program as that equation plus terms of order dt, `Proofs/LocalError`, `Proofs/StepBound` bound the velocity and the local error by compactness, `Proofs/OneStep` is the error recurrence, `Props/Converge` is the induction over the transitions of the loop model. `Proofs/GlobalOde`, `Proofs/MotionExists`: Picard-Lindelof with a uniform step gives the motion on the whole interval. Assumed: exact solves (C75 bounds the effect of the tolerance on one step), no recentering, exact addition of times, smooth fields, start at rest.

*Limits:* hypotheses: reported solves are exact, recentering off, exact addition of times, fields continuously differentiable in time and magnetization, initial velocity zero. The reference is the weak form of Spec/SemiDiscrete; its unique solution exists (C81_motion)

Theorems: `Converge.C81_convergence`, `Converge.C81_completes`, `Converge.C81_motion`.

### C82 The energy columns are the energies, and the warning means the energy went up — partial

`Model/EnergyAll` (the two loops of `Fem::energy`, the warning, the copy made by `evolution`), `Props/EnergyTable`: the folds are sums (C41, C42, C67, C74 say what the sums are); exactness of the rules on affine functions gives the averages of C33. The negation puts the magnetization in the plane x=0 or y=0 at the four outer Gauss points.

*Limits:* everything but the sign of the cubic energy: with the default five point quadrature the cubic energy of an element can be negative although the density is not (C82_cubic_negation); C82_cubic_partial has the sharp bound for one Gauss point and wider ones for five

Theorems: `EnergyAll.C82_terms`, `EnergyAll.C82_zeeman_term`, `EnergyAll.C82_total`, `EnergyAll.C82_undef`, `EnergyAll.C82_zeeman`, `EnergyAll.C82_zeeman_space`, `EnergyAll.C82_uniform`, `EnergyAll.C82_cubic_partial`, `EnergyAll.C82_cubic_negation`, `EnergyAll.C82_warning`, `EnergyAll.C82_warning_nan`.

### C83 The mathematical functions offered to user expressions are what their names say — proved

`Model/JsMath`: each function of the library on reals, infinities and NaN. The reference is Mathlib (`Real.cosh`, `Real.arsinh`, ...); Taylor bounds near zero, closed forms elsewhere.

*Limits:* in exact arithmetic: rounding of doubles is not modelled. C83_sharp: the error of expm1 near zero is really of the order 1e-8, not of rounding

Theorems: `JsMath.C83_expm1`, `JsMath.C83_log1p`, `JsMath.C83_cosh`, `JsMath.C83_sinh`, `JsMath.C83_tanh`, `JsMath.C83_acosh`, `JsMath.C83_asinh`, `JsMath.C83_atanh`, `JsMath.C83_infinity`, `JsMath.C83_nan`, `JsMath.C83_sharp`.

### C84 The torque of the spin accumulation takes from the electrons what it gives to the magnetization — partial

`Model/SpinTorque`: calc_Hst, its prefactor, the extra field and what is left in `s` by compute(). The rate of angular momentum of an element is the weak form of C65 tested with u x e (C84_rate); the torque is compared with the precession term of the weak form of C45. The reaction at the electrodes is the weak form tested with a constant direction (C84_conservation).

*Limits:* conservation of spin by the electrons is proved in full. The exchange with the magnetization is exact only if the magnetization or the spin accumulation is uniform in the element (C84_exact_partial); C84_balance gives the exact defect and C84_negation a witness on every tetrahedron: the electrons precess at the nodes and the magnetization at the Gauss points. C84_failed: after a failed solve the run goes on with no torque, so the last sentence of the statement is false

Theorems: `SpinTorque.C84_rate`, `SpinTorque.C84_balance`, `SpinTorque.C84_exact_partial`, `SpinTorque.C84_negation`, `SpinTorque.C84_conservation`, `SpinTorque.C84_failed`.

### C85 Second order in time: the error of a run decreases as the square of max(dt) — partial

Specification `Spec/MacroSpin`: the equation for one unit vector. The weak form of C65 reduces to one equation for the velocity when the magnetization is uniform (C69); it is expanded to the second order in dt and compared with the Taylor expansion of the motion (`Proofs/MacroStep`: local error of third order, the extrapolated field and alpha_eff giving the second order terms); the error is accumulated by induction over the transitions of the time loop (`Proofs/MacroError`, kept_run). The first step starts with a zero velocity: one error of second order. Witness of the negation: a field growing as t along z, compared with the hyperbolic tangent (`Proofs/MacroDriven`).

*Limits:* proved for a constant applied field (C85_second_order_partial), with the constant depending only on the material, the field, the demagnetizing tensor and the interval. False for an applied field that depends on the time: the field is taken at the start of each step, and C85_negation gives a field for which the error at a fixed time is at least max(dt)/1000 for every small max(dt). The magnetization is uniform; for any magnetization C81 proves the first order

Theorems: `SecondOrder.C85_second_order_partial`, `SecondOrder.C85_motion`, `SecondOrder.C85_negation`.

### C86 The settings printed by --verify make the same run — partial

`Model/DumpTree`: the printer as a function from settings to the document that the library reads from its text; the built-in defaults as a document. Each section printed and read back gives the section (`Proofs/DumpTree`); what the reader keeps true of the settings (directory not empty, keys of metadata distinct, direction defined, ...) is proved by induction over the files. Conversions of numbers are parameters with a rounding `r`.

*Limits:* proved for settings read from any sequence of files on top of the built-in defaults, up to the six digits printed, if no surface region has a current density, at most one file gives the magnetization and at most one the field, and the list of columns is not empty; each of these conditions is needed (negations proved). With spin accumulation the vectors of the surface regions have to be given. The text between printer and reader is that of C49: here every printed string is read as itself

Theorems: `Settings.C86_verify_partial`, `Settings.C86_negation_current`, `Settings.C86_negation_digits`, `Settings.C86_negation_magnetization`, `Settings.C86_negation_field`, `Settings.C86_negation_spin`, `Settings.C86_negation_columns`.

### C87 Files and exit status of a run — partial

`Model/Main`: `main` composed of the models of the options, the settings, the columns and the time loop; its outcome is the list of operations on the file system and the exit status. The environment (contents of files, answers of stat, mkdir, open, mesh reader and solvers) is a structure over which the theorems quantify. Names of files are decoded from their end to show that they determine the run.

*Limits:* proved except: the file of the potential is written in the working directory; an unknown column is noticed only after the table of an earlier run was emptied; the verification of a missing file succeeds; a final time before the initial time gives status zero and an empty table (negations proved). Not modelled: a full disk, exceptions of user expressions during the run

Theorems: `Main.C87_own_files_partial`, `Main.C87_once`, `Main.C87_separate`, `Main.C87_refused_partial`, `Main.C87_status`, `Main.C87_complete`, `Main.C87_unwritable`, `Main.C87_negation_potential`, `Main.C87_negation_columns`, `Main.C87_negation_verify`, `Main.C87_negation_past`.

### C88 Rounding errors do not accumulate on the length of the magnetization — proved

`Model/Rounded`: each operation is a relation between exact and rounded result, |y - x| <= eps |x|; `setBasis`, `make_evol`, `normalize`, the velocity bound are composed of these, so that all evaluation orders and fused operations are included. Error analysis by triangle inequalities; induction over the attempts. `C88_exact` shows that the exact model of C05 and C37 is included.

*Limits:* standard model of floating-point arithmetic, without overflow and underflow. The default of max(du) is 0.02; values above 3/8 are outside of the theorem. An initial magnetization read from a file is not normalized by the program: then the hypothesis on the start is about the file

Theorems: `Rounded.C88_unit_length`, `Rounded.C88_start`, `Rounded.C88_components`, `Rounded.C88_tangent`, `Rounded.C88_exact`.

### C89 Averages do not depend on the number of threads, up to rounding — proved

`Model/RoundedAvg`: the results of `transform_reduce` are an inductive relation over multisets (any tree, any order, each addition rounded). Induction over the tree bounds the error by (1+eps)^N - 1; composed with the errors of interpolation, weighting and division.

*Limits:* standard model of floating-point arithmetic, without overflow and underflow; the weights and volumes are the stored numbers (their own rounding is not counted)

Theorems: `Rounded.C89_accuracy`, `Rounded.C89_threads`, `Rounded.C89_reference`, `Rounded.C89_magnetization`, `Rounded.C89_exact`.

### C90 In steady conditions the energy never increases, and a run relaxes to equilibrium — proved

`Proofs/Descent`: for forces that derive from a function E, the step lowers E by c dt |v|^2 for all unit states at once, if the previous velocity is at most twice the one the equation gives at the present state; the step restores this bound. Compactness gives the constants. `Proofs/Relax`: the energy is a polynomial of degree two whose first derivative is minus the work in the weak form. `Proofs/RelaxRun`: induction over the transitions of the run.

*Limits:* exact arithmetic, exact solutions of the linear systems; no cubic and surface anisotropy, spin torque, recentering, moving frame or field that depends on time; the reciprocity of the demagnetizing field is a hypothesis (the potential computed by the fast multipole method has it only approximately)

Theorems: `Relax.C90_energy`, `Relax.C90_rows`, `Relax.C90_relaxation`, `Relax.C90_stationary`.

### C91 How the mesh file numbers the nodes and lists the elements does not matter — partial

`Spec/Similar`: a similarity is a ratio of lengths, a permutation of the nodes and one of the vertices of each element. `Proofs/Similar`: each integral over an element is unchanged or multiplied by the ratio to some power, because the sets of Gauss points are symmetric (a permutation of the vertices permutes the points). `Proofs/Couple` is a simulation between two time loops, used in `Proofs/SimilarRun` as in C73. `C91_jump` proves that the sign of the jump is the sense of the triangle; the negation is a surface triangle with an oblique axis. `Props/RecenterRun`: recentering finds nodes with the same magnetization in both descriptions, so it does the same to both, unless there are ties.

*Limits:* proved for exact arithmetic (recentering: all nodes magnetic, and no point it looks at may be as near to two nodes with different magnetizations, C91_recenter and C93_recentered_run_partial), for meshes whose triangles with a surface anisotropy keep their sense of rotation (all others are free); without this condition the claim is false (C91_negation): the torque of the surface anisotropy changes sign with the sense in which the file lists the triangle

Theorems: `Similarity.C91_jump`, `Run.C91_run_partial`, `Run.C91_negation`, `Recenter.C91_recenter`.

### C92 The image of a sample in a mirror has the image of its motion — partial

A mirror is half a turn about its normal (C79) followed by the inversion through the origin, that is a similarity of ratio -1 (C91): `Proofs/MirrorRun` composes the two.

*Limits:* proved for exact arithmetic, without cubic anisotropy (the claim is false with it, as in C79) and without recentering; triangles with a surface anisotropy keep their sense about the outward normal (C91)

Theorems: `Run.C92_run_partial`.

### C93 Lengths in another unit: the motion is the same if the exchange constant goes as the square — partial

The similarities of C91 with any ratio. `Proofs/SimilarEnergy`: energies, charges and corrections of one element; `Props/Similar`: sums over the mesh. `Props/RecenterRun`: runs with recentering, and a wall with unlike ends for which recentering and inversion do not commute.

*Limits:* energies, averages and potentials without conditions on the senses; the run as in C91: exact arithmetic, triangles with a surface anisotropy keep their sense; with recentering for positive factors, all nodes magnetic and no ties in the search of nodes. With recentering the claim is false for the inversion (C93_recenter_negation): the distance of the shift depends on the magnetization at the left end only

Theorems: `Similarity.C93_energy`, `Similarity.C93_average`, `Similarity.C93_potential`, `Run.C93_run_partial`, `Recenter.C93_recentered_run_partial`, `Recenter.C93_recenter_negation`.

### C94 Refining the mesh: energies, fields and averages converge to those of the continuous magnetization — proved

`Spec/Continuum`: solid tetrahedrons as sets of points, Lebesgue integrals over them, surface integrals, smooth fields (Taylor bounds), well shaped elements, energy densities. `Proofs/TetVolume`: volume of the simplex by induction on the dimension (Fubini), affine image; an integral of a function close to a constant. `Proofs/Continuum`: gradients of hat functions are at most kappa/(6h), so derivatives of samples are close to derivatives; quadrature with weights of both signs. `Proofs/ContinuumField`: energy in a field, potentials, triangles. `Props/Continuum`: sums over the mesh; E_demag through the integration by parts of C67.

*Limits:* explicit constants, first order in h; exact arithmetic; the potential at the nodes is a given smooth function (its computation is C47, C64, C67); E_demag for meshes accepted by the check, no suppressed charges, default triangle rule

Theorems: `Continuum.C94_volume`, `Continuum.C94_exchange`, `Continuum.C94_anisotropy`, `Continuum.C94_zeeman`, `Continuum.C94_field`, `Continuum.C94_demag`, `Continuum.C94_average`, `Continuum.C94_refine`.

### C95 The equation of motion on the mesh is a consistent approximation of the Landau-Lifshitz-Gilbert equation of the continuum — proved

`Spec/ContinuumLlg`: the weak LLG equation with Lebesgue integrals (`weakLlg`). `Proofs/ContinuumLlg`: each term on one element (lumped products, derivatives of samples, anisotropy field Lipschitz on the unit ball, potential, surface) is close to its integral, with the quadrature lemmas of C94. `Props/ContinuumLlg`: sum over the mesh; the difference of velocities by linearity of damping and gyration. Examples: a turning magnetization, and a uniform precession solving both equations.

*Limits:* first order in h with an explicit constant, in exact arithmetic; the equation on the mesh is the one a run converges to when the time step is refined (C65, C81). Consistency in the weak sense: convergence of the solutions themselves when the mesh is refined is not claimed

Theorems: `Continuum.C95_consistent`, `Continuum.C95_velocity`, `Continuum.C95_refine`.

### C96 The electric potential converges to that of the continuum; power balance — proved

`Spec/ContinuumPot`: the weak form of the conservation of the current with Lebesgue integrals (`weakOhm`, `Ohm`), mean square error, powers. `Proofs/ContinuumPot`: integral of an affine function over a triangle (symmetries of the reference triangle preserve the measure), parallelogram identity on one element. `Props/ContinuumPot`: the quadrature of the code is exact for these integrands, so its problem is the Galerkin problem; orthogonality gives Pythagoras (best approximation), C94_field bounds the error of the interpolant.

*Limits:* for the exact solution of the assembled problem (C59: unique; C57, C75: how far the computed one may be), exact arithmetic; the continuous equation is tested with continuous piecewise affine functions

Theorems: `Continuum.C96_best`, `Continuum.C96_converges`, `Continuum.C96_power`, `Continuum.C96_minimum`, `Continuum.C96_joule`.

### C97 Infinities and NaN do not get into the results — partial

`Model/NonFinite`: the surface term `Tri::integrales` in numbers with infinities and NaN. `Proofs/NonFinite`: once a residual has an entry that is not finite, BiCGStab and CG never stop with a finite residual (invariants of the loops with the operations of `Fl`). The solve of the equation of motion refuses a residual that is not at most the tolerance, the two other solvers compare only with tolerance times norm of the right hand side, which is infinite too: negation on the reference tetrahedron with conditions that pass the check.

*Limits:* proved for the equation of motion; false for the potential and the spin accumulation: an infinite right hand side or prescribed value gives CONVERGED with the first guess (C97_infinite, C97_negation), in all other cases the claim holds (C97_converged_partial)

Theorems: `NonFinite.C97_success_finite`, `NonFinite.C97_success`, `NonFinite.C97_converged_partial`, `NonFinite.C97_infinite`, `NonFinite.C97_surface`, `NonFinite.C97_surface_fails`, `NonFinite.C97_no_jump`, `NonFinite.C97_run_stops`, `NonFinite.C97_negation`.

### C98 Dividing a region into parts of the same material changes nothing — partial

`Spec/Regions`: the same elements with the same materials under two groupings, and additional triangles that separate nothing. `Props/Regions`: equality of the element matrices, of the shape and of the sums (zeros are added by the additional triangles), so both groupings have the same set of possible linear systems, hence of runs. `Props/RegionsMesh`: the regions at a face of the merged mesh are the images of those of the divided one, so boundary faces of one are boundary faces of the other; with C24 (each boundary face has one triangle) this gives a one to one correspondence of the triangles after the check; C26 gives the jumps.

*Limits:* proved when there is no surface anisotropy between the parts; false otherwise: a constant Ks in __default__ also applies to the triangles the program adds between the parts, where the jump is zero, and every solve fails (C98_default_fails, C98_negation)

Theorems: `Regions.C98_system`, `Regions.C98_run`, `Regions.C98_energy`, `Regions.C98_potential`, `Regions.C98_average`, `Regions.C98_parts`, `Regions.C98_check`, `Regions.C98_sample_partial`, `Regions.C98_default_fails`, `Regions.C98_negation`.

### C99 Energy balance in a varying applied field: the area of a hysteresis loop is the loss by damping — proved

`Spec/Balance`: power of the damping, work of a change of the applied field, their sums over the transitions of a run. `Proofs/Balance`: the energy is a polynomial of degree two whose derivative is the work of the effective field (C90); the step follows the equation discretised in space to second order (C81); in the equation the work of the effective field is the power of the damping (C65, the gyration term vanishes for w = v); hence one accepted step satisfies the balance up to C dt^2. `Props/Balance`: sum over the run, rows, cycle, and the work in terms of the averages (C33).

*Limits:* one value of Ms, exchange, uniaxial anisotropy, applied and demagnetizing field; no cubic or surface anisotropy, no spin torque, no recentering (as C90); exact arithmetic and exact solutions of the linear systems

Theorems: `Balance.C99_balance`, `Balance.C99_cycle`, `Balance.C99_rows`, `Balance.C99_columns`.

### C100 Non-magnetic surroundings do not change the magnet — partial

`Spec/Surroundings`: the same magnetic tetrahedrons, triangles with the same nodes, jump and parameters, and additional inert triangles; two meshes with different numbers of nodes. `Proofs/Couple` (coupling of two runs, now with two numbers of nodes): the systems of the two meshes determine the same v at the magnetic nodes, since the bases do not matter (C68) and the residual is a sum over magnetic elements; induction over the run. `Props/SurroundingsMesh`: the faces of the tetrahedrons kept are counted by filtering the regions (`incident_alone`), so faces on the boundary, jumps (a sum over tetrahedrons where those with Ms = 0 contribute nothing) and parameters are the same; the remaining triangles have no jump. Counterexample: two tetrahedrons with a common edge and one of air between them. `Model/RecenterFl`, `Props/RecenterAir`: recentering with the NaN of non-magnetic nodes; it agrees with `Model/Recenter` when all nodes are magnetic (`recenterF_fin`).

*Limits:* as for C98, surface anisotropy on triangles that separate nothing makes the solve fail (C100_default_fails, C100_negation), so C100_sample_partial asks for none there; C100_run_partial is without recentering (which uses all nodes: if the node nearest to the left end of the axis is not magnetic, a recentering gives all nodes the same magnetization, C100_recenter_fails), and takes the fields at the magnetic elements as the same (a field given by an expression of the position is misplaced when there are non-magnetic regions: C44); max_angle may see the surroundings (C32); nodes of the magnet keep their numbers (C91 for other numbers)

Theorems: `Surroundings.C100_run_partial`, `Surroundings.C100_energy`, `Surroundings.C100_potential`, `Surroundings.C100_average`, `Surroundings.C100_check`, `Surroundings.C100_sample_partial`, `Surroundings.C100_default_fails`, `Surroundings.C100_negation`, `Recenter.C100_recenter_magnetic`, `Recenter.C100_recenter_fails`.

### C101 Progress display — partial

`Model/Progress`: `show_progress` with its static variables and an arbitrary clock, called along the run of `Model/TimeLoop`. Invariant by induction over the transitions (`DispInv`): the output is a list of updates and at most one closing line. A display is described by `Shows`, which determines it (`shows_unique`).

*Limits:* the percentage is that of the time, not of the work done: after a restart it is too large (C101_restart_negation); if the final time is no multiple of the output period it can exceed 100, and the closing line can appear before the end (C101_negation). Without these two cases all of the statement is proved; the decimal rounding of the percentage is not modelled

Theorems: `TimeLoop.C101_lines`, `TimeLoop.C101_closed`, `TimeLoop.C101_increasing`, `TimeLoop.C101_fresh`, `TimeLoop.C101_complete`, `TimeLoop.C101_verbose`, `TimeLoop.C101_below`, `TimeLoop.C101_restart_negation`, `TimeLoop.C101_negation`.

### C102 A current through a non-uniform magnetization creates spin accumulation — partial

`Spec/SpinSource`: the source as a Lebesgue integral for a finite element magnetization; exact integrals of affine functions (`Proofs/TetAffine`). The right hand side of `Model/Electro` is compared with it; the weak form of the potential (C57, C59), tested with the function w·M, shows that it vanishes. Energy argument of C60 for the zero accumulation.

*Limits:* holds for a magnetization that is uniform on every element. Else it fails: the magnetization of the node is taken instead of that of the Gauss point, so that the assembled source is the balance of the current at the node times the magnetization there, which is zero at every node inside one magnetic material (C102_vanishes). The accumulation is that of an unpolarized material (C102_ignored), zero if no spins come from outside (C102_no_accumulation), and there is no torque. C102_negation gives a wall; C102_missing the term that is lost, which does not vanish when the mesh is refined

Theorems: `Continuum.C102_source_partial`, `Continuum.C102_difference`, `Continuum.C102_missing`, `Continuum.C102_vanishes`, `Continuum.C102_ignored`, `Continuum.C102_no_accumulation`, `Continuum.C102_no_torque`, `Continuum.C102_negation`.

### C103 Directions in the settings need not be unit vectors — partial

`Model/Axes`: `normalize` of Eigen and `isOrthogonal` in numbers with infinities and NaN, used as the normalization of `Model/Settings`. An invariant of the reading of regions, by induction over the files.

*Limits:* proved for vectors with finite components that are not all zero, in exact arithmetic. A zero vector is accepted and stays zero, so that the anisotropy constant has no effect (C103_negation_zero); cubic axes that are not orthogonal, even three equal ones, are accepted with a warning (C103_negation_orthogonal)

Theorems: `Settings.C103_volume`, `Settings.C103_surface`, `Settings.C103_length`, `Settings.C103_volumes_partial`, `Settings.C103_surfaces_partial`, `Settings.C103_any`, `Settings.C103_warning`, `Settings.C103_warning_nan`, `Settings.C103_negation_zero`, `Settings.C103_negation_orthogonal`.

### C104 The columns dt, max_dm and <dM/dt> describe the last time step — partial

`Model/Rates`: the columns as functions of the state of `Model/TimeLoop`. An invariant by induction over the transitions: when no retry is pending, nodes, `dt`, `vmax` and time are those left by the last kept step. The distance between the normalized and the straight motion is bounded at each node, the averages follow because `avg` is linear and lies between the bounds of its nodal values.

*Limits:* proved without recentering; with recentering dt and max_dm are still those of the last step (C104_step), but a row written after a shift shows 0 in all columns <dM/dt> (C104_recentered; C104_negation_recenter is a run where the magnetization moved by 1/2). The time of the step start plus dt is the time of the row exactly or as rounded by the addition of the code; the velocities and averages are exact reals

Theorems: `TimeLoop.C104_step`, `TimeLoop.C104_average`, `TimeLoop.C104_first`, `TimeLoop.C104_recentered`, `TimeLoop.C104_negation_recenter`.

### C105 Settings of the time integration that cannot be followed are reported — partial

`Model/TimeLoop` for settings outside `Valid`; `Model/StepperFl` is the stepper with infinities and NaN and `std::min`/`std::max` as they treat NaN (for real numbers it is `Model/TimeStepper`: `StepperF.step_real`). The first attempt is bounded by the period and by `sqrt(min(dt) max(dt))`; the endless cases are invariants by induction over the transitions.

*Limits:* an output period or a max(dt) below min(dt) ends the run with status 1 after the first row, and a run that ends with status 0 had min(dt) <= period, min(dt) <= max(dt), max(du) >= 0, if min(dt) and the period are positive and max(dt) is not negative. Without these hypotheses the claim is false, the settings are not checked: with min(dt) = 0 the run neither advances nor ends (C105_negation_zero), with a negative period no step is made and the status is not 1 (C105_negation_period), with min(dt) and max(dt) of opposite signs the limit of the step is NaN and failed solves are repeated with the same step for ever (C105_negation_sign; the coefficient of the equations is NaN: C105_prefactor). That a system with NaN coefficients has no solution found is not proved here

Theorems: `TimeLoop.C105_period`, `TimeLoop.C105_order`, `TimeLoop.C105_du`, `TimeLoop.C105_success_partial`, `TimeLoop.C105_negation_zero`, `TimeLoop.C105_negation_period`, `StepperF.C105_negation_sign`, `C105_prefactor`.

### C106 A setting that is not given has the documented default value — partial

The documented values are literals of `Spec/Defaults`, apart from the tree `defaults` that the model reads. The built-in text is one more file in front of those of the user, so C48 gives the scalar settings; a region is followed through the files before, at and after its first description. For the negation the NaN of `uP` is followed through `boundaryConditions`, the stored pattern of the matrix (one row of a free node in a tetrahedron with the surface) and the first residual of `bicg_dir`.

*Limits:* true for all settings but one: the polarization uP of a surface region. The documented [0, 0, 1] is never used; not given, uP is NaN (C106_negation_polarization), and a surface with a current and no uP makes every computation of the spin accumulation end with CANNOT_CONVERGE, from the settings files to the status of the solver (C106_negation_solver, C106_negation_run). The applied field supposes that a product of space and time has both parts as texts (C48); the metadata and the base name have no default

Theorems: `Settings.C106_text`, `Settings.C106_initial_time`, `Settings.C106_columns`, `Settings.C106_threads`, `Settings.C106_direction`, `Settings.C106_magnetization`, `Settings.C106_field`, `Settings.C106_volume`, `Settings.C106_surface_partial`, `Settings.C106_negation_polarization`, `Electro.C106_negation_solver`, `Electro.C106_negation_run`.

### C107 In steady conditions a run does not cross an energy barrier — partial

The estimate of C90 holds for every part of a step: while the velocity of the step is followed for a shorter time and the magnetization normalized, the energy is already below that at the start. These pieces are joined over the steps of the run; a quantity is then followed along the path (intermediate values). For the uniaxial material the energy at the barrier is bounded element by element: the quadrature with five points is exact for it, in spite of its negative weight.

*Limits:* as C90: exact arithmetic, exact solutions of the linear system, potential linear and reciprocal, no recentering; the limit for the largest time step is not computed. The last theorem also supposes that the demagnetizing energy is not negative

Theorems: `Relax.C107_path`, `Relax.C107_barrier`, `Relax.C107_metastable`.

### C108 In an energy well with one equilibrium every run converges to this equilibrium — partial

The well is compact and by C107 the run stays in it. The least energy is attained at an equilibrium, so at the only one; away from it the energy is higher by a margin, and where it is higher by this margin the right-hand side of the equation of motion is bounded below, so that each accepted step lowers the energy in proportion to its duration (C90): the total duration of these steps is bounded. For the uniaxial material, turning the magnetization of all nodes towards the easy axis does positive work unless it is there already; for exchange this uses that the products of the gradients of two hat functions are not positive (no obtuse dihedral angle).

*Limits:* as C90: exact arithmetic, exact solutions of the linear system, potential linear and reciprocal, no recentering; the limit for the largest time step and the time are not computed

Theorems: `Relax.C108_settles`, `Relax.C108_saturates`.

### C109 Potential and spin accumulation stay within the values of the contacts, and injected spins are lost with the distance — partial

`Spec/Maximum`: angles, heights, densities that would need sources. `Proofs/NonObtuse`: without obtuse angles the products of the gradients of two different shape functions are not positive; the gradient of a shape function is the inverse of the height. `Props/Maximum`: the equations assembled by the code are tested with the part of the potential above the bound; for the spins, with the part of the length above the bound, along the accumulation itself, so that the precession drops out. The density c (1 + (height / 2 spin flip length)²)^(-distance / size) would need sources, which gives the decay.

*Limits:* holds on meshes without obtuse dihedral angles; C109_negation gives a mesh of two elements, with an obtuse angle, where a current enters and the potential of a node is below that of all contacts. For the exact solution of the assembled equations (C59, C60: unique; C57: how far the computed one may be), exact arithmetic; spins without the source of C102, that is without polarization or in a magnetic wire where nothing is assembled

Theorems: `Electro.C109_potential_partial`, `Electro.C109_contacts_partial`, `Electro.C109_spin_partial`, `Electro.C109_below_partial`, `Electro.C109_decay_partial`, `Electro.C109_negation`.

### C110 The spin accumulation is not computed from material constants that were not given — proved

`Model/SpinStart`: the constructor of `spinAcc`, with element matrices whose divisors may be zero. `Proofs/SpinStart`: a coefficient that is not finite stays so in the assembly; times the zero of a node on no contact it is NaN, which the solver reports; a row of zeros makes the preconditioner infinite and the second residual NaN. `Props/SpinStart`: with C57 for the checks, C106 for the defaults; if no divisor is zero the assembly is that of `Model/Electro`, to which C45, C46, C60, C109 apply.

*Limits:* for elements with a node on no contact (the equations of the nodes on contacts are not used), and for nodes without prescribed potential all of whose elements lack the conductivity, unless the prescribed potentials continued by zeros already solve the equations; infinities and NaN as in IEEE arithmetic, otherwise exact arithmetic (no overflow, no underflow of the squares of the lengths)

Theorems: `SpinStart.C110_outcomes`, `SpinStart.C110_complete`, `SpinStart.C110_default`, `SpinStart.C110_numbers`, `SpinStart.C110_result`, `SpinStart.C110_quiet`.

### C111 A sample with all fields stronger by a factor runs the same course faster by that factor — partial

`Spec/Rescale`: rescaled settings, nodes, inputs, states, rows. `Proofs/RescaleLoop`: the loop commutes with the rescaling, transition by transition. `Proofs/RescaleSystem`: the effective damping depends only on products of steps and fields, so the element matrices stay and the right hand sides are multiplied by c. `Proofs/RescaleSolve`: the masked BiCGStab on a multiplied system, iteration by iteration, including its breakdowns. `Proofs/RescaleEnergy`: energies, potentials, recentering. `Props/Rescale`: whole runs whose attempts are decided by the solver, and the counterexample for large right hand sides.

*Limits:* for right hand sides of norm at most 1 before and after, or c at most 1 and attempts that succeed: the solver also compares the residual itself with the tolerance, and C111_negation_tolerance gives a system that is solved, but not solved any more when everything is doubled; exact arithmetic, no thermal constants involved

Theorems: `Rescale.C111_system`, `Rescale.C111_solve_partial`, `Rescale.C111_solve_weaker`, `Rescale.C111_potential`, `Rescale.C111_energy`, `Rescale.C111_recenter`, `Rescale.C111_loop`, `Rescale.C111_run_partial`, `Rescale.C111_negation_tolerance`.

### C112 The notation of the applied field does not matter — partial

`Model/FieldKind`: both overloads of `prepareElements` and of `zeemanEnergy`, with the table of C44. `Props/FieldKind`: both notations give the value of the field at the integration points; the system depends on the applied field only in the magnetic elements; runs decided by the solver as in C111.

*Limits:* in the space dependent notation the magnetic tetrahedrons have to come first: C112_negation, otherwise even a uniform field in that notation reads the table out of bounds (see C44); exact arithmetic; the values of the expressions are given functions

Theorems: `FieldKind.C112_field_partial`, `FieldKind.C112_energy_partial`, `FieldKind.C112_run_partial`, `FieldKind.C112_factor`, `FieldKind.C112_negation`.

### C113 Only differences of times matter — proved

`Spec/TimeShift`: what it means that a state, a row, a file, the settings are later. `Proofs/TimeShift`: every function of the time loop (C01) commutes with that, the run by induction. `Props/TimeShift`: with the solver in the loop (as in C111), the linear system of an attempt contains the time only through the applied field.

*Limits:* exact arithmetic, in particular exact sums of times (rounded sums do not commute with a shift)

Theorems: `TimeShift.C113_loop`, `TimeShift.C113_run`, `TimeShift.C113_steady`.

### C114 Magnets that do not touch act on each other only through their stray fields — proved

`Props/Apart`: the weak form (C65) of the sample tested with fields that vanish outside one magnet is the weak form of this magnet alone, which has one solution; potential and energies are sums over elements (`directPot` of C79, `Fem::energy` of C82), split by magnet. Two separate tetrahedrons with surface anisotropy as the example.

*Limits:* one attempt with a given time step (the step of a run is common to all magnets); exact arithmetic and exact solutions

Theorems: `Apart.C114_step`, `Apart.C114_potential`, `Apart.C114_energy`.

### C115 The electric potential obeys Ohm's law — proved

`Props/Ohm`: the assembled rows are the weak form (C57, C109), whose volume part is symmetric and bilinear; superposition by testing with the difference of the two sides and connectedness to the electrode (C59), reciprocity and power by testing with the other or the same potential. The tetrahedron of C109 with two currents as the example.

*Limits:* exact solutions of the assembled system; the iterative solver reaches them up to its tolerance (C57)

Theorems: `Electro.C115_superposition`, `Electro.C115_ohm`, `Electro.C115_conductivity`, `Electro.C115_reciprocity`, `Electro.C115_power`.

### C116 The spin accumulation is proportional to the current — proved

`Props/SpinOhm`: the assembled system (C45) is a bilinear form, positive since the precession term vanishes for equal fields, minus sources linear in the field of C115 and in the flows of the surfaces; tested with the difference of the two sides. A magnetic tetrahedron with a current and the reversed current as the example.

*Limits:* exact solutions; the matrices that the code accumulates over the calls (C45) are included, with the same history on both sides

Theorems: `Electro.C116_superposition`, `Electro.C116_current`, `Electro.C116_torque`, `Electro.C116_no_current`.

### C117 The spin accumulation turns with the spins, wherever the sample is — proved

`Props/SpinTurn`: the weak forms (C45, C57) depend on space through scalar products of gradients, on the spins through scalar and triple products, both invariant (`Motion` of C79, one for the sample and one for the spins); one solution by C116. A quarter turn of the spins of the tetrahedron of C116 as the example.

*Limits:* exact solutions; the polarization and the spin vector of a surface are supposed to be given with all their components or not at all

Theorems: `Electro.C117_potential`, `Electro.C117_spin`, `Electro.C117_torque`.

### C118 Voltages and spin accumulation grow with the size of the sample — proved

`Props/SpinSize`: gradients scale as 1/k, volumes as k^3, surfaces as k^2 (lemmas of C93); the weak forms (C45, C57) of the enlarged sample are k^2 times those of the sample; one solution by C116. The tetrahedron of C116 twice as large as the example.

*Limits:* exact solutions; the values prescribed for the spin accumulation are supposed to be k times larger too

Theorems: `Electro.C118_potential`, `Electro.C118_spin`, `Electro.C118_torque`.

### C119 Collinear spins exert no torque — proved

`Props/Collinear`: the half turn about the direction leaves the data as they are, hence by C117 the turned spin accumulation solves the same system, and by C116 it is the same; what a half turn leaves is along its axis. An oblique direction with alternating magnetization as the example.

*Limits:* exact solutions; the polarization and the spin vector of a surface are supposed to be given with all their components or not at all; the prescribed values of the spin accumulation are supposed to be along the direction

Theorems: `Electro.C119_spin`, `Electro.C119_torque`.

### C120 Reciprocity and balance of the spin accumulation — proved

`Props/Onsager`: the weak form (C45) is a bilinear form minus what is injected; the form with the magnetization reversed is its transpose, since the precession is antisymmetric. Each solution is tested with the other one, and a solution with itself. The tetrahedron of C116 with two polarizations as the example.

*Limits:* exact solutions which vanish where the spin accumulation is prescribed

Theorems: `Electro.C120_reciprocity`, `Electro.C120_balance`.

### C121 Bodies which do not touch do not influence each other — proved

`Props/Separate`: the solution of one sample on the body, glued to the solution of the other sample elsewhere, satisfies the weak form (C45, C57) of the other sample, for each element contributes to one part only; one solution by C115 and C116. A tetrahedron alone and with another one beside it as the example.

*Limits:* exact solutions; the elements of the body are supposed to come in the same order in both meshes

Theorems: `Electro.C121_potential`, `Electro.C121_spin`.

### C122 Potential and spin accumulation do not depend on the numbering — proved

`Props/Renumber`: the weak forms (C45, C57) are sums over the elements of terms in the values at their nodes, hence the same after renumbering and reordering; one solution by C116. The two bodies of C121 with nodes exchanged and elements reversed as the example.

*Limits:* exact solutions; the order of the vertices within an element is kept

Theorems: `Electro.C122_potential`, `Electro.C122_spin`.


## Findings

Behaviour of the code that contradicts what a user would expect. "(proved)" refers to a theorem.

1. Recentering always works along Z: the enumeration value of the direction is passed where a letter is expected (C46_negation, proved). The clamp at the ends of the sample also replaces the transverse coordinates, and the shifted magnetization is written to CURRENT only, so that the row and file written at that time show the magnetization before the shift (C46_keeps_next).
2. The upper corner of the bounding box starts from `__DBL_MIN__`, the smallest positive number: a mesh with only negative coordinates along an axis gets a wrong box (C31_negation, proved).
3. The space dependent field is stored by rank among the magnetic tetrahedrons and read by index among all of them: with non magnetic regions in front it is applied at the wrong place, or read out of bounds (C44_negation, C44_out_of_bounds, proved).
4. The spin accumulation never clears its matrix and right hand side, and its precession term uses the magnetization of the start of the step (C45_negation, C45_negation_stale, proved).
5. A signal right after an attempt rejected by `max(du)` saves the rejected magnetization (C08_negation, proved).
6. The step limiter may cut an admissible step below `min(dt)`, which aborts the run (C07_negation, proved).
7. Energies in a row are evaluated at the time of the start of the last step (C10_negation, proved).
8. `max_angle` with NaN magnetizations (edges to non magnetic nodes) depends on the schedule (C32_negation, proved).
9. A saved configuration cannot be read back when it has NaN values (non magnetic nodes) or spin columns; a user metadata item named `time` is taken for the time (C29_negation_*, proved).
10. Settings given twice: the second definition of a region is ignored, a `.sol` file wins over later expressions, a recentering section without direction resets the direction, a derived base name sticks, a member of a space-time field that is a list is ignored (C48_negation_*, proved).
11. The dump of the settings prints `J` where the reader expects `jn`; strings with backslashes, block texts without final newline or with leading spaces, and quotes in expressions are not read back (C49_negation_*, proved).
12. An empty command line argument is taken for `--print-defaults` (C52_empty_argument, proved).
13. The extrapolated cubic anisotropy field does not derive from the energy (C43_cubic_negation); the surface anisotropy field lacks mu0 and its sign follows the orientation of the triangle (C43_surface_negation, C43_surface_orientation, proved).
14. Statistics over a sample equal to zero are NaN for ever (C53_negation_zero, proved); the "successful" statistics of a run include the steps rejected because max(du) was exceeded (C78_negation), and one step with a velocity exactly zero spoils those on dumax (C78_zero_velocity, proved).
15. A metadata key with an end of line breaks the header; an empty value is undefined behaviour (C51_negation_*, proved). A region name with a tabulator shifts the header of the table; a region prefix in front of the field gives NaN (C50_negation_*, proved).
16. A breakdown of BiCGStab on a singular system puts NaN into components with a prescribed value (C13_negation, proved); the test of the LLG residual is absolute.
17. A surface with an infinite potential, or one surface with both a current and a prescribed spin, passes the checks of the electrostatic problem (C57_infinite_potential, C57_spin_no_dirichlet, proved).
18. A `min(dt)` below the resolution of the time makes the integration endless (C03_negation_resolution, proved).
19. A field given by a function of space and time whose members are not functions is a fatal error of the interpreter (C54_no_function, C48_negation_field, proved).
20. The equation of each element is divided by its own Ms before assembly. In a sample with several values of Ms the velocity at the nodes shared by two regions is not driven by the gradient of the energy: the energy may increase (C66_negation_two_materials, proved), and the natural boundary condition at the interface is continuity of A/Ms times the normal derivative instead of A times it.
21. A surface region with `suppress_charges` is left out of `magTri` (mesh.h:127-131) and thereby loses its surface anisotropy too, in the equations (solver.cpp:35) and in the energy (energy.cpp:49-62) (C74_negation, proved).
22. If an entity of the mesh is in two physical groups that are both named in the settings, its elements are read twice (C70_negation_twice): volumes, charges and equations count twice. Nothing is reported.
23. An entity in a named group that has no elements leads to `elemNodeTags[0]` of an empty vector (read.cpp:122, 176), C70_negation_empty.
24. An initial magnetization expression that gives the zero vector is accepted (C71_negation_zero): `normalize()` leaves the zero vector as it is, the tangent basis of the node is then not orthonormal and C37, C39 do not apply.
25. `DW_vz`, the speed of the drift term used with recentering, is never initialised (`set_DW_vz` is never called): the result of a recentered run depends on the content of that memory (C73_negation).
26. The Thiele length of a region is computed with the length along z of the whole mesh, non-magnetic parts included (C77_negation, proved).
27. The extrapolation in time of the cubic anisotropy field multiplies (v.u_k) by the anisotropy axes component by component in the frame of the mesh (tetra.cpp 183-208), which is not covariant: with cubic anisotropy the same sample turned by a quarter turn takes a different step (C79_negation, proved).
28. A restart does not continue the run: the time in the .sol header is printed with 7 digits (settings.cpp 306) so all later output times are shifted (C80_negation_time); the velocity and the rate of the potential are not in the file so the next step differs, except when they have no tangent effect (C80_continuation, C80_negation); the .sol numbering starts again at 0 and the .evol file is truncated, so a restart with the same output name overwrites the first part (C80_negation_names). All proved.
29. The cubic anisotropy energy of a tetrahedron can come out negative with the default quadrature for K3 > 0, although the density is nowhere negative: the density has degree four, and the central Gauss point has a negative weight (C82_cubic_negation, proved).
30. `expm1` and `log1p` of the expression library return x itself below 2e-8, with a relative error of 1e-8, not of rounding (C83_sharp, proved).
31. The torque given to the magnetization by the spin accumulation is not what the electrons lose: the precession of the electrons is lumped at the nodes, the torque is integrated at the Gauss points (C84_balance gives the difference, C84_negation a witness on every tetrahedron). A spin diffusion solve failing during the run leaves s = 0 and the run goes on with no torque (C84_failed).
32. The applied field of a step is the field at its start (time_integration.cpp:196): for a field that depends on the time the error is only of first order in max(dt), although theta = 1/2 (C85_negation). The field at the middle of the step would keep the second order.
33. The settings printed by --verify do not always make the same run: the current density of a surface region is printed with the key `J` and read with the key `jn` (C86_negation_current); numbers are printed with six digits, the default Ms has seven (C86_negation_digits); a function for the magnetization or the field stays printed after a later file has replaced it (C86_negation_magnetization, C86_negation_field); with spin accumulation a surface region without polarization is printed with a vector of "nan", which is refused (C86_negation_spin); an empty list of columns becomes the default list (C86_negation_columns).
34. The polarization `uP` of the default surface region is never inherited (C48_negation_surface); a .sol file longer than the mesh is accepted (C29_negation_longer).
35. The potential asked for with V_file is written in the working directory and not in the output directory (spinAccumulationSolver.cpp:25-28, C87_negation_potential). The names of the columns are checked only when the first row is written, after the table of an earlier run was emptied (C87_negation_columns). `--verify` with a file that does not exist ends with status zero (C87_negation_verify). A final time before the initial time gives status zero and a table without rows (C87_negation_past).
36. A spin diffusion problem that is not solved during the run (after the first) sets the spin accumulation to zero and the run goes on, with status zero (fem.h:210, spinAccumulationSolver.cpp:155-160; not formalised).
37. The torque of the surface anisotropy changes sign when the mesh file lists a surface triangle the other way round (triangle.cpp:8 divides by the jump of magnetization, mesh.cpp:227-242, which has the sign of the sense); the energy of the surface anisotropy does not. So two files for the same sample give different motions (C91_negation; see also 13).
38. An infinite prescribed potential (or spin accumulation) passes the check of the conditions, and CG / BiCGStab report convergence at once because the residual, infinite, is at most tolerance times norm of the right hand side, infinite too; the potential is then infinite on the electrode and zero elsewhere (C97_infinite, C97_negation). A surface anisotropy on an interface between two regions of equal magnetization divides by zero (triangle.cpp:8) although its energy is fine: every solve fails and the run ends without a step (C97_surface_fails, C97_run_stops).
39. A surface anisotropy constant given in `__default__` (meant for the surface of the sample) is copied to the interfaces the program creates between regions (mesh.cpp:175-226). If two neighbouring regions have the same magnetization, e.g. because one material was divided in two regions, the jump there is zero and every solve fails, although the undivided sample runs (C98_default_fails, C98_negation).
40. A surface anisotropy constant in `__default__` makes every solve fail when a face of a non-magnetic region has three magnetic corners without being a face of the magnet (C100_default_fails, C100_negation).
41. Recentering moves the wall by a distance proportional to the magnetization at the left end of the axis, not to its sign (recentering.cpp:101): the image of a sample under the inversion is moved by another distance if the ends are unlike (C93_recenter_negation).
42. Recentering looks for the nearest node among all nodes, and the magnetization of non-magnetic nodes is NaN. If the end of the axis is in a non-magnetic region, the test for a wall does not see it, the shift is NaN, and all nodes get the magnetization of one node (C100_recenter_fails).
43. The progress display shows t / final_time. After a restart it starts at t0 / final_time instead of 0 (C101_restart_negation). If the duration is no multiple of the output period and is rounded up, it exceeds 100 %, or shows 100 % although the run goes on (C101_negation).
44. The source of spin accumulation is assembled with the magnetization of the node `ie` instead of that of the Gauss point (spinAccumulationSolver.cpp:277). Summed over the elements around a node this is the balance of the electric current at the node, hence zero: inside a magnetic material a current creates no spin accumulation and no torque, however the magnetization varies (C102_vanishes, C102_no_torque, C102_negation). Only nodes on electrodes and on the border between materials of different polarization get a source.
45. A direction given as [0, 0, 0] is accepted without a message and stays zero: the anisotropy is switched off (uniaxial) or incomplete (cubic) (C103_negation_zero). Cubic axes that are not orthogonal, even three equal ones, are accepted with a warning (C103_negation_orthogonal).
46. `recenter` sets the velocities to zero after a shift (recentering.cpp:123, before the row is written), so the columns `<dMx/dt>` of such a row are 0 while `max_dm` is not (C104_recentered, C104_negation_recenter).
47. The settings of the time integration are not checked (settings.cpp:331-332, 575-580): `min(dt): 0` gives an endless run of steps of length zero (C105_negation_zero), a negative output period a run without any step and with status 0 (C105_negation_period), `min(dt)` and `max(dt)` of opposite signs an endless sequence of equal attempts if the solver fails (C105_negation_sign, C105_prefactor).
48. The documented default `uP: [0, 0, 1]` of a surface region is never used (settings.cpp:446-447): a current without `uP` prescribes NaN on its surface and the spin accumulation solver stops with an error (C106_negation_run).
49. `solver.cpp` 60-69 accepts a solution only if the residual is below the tolerance relative to the right hand side (`bicg_dir`) and also below the tolerance as an absolute number. The right hand side has the dimension of a field times a volume per length squared, so whether an attempt fails depends on the units and on the strength of the fields (`C111_negation_tolerance`).
50. Not formalised: `base_projection` takes `M_2_PI` (2/pi) for 2 pi; two identical isolated tetrahedrons pass the mesh check.
