{"id": "C01", "title": "Output rows fall exactly on the requested time grid", "statement": "When a simulation completes, the .evol file holds exactly step_count+1 rows, where step_count = round((final_time - start_time)/evol_time_step), and row k is stamped with the time start_time + k*evol_time_step exactly (not approximately), whatever time steps the integrator chose in between. When the simulation is aborted, the rows written are the first rows of that same list.", "quantifier": "every start time, final time, output period > 0, dt limits, and every sequence of outcomes of the linear solver (failure, or any velocity field) at every attempted step", "why_tests_cant": "the number of attempted steps is unbounded and each one depends on the whole history of solver outcomes; tests sample a few trajectories", "anchors": ["src/time_integration.cpp: Fem::time_integration, TimeStepper::operator()", "src/time_integration.h: timing"]}
{"id": "C02", "title": "Every accepted time step respects the user's dt limits", "statement": "Every integration step whose result is kept has min(dt) <= dt <= max(dt)*(1+FLT_EPSILON), provided min(dt) <= max(dt), and it never goes past the next output time.", "quantifier": "every history of solver outcomes, every admissible setting", "why_tests_cant": "the step limiter carries state (soft limit) across all steps; only an invariant covers all histories", "anchors": ["src/time_integration.cpp: TimeStepper, Fem::time_integration", "src/time_integration.h: timing::is_dt_TooSmall"]}
{"id": "C03", "title": "The time integration always terminates", "statement": "For min(dt) > 0 the integration loop performs a finite number of attempts: it ends by completing, by aborting or by a signal, even if the linear solver fails or returns too large velocities forever. No infinite retry loop exists. This presupposes that the time can be represented finely enough: the rounding error of time + step is below min(dt)/2 (otherwise the time may stop advancing).", "quantifier": "every infinite sequence of solver outcomes", "why_tests_cant": "non-termination cannot be observed by a test; the adversary is an infinite sequence", "anchors": ["src/time_integration.cpp: Fem::time_integration, TimeStepper"]}
{"id": "C04", "title": "An accepted step never moves a magnetization vector by more than max(du)", "statement": "In every accepted step, for every magnetic node, the distance between the old and the new magnetization vector is at most dt*|v| and at most the user's max(du).", "quantifier": "every node, every state, every velocity returned by the linear solver, every history", "why_tests_cant": "combines a geometric inequality over the reals with the accept/reject logic", "anchors": ["src/time_integration.cpp: Fem::time_integration", "src/node.h: Node::make_evol", "src/solver.cpp: LinAlgebra::solve"]}
{"id": "C05", "title": "Magnetization stays normalized forever", "statement": "If every magnetic node starts with a unit magnetization vector, then every magnetic node has a unit magnetization vector after every step (accepted or rejected), at every saved output, for the whole simulation.", "quantifier": "all histories: every number of steps, every solver outcome, every random basis angle", "why_tests_cant": "an invariant over unbounded histories and real-valued states", "anchors": ["src/node.h: Node::make_evol, Node::setBasis, Node::evolution", "src/mesh.h: mesh::updateNode, mesh::setBasis", "src/time_integration.cpp: Fem::time_integration"]}
{"id": "C06", "title": "A rejected attempt is always retried with a strictly smaller step", "statement": "After an attempt that the linear solver failed, the next attempted dt is at most half of the failed one; after an attempt rejected because max(du) was exceeded it is at most 0.95 times the rejected one; and the physical time and the start-of-step state are those of the rejected attempt.", "quantifier": "every state of the step limiter, every distance to the next output time", "why_tests_cant": "the step limiter raises its soft limit as well as lowers it; the interplay is over unbounded histories", "anchors": ["src/time_integration.cpp: TimeStepper::set_soft_limit, TimeStepper::operator(), Fem::time_integration"]}
{"id": "C07", "title": "A run aborts only for a good reason", "statement": "The run exits with status 1 exactly when an attempted dt is below min(dt); and (documented meaning of min(dt)) this happens only after the solver could not handle an admissible step, i.e. only if some attempt since the last accepted step was rejected.", "quantifier": "every history of solver outcomes, every setting", "why_tests_cant": "an adversarial combination of stride and soft limit is needed to see it; tests do not search that space", "anchors": ["src/time_integration.cpp: TimeStepper::operator(), Fem::time_integration", "src/default-settings.yml: time_integration"]}
{"id": "C08", "title": "State saved on a signal is the state at the recorded time", "statement": "When the program receives SIGINT or SIGTERM at any moment, the _at_exit.sol file it writes contains the magnetization reached at the time recorded in that file's header, so that restarting from it resumes the same trajectory.", "quantifier": "every arrival point of the signal in every history of accepted and rejected attempts", "why_tests_cant": "requires every interleaving of a signal with the accept/reject loop", "anchors": ["src/time_integration.cpp: exit_if_signal_received, Fem::time_integration", "src/save.cpp: mesh::savesol", "src/solver.cpp: LinAlgebra::solve"]}
{"id": "C09", "title": "Configuration files are saved exactly at the requested rows", "statement": "A .sol file number n is written exactly when saving is enabled (period > 0) and n is a multiple of the period, for n = 0..number of rows-1, each exactly once and in order; the iteration number in the row equals the row's rank.", "quantifier": "every output count and every save period", "why_tests_cant": "the set of saved files over all periods and run lengths is infinite", "anchors": ["src/save.cpp: Fem::saver", "src/time_integration.cpp: Fem::time_integration", "src/settings.cpp: Settings::read"]}
{"id": "C10", "title": "Energies in a row are evaluated at the time of the row", "statement": "The energies written in the row stamped t (in particular the Zeeman energy) are those of the magnetization of that row in the applied field at time t.", "quantifier": "every time-dependent applied field and every history", "why_tests_cant": "needs all fields as functions of time", "anchors": ["src/fem.h: Fem::compute_all", "src/time_integration.cpp: Fem::time_integration", "src/energy.cpp: Fem::energy", "src/save.cpp: Fem::saver"]}
{"id": "C11", "title": "A failed linear solve leaves the magnetization untouched", "statement": "If the linear solver reports failure (does not converge, overflows the iteration limit or meets NaN), no node's magnetization, velocity or potential is modified by that attempt.", "quantifier": "every state and every failure cause", "why_tests_cant": "all failing linear systems", "anchors": ["src/solver.cpp: LinAlgebra::solve", "src/time_integration.cpp: Fem::time_integration"]}
{"id": "C12", "title": "BiCGStab: a converged status certifies the residual of the returned solution", "statement": "Whenever the stabilized biconjugate gradient solver reports convergence for finite data, the vector it returns satisfies |b - A x| <= tol*|b| on the non-masked rows (exact arithmetic, IEEE infinities and NaN accounted for).", "quantifier": "every matrix whose diagonal entries are part of its shape (as in all matrices the code builds), every right-hand side, initial guess, mask, tolerance and iteration limit", "why_tests_cant": "infinitely many systems; the recursive residual is never compared with the true one at run time", "anchors": ["src/algebra/bicg.h: bicg, bicg_dir", "src/algebra/iter.h: iteration"]}
{"id": "C13", "title": "Dirichlet components are exact", "statement": "The masked (Dirichlet) components of the solution returned by the masked solvers are exactly the prescribed value plus the initial guess at that component, for every outcome (converged or not); in particular they equal the prescribed values when the initial guess is zero there.", "quantifier": "every system, mask, prescribed values, iteration limit and final status", "why_tests_cant": "must hold at every iteration of an unbounded loop", "anchors": ["src/algebra/bicg.h: bicg_dir", "src/algebra/cg.h: cg_dir", "src/algebra/algebra.h: applyMask"]}
{"id": "C14", "title": "Krylov solvers stop within the iteration limit and always decide", "statement": "Each iterative solver returns after at most max(1, max_iter) iterations, and the status it leaves is CONVERGED, ITER_OVERFLOW or CANNOT_CONVERGE, never UNDEFINED.", "quantifier": "every system, including those with NaN or infinite entries, every limit", "why_tests_cant": "termination and status totality for all inputs", "anchors": ["src/algebra/bicg.h", "src/algebra/cg.h", "src/algebra/iter.h: iteration::operator++, iteration::finished"]}
{"id": "C15", "title": "The LLG solve accepts only converged solutions", "statement": "LinAlgebra::solve reports success only if the solver's status is CONVERGED, and the residual is then at most the tolerance in absolute value and at most tolerance times the norm of the right-hand side.", "quantifier": "every assembled system", "why_tests_cant": "all possible final statuses and residuals including NaN", "anchors": ["src/solver.cpp: LinAlgebra::solve", "src/algebra/iter.h"]}
{"id": "C16", "title": "CG: a converged status certifies the residual of the returned solution", "statement": "Whenever the conjugate gradient solver (with or without Dirichlet conditions) reports convergence for finite data, the vector it returns satisfies |rhs - A x| <= tol*|rhs - A xd| on the free rows.", "quantifier": "every matrix whose diagonal entries are part of its shape (as in all matrices the code builds), every right-hand side, initial guess, mask, tolerance and iteration limit", "why_tests_cant": "same as C12", "anchors": ["src/algebra/cg.h: cg, cg_dir"]}
{"id": "C17", "title": "NaN is never reported as convergence", "statement": "If the residual norm computed by the solver is NaN the status becomes CANNOT_CONVERGE and the solve stops; no solve that has met a NaN residual ever returns CONVERGED, and a system whose right-hand side has a NaN on a free row never converges.", "quantifier": "every system with NaN entries, every history of the monitor", "why_tests_cant": "NaN propagation through an unbounded loop", "anchors": ["src/algebra/iter.h: iteration::converged", "src/algebra/bicg.h", "src/algebra/cg.h"]}
{"id": "C18", "title": "The sparse matrix behaves like a map from index pairs to numbers", "statement": "After any sequence of clear, set and add at positions of the shape, reading position (i,j) gives the value a plain table of numbers would hold, zero outside the shape; the shape never changes; and set/add outside the shape is the only way to reach undefined behaviour.", "quantifier": "every shape and every finite sequence of operations", "why_tests_cant": "all operation sequences", "anchors": ["src/algebra/sparseMat.h: SparseMatrix"]}
{"id": "C19", "title": "Sparse product equals the mathematical matrix-vector product", "statement": "The product computed by the sparse matrix equals the sum over all columns of (value read at (i,j)) * X[j], and the diagonal preconditioner holds 1/(value at (i,i)).", "quantifier": "every shape, content and vector", "why_tests_cant": "all sizes", "anchors": ["src/algebra/sparseMat.h: SparseMatrix::mult, build_diag_precond"]}
{"id": "C20", "title": "Concurrent assembly loses no update", "statement": "When any number of threads call add concurrently, in any interleaving of their elementary steps (lookup, lock, load, store, unlock), the final matrix holds for every position the sum of all added values, and no deadlock is possible.", "quantifier": "every number of threads, every program of adds, every schedule", "why_tests_cant": "schedules are exponentially many; races do not show up reliably in tests", "anchors": ["src/algebra/sparseMat.h: SparseMatrix::add", "src/solver.cpp: LinAlgebra::solve"]}
{"id": "C21", "title": "Assembly never writes outside the matrix shape", "statement": "For every mesh, every element matrix assembled by the magnetization, electrostatic and spin-diffusion solvers only touches positions that belong to the shape built beforehand (no undefined behaviour; the guarding asserts are compiled out), and so do the writes to the diagonal for non-magnetic nodes.", "quantifier": "every mesh (any element connectivity, any set of magnetic regions)", "why_tests_cant": "all connectivities", "anchors": ["src/solver.h: build_shape, buildMat", "src/mesh.h: mesh::mesh (edges)", "src/linear_algebra.h: LinAlgebra", "src/solver.cpp: LinAlgebra::solve"]}
{"id": "C22", "title": "The assembled system does not depend on the order of elements", "statement": "The assembled matrix and right-hand side are the sums of the element contributions, for every order in which elements are processed (exact arithmetic).", "quantifier": "every permutation of the element list", "why_tests_cant": "factorially many orders", "anchors": ["src/solver.cpp: LinAlgebra::solve", "src/solver.h: buildMat, buildVect"]}
{"id": "C23", "title": "Mesh surface check accepts exactly the consistent meshes", "statement": "The mesh check succeeds exactly when no face belongs to more than two tetrahedrons, no two surface triangles coincide, every surface triangle is a face of some tetrahedron, and no surface triangle lies strictly inside one volume region; otherwise the program stops with an error.", "quantifier": "every mesh: all lists of tetrahedrons and triangles with any region labels and node orders", "why_tests_cant": "combinatorial space of meshes", "anchors": ["src/mesh.cpp: mesh::controlTriangles, assertNoErrInTriangle, diffTriHandler, BasicTri"]}
{"id": "C24", "title": "Missing surfaces are completed", "statement": "After the mesh check, every face lying on the outer boundary or between two different volume regions is covered by exactly one surface triangle, and the user's own triangles are all kept in place.", "quantifier": "every accepted mesh", "why_tests_cant": "combinatorial space of meshes", "anchors": ["src/mesh.cpp: mesh::controlTriangles, diffTriHandler"]}
{"id": "C25", "title": "Automatically created surface regions get fresh names and do not disturb the user's regions", "statement": "Every surface region created by the mesh check has a name distinct from all others, existing surface regions keep their index and parameters, and triangles created between the same pair of volume regions share one region.", "quantifier": "every mesh and every set of user region names (including names that collide with the generated ones)", "why_tests_cant": "adversarial names; unbounded search loop for a free name", "anchors": ["src/mesh.cpp: diffTriHandler"]}
{"id": "C26", "title": "Surface charge jump is orientation independent", "statement": "For every surface triangle, the jump of magnetization times its normal is the same whichever orientation the triangle has in the mesh file: reversing the vertex order changes the sign of both; and on an outer face with the triangle's normal pointing outwards the jump is +Ms of the inner region, on an interface it is Ms(inside along the normal) minus Ms(outside).", "quantifier": "every triangle, every ordering of its three vertices and of the tetrahedra's vertices", "why_tests_cant": "all vertex orders and region pairs", "anchors": ["src/mesh.cpp: BasicTri, mesh::controlTriangles", "src/triangle.h: Tri::normal_vect"]}
{"id": "C27", "title": "Magnetic charge neutrality", "statement": "The volume charges and surface charges handed to the fast multipole solver sum to zero for every magnetization field, for every accepted conforming mesh whose surfaces keep their charges.", "quantifier": "every mesh, every magnetization field, every set of region magnetizations", "why_tests_cant": "a discrete divergence theorem over all meshes", "anchors": ["src/tetra.cpp: Tet::charges", "src/triangle.cpp: Tri::charges", "src/mesh.cpp: mesh::controlTriangles", "src/fmm_demag.h: fmm::calc_charges"]}
{"id": "C28", "title": "Renumbering nodes changes nothing observable", "statement": "Sorting the nodes along the long axis is a permutation: the node list is rearranged, every tetrahedron, triangle and stored index is relabelled consistently, every element keeps the same vertex positions in the same order, and the file index to memory index table is a bijection.", "quantifier": "every mesh and every sort direction", "why_tests_cant": "all permutations", "anchors": ["src/mesh.cpp: mesh::sortNodes"]}
{"id": "C29", "title": "Saved configurations can be read back", "statement": "For every state, writing a .sol file and restarting from it on the same mesh restores, node by node, the magnetization and the potential that were saved, and the saved time.", "quantifier": "every mesh (any renumbering, magnetic or not), every state", "why_tests_cant": "all states and node permutations", "anchors": ["src/save.cpp: mesh::savesol", "src/read.cpp: mesh::readSol", "src/fem.h: Fem::Fem"]}
{"id": "C30", "title": "The edge list is exactly the set of element edges", "statement": "The list of mesh edges contains every pair of distinct vertices of every tetrahedron exactly once, ordered (smaller index, larger index), sorted, and nothing else.", "quantifier": "every mesh", "why_tests_cant": "all connectivities", "anchors": ["src/mesh.h: mesh::mesh, suppress_copies", "src/meshUtils.h"]}
{"id": "C31", "title": "The bounding box is the bounding box", "statement": "The computed box contains all nodes and is tight: centre and lengths are those of the smallest axis-parallel box containing the nodes.", "quantifier": "every list of node positions", "why_tests_cant": "all real coordinates, including meshes placed entirely on the negative side", "anchors": ["src/mesh.h: mesh::minNodes, mesh::maxNodes, mesh::mesh"]}
{"id": "C32", "title": "Maximum angle is independent of the parallel schedule", "statement": "The maximum angle between adjacent magnetizations does not depend on how the parallel reduction groups and orders the edges.", "quantifier": "every mesh, state and reduction tree", "why_tests_cant": "schedules of a parallel reduction", "anchors": ["src/mesh.h: mesh::max_angle"]}
{"id": "C33", "title": "Averages are true averages", "statement": "The volume average of a nodal quantity over a region lies between the minimum and the maximum of the nodal values of the magnetic elements of that region, and is exact for a uniform field.", "quantifier": "every mesh, region and field", "why_tests_cant": "quadrature weights include a negative one, so this is not obvious for all fields", "anchors": ["src/mesh.cpp: mesh::avg", "src/tetra.h"]}
{"id": "C34", "title": "Tetrahedrons are positively oriented after loading", "statement": "Every tetrahedron that is loaded without error has a strictly positive Jacobian determinant and volume, the same four vertices as in the file, and integration weights that sum to its volume; flat tetrahedrons are rejected.", "quantifier": "every quadruple of points", "why_tests_cant": "all real coordinates", "anchors": ["src/tetra.cpp: Tet::orientate, Tet::Jacobian, calc_vol", "src/tetra.h: Tet::Tet"]}
{"id": "C35", "title": "Interpolation and gradients are exact on affine fields", "statement": "On every non-degenerate tetrahedron, the interpolated values at integration points and the gradients computed from nodal values of an affine field are exactly those of the field; shape functions sum to one and their gradients sum to zero.", "quantifier": "every non-degenerate tetrahedron, every affine field", "why_tests_cant": "all geometries", "anchors": ["src/tetra.h: Tet::Tet, interpolation", "src/tetra.cpp: Jacobian"]}
{"id": "C36", "title": "Integration rules are exact up to degree three", "statement": "The tetrahedron and triangle quadrature rules integrate every polynomial of total degree at most three exactly.", "quantifier": "every polynomial of degree at most three on the reference element", "why_tests_cant": "infinite family", "anchors": ["src/tetra.h: pds, u, v, w", "src/triangle.h: pds, u, v"]}
{"id": "C37", "title": "The tangent basis is orthonormal", "statement": "For every unit magnetization and every random angle, (u, e_p, e_q) is a direct orthonormal basis; no division by zero occurs.", "quantifier": "every unit vector and angle", "why_tests_cant": "all real vectors", "anchors": ["src/node.h: Node::setBasis"]}
{"id": "C38", "title": "Effective damping stays within 10% of the damping", "statement": "For alpha > 0 and dt > 0 the effective damping used in the element matrices lies in [alpha/1.1, 1.1*alpha], is non-decreasing in the local field and equals alpha when the field vanishes.", "quantifier": "every real field value, alpha > 0, dt > 0", "why_tests_cant": "all reals", "anchors": ["src/tetra.cpp: calc_alpha_eff"]}
{"id": "C39", "title": "Every time step's linear system is uniquely solvable", "statement": "For every mesh of positively oriented tetrahedrons, every unit magnetization and every field, the assembled system restricted to magnetic nodes has exactly one solution.", "quantifier": "every mesh, state, damping > 0, exchange >= 0", "why_tests_cant": "needs positive-definiteness for all inputs although one quadrature weight is negative", "anchors": ["src/tetra.cpp: Tet::integrales, Tet::lumping, Tet::calcDiagBlock, calcOffDiagBlock", "src/solver.cpp: LinAlgebra::solve"]}
{"id": "C40", "title": "The diagonal preconditioner never divides by zero", "statement": "After assembly every diagonal coefficient of the LLG matrix is nonzero: for a magnetic node it is plus or minus a quarter of the volume of the adjacent magnetic tetrahedrons, and 1 for other nodes.", "quantifier": "every mesh, state, field and material", "why_tests_cant": "all inputs; the guarding assert is compiled out", "anchors": ["src/algebra/sparseMat.h: build_diag_precond", "src/tetra.cpp: Tet::integrales", "src/element.h: buildMatP", "src/solver.cpp"]}
{"id": "C41", "title": "Exchange energy is non-negative and vanishes on uniform states", "statement": "The exchange energy is >= 0 for every magnetization field, and is zero exactly when the magnetization gradient is zero in every tetrahedron.", "quantifier": "every mesh and field", "why_tests_cant": "all fields", "anchors": ["src/tetra.cpp: Tet::exchangeEnergy", "src/energy.cpp"]}
{"id": "C42", "title": "Uniaxial anisotropy energy is bounded and even", "statement": "For a unit axis and nodal vectors of norm at most 1, the uniaxial anisotropy energy of a tetrahedron lies between -K*volume and 0 (K >= 0), and is unchanged by reversing the magnetization or the axis.", "quantifier": "every tetrahedron and field", "why_tests_cant": "one quadrature weight is negative", "anchors": ["src/tetra.cpp: Tet::anisotropyEnergy"]}
{"id": "C43", "title": "Anisotropy field derives from the anisotropy energy", "statement": "The anisotropy contribution to the effective field, extrapolated at time s, is minus the derivative of the anisotropy energy density with respect to mu0*Ms*u evaluated at u + s*v to first order in s, for the uniaxial, cubic and surface terms, and surface anisotropy does not depend on the orientation of the triangle.", "quantifier": "every axis system, state, velocity and material", "why_tests_cant": "all vectors", "anchors": ["src/tetra.cpp: calc_aniso_uniax, calc_aniso_cub", "src/triangle.cpp: Tri::integrales, Tri::anisotropyEnergy"]}
{"id": "C44", "title": "A space dependent field is applied where it was evaluated", "statement": "With a space and time dependent applied field, every magnetic tetrahedron receives the field evaluated at its own integration points.", "quantifier": "every mesh, with magnetic and non-magnetic regions in any order", "why_tests_cant": "all region layouts", "anchors": ["src/mesh.cpp: mesh::setExtSpaceField", "src/linear_algebra.cpp: LinAlgebra::prepareElements", "src/tetra.cpp: Tet::zeemanEnergy"]}
{"id": "C45", "title": "Spin accumulation depends only on the current state", "statement": "Each spin accumulation computation solves the system built from the current magnetization only; repeating it does not change its system.", "quantifier": "every history of previous computations", "why_tests_cant": "history dependence", "anchors": ["src/spinAccumulationSolver.cpp: spinAcc::solve, compute"]}
{"id": "C46", "title": "Recentering follows the requested direction", "statement": "When recentering is enabled along X, Y or Z, the magnetization is shifted along that direction.", "quantifier": "every direction and state", "why_tests_cant": "end-to-end path between settings and recentering is never exercised by unit tests", "anchors": ["src/recentering.cpp: Fem::recenter", "src/time_integration.cpp: Fem::time_integration", "src/settings.cpp: Settings::read"]}
{"id": "C47", "title": "Each charge reaches the potential solver at its own position", "statement": "Every source particle inserted in the fast multipole tree at a given integration point receives exactly the charge computed for that integration point of that element, and every target particle writes the potential of its own node.", "quantifier": "every mesh with any set of magnetic elements", "why_tests_cant": "index arithmetic over all meshes", "anchors": ["src/fmm_demag.h: fmm::fmm, insertCharges, calc_charges, demag"]}
{"id": "C48", "title": "Later settings override earlier ones", "statement": "When settings are layered (built-in defaults, user defaults, command-line file), every value given in a later layer takes effect and every value not mentioned keeps the value of the earlier layer, for scalar values, regions and initial magnetization alike.", "quantifier": "every sequence of settings files", "why_tests_cant": "all combinations of layers", "anchors": ["src/settings.cpp: assign, Settings::read", "src/settings.h: findTetraRegionIdx, findTriangleRegionIdx", "src/main.cpp: main"]}
{"id": "C49", "title": "Quoted strings survive the YAML round trip", "statement": "A string printed in the settings dump (--verify) is read back as the same string.", "quantifier": "every string", "why_tests_cant": "all strings", "anchors": ["src/settings.cpp: replace, str, Settings::toYaml"]}
{"id": "C50", "title": "Table header and rows agree", "statement": "Every row of the .evol file has exactly as many fields as the column header, in the same order, for every list of columns; a column prefixed by a region name is restricted to this region.", "quantifier": "every list of column names", "why_tests_cant": "all column lists", "anchors": ["src/save.cpp: Fem::saver", "src/settings.cpp: Settings::evolMetadata"]}
{"id": "C51", "title": "Metadata never corrupts the files", "statement": "Whatever user metadata is given, every header line written begins with '#', so the header can be skipped when reading the file back.", "quantifier": "every set of keys and values, including multi-line and empty ones", "why_tests_cant": "all strings", "anchors": ["src/settings.cpp: Settings::commonMetadata, Settings::read", "src/read.cpp: mesh::readSol"]}
{"id": "C52", "title": "Command line parsing is total and safe", "statement": "For every argument vector the option parser either stops with a usage error or help text, or returns a file name equal to the last argument with every used variable initialized; no argument is read out of bounds.", "quantifier": "every argument vector", "why_tests_cant": "all argument vectors", "anchors": ["src/main.cpp: parseOptions"]}
{"id": "C53", "title": "Step statistics are the geometric mean and relative deviation of all samples", "statement": "After any sequence of samples, the reported count, mean and deviation equal the sample count, the geometric mean and the standard deviation of the logarithms.", "quantifier": "every finite sequence of positive samples", "why_tests_cant": "streaming update over unbounded sequences", "anchors": ["src/log-stats.h: LogStats"]}
{"id": "C54", "title": "Evaluating user expressions never leaks or corrupts interpreter state", "statement": "After any sequence of successful evaluations of a user function through the expression parser, the interpreter stack holds exactly that function, so every later evaluation calls the right function with the right arguments.", "quantifier": "every sequence of calls", "why_tests_cant": "unbounded call sequences", "anchors": ["src/expression_parser.cpp", "src/expression_parser.h: ExpressionParser"]}
{"id": "C55", "title": "Region volumes add up", "statement": "The total volume is the sum of the region volumes, the total magnetic volume is the sum of the volumes of the magnetic regions, and both equal the sum over tetrahedrons.", "quantifier": "every mesh", "why_tests_cant": "all meshes", "anchors": ["src/mesh.h: mesh::mesh"]}
{"id": "C56", "title": "Removing duplicates keeps exactly the set of values", "statement": "The duplicate removal helper returns a strictly increasing list with the same set of values.", "quantifier": "every list", "why_tests_cant": "all lists", "anchors": ["src/meshUtils.h: suppress_copies"]}
{"id": "C57", "title": "Electrostatic boundary conditions are enforced", "statement": "The electrostatic and spin-diffusion solvers start only if there is exactly one surface with a current density and the required potential surface; prescribed potentials hold exactly on the nodes of their surface in the returned solution, and the element matrices are symmetric, positive semi-definite with zero row sums (current conservation).", "quantifier": "every set of surface regions and every mesh", "why_tests_cant": "all configurations", "anchors": ["src/electrostatSolver.cpp", "src/spinAccumulationSolver.cpp: checkBoundaryConditions"]}
{"id": "C58", "title": "All demagnetizing sources and targets lie inside the octree box", "statement": "For every mesh, after the translation and scaling applied before the fast multipole computation, every node and every quadrature point of every tetrahedron and triangle lies in the cube [-1,1]^3, hence strictly inside the octree box of width 2.01 centred at the origin, so no particle is dropped or misfiled by the octree.", "quantifier": "all meshes (any node coordinates with a non degenerate bounding box, any tetrahedrons and triangles, both quadrature rules)", "why_tests_cant": "A test uses one geometry; the claim is about every geometry, including meshes far from the origin or flat ones, and a particle outside of the octree box silently corrupts the potential.", "anchors": ["src/fmm_demag.h: fmm::fmm", "src/fmm_demag.h: insertCharges", "src/fmm_demag.h: boxWidth", "src/mesh.h: mesh::mesh (centre, lengths)"]}
{"id": "C59", "title": "The potential problem has one solution exactly when every node is tied to a contact", "statement": "For prescribed potentials on the nodes of a surface, the discrete electrostatic problem assembled by the solver has exactly one solution, whatever the prescribed values and the injected current, if and only if every node is joined to a prescribed node through elements of non-zero conductivity.", "quantifier": "every valid mesh, conductivities, set of prescribed nodes and values", "why_tests_cant": "infinitely many meshes; singular systems are silent (the iterative solver may still stop)", "anchors": ["src/electrostatSolver.cpp: integrales, solve", "src/solver.h: buildMat"]}
{"id": "C60", "title": "The spin diffusion problem has one solution", "statement": "For positive conductivity and density of states and a non-zero spin flip length, the discrete spin diffusion problem has exactly one solution, whatever the magnetization, the prescribed spin vectors, the potential and the surface terms, if and only if every node without prescribed value belongs to an element.", "quantifier": "every valid mesh, magnetization, parameters and set of prescribed nodes", "why_tests_cant": "infinitely many meshes and magnetizations; the matrix is not symmetric", "anchors": ["src/spinAccumulationSolver.cpp: integrales, solve", "src/tetra.cpp: calcDiagBlock, calcOffDiagBlock"]}
{"id": "C61", "title": "The current is conserved", "statement": "For a solution of the discrete potential problem the current leaving through the nodes with a prescribed potential equals the sum over the injecting surfaces of current density times area.", "quantifier": "every valid mesh and parameters", "why_tests_cant": "global identity over all meshes", "anchors": ["src/electrostatSolver.cpp: integrales, solve"]}
{"id": "C62", "title": "Recentering is applied after every accepted step", "statement": "When recentering is enabled, the state from which the integration goes on after an accepted step, and the state present at every output but the first, is one returned by the recentering; if recentering gives up (no domain wall) no further output is written.", "quantifier": "every configuration, recentering procedure and sequence of solver results, signals and potentials", "why_tests_cant": "all runs and all guarantees of the recentering", "anchors": ["src/time_integration.cpp: Fem::time_integration", "src/recentering.cpp: Fem::recenter"]}
{"id": "C63", "title": "A solved step is rejected exactly when a node moves too far", "statement": "An attempted step for which the linear solver succeeded is kept if and only if every magnetic node moves by at most max(du) (time step times speed), and is tried again if and only if some magnetic node moves further.", "quantifier": "every configuration and every sequence of solver results", "why_tests_cant": "all velocities and steps", "anchors": ["src/time_integration.cpp: Fem::time_integration", "src/solver.cpp: LinAlgebra::solve"]}
{"id": "C64", "title": "The potential of a charged triangle at its own vertices is exact", "statement": "At each vertex of a surface triangle the point charges of the triangle and the analytic correction together give exactly the surface integral of charge density over distance, the charge being the jump of magnetization times the normal component of the affine magnetization; on the mesh each magnetic node receives the Coulomb sums of the tetrahedrons and of the triangles away from it plus the exact potentials of the triangles it belongs to, divided by 4 pi.", "quantifier": "every triangle with non-zero area, every vertex, every nodal magnetization, every mesh whose surface triangles have an area", "why_tests_cant": "a singular integral over continuously many triangles and fields; tests only sample numbers", "anchors": ["src/triangle.cpp: Fac::correctionCharges, Fac::potential", "src/fmm_demag.h: fmm::calc_charges, fmm::demag"]}
{"id": "C65", "title": "The linear system of a time step is the weak form of the equation of motion", "statement": "A vector solves the linear system assembled for a time step if and only if it vanishes at the non-magnetic nodes and the velocity it represents, tangent to the magnetization, satisfies, for every test field orthogonal to the magnetization: effective damping and gyration (mass lumped at the nodes) equal exchange at the implicit time plus the work of the applied, demagnetizing, anisotropy and spin torque fields, the drift of the moving frame and the surface anisotropy. Neither the random rotation of the tangent bases nor the order of assembly nor what the matrix held before matters.", "quantifier": "every mesh, material, state, field, time step, moving frame, tangent basis, order of assembly of tetrahedrons and triangles", "why_tests_cant": "a statement about all test fields and all meshes; a test compares numbers of one matrix", "anchors": ["src/tetra.cpp: Tet::integrales, Tet::lumping, Tet::add_drift_BE", "src/triangle.cpp: Tri::integrales", "src/linear_algebra.cpp: LinAlgebra::base_projection, LinAlgebra::prepareElements", "src/solver.cpp: LinAlgebra::solve", "src/solver.h: solver::buildMat, solver::buildVect"]}
{"id": "C66", "title": "A time step lowers the energy in given fields", "statement": "If the forces come from the energy (exchange, uniaxial anisotropy, applied field, demagnetizing field held fixed; nothing extrapolated from the last step), moving the magnetization with the velocity computed from the linear system lowers the energy for every step short enough, unless nothing moves.", "quantifier": "every mesh, material with exchange and damping, state, applied field, solution of the linear system", "why_tests_cant": "an inequality over all states, meshes and materials; the code itself only warns when the energy has increased", "anchors": ["src/tetra.cpp: Tet::integrales, Tet::exchangeEnergy, Tet::uniaxialAnisotropyEnergy, Tet::zeemanEnergy", "src/energy.cpp: Fem::energy", "src/node.h: Node::make_evol", "src/mesh.h: mesh::updateNode"]}
{"id": "C67", "title": "The reported demagnetizing energy is the energy of the magnetization in its field", "statement": "On a mesh accepted by the check, the demagnetizing energy reported (a volume term with the divergence of the magnetization and a surface term with its jump) equals -1/2 mu0 times the integral of magnetization times demagnetizing field, the field being minus the gradient of the potential; it equals also half the sum over the charges given to the multipole library of charge times potential.", "quantifier": "every accepted mesh without overlap, every magnetization and potential at the nodes, every choice of Ms >= 0 per region", "why_tests_cant": "an identity between two different sums over all meshes and fields; a test evaluates one mesh with a tolerance", "anchors": ["src/energy.cpp: Fem::energy", "src/tetra.cpp: Tet::demagEnergy, Tet::charges", "src/triangle.cpp: Tri::demagEnergy, Tri::charges", "src/mesh.cpp: mesh::controlTriangles"]}
{"id": "C68", "title": "A time step depends neither on the numbering of the mesh nor on the random tangent bases", "statement": "Renumbering the nodes of a mesh, listing its elements in another order and drawing other random tangent bases changes nothing to a time step: from the solutions of the two linear systems every magnetic node gets the same velocity and the same new magnetization.", "quantifier": "every mesh, renumbering, order of the elements, tangent bases, material, state, fields, moving frame", "why_tests_cant": "two runs differ by rounding and by the random bases, so a test can only compare with a tolerance; the set of renumberings is infinite", "anchors": ["src/mesh.cpp: mesh::sortNodes", "src/node.h: Node::setBasis, Node::make_evol", "src/linear_algebra.cpp: LinAlgebra::prepareElements", "src/solver.cpp: LinAlgebra::solve"]}
{"id": "C69", "title": "A uniform magnetization follows the equation of Landau, Lifshitz and Gilbert", "statement": "If the magnetization, the material (uniaxial anisotropy) and the fields are uniform, the velocity computed for every magnetic node, in units of gamma0, satisfies v = -u x H + alpha u x v, where H is the sum of the applied field, the demagnetizing field and the anisotropy field at the time where the scheme evaluates them and alpha is the effective damping. Exchange and the moving frame have no effect.", "quantifier": "every mesh, uniform state, uniform fields, uniaxial material, time step, moving frame velocity", "why_tests_cant": "a test checks a few trajectories of one mesh with a tolerance; the sign conventions and factors must be right for all of them", "anchors": ["src/tetra.cpp: Tet::integrales, Tet::lumping, Tet::calc_aniso_uniax, Tet::calc_alpha_eff, Tet::add_drift_BE", "src/solver.cpp: LinAlgebra::solve"]}
{"id": "C70", "title": "The mesh that is simulated is the mesh of the file", "statement": "When a mesh file is accepted, the node with tag i is node i-1 at its coordinates times the scale, the tetrahedrons are those of the volumes in the regions named in the settings, each with the right region, the same vertices and positive volume, read once, and the same for the triangles; elements in no named region are left out. A file is accepted exactly if it is three dimensional, holds tetrahedrons and triangles only, contains all regions of the settings, has node tags without gaps, and has no flat tetrahedron in the named regions; otherwise the program stops with a message.", "quantifier": "every mesh file (as given by the gmsh library), settings regions and scale", "why_tests_cant": "the unit tests read a few files written for the purpose", "anchors": ["src/read.cpp: mesh::readMesh, mesh::checkMeshFile, mesh::readNodes, mesh::readTetraedrons, mesh::readTriangles", "src/meshUtils.h: checkNamedObjects, all_elems_are", "src/element.h: element", "src/tetra.cpp: Tet::orientate", "src/settings.h: Settings::findRegionIdx"]}
{"id": "C71", "title": "The initial magnetization is the expression evaluated for the regions of the node", "statement": "Without a restart file, the initial magnetization of a magnetic node is the value of the expression at its position, given the names of exactly the volume regions that contain the node (in the order of the settings, without repetition), normalised to a unit vector; other nodes get no magnetization.", "quantifier": "every mesh, list of regions, expression and node", "why_tests_cant": "a test evaluates some expressions on one mesh; the list of regions of a node depends on the whole mesh", "anchors": ["src/mesh.h: mesh::init_distrib", "src/settings.h: Settings::getMagnetization, Settings::getMagType"]}
{"id": "C72", "title": "Every step of a whole run follows the equation of motion", "statement": "For a simulation started on a mesh read from a file, renumbered as the program does, with a unit initial magnetization and physical material constants: whatever happened during the run (retries, failed solves, recentering, outputs), the linear system of the next attempt has exactly one solution; and when the solver returns it, a step that is kept moves the magnetization of each magnetic node along the velocity that satisfies the equation of motion in weak form from the current state, which is unique, and normalizes it.", "quantifier": "every mesh file accepted, settings, initial magnetization, sequence of inputs from outside (signals, random numbers, potentials, solver outcomes) and number of steps", "why_tests_cant": "the conditions under which a step is correct have to survive any sequence of steps; tests run a few of them on a fixed mesh", "anchors": ["src/time_integration.cpp: Fem::time_integration", "src/solver.cpp: LinAlgebra::solve", "src/linear_algebra.cpp: LinAlgebra::prepareElements, LinAlgebra::base_projection", "src/mesh.h: mesh::mesh", "src/mesh.cpp: mesh::sortNodes", "src/read.cpp: mesh::readMesh"]}
{"id": "C73", "title": "The course of a run does not depend on random numbers, threads or uninitialised memory", "statement": "Two runs with the same settings, mesh, initial magnetization and fields give the same results: same times, time steps, accepted and rejected steps, table rows, saved states, magnetization and velocity at every step, whatever random numbers the program draws for its tangent bases and whatever the order in which the threads add the elements. This holds when the magnetization is not recentered. With recentering the program uses a drift speed that it never initialises: two runs in which this memory holds different values can keep different magnetizations.", "quantifier": "every mesh, settings, initial magnetization, sequence of random numbers, order of assembly, number of steps; for the recentered case every pair of different speeds", "why_tests_cant": "the tests fix the seed and compare with a tolerance; independence of all random angles, all schedules and of the content of uninitialised memory is a statement about pairs of runs", "anchors": ["src/linear_algebra.cpp: LinAlgebra::base_projection, LinAlgebra::prepareElements", "src/linear_algebra.h: LinAlgebra::DW_vz, LinAlgebra::set_DW_vz", "src/tetra.cpp: Tet::add_drift_BE, Tet::integrales", "src/time_integration.cpp: Fem::time_integration"]}
{"id": "C74", "title": "suppress_charges removes the charges of a surface and nothing else", "statement": "Setting suppress_charges on a surface region removes exactly its magnetic charges: the charges given to the multipole library, the corrections of the potential at the nodes and the demagnetizing energy are those of the same mesh without the flag, minus the contributions of the triangles of the region. The claim that nothing else changes is false: the surface anisotropy of the region is lost too, whatever its constant, in the equation of motion and in the energy.", "quantifier": "every mesh, magnetization, set of flagged surface regions and material constants", "why_tests_cant": "the loss of the surface anisotropy only shows for the combination of two settings, which no test uses; the sums over all triangles have to be compared for every mesh", "anchors": ["src/mesh.h: mesh::mesh, mesh::magTri", "src/solver.cpp: LinAlgebra::solve", "src/energy.cpp: Fem::energy", "src/fmm_demag.h: calc_charges", "src/triangle.cpp: Tri::integrales, Tri::anisotropyEnergy"]}
{"id": "C75", "title": "A successful solve gives the velocity of the equation of motion within the tolerance", "statement": "The linear solve of a time step ends with a reported failure or with finite numbers, zero at the nodes that are not magnetic. When it succeeds with tolerance TOL, the velocity differs from the one of the equation of motion by at most 4/3 TOL min(1, norm of the right hand side) / m, in the euclidean norm over the magnetic nodes, where m is the smallest damping alpha times volume lumped at a magnetic node; the new magnetization differs from that of an exact step by at most that, times dt gamma0. The solve starts from the tangential part of the last computed velocity, and returns it unchanged when it meets the tolerance.", "quantifier": "every attempt of every run: mesh, materials, magnetization, fields, time step, bases, order of assembly, tolerance and iteration limit", "why_tests_cant": "a test compares final results of particular meshes; the bound relates the residual tested by the solver to the error of the magnetization for every mesh, through the positivity of the assembled matrix", "anchors": ["src/solver.cpp: LinAlgebra::solve", "src/linear_algebra.cpp: LinAlgebra::buildInitGuess", "src/linear_algebra.h: lvd", "src/algebra/bicg.h: bicg_dir", "src/node.h: Node::make_evol"]}
{"id": "C76", "title": "A magnetization at equilibrium stays there", "statement": "If a zero velocity satisfies the equation of motion, a solve that succeeds returns exactly zero and the magnetization stays as it is, whatever the tolerance. A run without recentering that starts at rest in such a state keeps every magnetization as it is at all steps, and no attempt fails. A uniform magnetization parallel to the sum of the applied, demagnetizing and anisotropy fields is such a state.", "quantifier": "every mesh, materials, equilibrium magnetization, tolerance, number of steps, choice of the bases and order of assembly", "why_tests_cant": "a test runs a given state for a given number of steps; the claim is for all equilibria and by induction over all steps", "anchors": ["src/solver.cpp: LinAlgebra::solve", "src/time_integration.cpp: Fem::time_integration", "src/algebra/iter.h: iteration::converged", "src/tetra.cpp: Tet::integrales"]}
{"id": "C77", "title": "The Thiele length of the table is the wall width parameter of the magnetization", "statement": "The column Thiele_length of a magnetic region (or of all of them) holds 2 S / I, where I is the exact integral over the region of the square of the derivative of the interpolated magnetization along z, and S the average cross-section of the region, its volume divided by its length along z. It is a positive number as soon as the magnetization varies along z somewhere in the region and infinite otherwise; it does not change when the magnetization is rotated; it is a length (scaling the mesh scales it); volume over Thiele length adds up over the regions.", "quantifier": "every mesh of positively oriented tetrahedrons, region, magnetization, rotation and scale", "why_tests_cant": "a test compares one wall in one mesh with its analytical width; the normalization differs when the region does not span the mesh, and invariances are over all magnetizations", "anchors": ["src/mesh.cpp: mesh::thiele", "src/mesh.h: mesh::thiele", "src/save.cpp: Fem::saver"]}
{"id": "C78", "title": "The statistics printed at the end of a run are those of its time steps", "statement": "The statistics printed at the end count as successful the time steps kept and as failed the attempts to be tried again, with the number, the geometric mean and the relative width of their dt and of their largest move; the angle printed is the largest angle between adjacent magnetizations over the initial state and all the states kept.", "quantifier": "every run: settings, initial state, outcomes of the solver, potentials, number of steps and way of ending", "why_tests_cant": "tests check the accumulator on given samples; which samples a run feeds to it depends on the sequence of rejections", "anchors": ["src/time_integration.cpp: Stats, print_stats, Fem::time_integration", "src/log-stats.h: LogStats"]}
{"id": "C79", "title": "A sample turned and shifted as a whole behaves the same", "statement": "Turning and shifting the whole sample (mesh, anisotropy axes, applied field, initial magnetization) by a rigid motion changes nothing but the orientation of the results: the same time steps are tried, accepted and rejected, the same times are written, every magnetization and velocity is the turned one, and all energies are the same.", "quantifier": "every rigid motion, mesh, materials, field, initial magnetization, settings without recentering, and number of steps", "why_tests_cant": "a test turns one sample by one angle, and rounding hides a small dependence; the statement is over all rotations and all steps of the run", "anchors": ["src/tetra.cpp: Tet::integrales, Tet::calc_aniso_cub, Tet::exchangeEnergy, Tet::anisotropyEnergy, Tet::demagEnergy, Tet::zeemanEnergy", "src/triangle.cpp: Tri::integrales, Tri::anisotropyEnergy, Tri::potential", "src/time_integration.cpp: Fem::time_integration"]}
{"id": "C80", "title": "A simulation stopped at an output and restarted from its .sol file continues the same simulation", "statement": "Giving a written .sol file as initial magnetization continues the interrupted simulation: the file is accepted, the run starts from the magnetization and the time of the file (or from initial_time when it is set), its first table row is that state, the remaining rows are at the times the interrupted run would have used, the files of the first part stay, and the next time step is the one the interrupted run would have made.", "quantifier": "every mesh, state, print precision, restart row, final time, time step and field", "why_tests_cant": "a test restarts one run and compares printed digits; that all later output times and the next step are the same is a statement about every state and every time, and the loss shows only in states that move", "anchors": ["src/fem.h: Fem::Fem", "src/read.cpp: mesh::readSol", "src/save.cpp: Fem::saver, mesh::savesol", "src/settings.cpp: Settings::solMetadata", "src/time_integration.cpp: Fem::time_integration", "src/default-settings.yml: initial_magnetization, initial_time"]}
{"id": "C81", "title": "As max(dt) goes to zero a run converges to the equation of motion discretised in space", "statement": "For a given mesh, materials and interval of time, and fields that depend smoothly on the time and on the magnetization, the Landau-Lifshitz-Gilbert equation discretised in space has exactly one motion from each initial magnetization. There are a constant C and a bound on max(dt) such that every run whose max(dt) is below it (whatever min(dt), max(du), time_step, random angles, order of assembly, rejected attempts and failed solves) has, at every accepted step and in every row of the table and every saved state up to the end of the interval, a magnetization within C max(dt) of that motion at every magnetic node.", "quantifier": "every mesh, materials, smooth field, initial magnetization, settings with max(dt) below the bound, and number of steps", "why_tests_cant": "a test compares two runs at two step sizes on one mesh; a bound which is uniform over all runs, all step size histories chosen by the adaptive control and all initial states, with the exact solution as reference, cannot be sampled", "anchors": ["src/time_integration.cpp: Fem::time_integration", "src/solver.cpp: LinAlgebra::solve", "src/linear_algebra.cpp: prepareElements", "src/tetra.cpp: Tet::integrales, Tet::lumping, Tet::calc_alpha_eff", "src/node.h: Node::make_evol", "src/mesh.h: mesh::updateNode"]}
{"id": "C82", "title": "The energy columns are the energies, and the warning means the energy went up", "statement": "After each accepted step the four energy columns are the sums over the magnetic elements of the exchange, anisotropy, demagnetizing and Zeeman energies, and E_tot is their sum. In a uniform applied field H the Zeeman column is -mu0 times the sum over the magnetic regions of Ms, the volume and H.<M>; a space dependent field which is the same everywhere gives the same columns. For a uniform magnetization the columns are those of a single moment. In verbose mode the warning \"energy increased\" is printed if and only if E_tot is larger than at the previous computation, never at the first one. With K3 not negative the cubic energy of an element is not negative.", "quantifier": "every mesh, materials, magnetization, potential, applied field, and sequence of energies", "why_tests_cant": "a test compares numbers on one mesh and one state; the identities between columns (Zeeman and averages, both kinds of field) hold or fail for all meshes and states, and a sign error that cancels on a symmetric test case is not seen", "anchors": ["src/energy.cpp: Fem::energy", "src/fem.h: Fem::evolution, Fem::compute_all", "src/tetra.cpp: Tet::exchangeEnergy, uniaxialAnisotropyEnergy, cubicAnisotropyEnergy, demagEnergy, zeemanEnergy", "src/triangle.cpp: Tri::anisotropyEnergy, Tri::demagEnergy"]}
{"id": "C83", "title": "The mathematical functions offered to user expressions are what their names say", "statement": "expm1, log1p, cosh, sinh, tanh, acosh, asinh, atanh in the expressions for the magnetization and the field return, for every number in the domain, the value of the mathematical function within a stated error: cosh exactly, sinh and asinh within 2e-10, atanh within 3e-10, expm1, log1p and tanh within 3e-8 (all relative), acosh within 1e-16. Outside of the domain the result is NaN, at the ends of the domain and at infinity it is the limit, and NaN gives NaN.", "quantifier": "every real number, both infinities and NaN", "why_tests_cant": "the functions switch between formulas at thresholds (2e-8, 1e-5, 20, 1e8) and a test at chosen points does not see the error near a threshold, nor that the bound holds on the whole line", "anchors": ["src/expression_parser.cpp: js_library"]}
{"id": "C84", "title": "The torque of the spin accumulation takes from the electrons what it gives to the magnetization", "statement": "With spin accumulation on, spin is conserved: what enters through the electrodes where the spin accumulation is imposed is what relaxes, plus what precesses into the magnetization, minus what the current produces, plus what leaves through the surfaces; and the angular momentum given to the magnetization of an element by the field of the spin accumulation is what the electrons lose there by precession. If the spin diffusion solve fails during the run, the run must not go on with a wrong torque.", "quantifier": "every mesh, magnetization of unit norm, spin accumulation, material, region, direction of angular momentum and quadrature rule of the code", "why_tests_cant": "a balance over all fields is an identity between two files (the solver of the electrons and the matrix of the magnetization), each using its own quadrature; a test compares one field with a stored number", "anchors": ["src/spinAccumulationSolver.cpp: prepareExtraField, compute, integrales", "src/tetra.cpp: calc_Hst, integrales"]}
{"id": "C85", "title": "Second order in time: the error of a run decreases as the square of max(dt)", "statement": "The magnetization computed in a sample magnetized uniformly, in an applied field given as a function of the time, differs from the solution of the equation of Landau, Lifshitz and Gilbert by at most a constant times the square of max(dt), at every accepted step and in every row of the table; the constant depends on the material, the fields and the duration, not on the mesh, on min(dt), max(du) or on the steps chosen by the program. The equation has exactly one solution from each direction.", "quantifier": "every material without cubic and surface anisotropy, demagnetizing tensor, applied field, duration, mesh, time stepping settings with small enough max(dt), and every run with exact linear solves and without recentering", "why_tests_cant": "an order of accuracy is a statement about all small steps and all sequences of accepted and rejected steps; a test with a few values of max(dt) sees one trajectory, and with a constant field only it cannot see that the order is lost for a field that depends on the time", "anchors": ["src/time_integration.cpp: time_integration (line 196, field of a step)", "src/tetra.cpp: integrales, calc_alpha_eff", "src/node.h: make_evol", "config.h.in: THETA"]}
{"id": "C86", "title": "The settings printed by --verify make the same run", "statement": "The settings printed by --verify or -v, saved in a file and given to the program as its settings file, make the same run as the files they were printed from: the same outputs, mesh, regions, initial magnetization, initial time, recentering, applied field, electrons, solvers and time steps.", "quantifier": "every sequence of settings files that the program accepts", "why_tests_cant": "the reader and the printer are two long functions with one case for each setting; a test checks some files, the claim is about all combinations of settings and of layers", "anchors": ["src/settings.cpp: Settings::toYaml, Settings::read, str, Settings::Settings", "src/main.cpp: main (--verify, -v)", "src/default-settings.yml"]}
{"id": "C87", "title": "Files and exit status of a run", "statement": "A run writes only files of its own, in its output directory and with its base name, each once; runs with different names never write the same file. A run that is refused leaves every file as it was and ends with a status different from zero. A status of zero means that what was asked for was done: the table is complete and every magnetization asked for was saved; a run that is accepted and meets no obstacle ends with status zero. If a magnetization cannot be saved the run ends there with status 1, and what was written before remains.", "quantifier": "every command line, content of the settings files, state of the file system, outcome of mesh reading and solvers, and moment of the run", "why_tests_cant": "the ways of ending are spread over the whole program (options, settings, directory, mesh, electrons, table, loop, signals); a test exercises one way, and does not see that no other file is touched", "anchors": ["src/main.cpp: main, parseOptions, create_dir_if_needed", "src/time_integration.cpp: Fem::time_integration, exit_if_signal_received", "src/save.cpp: Fem::saver, mesh::savesol", "src/spinAccumulationSolver.cpp: spinAcc::spinAcc", "src/electrostatSolver.cpp: compute, save", "src/settings.cpp: Settings::read(filename)"]}
{"id": "C88", "title": "Rounding errors do not accumulate on the length of the magnetization", "statement": "In rounded arithmetic the magnetization of every magnetic node keeps a length of 1 up to four rounding errors, after any number of steps: the errors of the steps do not add up. No written component exceeds 1 by more than this. The velocity given to a node is orthogonal to its magnetization up to 33 rounding errors.", "quantifier": "every relative rounding error up to 1/1000 of every operation (double precision is 1.1e-16), every order of the sums of three terms, with or without fused operations; every mesh, sequence of accepted and rejected steps, random rotation, linear solution; maximum rotation per step up to 3/8", "why_tests_cant": "a test runs few steps on one machine with one compiler; a drift of the length would appear only after very many steps, and depends on how the compiler arranges the operations", "anchors": ["src/node.h: Node::setBasis, Node::make_evol, Node::evolution", "src/solver.cpp: LinAlgebra::solve (end)", "src/time_integration.cpp: Fem::time_integration", "src/settings.h: Settings::getMagnetization"]}
{"id": "C89", "title": "Averages do not depend on the number of threads, up to rounding", "statement": "Each average printed in the table differs from the exact volume average by at most a number of rounding errors proportional to the number of elements, however the threads share, group and order the elements. Two evaluations with different numbers of threads differ by at most twice this. For the magnetization the error is at most 2.7 (N + 13) rounding errors, N being the number of magnetic elements.", "quantifier": "every mesh, region, nodal quantity, grouping and order of the parallel sum, rounding error of each operation (with N times the error up to 1/100)", "why_tests_cant": "the schedule of the threads changes from run to run and from machine to machine; a test sees a few of them", "anchors": ["src/mesh.cpp: mesh::avg", "src/tetra.h: Tet::interpolation", "src/save.cpp: Fem::saver"]}
{"id": "C90", "title": "In steady conditions the energy never increases, and a run relaxes to equilibrium", "statement": "With one value of Ms, exchange, uniaxial anisotropy, a constant applied field and a demagnetizing field that is linear and reciprocal in the magnetization, there is a limit for max(dt), the same for all initial magnetizations, under which: no step of a run increases the total energy (demagnetizing energy included), and an accepted step lowers it by at least c dt |v|^2; the energies of the rows of the table never increase; the simulated time during which some node moves with velocity eps or more is at most C/eps^2, however long the run is; and after a step in which no node moves faster than eps, the derivative of the energy in every tangent direction is at most C eps.", "quantifier": "every mesh, material with exchange and damping, constant field, initial magnetization, time step settings with max(dt) under the limit, number of steps; default (second order) and first order builds; exact solutions of the linear systems", "why_tests_cant": "a statement over all initial states and runs of any length; the velocity and the potential extrapolated from the previous step could raise the energy in some state no test visits", "anchors": ["src/time_integration.cpp: Fem::time_integration", "src/tetra.cpp: Tet::integrales, Tet::exchangeEnergy, Tet::uniaxialAnisotropyEnergy, Tet::zeemanEnergy, Tet::demagEnergy", "src/energy.cpp: Fem::energy", "src/node.h: Node::make_evol"]}
{"id": "C91", "title": "How the mesh file numbers the nodes and lists the elements does not matter", "statement": "Two mesh files that describe the same sample, with the nodes numbered in another way, the elements in another order, the vertices of each tetrahedron in another order of the same orientation and those of the triangles in any order, give runs with the same accepted and rejected steps, the same rows of the table and the same saved configurations, up to the numbering of the nodes.", "quantifier": "every mesh, renumbering, order of the elements and of the vertices of each element, material, field, initial magnetization and number of steps; exact solutions of the linear systems", "why_tests_cant": "the numbers of permutations of nodes and elements are astronomical; a test compares two of them, to within rounding", "anchors": ["src/mesh.cpp: Mesh::mesh::sortNodes, Mesh::mesh::build_triangle_map, Mesh::mesh::checkMeshFile", "src/triangle.cpp: Tri::integrales, Tri::charges, Tri::anisotropyEnergy", "src/tetra.cpp: Tet::integrales", "src/linear_algebra.h: LinAlgebra", "src/time_integration.cpp: Fem::time_integration"]}
{"id": "C92", "title": "The image of a sample in a mirror has the image of its motion", "statement": "Let a sample, its axes of anisotropy, its magnetization and the applied field be reflected in a plane, magnetization and field as axial vectors. The run of the image makes the same accepted and rejected steps at the same times, and at each of them its magnetization is the image of the magnetization of the original; the magnetic potentials have the opposite sign.", "quantifier": "every plane, mesh, material without cubic anisotropy, field, initial magnetization and number of steps; any listing of the elements of the image; exact solutions of the linear systems", "why_tests_cant": "handedness: the sign of gyration, of the normals, of the determinants and of the cross products must all be coherent; a test of one geometry can hide two errors that compensate", "anchors": ["src/tetra.cpp: Tet::integrales, Tet::charges", "src/triangle.cpp: Tri::integrales, Tri::charges, Tri::potential", "src/node.h: Node::make_evol, Node::setBasis", "src/time_integration.cpp: Fem::time_integration"]}
{"id": "C93", "title": "Lengths in another unit: the motion is the same if the exchange constant goes as the square", "statement": "If all lengths are multiplied by a factor c, the exchange constants by c^2 and the surface anisotropies by |c|, the run makes the same steps at the same times with the same magnetization; the energies are multiplied by |c|^3, the averages of the table are the same, and the exact demagnetizing potential is multiplied by c (so that the field is the same). A negative c includes the inversion through the origin.", "quantifier": "every factor other than zero, mesh, material, field, initial magnetization, listing of the elements and number of steps; exact solutions of the linear systems, exact summation of the charges", "why_tests_cant": "holds for all ratios at once; a forgotten factor (scale, Jacobian, area) in a term that the test sample does not excite would not be seen", "anchors": ["src/tetra.cpp: Tet::integrales, Tet::exchangeEnergy, Tet::charges", "src/triangle.cpp: Tri::integrales, Tri::charges, Tri::potential, Tri::demagEnergy", "src/mesh.h: Mesh::mesh::avg", "src/energy.cpp: Fem::energy", "src/fmm_demag.h: fmm::demag"]}
{"id": "C94", "title": "Refining the mesh: energies, fields and averages converge to those of the continuous magnetization", "statement": "Let the nodes hold the values of a smooth magnetization (and of a smooth potential). Then the volume of each element is its Lebesgue volume, and E_ex, E_aniso, E_demag, E_zeeman differ from the integrals of the continuum theory (A |grad u|^2, the anisotropy densities over regions and surfaces, -1/2 mu0 Ms u.H with H = -grad phi, -mu0 Ms u.H) by at most an explicit constant times the size h of the elements times the material constant times the volume; so do the averages of the components and the demagnetizing field on each element. For every precision there is an h below which every well shaped mesh achieves it.", "quantifier": "every mesh of elements with edges at most h and volume at least h^3/kappa, every magnetization and potential with bounded Lipschitz first derivatives (which may jump between regions), both quadrature rules, all materials, all applied fields with bounded slope", "why_tests_cant": "convergence is a statement about all meshes finer than some size; a test compares a few meshes with a few known solutions and cannot see a constant missing in a term that vanishes for them", "anchors": ["src/energy.cpp: Fem::energy", "src/tetra.cpp: Tet::exchangeEnergy, Tet::uniaxialAnisotropyEnergy, Tet::cubicAnisotropyEnergy, Tet::demagEnergy, Tet::zeemanEnergy, Tet::calc_vol", "src/triangle.cpp: Tri::anisotropyEnergy, Tri::demagEnergy", "src/tetra.h: Tet::interpolation, Tet::interpolation_field, Tetra::pds", "src/mesh.cpp: mesh::avg"]}
{"id": "C95", "title": "The equation of motion on the mesh is a consistent approximation of the Landau-Lifshitz-Gilbert equation of the continuum", "statement": "Let magnetization u, velocity v, potential, applied field, spin accumulation field and a displacement w be smooth on every element. Tested with the samples of w, the equation the solver discretises (damping + gyration = work of the exchange, demagnetizing, applied, anisotropy, spin accumulation fields and of the surface anisotropy) differs from the weak LLG equation of the continuum, where every term is an integral over the solid body, by at most an explicit constant times the size h of the elements. Hence, if the fields satisfy the continuous equation, the velocity of the mesh differs from the true one by a field against which damping and gyration do at most O(h) work in any smooth displacement orthogonal to u; every precision is reached by every mesh of well shaped elements that is fine enough.", "quantifier": "every mesh of elements with edges at most h and volume at least h^3/kappa, every smooth u, v, w, potential and field (derivatives may jump between regions), both quadrature rules for tetrahedrons and triangles, all materials", "why_tests_cant": "a wrong factor in one term of the equation gives plausible dynamics; a test can compare a few runs with known solutions, which exercise few terms, and cannot separate it from discretisation error", "anchors": ["src/tetra.cpp: Tet::integrales, Tet::lumping, Tet::calc_aniso_uniax, Tet::calc_aniso_cub", "src/triangle.cpp: Tri::integrales", "src/tetra.h: Tet::interpolation, Tet::interpolation_field, Tetra::pds", "src/solver.cpp", "src/linear_algebra.cpp: LinAlgebra::solve"]}
{"id": "C96", "title": "The electric potential converges to that of the continuum; power balance", "statement": "If the potential of the continuum (conservation of the current sigma grad V with the given injected current densities and electrode values) is smooth on every element, the solution of the assembled problem is the best field of nodal values in the mean square of the gradient weighted by the conductivity, the error of its gradient is at most a constant times the size h of the elements, and the dissipated power converges at the same rate. The solution minimises half of the dissipated power plus the power given to the injected currents among all fields with the same electrode values, and with one potential on the electrode the dissipated power is the sum of injected current times potential difference.", "quantifier": "every mesh of positively oriented elements (of edges at most h and volume at least h^3/kappa for the rates), every distribution of conductivities not negative (jumps between regions allowed), injected current densities and electrode, every smooth solution of the continuous problem", "why_tests_cant": "a test compares the potential with a known solution on a few meshes; only a proof covers all geometries and shows that the error goes to zero", "anchors": ["src/electrostatSolver.cpp: electrostatSolver::integrales, electrostatSolver::solve", "src/solver.h: buildMat, buildVect", "src/tetra.h: Tet::da", "src/triangle.h: Triangle::a"]}
{"id": "C97", "title": "Infinities and NaN do not get into the results", "statement": "A solve of the equation of motion that succeeds had finite numbers in all equations of the magnetic nodes and gives finite velocities that solve these equations up to the tolerance; whatever infinity or NaN the data contain, the step is refused instead. The same holds for a potential or spin accumulation reported as converged. In particular a surface anisotropy on an interface without jump of magnetization (a division by zero) makes every solve fail, and a run in which every solve fails ends with exit status 1, without a new line in the table and with the magnetization it started from.", "quantifier": "every matrix, right hand side and first guess with infinities and NaN anywhere, every tolerance, every mesh, every run", "why_tests_cant": "a test feeds some NaN at some place; a proof covers every place and every way they propagate through the iterations", "anchors": ["src/solver.cpp: LinAlgebra::solve", "src/linear_algebra.cpp: prepareElements", "src/triangle.cpp: Tri::integrales", "src/algebra/bicg.h: bicg, bicg_dir", "src/algebra/cg.h: cg_dir", "src/algebra/iter.h: iteration::finished", "src/electrostatSolver.cpp: electrostatSolver::solve", "src/time_integration.cpp: Fem::time_integration"]}
{"id": "C98", "title": "Dividing a region into parts of the same material changes nothing", "statement": "If a volume region of the mesh is divided into several regions with the same parameters (for instance to read averages part by part), the mesh is accepted in the same cases, the surfaces found by the program are the same with the same jumps and parameters, plus surfaces between the parts without jump; the linear systems, the runs, the energies, the demagnetizing potential and the average over the sample are the same, and volumes and averages over the region are obtained from those of the parts.", "quantifier": "every mesh, every division of its regions, every material, every order of assembly, every run including recentering and rejected steps", "why_tests_cant": "a test compares two meshes for some steps; the claim is about all divisions, all elements added by the program and all steps", "anchors": ["src/mesh.cpp: mesh::controlTriangles, mesh::diffTriHandler", "src/mesh.h: Mesh::mesh", "src/linear_algebra.cpp: prepareElements", "src/triangle.cpp: Tri::integrales", "src/energy.cpp: Fem::energy", "src/fmm_demag.h: calc_charges", "src/mesh.cpp: mesh::avg"]}
{"id": "C99", "title": "Energy balance in a varying applied field: the area of a hysteresis loop is the loss by damping", "statement": "When the applied field varies with time (smoothly, in any way in space), between any two states of a run and between any two rows of its output the total energy changes by the work of the variation of the applied field less the energy lost by Gilbert damping, which is never negative, up to a constant times max(dt) per unit of time. A run that returns to the magnetization and the field it started from has therefore taken from the field what damping lost: the area of the loop M(H) computed from the averages in the output is the loss and cannot be negative beyond that error.", "quantifier": "every mesh, material with one Ms, every initial magnetization, every smooth applied field, every pair of states up to a final time, every max(dt) below a limit that depends on the sample, including rejected steps", "why_tests_cant": "a test evaluates one loop and cannot tell an error of the scheme from the discretisation error; the claim bounds the error for all states and all steps with one constant", "anchors": ["src/time_integration.cpp: Fem::time_integration", "src/energy.cpp: Fem::energy", "src/tetra.cpp: Tet::integrales", "src/tetra.h: Tetra::Tet::zeemanEnergy", "src/linear_algebra.cpp: LinAlgebra::prepareElements", "src/mesh.cpp: mesh::avg"]}
{"id": "C100", "title": "Non-magnetic surroundings do not change the magnet", "statement": "A mesh may contain non-magnetic regions around or beside the magnet (to compute a current, or because the mesh was made with air). With or without them the magnet behaves the same: the mesh check accepts the magnet alone when it accepts the whole, and finds the same surfaces with the same jumps of magnetization and the same parameters; the demagnetizing potential, the energies, the averages over all magnetic regions, and a whole run with its dates, accepted and rejected steps, magnetization of every magnetic node and saved rows are the same. The additional surfaces found in the surroundings carry no magnetic charge. This fails if `__default__` has a surface anisotropy constant and a face of the surroundings has three magnetic corners: the solve then fails.", "quantifier": "every mesh that passes the check, every set of non-magnetic regions removed from it, any number of additional nodes, every list of surfaces drawn by the user, every sequence of linear solves and signals, every number of steps", "why_tests_cant": "a test compares two meshes; the claim is about all meshes, all surroundings and runs of any length, and the triangle that breaks it only exists when a tetrahedron of air fills a notch of the magnet", "anchors": ["src/mesh.cpp: mesh::controlTriangles, mesh::diffTriHandler", "src/mesh.h: Mesh::mesh", "src/linear_algebra.cpp: prepareElements", "src/triangle.cpp: Tri::integrales", "src/energy.cpp: Fem::energy", "src/fmm_demag.h: calc_charges", "src/mesh.cpp: mesh::avg", "src/time_integration.cpp: Fem::time_integration"]}
{"id": "C101", "title": "Progress display", "statement": "Unless verbose is set, a run shows its progress on one line. Two updates are at least half a second apart; after each accepted step the display shows the time just reached or is less than half a second old; the percentages increase, and the four characters of the spinner follow each other in turn. A run that goes to its end closes the display with \"100.00%\", once, and nothing follows. If the duration is a multiple of the output period the percentages stay below 100 until the final time is reached. With verbose nothing of this is shown. The percentage is that of the work done.", "quantifier": "every configuration, initial time, sequence of solver results and signals, every sequence of clock readings, every number of steps", "why_tests_cant": "the display depends on the clock and on the sequence of accepted steps; a test sees one run, while the wrong percentages need a final time that is no multiple of the output period, or a restart", "anchors": ["src/time_integration.cpp: show_progress, Fem::time_integration"]}
{"id": "C102", "title": "A current through a non-uniform magnetization creates spin accumulation", "statement": "With spin accumulation on, a current of density -sigma grad V in a material of polarization P and magnetization M carries a spin current whose divergence is a source of spin accumulation: tested with a finite element field w, the right hand side of the magnetic elements is the integral of (mu_B P sigma / e) sum_a M_a grad V . grad w_a. In particular a current that crosses a domain wall creates spin accumulation and exerts a torque on the wall.", "quantifier": "every mesh, conductivity, polarization and potential, every magnetization field, every test field, every number of computations", "why_tests_cant": "the existing tests use uniform magnetizations, for which the assembled right hand side is right; a missing torque shows only as a wall that does not move, which no test can tell from a small torque", "anchors": ["src/spinAccumulationSolver.cpp: spinAcc::integrales, spinAcc::compute, spinAcc::prepareExtraField", "src/electrostatSolver.cpp: electrostatSolver::integrales", "src/tetra.cpp: calc_gradV, calc_Hst"]}
{"id": "C103", "title": "Directions in the settings need not be unit vectors", "statement": "The settings say that unit vectors need not be of unit length. A direction (easy axis, cubic axes, surface easy axis, polarization) given by finite components, not all zero, is stored as the unit vector of the same direction; multiplying the given vector by a positive number changes nothing; a region that gives no direction has that of the default region. So after any number of files every direction is a unit vector, as the energies and fields of the anisotropies assume. The three cubic axes are orthogonal.", "quantifier": "every sequence of settings files, every number of regions, every vector", "why_tests_cant": "the tests read one file with one vector; that no sequence of files and defaults leaves a vector of another length is a statement about all files", "anchors": ["src/settings.cpp: assign, isOrthogonal, Settings::read", "src/default-settings.yml", "src/config.h.in: USER_TOL"]}
{"id": "C104", "title": "The columns dt, max_dm and <dM/dt> describe the last time step", "statement": "In every row of the table but the first, dt is the length of the last time step that was kept, and this step ended at the time of the row; max_dm is the largest distance dt |v| of a magnetic node in that step, and no node moved further; the change of <Mx> over the step, for the magnet or for a region, is dt times the value in the column <dMx/dt> up to max_dm squared over two. The first row, written before any step, shows the length wanted for the first step and max_dm 0. A row shows the rate of change of its last step also with recentering.", "quantifier": "every run: any settings, any sequence of rejected and kept steps, any velocities, every row, every mesh and region", "why_tests_cant": "the columns are written after loops of attempts that change the same variables; that no sequence of rejected attempts leaves the length or the velocity of a rejected attempt in a row is a statement about all sequences", "anchors": ["src/save.cpp: Fem::saver", "src/time_integration.cpp: Fem::time_integration", "src/node.h: get_v_comp, get_u_comp", "src/recentering.cpp: Fem::recenter"]}
{"id": "C105", "title": "Settings of the time integration that cannot be followed are reported", "statement": "If min(dt), max(dt), max(du) or the output period are such that no time step can be made (an output period or a max(dt) below min(dt), a negative max(du), a min(dt) that is zero or has another sign than max(dt), a negative output period), the program says so by its exit status: a run that ends with status 0 and had at least one period to cover made time steps within the limits given, and no choice of these numbers makes the program run for ever without advancing.", "quantifier": "all values of the five settings, all meshes and initial states, all outcomes of the solver at every attempt", "why_tests_cant": "a test with some bad value shows what happens for that value and solver behaviour; that the run ends, for every value and every sequence of solver outcomes, cannot be observed by waiting", "anchors": ["src/settings.cpp: Settings::read (time_integration)", "src/time_integration.cpp: TimeStepper, Fem::time_integration", "src/time_integration.h: timing"]}
{"id": "C106", "title": "A setting that is not given has the documented default value", "statement": "The text shown by --print-defaults says which value each setting has when no settings file gives it. Whatever files are given: a setting that none of them gives has the value of that text; a volume or surface region named in a file has the value of that text for each parameter that its description leaves out (in particular a surface with a current density jn and no polarization uP carries a current polarized along [0, 0, 1]).", "quantifier": "all sequences of settings files, all settings, all regions; for the spin accumulation also all meshes, magnetizations and solver tolerances", "why_tests_cant": "a test reads some files and looks at some settings; which values survive depends on every combination of keys that are given, omitted or null in every file, for each of several dozen settings", "anchors": ["src/default-settings.yml", "src/settings.cpp: Settings::Settings, Settings::read, assign", "src/settings.h: findRegionIdx", "src/spinAccumulationSolver.cpp: spinAcc::boundaryConditions, spinAcc::solve", "src/algebra/bicg.h: bicg_dir"]}
{"id": "C107", "title": "In steady conditions a run does not cross an energy barrier", "statement": "In steady conditions (constant applied field, no current, one saturation magnetization, no cubic or surface anisotropy) and with a short enough largest time step, every state of a run and every state in a row of the output is reached from the initial magnetization along a continuous path of unit magnetizations on which the energy never exceeds the initial energy. So a quantity that depends continuously on the magnetization cannot pass a value at which the energy is always higher than the initial energy. In particular the magnetization of a uniaxial material does not reverse in a field opposite to it and weaker than the anisotropy field: if its component along the easy axis is more than mu0 Ms H / 2K at every node, and its energy is close to that of the saturated state, this stays so for ever.", "quantifier": "all meshes, materials, applied fields and initial magnetizations, all runs of any length with a largest time step below a limit that does not depend on the initial magnetization; all continuous quantities and all barriers", "why_tests_cant": "a test compares the end of some runs with an expected state; that no run of any length jumps over a barrier by a numerical artefact is a statement about all steps of all runs", "anchors": ["src/time_integration.cpp: Fem::time_integration", "src/solver.cpp: LinAlgebra::solve", "src/node.h: Node::make_evol", "src/energy.cpp: Fem::energy", "src/tetra.cpp: Tet::integrales, Tet::exchangeEnergy, Tet::uniaxialAnisotropyEnergy, Tet::zeemanEnergy, Tet::demagEnergy"]}
{"id": "C108", "title": "In an energy well with one equilibrium every run converges to this equilibrium", "statement": "In steady conditions (constant applied field, no current, one saturation magnetization, no cubic or surface anisotropy) and with a short enough largest time step, a run that begins in an energy well (a set of unit magnetizations surrounded by a barrier of higher energy) with a single equilibrium converges to this equilibrium: for every distance there is a simulated time, the same for all initial magnetizations in the well and for all sequences of steps, after which the magnetization of every magnetic node is within this distance of the equilibrium, in the states of the run and in the rows of the output. In particular, without the demagnetizing field and on a mesh without obtuse dihedral angles, a uniaxial material on the near side of its barrier, in an opposite field weaker than the anisotropy field, becomes saturated along its easy axis.", "quantifier": "all meshes, materials, applied fields, wells, initial magnetizations in the well, sequences of accepted and rejected steps, and distances; all runs of any length with a largest time step below a limit that depends neither on the well nor on the initial magnetization", "why_tests_cant": "a test ends a run after some time and compares with an expected state; convergence, with a time that does not depend on the start, is a statement about all runs and all times", "anchors": ["src/time_integration.cpp: Fem::time_integration", "src/linear_algebra.cpp: LinAlgebra::solver", "src/node.h: Nodes::Node::make_evol", "src/energy.cpp: Fem::energy", "src/tetra.cpp: Tet::exchangeEnergy, Tet::uniaxialAnisotropyEnergy, Tet::zeemanEnergy", "src/save.cpp: Fem::saver"]}
{"id": "C109", "title": "Potential and spin accumulation stay within the values of the contacts, and injected spins are lost with the distance", "statement": "The electric potential is nowhere higher than on the electrode if the current leaves the body through the surface where it is given, and nowhere lower if it enters there; whatever the current, the lowest and the highest potential are found on the contacts. Where the current brings no spins of its own, the spin accumulation is nowhere larger than on the contacts, whatever the magnetization and the computations made before, and the spins that one contact brings decrease exponentially with the distance from it, at a rate given by the spin flip length and the elements.", "quantifier": "all meshes, conductivities, materials, currents and contact values, magnetizations, and numbers of successive computations; for the positive statements, all meshes without obtuse dihedral angles", "why_tests_cant": "a test compares the solution on some meshes with an expected one; that no node of any mesh is outside the bounds is a statement about the inverse of all assembled matrices", "anchors": ["src/electrostatSolver.cpp: electrostatSolver::integrales, electrostatSolver::solve", "src/spinAccumulationSolver.cpp: spinAcc::integrales, spinAcc::solve, spinAcc::compute", "src/tetra.cpp: Tet::calcDiagBlock", "src/tetra.h: Tet::da"]}
{"id": "C110", "title": "The spin accumulation is not computed from material constants that were not given", "statement": "When the spin accumulation is enabled and a volume region lacks its density of states, its spin diffusion length, in a magnetic region the length of the s-d coupling, or, where the potential is to be computed, its conductivity, the program ends with status 1 before the first time step, because the documented defaults of these constants are zero. If the program goes on, all these constants were other than zero and the first computation is the one of the diffusion equation. The preparation always ends, without access outside the arrays; if all constants are given and the contacts prescribe only zeros, the integration starts from a spin accumulation of zero.", "quantifier": "all meshes, contacts, materials, settings files, magnetizations, and parameters of the two solvers (tolerance of the potential below one)", "why_tests_cant": "nothing in the program checks the lengths or the conductivity: that a zero is always noticed depends on how infinities and NaN travel through assembly and iterative solvers, for all meshes and materials", "anchors": ["src/spinAccumulationSolver.cpp: spinAcc::spinAcc, spinAcc::checkBoundaryConditions, spinAcc::compute, spinAcc::solve, spinAcc::integrales", "src/electrostatSolver.cpp: electrostatSolver::compute, electrostatSolver::solve", "src/algebra/cg.h: cg_dir", "src/algebra/bicg.h: bicg_dir", "src/default-settings.yml: sigma, dens_state, l_sd, l_sf"]}
{"id": "C111", "title": "A sample with all fields stronger by a factor runs the same course faster by that factor", "statement": "Multiply the saturation magnetizations, the applied field and the fields of a spin polarized current by c > 0, the exchange and anisotropy constants by c squared, and divide all times of the settings by c. Then, with the same initial magnetization and random numbers, the run accepts and rejects the same attempts, goes through the same magnetizations, writes the same rows with times divided by c and energies multiplied by c squared, and the same .sol files with times divided and potentials multiplied by c.", "quantifier": "all factors c > 0, meshes, materials, magnetizations, fields, settings, and numbers of transitions of the time loop; right hand sides of the linear systems of norm at most one, or c at most one and no failing attempt", "why_tests_cant": "a hidden absolute constant in the effective damping, the step control, the assembly or the stopping rule of the solver shows only for some materials and steps; a test compares one pair of runs, within a tolerance", "anchors": ["src/tetra.cpp: Tet::integrales, Tetra::calc_alpha_eff", "src/triangle.cpp: Tri::integrales", "src/linear_algebra.h: LinAlgebra::prepareElements", "src/solver.cpp: LinAlgebra::solve", "src/algebra/bicg.h: bicg_dir", "src/algebra/iter.h: iteration", "src/time_integration.cpp: Fem::time_integration", "src/energy.cpp: Fem::energy", "src/fmm_demag.h: scal_fmm::fmm::calc_charges"]}
{"id": "C112", "title": "The notation of the applied field does not matter", "statement": "An applied field given as a vector function of time, or as the product of a function of time and a function of position that has the same values, gives every magnetic element the same field at its integration points at every time, the same Zeeman energy, the same linear systems, and therefore the same runs. In the space dependent notation a constant factor can be moved from one of the two functions to the other.", "quantifier": "all fields in both notations, meshes, magnetizations, materials, times and runs; meshes whose magnetic tetrahedrons come first where the space dependent notation is used (any mesh for the constant factor)", "why_tests_cant": "the two notations go through different code (different overloads, a table filled at the start, division by mu0 at different places); a test compares them for one field on one mesh, where all regions are magnetic", "anchors": ["src/settings.h: getField, getFieldSpace, getFieldTime", "src/mesh.cpp: mesh::setExtSpaceField", "src/linear_algebra.cpp: LinAlgebra::prepareElements", "src/tetra.cpp: Tet::zeemanEnergy, Tet::integrales", "src/energy.cpp: Fem::energy", "src/time_integration.cpp: Fem::time_integration"]}
{"id": "C113", "title": "Only differences of times matter", "statement": "When the initial time, the final time and the time dependence of the applied field are all moved by the same amount, the simulation is the same one: the same time steps are tried, the same ones are rejected, the solver gives the same results, the table has the same rows and the same configurations are saved, with all times moved by that amount. In a steady field the initial time therefore does not matter.", "quantifier": "all meshes, settings, materials, fields, random angles, amounts (positive or negative), runs and numbers of steps; sums of times exact", "why_tests_cant": "a time taken from the origin in place of the initial time (in the target of an output, the number of outputs, the limit of a step) shows only in runs that do not start at 0, and nearly all tests start at 0", "anchors": ["src/time_integration.cpp: Fem::time_integration", "src/time_integration.cpp: TimeStepper", "src/fem.h: Fem::Fem", "src/settings.h: initial_time, tf", "src/save.cpp: Fem::saver"]}
{"id": "C114", "title": "Magnets that do not touch act on each other only through their stray fields", "statement": "In a sample of several magnets without common nodes, an attempt of a time step gives each magnet the velocities and the new magnetization that it would have if the other magnets were not magnetic, in the same applied field and the same stray field, whatever the materials and the magnetization of the others. The stray field of the sample is the sum of those of the magnets, and each energy is the sum of those of the magnets in the same fields.", "quantifier": "all meshes, divisions into magnets without common nodes, materials, magnetizations, fields, steps, tangent bases and orders of assembly; exact solutions of the linear systems, exact sums over the charges", "why_tests_cant": "all magnets share one matrix, one right hand side, one numbering and one list of magnetic nodes; an entry written to the row of another magnet shows only for certain numberings, and a test of one sample cannot tell a coupling of the code from the stray field", "anchors": ["src/linear_algebra.cpp: LinAlgebra::prepareElements", "src/solver.cpp: LinAlgebra::solve", "src/mesh.h: mesh::isMagnetic", "src/tetra.cpp: Tet::integrales, Tet::charges", "src/triangle.cpp: Tri::integrales, Tri::charges", "src/energy.cpp: Fem::energy", "src/fmm_demag.h: scal_fmm::fmm"]}
{"id": "C115", "title": "The electric potential obeys Ohm's law", "statement": "With a given electrode, the potential relative to the electrode, and the electric field in every element, are linear functions of the current densities imposed on the other surfaces: currents superpose, and multiplying all currents by a factor multiplies all voltages by this factor. A body which conducts better by a factor everywhere has voltages smaller by this factor. The voltages are reciprocal: two settings of the currents may be exchanged, each weighted with the currents of the other. The heat released in the body is the power delivered by the sources, so no setting draws power from the sample.", "quantifier": "all meshes with positively oriented elements, conductivities not negative, surfaces, current densities and electrode potentials; exact solutions of the assembled equations", "why_tests_cant": "a test compares the potential with a formula for one geometry, usually a straight wire with one current, where superposition and reciprocity say nothing; an error in one entry of the matrix shows only for certain shapes and several contacts", "anchors": ["src/electrostatSolver.cpp: electrostatSolver::integrales, electrostatSolver::solve, electrostatSolver::getCurrentDensity", "src/tetra.cpp: Tetra::calc_gradV", "src/solver.h: solver::buildMat, solver::buildVect"]}
{"id": "C116", "title": "The spin accumulation is proportional to the current", "statement": "For a given magnetization, multiplying the currents of the settings by a factor multiplies the spin accumulation, and the field by which it acts on the magnetization, by this factor, if the spin vectors prescribed on the contacts are zero or multiplied too; reversing the current reverses the spin accumulation. Without current there is none, and the time step is the one without spin accumulation. The potential of the electrode has no effect. More generally the spin accumulations of several currents superpose.", "quantifier": "all meshes with positively oriented elements, materials, surfaces, currents, factors, electrode potentials and histories of the magnetization; exact solutions of both linear systems", "why_tests_cant": "a test uses one current; terms which do not change sign with the current (an absolute value, a wrong default for a missing setting, a source that does not come from the potential) give plausible values for this one current", "anchors": ["src/spinAccumulationSolver.cpp: spinAcc::integrales, spinAcc::solve, spinAcc::prepareExtraField", "src/electrostatSolver.cpp: electrostatSolver::solve", "src/tetra.cpp: Tetra::calc_gradV, Tetra::calc_Hst"]}
{"id": "C117", "title": "The spin accumulation turns with the spins, wherever the sample is", "statement": "Displacing and turning the sample does not change the electric potential. If the magnetization and the spins given at the contacts are turned, then the spin accumulation and the field by which it acts on the magnetization are turned in the same way, whether the sample is left where it is or is displaced and turned by any rigid motion.", "quantifier": "all meshes with positively oriented elements, materials, surfaces, currents, histories of the magnetization, rotations of the spins and rigid motions of the sample; exact solutions of the linear systems", "why_tests_cant": "a test has a wire along one axis and a polarization along another; a component of the precession matrix with a wrong sign or at a wrong place, or the mixing of spin and space components, shows only for other directions", "anchors": ["src/spinAccumulationSolver.cpp: spinAcc::integrales, spinAcc::solve, spinAcc::prepareExtraField", "src/tetra.cpp: Tet::calcOffDiagBlock, Tetra::calc_gradV, Tetra::calc_Hst", "src/electrostatSolver.cpp: electrostatSolver::integrales, electrostatSolver::solve"]}
{"id": "C118", "title": "Voltages and spin accumulation grow with the size of the sample", "statement": "If the mesh is enlarged k times and the current densities at the contacts and the conductivities are kept, then the potential relative to the electrode is k times larger at each node. If the lengths lsf and lsd are enlarged too, then the spin accumulation is k times larger and the field by which it acts on the magnetization is k times smaller.", "quantifier": "all meshes with positively oriented elements, materials, surfaces, currents, histories of the magnetization and factors k > 0; exact solutions of the linear systems", "why_tests_cant": "a test has one mesh in one unit of length; a wrong power of a length in a diffusion, relaxation, precession, source or surface term is hidden by a unit size and shows only between two sizes", "anchors": ["src/spinAccumulationSolver.cpp: spinAcc::integrales, spinAcc::solve, spinAcc::prepareExtraField", "src/electrostatSolver.cpp: electrostatSolver::integrales, electrostatSolver::solve", "src/tetra.cpp: Tetra::calc_gradV, Tetra::calc_Hst"]}
{"id": "C119", "title": "Collinear spins exert no torque", "statement": "If the magnetization of all magnetic elements is along one direction (parallel or antiparallel) and the polarizations and spin vectors of the contacts are along it too, then the spin accumulation computed is along this direction at every node of an element, and the field by which it acts on the magnetization exerts no torque: its vector product with the magnetization vanishes at every Gauss point.", "quantifier": "all meshes with positively oriented elements, materials, magnetic and non-magnetic parts, surfaces, currents, directions and histories of the magnetization along the direction; exact solutions of the linear system", "why_tests_cant": "a test takes the direction of an axis, for which the other components vanish term by term; for an oblique direction the six entries of the precession must cancel each other in every element", "anchors": ["src/spinAccumulationSolver.cpp: spinAcc::integrales, spinAcc::solve, spinAcc::prepareExtraField", "src/tetra.cpp: Tet::calcOffDiagBlock, Tetra::calc_Hst"]}
{"id": "C120", "title": "Reciprocity and balance of the spin accumulation", "statement": "Two computations on the same body, the second with the magnetization reversed everywhere and with other currents, potentials and contacts: the spins injected in the first one, weighted with the spin accumulation of the second one, equal the spins injected in the second one, weighted with the spin accumulation of the first one (Onsager). In one computation the spins injected, weighted with the spin accumulation, equal what is lost by diffusion and relaxation and are not negative; the precession about the magnetization has no part in this balance.", "quantifier": "all meshes with positively oriented elements, materials, surfaces, potentials, currents and histories of the magnetization; the balance for the first computation of the spin accumulation; exact solutions with the spin accumulation zero where it is prescribed", "why_tests_cant": "the relation joins two solutions with opposite magnetizations for all pairs of contacts and fields; a test compares a few numbers of one solution", "anchors": ["src/spinAccumulationSolver.cpp: spinAcc::integrales, spinAcc::solve", "src/tetra.cpp: Tet::calcOffDiagBlock, Tetra::calc_gradV"]}
{"id": "C121", "title": "Bodies which do not touch do not influence each other", "statement": "If a sample contains a body which shares no node with the rest, then the electric potential and the spin accumulation computed in this body depend only on its own elements, materials, contacts and magnetization: they are the same in every sample which contains it, with any other bodies, currents and magnetizations beside it, or alone.", "quantifier": "all pairs of meshes with the same elements on a set of nodes which each element contains or avoids, all materials, surfaces, currents and histories of the magnetization which agree there; exact solutions of the linear systems", "why_tests_cant": "an element assembled into a row of another body, a right-hand side kept from one element to the next, or a sum over the whole sample shows only when the rest of the sample is varied, in infinitely many ways", "anchors": ["src/electrostatSolver.cpp: electrostatSolver::integrales, electrostatSolver::solve", "src/spinAccumulationSolver.cpp: spinAcc::integrales, spinAcc::solve", "src/solver.h: solver::buildMat, solver::buildVect"]}
{"id": "C122", "title": "Potential and spin accumulation do not depend on the numbering", "statement": "If the nodes of the mesh are renumbered and the tetrahedrons and triangles are listed in another order, then the electric potential and the spin accumulation computed are the same functions of the place: the value at the new number of a node is the value at its old number.", "quantifier": "all meshes with positively oriented elements, renumberings of the nodes, orders of the elements, materials, surfaces, currents and histories of the magnetization; exact solutions of the linear systems", "why_tests_cant": "a test compares one or two numberings of one mesh; an index mixed up in the assembly may be right for them and wrong for the others", "anchors": ["src/electrostatSolver.cpp: electrostatSolver::integrales, electrostatSolver::solve", "src/spinAccumulationSolver.cpp: spinAcc::integrales, spinAcc::solve", "src/solver.h: solver::buildMat, solver::buildVect"]}
