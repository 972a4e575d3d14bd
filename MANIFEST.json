{
 "claims": [
  {
   "property": "C01",
   "status": "proved",
   "theorems": [
    "Verif.TimeLoop.C01_output_grid",
    "Verif.TimeLoop.C01_rows_append_only",
    "Verif.TimeLoop.C01_round_nearest"
   ],
   "note": "all runs of the loop machine, by induction over transitions; hypothesis: admissible settings (0<min(dt)<=max(dt), period>0, max(du)>=0)"
  },
  {
   "property": "C02",
   "status": "proved",
   "theorems": [
    "Verif.TimeLoop.C02_dt_limits"
   ],
   "note": "all runs"
  },
  {
   "property": "C03",
   "status": "proved",
   "theorems": [
    "Verif.TimeLoop.C03_termination",
    "Verif.TimeLoop.C03_completes",
    "Verif.TimeLoop.C03_negation_resolution"
   ],
   "note": "uniform bound on the number of transitions over all environment behaviours, for times added with a rounding error below min(dt)/2; C03_negation_resolution: without that hypothesis (min(dt) below the resolution of the time) the run never ends"
  },
  {
   "property": "C04",
   "status": "proved",
   "theorems": [
    "Verif.TimeLoop.C04_du_bound"
   ],
   "note": "all runs; recentering assumed to leave NEXT.u alone and to keep unit vectors (see C46 module)"
  },
  {
   "property": "C05",
   "status": "proved",
   "theorems": [
    "Verif.TimeLoop.C05_unit_norm"
   ],
   "note": "all runs; recentering assumed to keep unit vectors"
  },
  {
   "property": "C06",
   "status": "proved",
   "theorems": [
    "Verif.TimeLoop.C06_retry_smaller"
   ],
   "note": "all runs"
  },
  {
   "property": "C07",
   "status": "partial",
   "theorems": [
    "Verif.TimeLoop.C07_abort_iff",
    "Verif.TimeLoop.C07_negation",
    "Verif.TimeLoop.C07_abort_reason_partial"
   ],
   "note": "first half (abort iff dt<min(dt)) proved; second half is false: the step limiter may cut an admissible step below min(dt) (negation proved with a witness); weaker reason proved under max(dt)>=9 min(dt)"
  },
  {
   "property": "C08",
   "status": "partial",
   "theorems": [
    "Verif.TimeLoop.C08_negation",
    "Verif.TimeLoop.C08_signal_state_partial"
   ],
   "note": "false as stated: a signal after a max(du) rejection saves the rejected magnetization (negation proved); proved when no such rejection is pending"
  },
  {
   "property": "C09",
   "status": "proved",
   "theorems": [
    "Verif.TimeLoop.C09_sol_cadence"
   ],
   "note": "all runs"
  },
  {
   "property": "C10",
   "status": "partial",
   "theorems": [
    "Verif.TimeLoop.C10_energy_time",
    "Verif.TimeLoop.C10_negation",
    "Verif.TimeLoop.C10_energy_time_partial"
   ],
   "note": "false as stated: energies are evaluated at the start of the last step (exact lag proved, negation proved); true for constant fields"
  },
  {
   "property": "C11",
   "status": "proved",
   "theorems": [
    "Verif.TimeLoop.C11_failed_solve"
   ],
   "note": "all runs; the contents of the failing solve itself are in the Krylov module"
  },
  {
   "property": "C12",
   "status": "proved",
   "theorems": [
    "Verif.Krylov.C12_bicg_mask",
    "Verif.Krylov.C12_bicg",
    "Verif.Krylov.C12_bicg_dir"
   ],
   "note": "IEEE infinities and NaN modelled, rounding and overflow not; the diagonal must be in the matrix shape"
  },
  {
   "property": "C13",
   "status": "partial",
   "theorems": [
    "Verif.Krylov.C13_dirichlet_bicg_partial",
    "Verif.Krylov.C13_dirichlet_cg_partial",
    "Verif.Krylov.C13_mask_bicg_partial",
    "Verif.Krylov.C13_converged_exact",
    "Verif.Krylov.C13_negation"
   ],
   "note": "exact whenever convergence is reported; for other outcomes the component is exact or NaN, and a breakdown (omega = 0/0) on a singular system really gives NaN (negation proved)"
  },
  {
   "property": "C14",
   "status": "proved",
   "theorems": [
    "Verif.Krylov.C14_bicg",
    "Verif.Krylov.C14_bicg_mask",
    "Verif.Krylov.C14_bicg_dir",
    "Verif.Krylov.C14_cg",
    "Verif.Krylov.C14_cg_dir"
   ],
   "note": "all entries including NaN and infinities"
  },
  {
   "property": "C15",
   "status": "proved",
   "theorems": [
    "Verif.Krylov.C15_success_converged",
    "Verif.Krylov.C15_status"
   ],
   "note": "decision logic of LinAlgebra::solve on top of C12 and C14"
  },
  {
   "property": "C16",
   "status": "proved",
   "theorems": [
    "Verif.Krylov.C16_cg",
    "Verif.Krylov.C16_cg_dir"
   ],
   "note": "as C12"
  },
  {
   "property": "C17",
   "status": "proved",
   "theorems": [
    "Verif.Krylov.C17_monitor",
    "Verif.Krylov.C17_bicg_nan",
    "Verif.Krylov.C17_cg_nan",
    "Verif.Krylov.C17_rhs_nan"
   ],
   "note": ""
  },
  {
   "property": "C18",
   "status": "proved",
   "theorems": [
    "Verif.SparseMat.C18_refines_table",
    "Verif.SparseMat.C18_zero_outside",
    "Verif.SparseMat.C18_undefined_only_outside",
    "Verif.SparseMat.C18_outside_corrupts"
   ],
   "note": "any commutative-free value type; calls outside the shape are undefined or hit the next stored column (witnessed)"
  },
  {
   "property": "C19",
   "status": "proved",
   "theorems": [
    "Verif.SparseMat.C19_mult",
    "Verif.SparseMat.C19_diag_precond",
    "Verif.SparseMat.toMat_represents"
   ],
   "note": "exact arithmetic; toMat_represents links the matrix to the one used in the Krylov model"
  },
  {
   "property": "C20",
   "status": "proved",
   "theorems": [
    "Verif.SparseConc.C20_no_lost_update",
    "Verif.SparseConc.C20_mutual_exclusion",
    "Verif.SparseConc.C20_no_deadlock",
    "Verif.SparseConc.C20_terminates",
    "Verif.SparseConc.C20_matrix"
   ],
   "note": "any number of threads, any programs, any interleaving of the five elementary steps; exact commutative addition (rounding makes the floating point sum order dependent), sequentially consistent memory"
  },
  {
   "property": "C21",
   "status": "proved",
   "theorems": [
    "Verif.Assembly.C21_llg",
    "Verif.Assembly.C21_full",
    "Verif.Assembly.C21_diagonal",
    "Verif.Assembly.C21_columns"
   ],
   "note": "any connectivity with valid node indices, any magnetic regions, any element matrices, any number of steps"
  },
  {
   "property": "C22",
   "status": "proved",
   "theorems": [
    "Verif.Assembly.C22_matrix",
    "Verif.Assembly.C22_concurrent",
    "Verif.Assembly.C22_rhs"
   ],
   "note": "exact commutative addition; the electrostatic and spin diffusion right hand sides use the same buildVect but are sequential and not covered by C22_rhs"
  },
  {
   "property": "C23",
   "status": "proved",
   "theorems": [
    "Verif.MeshCheck.C23_check_iff"
   ],
   "note": "for every result of the (unstable) sort; vertex sets as multisets of node indices"
  },
  {
   "property": "C24",
   "status": "proved",
   "theorems": [
    "Verif.MeshCheck.C24_completed"
   ],
   "note": ""
  },
  {
   "property": "C25",
   "status": "proved",
   "theorems": [
    "Verif.MeshCheck.C25_regions",
    "Verif.MeshCheck.C25_names"
   ],
   "note": "the search for a free name is shown to end"
  },
  {
   "property": "C26",
   "status": "proved",
   "theorems": [
    "Verif.MeshCheck.C26_jump",
    "Verif.MeshCheck.C26_outer",
    "Verif.MeshCheck.C26_interface",
    "Verif.MeshCheck.C26_orientation"
   ],
   "note": "exact real coordinates"
  },
  {
   "property": "C27",
   "status": "proved",
   "theorems": [
    "Verif.MeshCheck.C27_neutral"
   ],
   "note": "exact reals; hypotheses beyond acceptance by the check: positively oriented tetrahedrons, no two tetrahedrons on the same side of a face, Ms >= 0, no suppress_charges; node renumbering after the check does not change the sums"
  },
  {
   "property": "C28",
   "status": "proved",
   "theorems": [
    "Verif.SortNodes.C28_renumbering"
   ],
   "note": "any result allowed for the unstable sort, any mesh with valid node indices"
  },
  {
   "property": "C29",
   "status": "partial",
   "theorems": [
    "Verif.SolFile.C29_round_trip_partial",
    "Verif.SolFile.C29_exact",
    "Verif.SolFile.C29_negation_nan",
    "Verif.SolFile.C29_negation_spin",
    "Verif.SolFile.C29_negation_time",
    "Verif.SolFile.C29_accepted",
    "Verif.SolFile.C29_negation_longer"
   ],
   "note": "proved for finite values without spin accumulation columns, values rounded to the digits of the file; NaN values (non magnetic nodes), spin columns and a user metadata item named time cannot be read back (negations proved)"
  },
  {
   "property": "C30",
   "status": "proved",
   "theorems": [
    "Verif.Mesh.C30_edges",
    "Verif.Mesh.C30_no_loop"
   ],
   "note": ""
  },
  {
   "property": "C31",
   "status": "partial",
   "theorems": [
    "Verif.BoundingBox.C31_contains",
    "Verif.BoundingBox.C31_tight_iff",
    "Verif.BoundingBox.C31_tight_partial",
    "Verif.BoundingBox.C31_negation",
    "Verif.BoundingBox.C31_long_axis"
   ],
   "note": "containment and long axis proved; the box is tight exactly when no axis has only coordinates below the smallest positive double (the maximum starts from __DBL_MIN__), negation proved"
  },
  {
   "property": "C32",
   "status": "partial",
   "theorems": [
    "Verif.MaxAngle.C32_schedule_partial",
    "Verif.MaxAngle.C32_value",
    "Verif.MaxAngle.C32_exists",
    "Verif.MaxAngle.C32_negation"
   ],
   "note": "proved when no edge has a NaN scalar product; with NaN (edge to a non magnetic node) the result depends on the reduction tree, negation proved; exact dot products, acos as a decreasing function"
  },
  {
   "property": "C33",
   "status": "proved",
   "theorems": [
    "Verif.MeshElem.C33_between",
    "Verif.MeshElem.C33_uniform",
    "Verif.MeshElem.C33_total",
    "Verif.MeshElem.C33_nonmagnetic"
   ],
   "note": "exact reals, both compiled quadrature rules, all meshes of positively oriented tetrahedrons"
  },
  {
   "property": "C34",
   "status": "proved",
   "theorems": [
    "Verif.Tetra.C34_orientation",
    "Verif.Tetra.C34_rejected"
   ],
   "note": "exact reals"
  },
  {
   "property": "C35",
   "status": "proved",
   "theorems": [
    "Verif.Tetra.C35_partition",
    "Verif.Tetra.C35_affine",
    "Verif.Tetra.C35_affine_vector"
   ],
   "note": "exact reals"
  },
  {
   "property": "C36",
   "status": "proved",
   "theorems": [
    "Verif.Tetra.C36_tetrahedron",
    "Verif.Tetra.C36_triangle",
    "Verif.Tetra.C36_one_point_tetrahedron",
    "Verif.Tetra.C36_one_point_triangle"
   ],
   "note": "against iterated interval integrals over the reference simplex; the constants are taken as exact rationals"
  },
  {
   "property": "C37",
   "status": "proved",
   "theorems": [
    "Verif.Node.C37_tangent_basis",
    "Verif.Node.C37_no_division_by_zero",
    "Verif.Node.C37_paranoid_same",
    "Verif.Node.C37_velocity_components"
   ],
   "note": "exact reals"
  },
  {
   "property": "C38",
   "status": "proved",
   "theorems": [
    "Verif.Tetra.C38_bounds",
    "Verif.Tetra.C38_monotone",
    "Verif.Tetra.C38_zero"
   ],
   "note": "exact reals"
  },
  {
   "property": "C39",
   "status": "proved",
   "theorems": [
    "Verif.Llg.C39_unique_solution"
   ],
   "note": "exact reals; for both quadrature rules, any order of assembly and any former content of the matrix; requires alpha>0, A>=0, Ms>0 in magnetic regions and a basis from Node::setBasis"
  },
  {
   "property": "C40",
   "status": "proved",
   "theorems": [
    "Verif.Llg.C40_diagonal"
   ],
   "note": "exact reals; same hypotheses as C39"
  },
  {
   "property": "C41",
   "status": "proved",
   "theorems": [
    "Verif.Tetra.C41_nonneg",
    "Verif.Tetra.C41_zero_iff",
    "Verif.Tetra.C41_gradient"
   ],
   "note": "exact reals"
  },
  {
   "property": "C42",
   "status": "proved",
   "theorems": [
    "Verif.Tetra.C42_bounds",
    "Verif.Tetra.C42_even"
   ],
   "note": "exact reals"
  },
  {
   "property": "C43",
   "status": "partial",
   "theorems": [
    "Verif.Aniso.C43_uniaxial",
    "Verif.Aniso.C43_uniaxial_derives",
    "Verif.Aniso.C43_uniaxial_discrete",
    "Verif.Aniso.C43_cubic_partial",
    "Verif.Aniso.C43_cubic_negation",
    "Verif.Aniso.C43_surface_partial",
    "Verif.Aniso.C43_surface_orientation",
    "Verif.Aniso.C43_surface_negation"
   ],
   "note": "uniaxial: proved in full. Cubic: proved without extrapolation; the first order term is wrong (negation proved). Surface: the forces derive from the energy up to a factor: mu0 is missing and the sign follows the orientation of the triangle (negation proved)"
  },
  {
   "property": "C44",
   "status": "partial",
   "theorems": [
    "Verif.ExtField.C44_partial",
    "Verif.ExtField.C44_iff",
    "Verif.ExtField.C44_out_of_bounds",
    "Verif.ExtField.C44_negation"
   ],
   "note": "filled by rank among magnetic tetrahedrons, read by index among all tetrahedrons: right iff magnetic tetrahedrons come first; otherwise out of bounds reads (negation proved)"
  },
  {
   "property": "C45",
   "status": "partial",
   "theorems": [
    "Verif.Electro.C45_history",
    "Verif.Electro.C45_first_partial",
    "Verif.Electro.C45_repeat_partial",
    "Verif.Electro.C45_negation",
    "Verif.Electro.C45_negation_stale"
   ],
   "note": "the claim is false: matrix and right hand side are never cleared, and the precession term uses the magnetization of the start of the step (negations proved); exact characterisation of the system after any history proved; correct for the first computation and for a constant magnetization"
  },
  {
   "property": "C46",
   "status": "partial",
   "theorems": [
    "Verif.Recenter.C46_partial",
    "Verif.Recenter.C46_direction_ignored",
    "Verif.Recenter.C46_negation",
    "Verif.Recenter.C46_keeps_next",
    "Verif.Recenter.C46_keeps_unit",
    "Verif.Recenter.C46_accepted"
   ],
   "note": "recentering is always along Z: the enumeration value is passed where a letter is expected (negation proved); nearest node search and averaging weights are parameters, exact reals, all nodes magnetic"
  },
  {
   "property": "C47",
   "status": "proved",
   "theorems": [
    "Verif.Fmm.C47_sources",
    "Verif.Fmm.C47_targets",
    "Verif.Fmm.C47_coulomb"
   ],
   "note": "the multipole evaluation is a parameter (exact pair sum); what is proved is which charge sits where and which result goes to which node"
  },
  {
   "property": "C48",
   "status": "partial",
   "theorems": [
    "Verif.Settings.C48_scalar",
    "Verif.Settings.C48_columns",
    "Verif.Settings.C48_metadata",
    "Verif.Settings.C48_threads",
    "Verif.Settings.C48_basename_partial",
    "Verif.Settings.C48_magnetization_partial",
    "Verif.Settings.C48_field_partial",
    "Verif.Settings.C48_region_partial",
    "Verif.Settings.C48_negation_region",
    "Verif.Settings.C48_negation_magnetization",
    "Verif.Settings.C48_negation_direction",
    "Verif.Settings.C48_negation_basename",
    "Verif.Settings.C48_negation_field",
    "Verif.Settings.C48_surface",
    "Verif.Settings.C48_negation_surface",
    "Verif.Settings.C48_directory"
   ],
   "note": "proved for all scalar settings, columns, metadata, threads and the applied field; false for regions defined twice (the first definition stays), for expressions after a .sol file, for the recentering direction and for a derived base name (general negations proved); the YAML parser and conversions are parameters"
  },
  {
   "property": "C49",
   "status": "partial",
   "theorems": [
    "Verif.Settings.C49_dump_partial",
    "Verif.Settings.C49_quoted_iff",
    "Verif.Settings.C49_block",
    "Verif.Settings.C49_block_iff",
    "Verif.Settings.C49_quotes_partial",
    "Verif.Settings.C49_raw_partial",
    "Verif.Settings.C49_negation_backslash",
    "Verif.Settings.C49_negation_quotes",
    "Verif.Settings.C49_negation_newline",
    "Verif.Settings.C49_negation_indent",
    "Verif.Settings.C49_negation_raw"
   ],
   "note": "exact conditions for strings printed by str: on one line iff no backslash, on several lines iff exactly one final end of line (first line not indented); backslashes, quotes in expressions, missing final end of line, leading spaces and names printed without quotes are not read back (negations proved)"
  },
  {
   "property": "C50",
   "status": "partial",
   "theorems": [
    "Verif.Evol.C50_rows_partial",
    "Verif.Evol.C50_unknown",
    "Verif.Evol.C50_negation_region",
    "Verif.Evol.C50_negation_field",
    "Verif.Evol.C50_negation_tab"
   ],
   "note": "rows and header proved to have the same fields for every list of documented columns, region prefix in front of averages and the Thiele length; a prefix in front of energies is ignored, in front of the field it gives NaN, and a region name with a tabulator shifts the header (negations proved); number formatting is a parameter"
  },
  {
   "property": "C51",
   "status": "partial",
   "theorems": [
    "Verif.Metadata.C51_comments_partial",
    "Verif.Metadata.C51_defined",
    "Verif.Metadata.C51_negation_key",
    "Verif.Metadata.C51_negation_empty",
    "Verif.Metadata.C51_no_column"
   ],
   "note": "proved for single-line keys and non-empty values; a key with an end of line breaks the header and an empty value is undefined behaviour (negations proved)"
  },
  {
   "property": "C52",
   "status": "proved",
   "theorems": [
    "Verif.Options.C52_in_bounds",
    "Verif.Options.C52_run_iff",
    "Verif.Options.C52_last",
    "Verif.Options.C52_help",
    "Verif.Options.C52_empty_argument"
   ],
   "note": "all argument vectors; atol and the random device are parameters; an empty argument is taken for --print-defaults (C52_empty_argument)"
  },
  {
   "property": "C53",
   "status": "proved",
   "theorems": [
    "Verif.LogStats.C53_statistics",
    "Verif.LogStats.C53_zero_width",
    "Verif.LogStats.C53_negation_zero"
   ],
   "note": "exact reals, all positive samples; a sample that is exactly zero (possible for the largest change of magnetization) makes mean and deviation NaN for ever (C53_negation_zero)"
  },
  {
   "property": "C54",
   "status": "proved",
   "theorems": [
    "Verif.Parser.C54_refines",
    "Verif.Parser.C54_stack",
    "Verif.Parser.C54_no_function",
    "Verif.Parser.C54_three_components"
   ],
   "note": "the JavaScript interpreter is an arbitrary parameter, its documented stack interface is modelled with underflow and overflow as fatal errors; an evaluation before any function is defined is fatal (reachable with Bext.time given as a list)"
  },
  {
   "property": "C55",
   "status": "proved",
   "theorems": [
    "Verif.MeshElem.C55_region",
    "Verif.MeshElem.C55_total",
    "Verif.MeshElem.C55_magnetic",
    "Verif.MeshElem.C55_positive"
   ],
   "note": "exact reals"
  },
  {
   "property": "C56",
   "status": "proved",
   "theorems": [
    "Verif.Mesh.C56_suppress_copies",
    "Verif.Mesh.C56_unique"
   ],
   "note": "std::sort modelled as insertion sort; on a total order the result is the same"
  },
  {
   "property": "C57",
   "status": "partial",
   "theorems": [
    "Verif.Electro.C57_start_potential",
    "Verif.Electro.C57_start_spin",
    "Verif.Electro.C57_element",
    "Verif.Electro.C57_potential",
    "Verif.Electro.C57_spin",
    "Verif.Electro.C57_infinite_potential",
    "Verif.Electro.C57_spin_no_dirichlet"
   ],
   "note": "checks, element matrices, exactness of prescribed values and residual bound proved in exact reals; two configurations pass the checks although the claim is false: an additional surface with an infinite potential, and a single surface with both jn and s (proved)"
  },
  {
   "property": "C58",
   "status": "proved",
   "theorems": [
    "Verif.Fmm.C58_inside_box"
   ],
   "note": "exact reals"
  },
  {
   "property": "C59",
   "status": "proved",
   "theorems": [
    "Verif.Electro.C59_potential_unique"
   ],
   "note": "exact reals, positively oriented elements, conductivities not negative"
  },
  {
   "property": "C60",
   "status": "proved",
   "theorems": [
    "Verif.Electro.C60_spin_unique"
   ],
   "note": "exact reals, positively oriented elements"
  },
  {
   "property": "C61",
   "status": "proved",
   "theorems": [
    "Verif.Electro.C61_current_conserved"
   ],
   "note": "exact reals"
  },
  {
   "property": "C62",
   "status": "proved",
   "theorems": [
    "Verif.TimeLoop.C62_recentered"
   ],
   "note": "invariant over all runs; P is any property guaranteed by the recentering; Model/Recenter.lean gives what the recentering of the code guarantees. Note that recentering writes CURRENT.u only, so the row written at the same time shows the magnetization before the shift (C46_keeps_next)."
  },
  {
   "property": "C63",
   "status": "proved",
   "theorems": [
    "Verif.TimeLoop.C63_reject_iff"
   ],
   "note": "decision logic of an attempt; gamma0 not negative, max(du) not negative"
  },
  {
   "property": "C64",
   "status": "proved",
   "theorems": [
    "Verif.Potential.C64_integrable",
    "Verif.Potential.C64_self_potential",
    "Verif.Potential.C64_mesh_potential"
   ],
   "note": "exact real arithmetic; the surface integral is a Lebesgue integral over the reference triangle, shown to exist; the mesh statement supposes that the multipole library returns the Coulomb potential of the charges it was given (ScalFMM is not modelled)"
  },
  {
   "property": "C65",
   "status": "proved",
   "theorems": [
    "Verif.WeakForm.C65_weak_form"
   ],
   "note": "exact real arithmetic; the integrals are the quadrature formulas of the code; Hext, Hst (the field of the spin accumulation) are arbitrary values at the Gauss points; triangles with dMs = 0 and Ks != 0 divide by zero in the code"
  },
  {
   "property": "C66",
   "status": "partial",
   "theorems": [
    "Verif.Energy.C66_reduced_energy",
    "Verif.Energy.C66_energy_decreases_partial",
    "Verif.Energy.C66_negation_two_materials"
   ],
   "note": "proved when all magnetic regions have the same Ms; for any materials the sum of energy/(mu0 Ms) decreases. The code divides the equation of each element by its own Ms, so with two values of Ms the energy may increase (negation proved with two tetrahedrons). Demagnetizing field frozen during the step (C90 lets it change, and bounds the step length for all states at once); no cubic and surface anisotropy, no spin torque, no moving frame"
  },
  {
   "property": "C67",
   "status": "proved",
   "theorems": [
    "Verif.MeshCheck.C67_demag_energy",
    "Verif.MeshCheck.C67_charges"
   ],
   "note": "default quadrature on the triangles (4 points); no overlap, Ms not negative, no suppress_charges; exact real arithmetic"
  },
  {
   "property": "C68",
   "status": "proved",
   "theorems": [
    "Verif.WeakForm.C68_same_step"
   ],
   "note": "exact real arithmetic and exact solutions of the linear systems"
  },
  {
   "property": "C69",
   "status": "proved",
   "theorems": [
    "Verif.WeakForm.C69_uniform"
   ],
   "note": "exact real arithmetic and exact solution of the linear system; no cubic and surface anisotropy, no spin accumulation field"
  },
  {
   "property": "C70",
   "status": "partial",
   "theorems": [
    "Verif.MeshRead.C70_read",
    "Verif.MeshRead.C70_accepted_iff",
    "Verif.MeshRead.C70_count",
    "Verif.MeshRead.C70_negation_twice",
    "Verif.MeshRead.C70_negation_empty"
   ],
   "note": "gmsh is a parameter: its lists of nodes, entities, groups and elements, supposed well formed (distinct node tags, one block per element type, elements refer to nodes). What is read and when it is accepted is proved in full; the claim fails in two places: if the settings name two overlapping groups the common tetrahedrons are read twice (exact count proved), and a named entity without elements makes the program read past the end of an empty array instead of stopping with a message (negations proved)"
  },
  {
   "property": "C71",
   "status": "partial",
   "theorems": [
    "Verif.MeshRead.C71_initial",
    "Verif.MeshRead.C71_regions",
    "Verif.MeshRead.C71_negation_zero"
   ],
   "note": "the expression is an arbitrary function (C54 for the parser); an expression giving the zero vector is not reported and leaves a magnetization of norm zero (negation proved)"
  },
  {
   "property": "C72",
   "status": "proved",
   "theorems": [
    "Verif.Run.C72_start",
    "Verif.Run.C72_solvable",
    "Verif.Run.C72_step"
   ],
   "note": "composition of the models of the reading, the renumbering, the time loop and the assembly. Exact reals; in C72_step the solution returned by the solver is supposed exact (C12-C17 for the iterative solver); fields, potentials and recentering speed of each attempt are arbitrary"
  },
  {
   "property": "C73",
   "status": "partial",
   "theorems": [
    "Verif.Run.C73_same_results_partial",
    "Verif.Run.C73_speed_matters",
    "Verif.Run.C73_negation"
   ],
   "note": "exact reals and exact solutions of the linear systems. Proved in full without recentering; with recentering the claim fails because DW_vz is never initialised: C73_speed_matters says exactly when the speed changes the velocity, C73_negation gives, for any two different values, two runs keeping different magnetizations"
  },
  {
   "property": "C74",
   "status": "partial",
   "theorems": [
    "Verif.Suppress.C74_charges_partial",
    "Verif.Suppress.C74_anisotropy_lost",
    "Verif.Suppress.C74_motion",
    "Verif.Suppress.C74_negation"
   ],
   "note": "what happens to the charges is proved in full; the claim that nothing else changes fails: the constants of surface anisotropy of flagged surfaces have no effect (C74_anisotropy_lost), C74_motion says exactly when the motion is changed, C74_negation gives a witness for energy and motion"
  },
  {
   "property": "C75",
   "status": "proved",
   "theorems": [
    "Verif.LlgSolve.C75_finite",
    "Verif.LlgSolve.C75_error",
    "Verif.LlgSolve.C75_step",
    "Verif.LlgSolve.C75_guess",
    "Verif.LlgSolve.C75_guess_kept"
   ],
   "note": "in exact arithmetic; C75_step is the statement for a whole run, with a constant which depends on the mesh and the materials only"
  },
  {
   "property": "C76",
   "status": "proved",
   "theorems": [
    "Verif.LlgSolve.C76_equilibrium",
    "Verif.LlgSolve.C76_stops",
    "Verif.LlgSolve.C76_uniform"
   ],
   "note": "the potentials computed at each step are assumed to be those of the start, as the magnetization is"
  },
  {
   "property": "C77",
   "status": "partial",
   "theorems": [
    "Verif.Thiele.C77_value",
    "Verif.Thiele.C77_finite",
    "Verif.Thiele.C77_rotation",
    "Verif.Thiele.C77_scale",
    "Verif.Thiele.C77_regions",
    "Verif.Thiele.C77_cross_section_partial",
    "Verif.Thiele.C77_negation"
   ],
   "note": "the length along z is the one of the whole mesh, not of the region: C77_cross_section_partial for regions that span the mesh, C77_negation otherwise"
  },
  {
   "property": "C78",
   "status": "partial",
   "theorems": [
    "Verif.TimeLoop.C78_samples",
    "Verif.TimeLoop.C78_printed",
    "Verif.TimeLoop.C78_max_angle",
    "Verif.TimeLoop.C78_negation",
    "Verif.TimeLoop.C78_zero_velocity"
   ],
   "note": "attempts rejected because max(du) was exceeded count as successful (C78_negation); a step without any move makes the width of the moves NaN (C78_zero_velocity)"
  },
  {
   "property": "C79",
   "status": "partial",
   "theorems": [
    "Verif.Run.C79_run_partial",
    "Verif.Run.C79_energy",
    "Verif.Run.C79_potential",
    "Verif.Run.C79_cubic",
    "Verif.Run.C79_negation"
   ],
   "note": "C79_run_partial for materials without cubic anisotropy (or at rest), exact solves and potentials that do not change under the motion (C79_potential: true of the exact sums); with cubic anisotropy the statement is false (C79_negation): the extrapolation in time multiplies vectors component by component"
  },
  {
   "property": "C80",
   "status": "partial",
   "theorems": [
    "Verif.Restart.C80_restore",
    "Verif.Restart.C80_fresh",
    "Verif.Restart.C80_first_row",
    "Verif.Restart.C80_grid",
    "Verif.Restart.C80_shift",
    "Verif.Restart.C80_unit",
    "Verif.Restart.C80_negation_time",
    "Verif.Restart.C80_negation_names",
    "Verif.Run.C80_continuation",
    "Verif.Run.C80_negation"
   ],
   "note": "proved: file accepted, magnetization and time restored, first row, output times (exact start time), unit norm after the first kept step. False: the time in the file has 7 digits and shifts all later times (C80_negation_time), file numbers start again at 0 (C80_negation_names), the last velocity and the rate of the potential are lost, and the next step is the same only if their field has no tangent effect (C80_continuation, iff; C80_negation: uniform states)"
  },
  {
   "property": "C81",
   "status": "proved",
   "theorems": [
    "Verif.Converge.C81_convergence",
    "Verif.Converge.C81_completes",
    "Verif.Converge.C81_motion"
   ],
   "note": "hypotheses: reported solves are exact, recentering off, exact addition of times, fields continuously differentiable in time and magnetization, initial velocity zero. The reference is the weak form of Spec/SemiDiscrete; its unique solution exists (C81_motion)"
  },
  {
   "property": "C82",
   "status": "partial",
   "theorems": [
    "Verif.EnergyAll.C82_terms",
    "Verif.EnergyAll.C82_zeeman_term",
    "Verif.EnergyAll.C82_total",
    "Verif.EnergyAll.C82_undef",
    "Verif.EnergyAll.C82_zeeman",
    "Verif.EnergyAll.C82_zeeman_space",
    "Verif.EnergyAll.C82_uniform",
    "Verif.EnergyAll.C82_cubic_partial",
    "Verif.EnergyAll.C82_cubic_negation",
    "Verif.EnergyAll.C82_warning",
    "Verif.EnergyAll.C82_warning_nan"
   ],
   "note": "everything but the sign of the cubic energy: with the default five point quadrature the cubic energy of an element can be negative although the density is not (C82_cubic_negation); C82_cubic_partial has the sharp bound for one Gauss point and wider ones for five"
  },
  {
   "property": "C83",
   "status": "proved",
   "theorems": [
    "Verif.JsMath.C83_expm1",
    "Verif.JsMath.C83_log1p",
    "Verif.JsMath.C83_cosh",
    "Verif.JsMath.C83_sinh",
    "Verif.JsMath.C83_tanh",
    "Verif.JsMath.C83_acosh",
    "Verif.JsMath.C83_asinh",
    "Verif.JsMath.C83_atanh",
    "Verif.JsMath.C83_infinity",
    "Verif.JsMath.C83_nan",
    "Verif.JsMath.C83_sharp"
   ],
   "note": "in exact arithmetic: rounding of doubles is not modelled. C83_sharp: the error of expm1 near zero is really of the order 1e-8, not of rounding"
  },
  {
   "property": "C84",
   "status": "partial",
   "theorems": [
    "Verif.SpinTorque.C84_rate",
    "Verif.SpinTorque.C84_balance",
    "Verif.SpinTorque.C84_exact_partial",
    "Verif.SpinTorque.C84_negation",
    "Verif.SpinTorque.C84_conservation",
    "Verif.SpinTorque.C84_failed"
   ],
   "note": "conservation of spin by the electrons is proved in full. The exchange with the magnetization is exact only if the magnetization or the spin accumulation is uniform in the element (C84_exact_partial); C84_balance gives the exact defect and C84_negation a witness on every tetrahedron: the electrons precess at the nodes and the magnetization at the Gauss points. C84_failed: after a failed solve the run goes on with no torque, so the last sentence of the statement is false"
  },
  {
   "property": "C85",
   "status": "partial",
   "theorems": [
    "Verif.SecondOrder.C85_second_order_partial",
    "Verif.SecondOrder.C85_motion",
    "Verif.SecondOrder.C85_negation"
   ],
   "note": "proved for a constant applied field (C85_second_order_partial), with the constant depending only on the material, the field, the demagnetizing tensor and the interval. False for an applied field that depends on the time: the field is taken at the start of each step, and C85_negation gives a field for which the error at a fixed time is at least max(dt)/1000 for every small max(dt). The magnetization is uniform; for any magnetization C81 proves the first order"
  },
  {
   "property": "C86",
   "status": "partial",
   "theorems": [
    "Verif.Settings.C86_verify_partial",
    "Verif.Settings.C86_negation_current",
    "Verif.Settings.C86_negation_digits",
    "Verif.Settings.C86_negation_magnetization",
    "Verif.Settings.C86_negation_field",
    "Verif.Settings.C86_negation_spin",
    "Verif.Settings.C86_negation_columns"
   ],
   "note": "proved for settings read from any sequence of files on top of the built-in defaults, up to the six digits printed, if no surface region has a current density, at most one file gives the magnetization and at most one the field, and the list of columns is not empty; each of these conditions is needed (negations proved). With spin accumulation the vectors of the surface regions have to be given. The text between printer and reader is that of C49: here every printed string is read as itself"
  },
  {
   "property": "C87",
   "status": "partial",
   "theorems": [
    "Verif.Main.C87_own_files_partial",
    "Verif.Main.C87_once",
    "Verif.Main.C87_separate",
    "Verif.Main.C87_refused_partial",
    "Verif.Main.C87_status",
    "Verif.Main.C87_complete",
    "Verif.Main.C87_unwritable",
    "Verif.Main.C87_negation_potential",
    "Verif.Main.C87_negation_columns",
    "Verif.Main.C87_negation_verify",
    "Verif.Main.C87_negation_past"
   ],
   "note": "proved except: the file of the potential is written in the working directory; an unknown column is noticed only after the table of an earlier run was emptied; the verification of a missing file succeeds; a final time before the initial time gives status zero and an empty table (negations proved). Not modelled: a full disk, exceptions of user expressions during the run"
  },
  {
   "property": "C88",
   "status": "proved",
   "theorems": [
    "Verif.Rounded.C88_unit_length",
    "Verif.Rounded.C88_start",
    "Verif.Rounded.C88_components",
    "Verif.Rounded.C88_tangent",
    "Verif.Rounded.C88_exact"
   ],
   "note": "standard model of floating-point arithmetic, without overflow and underflow. The default of max(du) is 0.02; values above 3/8 are outside of the theorem. An initial magnetization read from a file is not normalized by the program: then the hypothesis on the start is about the file"
  },
  {
   "property": "C89",
   "status": "proved",
   "theorems": [
    "Verif.Rounded.C89_accuracy",
    "Verif.Rounded.C89_threads",
    "Verif.Rounded.C89_reference",
    "Verif.Rounded.C89_magnetization",
    "Verif.Rounded.C89_exact"
   ],
   "note": "standard model of floating-point arithmetic, without overflow and underflow; the weights and volumes are the stored numbers (their own rounding is not counted)"
  },
  {
   "property": "C90",
   "status": "proved",
   "theorems": [
    "Verif.Relax.C90_energy",
    "Verif.Relax.C90_rows",
    "Verif.Relax.C90_relaxation",
    "Verif.Relax.C90_stationary"
   ],
   "note": "exact arithmetic, exact solutions of the linear systems; no cubic and surface anisotropy, spin torque, recentering, moving frame or field that depends on time; the reciprocity of the demagnetizing field is a hypothesis (the potential computed by the fast multipole method has it only approximately)"
  },
  {
   "property": "C91",
   "status": "partial",
   "theorems": [
    "Verif.Similarity.C91_jump",
    "Verif.Run.C91_run_partial",
    "Verif.Run.C91_negation",
    "Verif.Recenter.C91_recenter"
   ],
   "note": "proved for exact arithmetic (recentering: all nodes magnetic, and no point it looks at may be as near to two nodes with different magnetizations, C91_recenter and C93_recentered_run_partial), for meshes whose triangles with a surface anisotropy keep their sense of rotation (all others are free); without this condition the claim is false (C91_negation): the torque of the surface anisotropy changes sign with the sense in which the file lists the triangle"
  },
  {
   "property": "C92",
   "status": "partial",
   "theorems": [
    "Verif.Run.C92_run_partial"
   ],
   "note": "proved for exact arithmetic, without cubic anisotropy (the claim is false with it, as in C79) and without recentering; triangles with a surface anisotropy keep their sense about the outward normal (C91)"
  },
  {
   "property": "C93",
   "status": "partial",
   "theorems": [
    "Verif.Similarity.C93_energy",
    "Verif.Similarity.C93_average",
    "Verif.Similarity.C93_potential",
    "Verif.Run.C93_run_partial",
    "Verif.Recenter.C93_recentered_run_partial",
    "Verif.Recenter.C93_recenter_negation"
   ],
   "note": "energies, averages and potentials without conditions on the senses; the run as in C91: exact arithmetic, triangles with a surface anisotropy keep their sense; with recentering for positive factors, all nodes magnetic and no ties in the search of nodes. With recentering the claim is false for the inversion (C93_recenter_negation): the distance of the shift depends on the magnetization at the left end only"
  },
  {
   "property": "C94",
   "status": "proved",
   "theorems": [
    "Verif.Continuum.C94_volume",
    "Verif.Continuum.C94_exchange",
    "Verif.Continuum.C94_anisotropy",
    "Verif.Continuum.C94_zeeman",
    "Verif.Continuum.C94_field",
    "Verif.Continuum.C94_demag",
    "Verif.Continuum.C94_average",
    "Verif.Continuum.C94_refine"
   ],
   "note": "explicit constants, first order in h; exact arithmetic; the potential at the nodes is a given smooth function (its computation is C47, C64, C67); E_demag for meshes accepted by the check, no suppressed charges, default triangle rule"
  },
  {
   "property": "C95",
   "status": "proved",
   "theorems": [
    "Verif.Continuum.C95_consistent",
    "Verif.Continuum.C95_velocity",
    "Verif.Continuum.C95_refine"
   ],
   "note": "first order in h with an explicit constant, in exact arithmetic; the equation on the mesh is the one a run converges to when the time step is refined (C65, C81). Consistency in the weak sense: convergence of the solutions themselves when the mesh is refined is not claimed"
  },
  {
   "property": "C96",
   "status": "proved",
   "theorems": [
    "Verif.Continuum.C96_best",
    "Verif.Continuum.C96_converges",
    "Verif.Continuum.C96_power",
    "Verif.Continuum.C96_minimum",
    "Verif.Continuum.C96_joule"
   ],
   "note": "for the exact solution of the assembled problem (C59: unique; C57, C75: how far the computed one may be), exact arithmetic; the continuous equation is tested with continuous piecewise affine functions"
  },
  {
   "property": "C97",
   "status": "partial",
   "theorems": [
    "Verif.NonFinite.C97_success_finite",
    "Verif.NonFinite.C97_success",
    "Verif.NonFinite.C97_converged_partial",
    "Verif.NonFinite.C97_infinite",
    "Verif.NonFinite.C97_surface",
    "Verif.NonFinite.C97_surface_fails",
    "Verif.NonFinite.C97_no_jump",
    "Verif.NonFinite.C97_run_stops",
    "Verif.NonFinite.C97_negation"
   ],
   "note": "proved for the equation of motion; false for the potential and the spin accumulation: an infinite right hand side or prescribed value gives CONVERGED with the first guess (C97_infinite, C97_negation), in all other cases the claim holds (C97_converged_partial)"
  },
  {
   "property": "C98",
   "status": "partial",
   "theorems": [
    "Verif.Regions.C98_system",
    "Verif.Regions.C98_run",
    "Verif.Regions.C98_energy",
    "Verif.Regions.C98_potential",
    "Verif.Regions.C98_average",
    "Verif.Regions.C98_parts",
    "Verif.Regions.C98_check",
    "Verif.Regions.C98_sample_partial",
    "Verif.Regions.C98_default_fails",
    "Verif.Regions.C98_negation"
   ],
   "note": "proved when there is no surface anisotropy between the parts; false otherwise: a constant Ks in __default__ also applies to the triangles the program adds between the parts, where the jump is zero, and every solve fails (C98_default_fails, C98_negation)"
  },
  {
   "property": "C99",
   "status": "proved",
   "theorems": [
    "Verif.Balance.C99_balance",
    "Verif.Balance.C99_cycle",
    "Verif.Balance.C99_rows",
    "Verif.Balance.C99_columns"
   ],
   "note": "one value of Ms, exchange, uniaxial anisotropy, applied and demagnetizing field; no cubic or surface anisotropy, no spin torque, no recentering (as C90); exact arithmetic and exact solutions of the linear systems"
  },
  {
   "property": "C100",
   "status": "partial",
   "theorems": [
    "Verif.Surroundings.C100_run_partial",
    "Verif.Surroundings.C100_energy",
    "Verif.Surroundings.C100_potential",
    "Verif.Surroundings.C100_average",
    "Verif.Surroundings.C100_check",
    "Verif.Surroundings.C100_sample_partial",
    "Verif.Surroundings.C100_default_fails",
    "Verif.Surroundings.C100_negation",
    "Verif.Recenter.C100_recenter_magnetic",
    "Verif.Recenter.C100_recenter_fails"
   ],
   "note": "as for C98, surface anisotropy on triangles that separate nothing makes the solve fail (C100_default_fails, C100_negation), so C100_sample_partial asks for none there; C100_run_partial is without recentering (which uses all nodes: if the node nearest to the left end of the axis is not magnetic, a recentering gives all nodes the same magnetization, C100_recenter_fails), and takes the fields at the magnetic elements as the same (a field given by an expression of the position is misplaced when there are non-magnetic regions: C44); max_angle may see the surroundings (C32); nodes of the magnet keep their numbers (C91 for other numbers)"
  },
  {
   "property": "C101",
   "status": "partial",
   "theorems": [
    "Verif.TimeLoop.C101_lines",
    "Verif.TimeLoop.C101_closed",
    "Verif.TimeLoop.C101_increasing",
    "Verif.TimeLoop.C101_fresh",
    "Verif.TimeLoop.C101_complete",
    "Verif.TimeLoop.C101_verbose",
    "Verif.TimeLoop.C101_below",
    "Verif.TimeLoop.C101_restart_negation",
    "Verif.TimeLoop.C101_negation"
   ],
   "note": "the percentage is that of the time, not of the work done: after a restart it is too large (C101_restart_negation); if the final time is no multiple of the output period it can exceed 100, and the closing line can appear before the end (C101_negation). Without these two cases all of the statement is proved; the decimal rounding of the percentage is not modelled"
  },
  {
   "property": "C102",
   "status": "partial",
   "theorems": [
    "Verif.Continuum.C102_source_partial",
    "Verif.Continuum.C102_difference",
    "Verif.Continuum.C102_missing",
    "Verif.Continuum.C102_vanishes",
    "Verif.Continuum.C102_ignored",
    "Verif.Continuum.C102_no_accumulation",
    "Verif.Continuum.C102_no_torque",
    "Verif.Continuum.C102_negation"
   ],
   "note": "holds for a magnetization that is uniform on every element. Else it fails: the magnetization of the node is taken instead of that of the Gauss point, so that the assembled source is the balance of the current at the node times the magnetization there, which is zero at every node inside one magnetic material (C102_vanishes). The accumulation is that of an unpolarized material (C102_ignored), zero if no spins come from outside (C102_no_accumulation), and there is no torque. C102_negation gives a wall; C102_missing the term that is lost, which does not vanish when the mesh is refined"
  },
  {
   "property": "C103",
   "status": "partial",
   "theorems": [
    "Verif.Settings.C103_volume",
    "Verif.Settings.C103_surface",
    "Verif.Settings.C103_length",
    "Verif.Settings.C103_volumes_partial",
    "Verif.Settings.C103_surfaces_partial",
    "Verif.Settings.C103_any",
    "Verif.Settings.C103_warning",
    "Verif.Settings.C103_warning_nan",
    "Verif.Settings.C103_negation_zero",
    "Verif.Settings.C103_negation_orthogonal"
   ],
   "note": "proved for vectors with finite components that are not all zero, in exact arithmetic. A zero vector is accepted and stays zero, so that the anisotropy constant has no effect (C103_negation_zero); cubic axes that are not orthogonal, even three equal ones, are accepted with a warning (C103_negation_orthogonal)"
  },
  {
   "property": "C104",
   "status": "partial",
   "theorems": [
    "Verif.TimeLoop.C104_step",
    "Verif.TimeLoop.C104_average",
    "Verif.TimeLoop.C104_first",
    "Verif.TimeLoop.C104_recentered",
    "Verif.TimeLoop.C104_negation_recenter"
   ],
   "note": "proved without recentering; with recentering dt and max_dm are still those of the last step (C104_step), but a row written after a shift shows 0 in all columns <dM/dt> (C104_recentered; C104_negation_recenter is a run where the magnetization moved by 1/2). The time of the step start plus dt is the time of the row exactly or as rounded by the addition of the code; the velocities and averages are exact reals"
  },
  {
   "property": "C105",
   "status": "partial",
   "theorems": [
    "Verif.TimeLoop.C105_period",
    "Verif.TimeLoop.C105_order",
    "Verif.TimeLoop.C105_du",
    "Verif.TimeLoop.C105_success_partial",
    "Verif.TimeLoop.C105_negation_zero",
    "Verif.TimeLoop.C105_negation_period",
    "Verif.StepperF.C105_negation_sign",
    "Verif.C105_prefactor"
   ],
   "note": "an output period or a max(dt) below min(dt) ends the run with status 1 after the first row, and a run that ends with status 0 had min(dt) <= period, min(dt) <= max(dt), max(du) >= 0, if min(dt) and the period are positive and max(dt) is not negative. Without these hypotheses the claim is false, the settings are not checked: with min(dt) = 0 the run neither advances nor ends (C105_negation_zero), with a negative period no step is made and the status is not 1 (C105_negation_period), with min(dt) and max(dt) of opposite signs the limit of the step is NaN and failed solves are repeated with the same step for ever (C105_negation_sign; the coefficient of the equations is NaN: C105_prefactor). That a system with NaN coefficients has no solution found is not proved here"
  },
  {
   "property": "C106",
   "status": "partial",
   "theorems": [
    "Verif.Settings.C106_text",
    "Verif.Settings.C106_initial_time",
    "Verif.Settings.C106_columns",
    "Verif.Settings.C106_threads",
    "Verif.Settings.C106_direction",
    "Verif.Settings.C106_magnetization",
    "Verif.Settings.C106_field",
    "Verif.Settings.C106_volume",
    "Verif.Settings.C106_surface_partial",
    "Verif.Settings.C106_negation_polarization",
    "Verif.Electro.C106_negation_solver",
    "Verif.Electro.C106_negation_run"
   ],
   "note": "true for all settings but one: the polarization uP of a surface region. The documented [0, 0, 1] is never used; not given, uP is NaN (C106_negation_polarization), and a surface with a current and no uP makes every computation of the spin accumulation end with CANNOT_CONVERGE, from the settings files to the status of the solver (C106_negation_solver, C106_negation_run). The applied field supposes that a product of space and time has both parts as texts (C48); the metadata and the base name have no default"
  },
  {
   "property": "C107",
   "status": "partial",
   "theorems": [
    "Verif.Relax.C107_path",
    "Verif.Relax.C107_barrier",
    "Verif.Relax.C107_metastable"
   ],
   "note": "as C90: exact arithmetic, exact solutions of the linear system, potential linear and reciprocal, no recentering; the limit for the largest time step is not computed. The last theorem also supposes that the demagnetizing energy is not negative"
  },
  {
   "property": "C108",
   "status": "partial",
   "theorems": [
    "Verif.Relax.C108_settles",
    "Verif.Relax.C108_saturates"
   ],
   "note": "as C90: exact arithmetic, exact solutions of the linear system, potential linear and reciprocal, no recentering; the limit for the largest time step and the time are not computed"
  },
  {
   "property": "C109",
   "status": "partial",
   "theorems": [
    "Verif.Electro.C109_potential_partial",
    "Verif.Electro.C109_contacts_partial",
    "Verif.Electro.C109_spin_partial",
    "Verif.Electro.C109_below_partial",
    "Verif.Electro.C109_decay_partial",
    "Verif.Electro.C109_negation"
   ],
   "note": "holds on meshes without obtuse dihedral angles; C109_negation gives a mesh of two elements, with an obtuse angle, where a current enters and the potential of a node is below that of all contacts. For the exact solution of the assembled equations (C59, C60: unique; C57: how far the computed one may be), exact arithmetic; spins without the source of C102, that is without polarization or in a magnetic wire where nothing is assembled"
  },
  {
   "property": "C110",
   "status": "proved",
   "theorems": [
    "Verif.SpinStart.C110_outcomes",
    "Verif.SpinStart.C110_complete",
    "Verif.SpinStart.C110_default",
    "Verif.SpinStart.C110_numbers",
    "Verif.SpinStart.C110_result",
    "Verif.SpinStart.C110_quiet"
   ],
   "note": "for elements with a node on no contact (the equations of the nodes on contacts are not used), and for nodes without prescribed potential all of whose elements lack the conductivity, unless the prescribed potentials continued by zeros already solve the equations; infinities and NaN as in IEEE arithmetic, otherwise exact arithmetic (no overflow, no underflow of the squares of the lengths)"
  },
  {
   "property": "C111",
   "status": "partial",
   "theorems": [
    "Verif.Rescale.C111_system",
    "Verif.Rescale.C111_solve_partial",
    "Verif.Rescale.C111_solve_weaker",
    "Verif.Rescale.C111_potential",
    "Verif.Rescale.C111_energy",
    "Verif.Rescale.C111_recenter",
    "Verif.Rescale.C111_loop",
    "Verif.Rescale.C111_run_partial",
    "Verif.Rescale.C111_negation_tolerance"
   ],
   "note": "for right hand sides of norm at most 1 before and after, or c at most 1 and attempts that succeed: the solver also compares the residual itself with the tolerance, and C111_negation_tolerance gives a system that is solved, but not solved any more when everything is doubled; exact arithmetic, no thermal constants involved"
  },
  {
   "property": "C112",
   "status": "partial",
   "theorems": [
    "Verif.FieldKind.C112_field_partial",
    "Verif.FieldKind.C112_energy_partial",
    "Verif.FieldKind.C112_run_partial",
    "Verif.FieldKind.C112_factor",
    "Verif.FieldKind.C112_negation"
   ],
   "note": "in the space dependent notation the magnetic tetrahedrons have to come first: C112_negation, otherwise even a uniform field in that notation reads the table out of bounds (see C44); exact arithmetic; the values of the expressions are given functions"
  },
  {
   "property": "C113",
   "status": "proved",
   "theorems": [
    "Verif.TimeShift.C113_loop",
    "Verif.TimeShift.C113_run",
    "Verif.TimeShift.C113_steady"
   ],
   "note": "exact arithmetic, in particular exact sums of times (rounded sums do not commute with a shift)"
  },
  {
   "property": "C114",
   "status": "proved",
   "theorems": [
    "Verif.Apart.C114_step",
    "Verif.Apart.C114_potential",
    "Verif.Apart.C114_energy"
   ],
   "note": "one attempt with a given time step (the step of a run is common to all magnets); exact arithmetic and exact solutions"
  },
  {
   "property": "C115",
   "status": "proved",
   "theorems": [
    "Verif.Electro.C115_superposition",
    "Verif.Electro.C115_ohm",
    "Verif.Electro.C115_conductivity",
    "Verif.Electro.C115_reciprocity",
    "Verif.Electro.C115_power"
   ],
   "note": "exact solutions of the assembled system; the iterative solver reaches them up to its tolerance (C57)"
  },
  {
   "property": "C116",
   "status": "proved",
   "theorems": [
    "Verif.Electro.C116_superposition",
    "Verif.Electro.C116_current",
    "Verif.Electro.C116_torque",
    "Verif.Electro.C116_no_current"
   ],
   "note": "exact solutions; the matrices that the code accumulates over the calls (C45) are included, with the same history on both sides"
  },
  {
   "property": "C117",
   "status": "proved",
   "theorems": [
    "Verif.Electro.C117_potential",
    "Verif.Electro.C117_spin",
    "Verif.Electro.C117_torque"
   ],
   "note": "exact solutions; the polarization and the spin vector of a surface are supposed to be given with all their components or not at all"
  },
  {
   "property": "C118",
   "status": "proved",
   "theorems": [
    "Verif.Electro.C118_potential",
    "Verif.Electro.C118_spin",
    "Verif.Electro.C118_torque"
   ],
   "note": "exact solutions; the values prescribed for the spin accumulation are supposed to be k times larger too"
  },
  {
   "property": "C119",
   "status": "proved",
   "theorems": [
    "Verif.Electro.C119_spin",
    "Verif.Electro.C119_torque"
   ],
   "note": "exact solutions; the polarization and the spin vector of a surface are supposed to be given with all their components or not at all; the prescribed values of the spin accumulation are supposed to be along the direction"
  },
  {
   "property": "C120",
   "status": "proved",
   "theorems": [
    "Verif.Electro.C120_reciprocity",
    "Verif.Electro.C120_balance"
   ],
   "note": "exact solutions which vanish where the spin accumulation is prescribed"
  },
  {
   "property": "C121",
   "status": "proved",
   "theorems": [
    "Verif.Electro.C121_potential",
    "Verif.Electro.C121_spin"
   ],
   "note": "exact solutions; the elements of the body are supposed to come in the same order in both meshes"
  },
  {
   "property": "C122",
   "status": "proved",
   "theorems": [
    "Verif.Electro.C122_potential",
    "Verif.Electro.C122_spin"
   ],
   "note": "exact solutions; the order of the vertices within an element is kept"
  }
 ]
}