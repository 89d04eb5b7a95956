{
 "claims": [
  {
   "property": "C01",
   "status": "proved",
   "theorems": [
    "Verif.Sublat.C01_labels_roundtrip",
    "Verif.Sublat.C01_hamiltonian_size",
    "Verif.Sublat.C01_inconsistent_norb_witness"
   ],
   "note": "History induction over add calls; labels, size and (for consistent orbital counts) Hamiltonian size."
  },
  {
   "property": "C02",
   "status": "proved",
   "theorems": [
    "Verif.Sublat.C02_filter_labels",
    "Verif.Sublat.C02_filter_twice",
    "Verif.Sublat.C02_short_mask_ub"
   ],
   "note": "Mask must cover the system; a shorter mask is undefined behaviour (C02_short_mask_ub)."
  },
  {
   "property": "C03",
   "status": "proved",
   "theorems": [
    "Verif.Sublat.C03_size",
    "Verif.Sublat.C03_rows",
    "Verif.Sublat.C03_tiling",
    "Verif.Sublat.C03_unique_owner",
    "Verif.Sublat.C03_expanded_positions",
    "Verif.Sublat.C03_verify_iff"
   ],
   "note": "Tiling, exact rows per site, unique owner of each row, expanded positions, verify decision."
  },
  {
   "property": "C04",
   "status": "proved",
   "theorems": [
    "Verif.Sublat.C04_sublattices_roundtrip",
    "Verif.Sublat.C04_sublattices_roundtrip'",
    "Verif.Hopping.C04_hoppings_roundtrip",
    "Verif.Hopping.C04_tocsr",
    "Verif.Hopping.C04_tocsr_duplicate_ub"
   ],
   "note": "Sublattice table and hopping blocks round-trip for all values; CSR export exact when no oriented pair is stored twice (a repeated pair is undefined behaviour, shown by witness)."
  },
  {
   "property": "C05",
   "status": "partial",
   "theorems": [
    "Verif.Hopping.C05_unique_exact",
    "Verif.Hopping.C05_append",
    "Verif.Hopping.C05_unordered_unique_partial",
    "Verif.Hopping.C05_append_idempotent",
    "Verif.Hopping.C05_append_rejects",
    "Verif.Hopping.C05_duplicate_bond_witness",
    "Verif.Hopping.C05_out_of_range_witness"
   ],
   "note": "Normalisation, completeness, idempotence and rejection hold always; \"each unordered pair once\" needs the stored pairs to be upper triangular (false otherwise, witness); C05_unique_exact is the exact criterion. Generated indices are not range checked (witness)."
  },
  {
   "property": "C06",
   "status": "proved",
   "theorems": [
    "Verif.Hopping.C06_count_neighbors",
    "Verif.Hopping.C06_out_of_range_ub"
   ],
   "note": "Counts equal degrees, sum is twice the number of hoppings; out-of-range indices are undefined behaviour."
  },
  {
   "property": "C07",
   "status": "partial",
   "theorems": [
    "Verif.Hopping.C07_filter_correct_iff",
    "Verif.Hopping.C07_system_correct_iff",
    "Verif.Hopping.C07_suffix_removed_partial",
    "Verif.Hopping.C07_witness"
   ],
   "note": "False in general (witness): hoppings keep old indices. Exact criterion for correctness proved, and the case where removed sites come last."
  },
  {
   "property": "C08",
   "status": "proved",
   "theorems": [
    "Verif.Lattice.C08_no_duplicate_bond",
    "Verif.Lattice.C08_no_self_bond",
    "Verif.Lattice.C08_rejected",
    "Verif.Lattice.C08_rejected_anonymous",
    "Verif.Lattice.C08_accepted"
   ],
   "note": "Every history of building calls, accepted or rejected; bonds specified independently of term storage; rejection leaves the lattice (anonymous call: its terms) unchanged and nothing else is rejected."
  },
  {
   "property": "C09",
   "status": "proved",
   "theorems": [
    "Verif.Lattice.C09_ids",
    "Verif.Lattice.C09_stable",
    "Verif.Lattice.C09_lookups",
    "Verif.Lattice.C09_hopping_lookups",
    "Verif.Lattice.C09_unknown",
    "Verif.Lattice.C09_onsite_hermitian"
   ],
   "note": "Ids dense and in creation order, names unique, everything stable under later calls; name and id lookups agree."
  },
  {
   "property": "C10",
   "status": "partial",
   "theorems": [
    "Verif.Lattice.C10_registry_iff",
    "Verif.Lattice.C10_registry_partial",
    "Verif.Lattice.C10_interleaved_alias_witness",
    "Verif.Lattice.C10_alias_of_alias_witness",
    "Verif.Lattice.C10_hopping_registry"
   ],
   "note": "False in general: an alias created before another sublattice makes site_registry throw, and an alias of an alias has no entry (witnesses). Exact criterion proved; hopping registry always works."
  },
  {
   "property": "C11",
   "status": "proved",
   "theorems": [
    "Verif.Lattice.C11_unit_cell",
    "Verif.Lattice.C11_aliases_adjacent"
   ],
   "note": "For every lattice and every iteration order of the maps."
  },
  {
   "property": "C12",
   "status": "proved",
   "theorems": [
    "Verif.Lattice.C12_max_hoppings",
    "Verif.Pipeline.C12_rows"
   ],
   "note": "Every lattice, shape, boundaries, modifiers and both paths; also without the +1 when there are no diagonal terms, which is what the code reserves."
  },
  {
   "property": "C13",
   "status": "partial",
   "theorems": [
    "Verif.Lattice.C13_exact",
    "Verif.Lattice.C13_translate_partial",
    "Verif.Lattice.C13_translate_inverse",
    "Verif.Lattice.C13_position",
    "Verif.Lattice.C13_cell_roundtrip_partial",
    "Verif.Lattice.C13_set_offset_partial",
    "Verif.Lattice.C13_out_of_plane_witness"
   ],
   "note": "Exact arithmetic; right if and only if the leading components of the vectors are independent (C13_exact; witness)."
  },
  {
   "property": "C14",
   "status": "partial",
   "theorems": [
    "Verif.Foundation.C14_sites",
    "Verif.Foundation.C14_slice",
    "Verif.Foundation.C14_positions",
    "Verif.Foundation.C14_sublattice_partial",
    "Verif.Foundation.C14_sublattice_witness"
   ],
   "note": "Iteration, spatial slices and the position array proved for all sizes; iteration over one sublattice visits the right sites but reports sublattice index 0 (witness)."
  },
  {
   "property": "C15",
   "status": "proved",
   "theorems": [
    "Verif.Foundation.C15_inside",
    "Verif.Foundation.C15_symmetric",
    "Verif.Foundation.C15_count",
    "Verif.Foundation.C15_flat"
   ],
   "note": "For every unit cell a lattice can produce; also by flat index, with no repetition and no self loop."
  },
  {
   "property": "C16",
   "status": "proved",
   "theorems": [
    "Verif.Foundation.C16_numbering",
    "Verif.Foundation.C16_populate",
    "Verif.Foundation.C16_reserve"
   ],
   "note": "For every lattice built through the API, every foundation size, mask and iteration order of the maps."
  },
  {
   "property": "C17",
   "status": "proved",
   "theorems": [
    "Verif.Foundation.C17_remove_dangling",
    "Verif.Foundation.C17_fuel",
    "Verif.Foundation.C17_foundation"
   ],
   "note": "Termination, stability, correct counts and minimality of the removed set, on every symmetric graph and for every foundation."
  },
  {
   "property": "C18",
   "status": "proved",
   "theorems": [
    "Verif.Foundation.C18_primitive",
    "Verif.Foundation.C18_sites"
   ],
   "note": ""
  },
  {
   "property": "C19",
   "status": "partial",
   "theorems": [
    "Verif.Foundation.C19_bounds_partial",
    "Verif.Foundation.C19_exact",
    "Verif.Foundation.C19_witness"
   ],
   "note": "Proved when offset plus sublattice position is at most one lattice vector long in every direction; and exactly then (C19_exact); false otherwise (witness)."
  },
  {
   "property": "C20",
   "status": "proved",
   "theorems": [
    "Verif.Symmetry.C20_closure",
    "Verif.Symmetry.C20_apply",
    "Verif.Symmetry.C20_tiling",
    "Verif.Symmetry.C20_period",
    "Verif.Symmetry.C20_far_witness",
    "Verif.Symmetry.C20_period_too_long_ub"
   ],
   "note": "Hopping terms at most one cell long along the enabled directions (any length where the period is one cell) and periods that fit into the foundation; both are needed (witnesses: longer hoppings are lost, a longer period reads out of bounds)."
  },
  {
   "property": "C21",
   "status": "proved",
   "theorems": [
    "Verif.Hamiltonian.C21_hermitian",
    "Verif.Pipeline.C21_lattice",
    "Verif.Hamiltonian.C21_upper_triangular_witness"
   ],
   "note": "Any system, modifiers, boundaries, phase factors (not only of modulus one) and both build paths; every system made from a lattice satisfies the conditions (C21_lattice), site generators may not (witness)."
  },
  {
   "property": "C22",
   "status": "proved",
   "theorems": [
    "Verif.Hamiltonian.C22_build_paths_agree",
    "Verif.Pipeline.C22_lattice",
    "Verif.Hamiltonian.C22_double_bond_witness"
   ],
   "note": "Both paths have the same outcome, including exceptions, for any number of orbitals and arbitrary modifiers; needs that no pair of sites is bonded twice (witness), which every lattice provides (C22_lattice)."
  },
  {
   "property": "C23",
   "status": "proved",
   "theorems": [
    "Verif.Hamiltonian.C23_hoppings",
    "Verif.Hamiltonian.C23_buffer_size",
    "Verif.Hamiltonian.C23_generated_sites_witness",
    "Verif.Hamiltonian.C23_interleaved_sites_witness",
    "Verif.Hamiltonian.C23_small_buffer_witness"
   ],
   "note": "Exactly the elements specified, as a multiset, for any chain of element-wise modifiers and any buffer that holds one matrix; witnesses show what happens with sites not ordered by orbital count and with too small a buffer."
  },
  {
   "property": "C24",
   "status": "proved",
   "theorems": [
    "Verif.Kpm.C24_matrix",
    "Verif.Kpm.C24_defined_iff",
    "Verif.Kpm.C24_vectors",
    "Verif.Kpm.C24_scaled",
    "Verif.Kpm.C24_compressed"
   ],
   "note": "Every matrix with sorted rows, scale factors and targets. Well defined exactly when every index is reachable from the first target; otherwise the search reads outside its queue (default configuration, disconnected systems)."
  },
  {
   "property": "C25",
   "status": "proved",
   "theorems": [
    "Verif.Kpm.C25_borders",
    "Verif.Kpm.C25_spread",
    "Verif.Kpm.C25_balls"
   ],
   "note": "Every connected matrix; the spread needs a symmetric pattern. Slices are shown to be breadth-first balls."
  },
  {
   "property": "C26",
   "status": "proved",
   "theorems": [
    "Verif.Kpm.C26_offdiagonal",
    "Verif.Kpm.C26_diagonal",
    "Verif.Kpm.C26_batch",
    "Verif.Kpm.C26_agreement"
   ],
   "note": "Every matrix format and instruction set, single vectors and batches, any commutative ring with one half and conjugation; exact arithmetic."
  },
  {
   "property": "C27",
   "status": "proved",
   "theorems": [
    "Verif.Kpm.C27_offdiagonal",
    "Verif.Kpm.C27_diagonal"
   ],
   "note": "Every slice map that fits the matrix, every source and destination offset, every number of moments, with and without interleaving."
  },
  {
   "property": "C28",
   "status": "proved",
   "theorems": [
    "Verif.Kpm.C28_offdiagonal",
    "Verif.Kpm.C28_diagonal",
    "Verif.Kpm.C28_unrounded_out_of_bounds"
   ],
   "note": "Every slice map that fits the matrix and every starting vector; the required divisibility of the number of moments is shown to be necessary."
  },
  {
   "property": "C29",
   "status": "partial",
   "theorems": [
    "Verif.Numeric.C29_conversion",
    "Verif.Numeric.C29_csr",
    "Verif.Numeric.C29_ell",
    "Verif.Numeric.C29_simd_partial",
    "Verif.Numeric.C29_diagonal",
    "Verif.Numeric.C29_diagonal_simd_partial",
    "Verif.Numeric.C29_first_vector",
    "Verif.Numeric.C29_aligned_size",
    "Verif.Numeric.C29_split_loop",
    "Verif.Numeric.C29_simd_empty",
    "Verif.Numeric.C29_diagonal_simd_empty"
   ],
   "note": "CSR and generic ELLPACK kernels for every matrix; vectorised kernels for every matrix with at least one stored element. Without stored elements they are wrong: C29_simd_empty, C29_diagonal_simd_empty."
  },
  {
   "property": "C30",
   "status": "proved",
   "theorems": [
    "Verif.Kpm.C30_average",
    "Verif.Kpm.C30_columns",
    "Verif.Kpm.C30_terminates",
    "Verif.Kpm.C30_can_finish"
   ],
   "note": "All schedules of the thread pool, batch sizes, thread counts and vector counts. The moments of a vector are a function of its number (C26 gives that function). Arithmetic is exact; what depends on timing when numbers are rounded is C101. Progress callbacks, which can block a job for ever, are left out here (C102)."
  },
  {
   "property": "C31",
   "status": "proved",
   "theorems": [
    "Verif.Thread.C31_exactly_once",
    "Verif.Thread.C31_at_most_once",
    "Verif.Thread.C31_no_deadlock",
    "Verif.Thread.C31_terminates",
    "Verif.Thread.C31_no_threads"
   ],
   "note": "All schedules, including spurious wake-ups. Without compute threads the call never returns: C31_no_threads."
  },
  {
   "property": "C32",
   "status": "proved",
   "theorems": [
    "Verif.Thread.C32_all_jobs",
    "Verif.Thread.C32_exactly_once",
    "Verif.Thread.C32_after_join",
    "Verif.Thread.C32_no_deadlock",
    "Verif.Thread.C32_terminates",
    "Verif.Thread.C32_can_finish",
    "Verif.Thread.C32_finished_joined",
    "Verif.Thread.C32_no_workers"
   ],
   "note": "All schedules, including spurious wake-ups; jobs are arbitrary terminating programs over shared memory. A pool without workers runs nothing: C32_no_workers."
  },
  {
   "property": "C33",
   "status": "proved",
   "theorems": [
    "Verif.Kpm.C33_scaled_inside",
    "Verif.Kpm.C33_user_bounds",
    "Verif.Kpm.C33_degenerate"
   ],
   "note": "Exact arithmetic. Equal bounds have no scale (division by zero): C33_degenerate."
  },
  {
   "property": "C34",
   "status": "proved",
   "theorems": [
    "Verif.Kpm.C34_rounding"
   ],
   "note": "All integers, including negative ones."
  },
  {
   "property": "C35",
   "status": "partial",
   "theorems": [
    "Verif.Kpm.C35_indices_partial",
    "Verif.Kpm.C35_off_by_one",
    "Verif.Kpm.C35_off_by_one_column"
   ],
   "note": "Indices below zero or above the size are rejected and valid ones work. The index equal to the size is accepted and accesses memory out of range: C35_off_by_one."
  },
  {
   "property": "C36",
   "status": "partial",
   "theorems": [
    "Verif.Kpm.C36_directions_partial",
    "Verif.Kpm.C36_half_valid"
   ],
   "note": "Valid directions are accepted, strings of other length or without any valid letter rejected. Strings with exactly one valid letter dereference a null pointer: C36_half_valid."
  },
  {
   "property": "C37",
   "status": "partial",
   "theorems": [
    "Verif.Model.C37_fresh_partial",
    "Verif.Model.C37_leads_partial",
    "Verif.Model.C37_reads_pure",
    "Verif.Model.C37_read_twice",
    "Verif.Model.C37_clear_structure_witness",
    "Verif.Model.C37_clear_hamiltonian_witness",
    "Verif.Model.C37_rejected_shape_witness",
    "Verif.Model.C37_scalar_type_witness",
    "Verif.Model.C37_leads_after_failure_witness"
   ],
   "note": "Any deterministic building steps, any history of accepted changes and reads (reads may throw). False, with witnesses, after clear_structure_modifiers / clear_hamiltonian_modifiers and after rejected changes other than attach_lead; the scalar type (not the matrix) may depend on the history; leads() after a failed leads() returns incomplete leads."
  },
  {
   "property": "C38",
   "status": "partial",
   "theorems": [
    "Verif.Model.C38_model_partial",
    "Verif.Model.C38_retry",
    "Verif.Model.C38_lattice_partial",
    "Verif.Model.C38_lattice_same_structure",
    "Verif.Model.C38_primitive_witness",
    "Verif.Model.C38_shape_witness",
    "Verif.Model.C38_site_generator_witness",
    "Verif.Model.C38_hopping_generator_witness",
    "Verif.Model.C38_anonymous_witness"
   ],
   "note": "Every model and lattice. Exactly which rejected calls leave a trace: add(Primitive), add(Shape), add(SiteGenerator), add(HoppingGenerator) and add_hopping with an energy do (witnesses), all others leave the object as it was."
  },
  {
   "property": "C39",
   "status": "proved",
   "theorems": [
    "Verif.Shape.C39_even_odd",
    "Verif.Shape.C39_start",
    "Verif.Shape.C39_orientation",
    "Verif.Shape.C39_translation",
    "Verif.Shape.C39_rectangle",
    "Verif.Shape.C39_triangle_inside",
    "Verif.Shape.C39_triangle_outside",
    "Verif.Shape.C39_translation_witness"
   ],
   "note": "All polygons, also self-intersecting ones, and all points; any ordered field. Start and orientation hold for every tolerance; the even-odd rule and translations need that no side is taken for horizontal by the relative tolerance (always so in exact arithmetic; otherwise C39_translation_witness). Rectangles and triangles are shown to contain what they should."
  },
  {
   "property": "C40",
   "status": "partial",
   "theorems": [
    "Verif.Sublat.C40_exact",
    "Verif.Sublat.C40_find_nearest_sublattice_partial",
    "Verif.Sublat.C40_find_nearest_any",
    "Verif.Sublat.C40_unknown_label",
    "Verif.Sublat.C40_empty_block_wrong_sublattice",
    "Verif.Sublat.C40_empty_block_ub"
   ],
   "note": "Holds for every label that still has sites; false for a label whose block is empty (wrong sublattice or out-of-range read), shown by the two witnesses. C40_exact: right if and only if the label has sites or is not in the table."
  },
  {
   "property": "C41",
   "status": "proved",
   "theorems": [
    "Verif.Numeric.C41_sliced",
    "Verif.Numeric.C41_for_each",
    "Verif.Numeric.C41_buffered",
    "Verif.Numeric.C41_slice"
   ],
   "note": "All sequences, matrices, buffer sizes and callbacks, including callbacks that fail."
  },
  {
   "property": "C42",
   "status": "proved",
   "theorems": [
    "Verif.Numeric.C42_inserter"
   ],
   "note": "All sequences of calls within the size of the matrix; initial buffer contents arbitrary."
  },
  {
   "property": "C43",
   "status": "proved",
   "theorems": [
    "Verif.Kpm.C43_commutator",
    "Verif.Kpm.C43_antihermitian"
   ],
   "note": "Every Hamiltonian and all coordinates."
  },
  {
   "property": "C44",
   "status": "proved",
   "theorems": [
    "Verif.Kpm.C44_jackson",
    "Verif.Kpm.C44_lorentz",
    "Verif.Kpm.C44_dirichlet",
    "Verif.Kpm.C44_damp"
   ],
   "note": "Real arithmetic, all three kernels, every number of moments and lambda. Jackson coefficients are shown to lie in (0, 1]."
  },
  {
   "property": "C45",
   "status": "partial",
   "theorems": [
    "Verif.Solver.C45_current_partial",
    "Verif.Solver.C45_once",
    "Verif.Solver.C45_count",
    "Verif.Solver.C45_failed_set_model_witness"
   ],
   "note": "All histories in which the Hamiltonian of every model set can be built; otherwise set_model throws and later eigenvalues are those of the old model (witness). Strategies whose result depends on earlier results (FEAST with recycle_subspace) are not modelled."
  },
  {
   "property": "C46",
   "status": "partial",
   "theorems": [
    "Verif.Leads.C46_direction",
    "Verif.Leads.C46_rejected",
    "Verif.Leads.C46_area",
    "Verif.Leads.C46_contiguous",
    "Verif.Leads.C46_again",
    "Verif.Leads.C46_leads_partial",
    "Verif.Leads.C46_outside_witness",
    "Verif.Leads.C46_order_witness"
   ],
   "note": "Every lattice, foundation and lead whose bounds overlap the foundation; without overlap positions are read out of bounds (C46_outside_witness). One lead: complete. Several leads: each is complete if no other lead adds sites further out in its cross-section (C46_leads_partial), otherwise C46_order_witness."
  },
  {
   "property": "C47",
   "status": "proved",
   "theorems": [
    "Verif.Hopping.C47_modifiers_coherent",
    "Verif.Hopping.C47_boundary_size_witness"
   ],
   "note": "Invariant over all modifier sequences with arbitrary callbacks; does not extend to boundaries (witness)."
  },
  {
   "property": "C48",
   "status": "proved",
   "theorems": [
    "Verif.Lattice.C48_registry"
   ],
   "note": ""
  },
  {
   "property": "C49",
   "status": "proved",
   "theorems": [
    "Verif.Hamiltonian.C49_coefficients"
   ],
   "note": "make succeeds and the coefficient formula holds for every pair of orbitals; hypotheses (sites ordered by orbital count, registered energies fit) are those every lattice provides."
  },
  {
   "property": "C50",
   "status": "proved",
   "theorems": [
    "Verif.Pipeline.C50_bloch"
   ],
   "note": "End to end from the building calls of the lattice to the matrix."
  },
  {
   "property": "C52",
   "status": "proved",
   "theorems": [
    "Verif.Kpm.C52_resolution"
   ],
   "note": "Every positive width and broadening; real arithmetic, no overflow of the integer type."
  },
  {
   "property": "C53",
   "status": "proved",
   "theorems": [
    "Verif.Kpm.C53_nonnegative",
    "Verif.Kpm.C53_sum_rule",
    "Verif.Kpm.C53_bounded"
   ],
   "note": "Real arithmetic. The moments are those of C26; that the bounds enclose the spectrum is a hypothesis (the Lanczos procedure is not modelled)."
  },
  {
   "property": "C54",
   "status": "proved",
   "theorems": [
    "Verif.Kpm.C54_greens_ldos"
   ],
   "note": "Real arithmetic."
  },
  {
   "property": "C55",
   "status": "partial",
   "theorems": [
    "Verif.Kpm.C55_integration_partial",
    "Verif.Kpm.C55_constant_too_small"
   ],
   "note": "The result is (N - 1) / N times the trapezoidal rule, so it is not the trapezoidal rule: C55_constant_too_small."
  },
  {
   "property": "C56",
   "status": "partial",
   "theorems": [
    "Verif.Kpm.Cache.C56_history_partial",
    "Verif.Kpm.Cache.C56_failed_set_model_witness",
    "Verif.Kpm.Cache.C56_empty_indices_witness"
   ],
   "note": "All histories in which the Hamiltonian of every model set can be built and no calculation targets an empty list of indices; both exceptions have witnesses."
  },
  {
   "property": "C57",
   "status": "partial",
   "theorems": [
    "Verif.Shape.C57_line_partial",
    "Verif.Shape.C57_line_endpoints",
    "Verif.Shape.C57_line_symmetric",
    "Verif.Shape.C57_freeform_corners",
    "Verif.Shape.C57_vertices",
    "Verif.Shape.C57_freeform_accepted"
   ],
   "note": "Real arithmetic. A line does not contain its own end points (0/0): C57_line_endpoints."
  },
  {
   "property": "C58",
   "status": "partial",
   "theorems": [
    "Verif.Leads.C58_structure",
    "Verif.Leads.C58_after_area",
    "Verif.Leads.C58_induced",
    "Verif.Leads.C58_coupling_partial",
    "Verif.Leads.C58_once",
    "Verif.Leads.C58_adjoint_witness"
   ],
   "note": "Sites, indices, positions, sublattices and hoppings: complete. The coupling is right for energies which are their own adjoint; hoppings in the conjugate direction get the plain energy otherwise (C58_adjoint_witness)."
  },
  {
   "property": "C51",
   "status": "proved",
   "theorems": [
    "Verif.Kpm.C51_moments",
    "Verif.Kpm.C51_moments_rejected",
    "Verif.Kpm.C51_greens",
    "Verif.Kpm.C51_ldos",
    "Verif.Kpm.C51_ldos_batch",
    "Verif.Kpm.C51_ldos_value",
    "Verif.Kpm.C51_ldos_nonnegative"
   ],
   "note": "Hamiltonian Hermitian and not b times the identity (the vectorised kernels are wrong for empty matrices, C29); with reordering every index must be reachable from the first target (C24 shows the code is undefined otherwise). The density clause needs bounds that enclose the spectrum."
  },
  {
   "property": "C59",
   "status": "partial",
   "theorems": [
    "Verif.Kpm.C59_real_partial",
    "Verif.Kpm.C59_transposed",
    "Verif.Kpm.C59_witness"
   ],
   "note": "True for real Hamiltonians. For complex ones the element (j, i) is returned (C59_transposed, with a concrete witness)."
  },
  {
   "property": "C60",
   "status": "proved",
   "theorems": [
    "Verif.Kpm.C60_unit_modulus",
    "Verif.Kpm.C60_moments",
    "Verif.Kpm.C60_batch",
    "Verif.Kpm.C60_value",
    "Verif.Kpm.C60_nonnegative",
    "Verif.Kpm.C60_number_of_states",
    "Verif.Kpm.C60_unbiased"
   ],
   "note": "Random numbers are arbitrary (any sequence of vectors); the number-of-states clause needs modulus one, which C60_unit_modulus shows for the values the starter produces. C60_unbiased is stated for sign vectors (real Hamiltonians). Positivity needs bounds that enclose the spectrum."
  },
  {
   "property": "C61",
   "status": "partial",
   "theorems": [
    "Verif.Kpm.C61_moments",
    "Verif.Kpm.C61_no_vectors",
    "Verif.Kpm.C61_trace",
    "Verif.Kpm.C61_integral_partial",
    "Verif.Kpm.C61_conductivity_partial"
   ],
   "note": "The complete formula, except that the integral is (N - 1) / N times the trapezoidal rule (C55). Zero random vectors give 0/0: C61_no_vectors."
  },
  {
   "property": "C62",
   "status": "partial",
   "theorems": [
    "Verif.Kpm.C62_targets",
    "Verif.Kpm.C62_ldos",
    "Verif.Kpm.C62_spatial_targets",
    "Verif.Kpm.C62_spatial_partial",
    "Verif.Kpm.C62_rejected",
    "Verif.Kpm.C62_empty_shape",
    "Verif.Kpm.C62_possible"
   ],
   "note": "Hermitian Hamiltonian; with reordering a connected system (C24). A shape which contains no site of the sublattice is not rejected and gives an undefined result (C62_empty_shape); calc_ldos for a sublattice without sites is covered by C40."
  },
  {
   "property": "C63",
   "status": "proved",
   "theorems": [
    "Verif.Lanczos.C63_rotation",
    "Verif.Lanczos.C63_complete",
    "Verif.Lanczos.C63_sound",
    "Verif.Lanczos.C63_exact",
    "Verif.Lanczos.C63_two"
   ],
   "note": "Exact real arithmetic, the machine epsilon is a parameter. Whether the QR iterations converge (no exception) is not claimed, except for size two (C63_two)."
  },
  {
   "property": "C64",
   "status": "partial",
   "theorems": [
    "Verif.Lanczos.C64_inside",
    "Verif.Lanczos.C64_loops",
    "Verif.Lanczos.C64_full",
    "Verif.Lanczos.C64_precision",
    "Verif.Lanczos.C64_tolerance",
    "Verif.Lanczos.C64_multiple_of_identity",
    "Verif.Lanczos.C64_missed"
   ],
   "note": "Exact arithmetic: orthogonality is not lost to rounding. The bounds need not enclose the spectrum: for every starting vector and precision there is a Hamiltonian for which they miss arbitrarily large eigenvalues (C64_missed), and a multiple of the identity, e.g. one site, divides by zero (C64_multiple_of_identity)."
  },
  {
   "property": "C65",
   "status": "proved",
   "theorems": [
    "Verif.Model.C65_parameters",
    "Verif.Model.C65_lead_at",
    "Verif.Model.C65_complex"
   ],
   "note": "Any building steps; set_offset must keep the number of dimensions (it assigns one member). C65_lead_at is for histories in which the changes are accepted (otherwise C37 witnesses). No lead is lost or renumbered."
  },
  {
   "property": "C66",
   "status": "proved",
   "theorems": [
    "Verif.Hamiltonian.C66_count",
    "Verif.Hamiltonian.C66_enough"
   ],
   "note": "For the main part; the hoppings across periodic boundaries are added to the finished matrix."
  },
  {
   "property": "C67",
   "status": "proved",
   "theorems": [
    "Verif.Solver.C67_dos",
    "Verif.Solver.C67_sign",
    "Verif.Solver.C67_sum",
    "Verif.Solver.C67_unique",
    "Verif.Solver.C67_current"
   ],
   "note": "Exact real arithmetic; constant::pi is the number pi. What the eigenvalue solver guarantees (orthonormal states, complete in its energy range) is a hypothesis, as the solver itself is an external library. C67_current assumes that every model that was set has a Hamiltonian, as C45."
  },
  {
   "property": "C68",
   "status": "proved",
   "theorems": [
    "Verif.Simd.C68_arithmetic",
    "Verif.Simd.C68_gather",
    "Verif.Simd.C68_spmv",
    "Verif.Simd.C68_diagonal",
    "Verif.Simd.C68_block"
   ],
   "note": "Exact arithmetic. The intrinsics and the functions of libsimdpp are modelled by their documentation. nnz_per_row is not 0 (for matrices without entries see C29)."
  },
  {
   "property": "C69",
   "status": "proved",
   "theorems": [
    "Verif.Simd.C69_aligned",
    "Verif.Simd.C69_aligned_block",
    "Verif.Simd.C69_axpy"
   ],
   "note": "The arrays start at multiples of 32 bytes, which EIGEN_MAX_ALIGN_BYTES requests from Eigen."
  },
  {
   "property": "C70",
   "status": "partial",
   "theorems": [
    "Verif.Kpm.C70_counters",
    "Verif.Kpm.C70_full_partial",
    "Verif.Kpm.C70_full_converse_witness",
    "Verif.Kpm.C70_work_offdiagonal",
    "Verif.Kpm.C70_work_diagonal",
    "Verif.Kpm.C70_memory",
    "Verif.Kpm.C70_scope"
   ],
   "note": "The mark can be set although the whole system is used (C70_full_converse_witness: the comparison is off by one). The reported memory of an ELLPACK matrix leaves out the rows added for alignment (C70_memory). The work is measured by running the algorithms of the model on a matrix that counts. Times are not modelled."
  },
  {
   "property": "C71",
   "status": "partial",
   "theorems": [
    "Verif.Feast.C71_solve_partial",
    "Verif.Feast.C71_recycle_partial",
    "Verif.Feast.C71_start",
    "Verif.Feast.C71_matrix",
    "Verif.Feast.C71_guess_one_witness",
    "Verif.Feast.C71_no_eigenvalues_witness",
    "Verif.Feast.C71_reduced_guess_witness",
    "Verif.Feast.C71_recycle_bigger_witness",
    "Verif.Feast.C71_recycle_smaller_witness"
   ],
   "note": "False in general: with the guess 1 and two or more eigenvalues the calculation never ends (C71_guess_one_witness); the guess is reduced for good by a small Hamiltonian, which then leads to the same (C71_reduced_guess_witness); an interval without eigenvalues ends in an undefined operation (C71_no_eigenvalues_witness); recycling with Hamiltonians of different sizes writes outside of the arrays or gives eigenvectors of a wrong length (C71_recycle_bigger_witness, C71_recycle_smaller_witness). Proved for all other cases. The library is an arbitrary function which fulfils its documentation."
  },
  {
   "property": "C72",
   "status": "partial",
   "theorems": [
    "Verif.Binding.C72_argument",
    "Verif.Binding.C72_result_partial",
    "Verif.Binding.C72_new_array",
    "Verif.Binding.C72_in_place",
    "Verif.Binding.C72_exact",
    "Verif.Binding.C72_complex",
    "Verif.Binding.C72_refused",
    "Verif.Binding.C72_onsite",
    "Verif.Binding.C72_hopping",
    "Verif.Binding.C72_view_witness",
    "Verif.Binding.C72_reversed_witness",
    "Verif.Binding.C72_broadcast_witness",
    "Verif.Binding.C72_reshaped_witness",
    "Verif.Binding.C72_shape_witness"
   ],
   "note": "False in general: the strides of a result are ignored. Views of the argument are ignored (C72_view_witness), energy[::-1] and np.broadcast_to read outside of the array (C72_reversed_witness, C72_broadcast_witness), a C-contiguous array which does not own its memory is scrambled (C72_reshaped_witness), and only the size of a result is checked, not its shape (C72_shape_witness). Proved for all new arrays in C order or in the order of the argument, changes in place and whatever else is stored safely; C72_exact shows that for results of the type of the model these are all. Numpy is modelled by its documentation."
  },
  {
   "property": "C73",
   "status": "proved",
   "theorems": [
    "Verif.Binding.C73_types",
    "Verif.Binding.C73_match",
    "Verif.Binding.C73_match_two",
    "Verif.Binding.C73_numpy",
    "Verif.Binding.C73_container",
    "Verif.Binding.C73_three",
    "Verif.Binding.C73_order_witness",
    "Verif.Binding.C73_vector_witness",
    "Verif.Binding.C73_stride_witness",
    "Verif.Binding.C73_two"
   ],
   "note": "For packed arrays read in their own storage order. The stored storage order is not used for reading (C73_order_witness), a writable std::vector has three sizes (C73_vector_witness), and strides are dropped (C73_stride_witness); the C++ code makes no such references where it matters."
  },
  {
   "property": "C74",
   "status": "proved",
   "theorems": [
    "Verif.Machine.C74_positions",
    "Verif.Machine.C74_bounds",
    "Verif.Machine.C74_numbering",
    "Verif.Machine.C74_size",
    "Verif.Machine.C74_site_indices",
    "Verif.Machine.C74_hopping_indices",
    "Verif.Machine.C74_foundation_witness",
    "Verif.Machine.C74_narrow_witness",
    "Verif.Machine.C74_orbitals_witness"
   ],
   "note": "The limits of the box, of the hopping counts and of the sublattices are exact (if and only if). Beyond 2^31 rows to_hamiltonian_indices gives negative numbers without an error (C74_narrow_witness). idx_t (64 bits) is taken as unbounded."
  },
  {
   "property": "C75",
   "status": "proved",
   "theorems": [
    "Verif.Binding.Pickle.C75_lattice",
    "Verif.Binding.Pickle.C75_offset_accepted",
    "Verif.Binding.Pickle.C75_system",
    "Verif.Binding.Pickle.C75_hamiltonian",
    "Verif.Binding.Pickle.C75_old_format",
    "Verif.Binding.Pickle.C75_results",
    "Verif.Binding.Pickle.C75_props_witness",
    "Verif.Lattice.C75_queries",
    "Verif.Lattice.C75_unit_cell",
    "Verif.Lattice.C75_continue",
    "Verif.Lattice.C75_continue_exact",
    "Verif.Lattice.C75_ambiguous_witness",
    "Verif.Binding.Pickle.C75_fields"
   ],
   "note": "The extra properties of the decorator pickleable can not be loaded (C75_props_witness); no class of the package uses them. If two families have the same energy, a hopping added by its energy may get another family name after loading (C75_ambiguous_witness), with the same energy."
  },
  {
   "property": "C76",
   "status": "partial",
   "theorems": [
    "Verif.Binding.Lifetime.C76_exact",
    "Verif.Binding.Lifetime.C76_valid_partial",
    "Verif.Binding.Lifetime.C76_no_leak",
    "Verif.Binding.Lifetime.C76_in_use",
    "Verif.Binding.Lifetime.C76_dangling",
    "Verif.Binding.Lifetime.C76_dangling_witness"
   ],
   "note": "False in general: the arrays keep the model alive, not its matrix, which is freed when the model is changed: h = model.hamiltonian; model.set_wave_vector(k); h.data reads freed memory (C76_dangling, C76_dangling_witness). C76_exact says exactly when a read is defined, after every program; C76_valid_partial: as long as the model is not changed (leads: always). C76_no_leak and C76_in_use: matrices are freed with the last reference, and not before."
  },
  {
   "property": "C77",
   "status": "partial",
   "theorems": [
    "Verif.Solver.C77_python_partial",
    "Verif.Solver.C77_python_history_partial",
    "Verif.Solver.C77_cpp_constant",
    "Verif.Solver.C77_cpp_history",
    "Verif.Solver.C77_array",
    "Verif.Solver.C77_cpp_witness"
   ],
   "note": "True for LAPACK and ARPACK. False for the C++ solver (FEAST): set_wave_vector changes the model inside of the solver but not the Hamiltonian its strategy works on, so that every row of calc_bands is the same (C77_cpp_constant, for every path; C77_cpp_witness; C77_cpp_history for all histories), and an array of eigenvalues is freed when another model is set (C77_array)."
  },
  {
   "property": "C78",
   "status": "proved",
   "theorems": [
    "Verif.Thread.C78_call",
    "Verif.Thread.C78_call_fails",
    "Verif.Thread.C78_sequence",
    "Verif.Thread.C78_sequential",
    "Verif.Thread.C78_parallel",
    "Verif.Thread.C78_progress",
    "Verif.Thread.C78_sweep",
    "Verif.Thread.C78_no_race",
    "Verif.Thread.C78_race",
    "Verif.Thread.C78_misspelt_witness",
    "Verif.Thread.C78_saved",
    "Verif.Thread.C78_rows"
   ],
   "note": "Findings: a parameter before a swept one which is not swept itself makes the call fail (C78_call_fails, exact criterion); a misspelt name is ignored and the parameter gets the class inspect.Parameter.empty (C78_misspelt_witness); jobs which share one solver can be computed at the same time (C78_race), which is a data race. Uses C31 for the schedules. That computing a job returns is assumed; with one thread and a progress callback it does not (C102). Exceptions of the user's functions, files and plots are not modelled."
  },
  {
   "property": "C79",
   "status": "partial",
   "theorems": [
    "Verif.Pipeline.C79_dual",
    "Verif.Pipeline.C79_periodic",
    "Verif.Pipeline.C79_time_reversal",
    "Verif.Pipeline.C79_zone1",
    "Verif.Pipeline.C79_zone2_partial",
    "Verif.Pipeline.C79_zone2_exact",
    "Verif.Pipeline.C79_zone2_witness",
    "Verif.Pipeline.C79_singular_witness",
    "Verif.Pipeline.C79_shift"
   ],
   "note": "False in general for brillouin_zone: the Voronoi cell is computed from nine points only, so that for skewed bases (e.g. the square lattice with the vectors (1, 0) and (3, 1)) the zone is too large and has equivalent points in its interior (C79_zone2_witness). C79_zone2_exact: right if and only if the scalar product of the reciprocal vectors is not larger than either square (C79_zone2_partial says what is then true). Lattices whose first components are linearly dependent, e.g. a chain along y, have no reciprocal vectors at all (C79_dual is exact, C79_singular_witness). The rest is proved in full. Exact real arithmetic; scipy.spatial.Voronoi by what it computes."
  },
  {
   "property": "C80",
   "status": "partial",
   "theorems": [
    "Verif.Shape.C80_polygon",
    "Verif.Shape.C80_rectangle",
    "Verif.Shape.C80_regular_polygon",
    "Verif.Shape.C80_freeform",
    "Verif.Shape.C80_circle",
    "Verif.Shape.C80_composite",
    "Verif.Shape.C80_operators",
    "Verif.Shape.C80_composite_offset",
    "Verif.Shape.C80_polygon_offset",
    "Verif.Shape.C80_freeform_offset_partial",
    "Verif.Shape.C80_freeform_offset_witness",
    "Verif.Shape.C80_line_offset",
    "Verif.Shape.C80_sites_partial",
    "Verif.Shape.C80_height_witness",
    "Verif.Shape.C80_line_ends",
    "Verif.Shape.C80_vertices"
   ],
   "note": "False in general: (1) sublattices whose lattice coordinates exceed one are cut off (C19_exact says exactly when); (2) compositions forget the third component of the vertices, so that solids composed of two parts lose all layers but three (C80_height_witness); (3) FreeformShape.with_offset loses the height of the center, or adds a center with one component to all components (C80_freeform_offset_witness), which leaves the box behind; (4) Line.with_offset adds the first component of the vector to one end point and the second to the other (C80_line_offset: right if and only if both are equal). Proved for polygons, circles, plane compositions and their offsets. Exact arithmetic, except for the tolerance of the polygon test (Resolved, as in C39); the convex hull of scipy by its documentation."
  },
  {
   "property": "C81",
   "status": "partial",
   "theorems": [
    "Verif.Binding.Names.C81_split",
    "Verif.Binding.Names.C81_array",
    "Verif.Binding.Names.C81_modifier",
    "Verif.Binding.Names.C81_index_ne",
    "Verif.Binding.Names.C81_agreement",
    "Verif.Binding.Names.C81_nearest_any",
    "Verif.Binding.Names.C81_target",
    "Verif.Binding.Names.C81_nearest",
    "Verif.Binding.Names.C81_nearest_missing",
    "Verif.Binding.Names.C81_nearest_agree_partial",
    "Verif.Binding.Names.C81_height_witness",
    "Verif.Binding.Names.C81_missing_witness",
    "Verif.Binding.Names.C81_disagree_witness"
   ],
   "note": "False in general: if there is a family A and a family A|1, system.sublattices == \"A\" selects the first only and sub_id == \"A\" in a modifier both (C81_agreement is exact; C81_disagree_witness); find_nearest of a structure with a name without sites answers with site zero instead of an error (C81_nearest_missing, C81_missing_witness), System.find_nearest needs the whole name, and a structure ignores the height of the sites if the target has two components, while the system takes height zero (C81_height_witness). The rest is proved in full; exact arithmetic."
  },
  {
   "property": "C82",
   "status": "proved",
   "theorems": [
    "Verif.Binding.Slicing.C82_mask",
    "Verif.Binding.Slicing.C82_ints",
    "Verif.Binding.Slicing.C82_slice",
    "Verif.Binding.Slicing.C82_matrix",
    "Verif.Binding.Slicing.C82_part",
    "Verif.Binding.Slicing.C82_compose",
    "Verif.Binding.Slicing.C82_cropped",
    "Verif.Binding.Slicing.C82_shape",
    "Verif.Binding.Slicing.C82_map",
    "Verif.Binding.Slicing.C82_system",
    "Verif.Binding.Slicing.C82_ids_witness"
   ],
   "note": "Indices with a single number are not modelled. Finding: maps made of bare positions, SpatialMap(data, positions), can not be taken apart (C82_ids_witness). C82_system uses C04_tocsr for the hoppings of the C++ system. Numpy indexing and scipy slicing by their documentation."
  },
  {
   "property": "C83",
   "status": "partial",
   "theorems": [
    "Verif.Solver.Paths.C83_path",
    "Verif.Solver.Paths.C83_kept",
    "Verif.Solver.Paths.C83_points_partial",
    "Verif.Solver.Paths.C83_spacing_partial",
    "Verif.Solver.Paths.C83_bands_partial",
    "Verif.Solver.Paths.C83_as_1d_partial",
    "Verif.Solver.Paths.C83_short_witness",
    "Verif.Solver.Paths.C83_shape_witness",
    "Verif.Solver.Paths.C83_shape",
    "Verif.Solver.Paths.C83_step",
    "Verif.Solver.Paths.C83_part_witness"
   ],
   "note": "False in general: a point which is closer than one step to its successor is not on the path (C83_kept is exact), make_path(0, 0.05) has one sample and Bands.plot raises an IndexError (C83_short_witness); only the shapes of the first point are compared, so that make_path([a, b], [c]) silently gives a path with one component (C83_shape_witness; C83_shape: refused otherwise); parts of a path keep the indices of the whole one (C83_part_witness). Exact real arithmetic. C83_bands_partial uses C77."
  },
  {
   "property": "C84",
   "status": "partial",
   "theorems": [
    "Verif.Solver.Probability.C84_groups",
    "Verif.Solver.Probability.C84_reduce",
    "Verif.Solver.Probability.C84_mean",
    "Verif.Solver.Probability.C84_eigenvalues",
    "Verif.Solver.Probability.C84_probability",
    "Verif.Solver.Probability.C84_single",
    "Verif.Solver.Probability.C84_total",
    "Verif.Solver.Probability.C84_ldos",
    "Verif.Solver.Probability.C84_ldos_value",
    "Verif.Solver.Probability.C84_row_exact",
    "Verif.Solver.Probability.C84_row_witness",
    "Verif.Solver.Probability.C84_chain_witness"
   ],
   "note": "False in general for calc_eigenvalues(map_probability_at): it reads the row with the number of the site, which is right if and only if this and all sites before have one orbital (C84_row_exact, C84_row_witness). The rest is proved in full, in exact arithmetic; what the solver guarantees is a hypothesis as in C67. Groups of degenerate states are chains of neighbors, wider than the tolerance (C84_chain_witness)."
  },
  {
   "property": "C85",
   "status": "proved",
   "theorems": [
    "Verif.Kpm.C85_jackson",
    "Verif.Kpm.C85_broadening",
    "Verif.Kpm.C85_converges",
    "Verif.Kpm.C85_dirichlet",
    "Verif.Kpm.C85_lorentz",
    "Verif.Kpm.C85_ldos",
    "Verif.Kpm.C85_dos",
    "Verif.Kpm.C85_expected"
   ],
   "note": "Exact real arithmetic; the bound is on integrals against Lipschitz functions (a pointwise bound cannot hold, the exact density is a sum of delta functions). C85_ldos composes this with the whole calculation of C62 (and uses its hypotheses); C85_dos is about the moments of C60. C85_expected is for vectors of signs (real Hamiltonians)."
  },
  {
   "property": "C86",
   "status": "proved",
   "theorems": [
    "Verif.Pipeline.C86_crystal",
    "Verif.Pipeline.C86_spectrum",
    "Verif.Pipeline.C86_bands",
    "Verif.Pipeline.C86_folding"
   ],
   "note": "Exact arithmetic; the hypotheses on lattice, shape and periods are those of C50 (in particular hoppings no longer than the nearest copies, see C19/C20). C86_crystal is the product with a vector, for any commutative ring with conjugation; C86_spectrum the eigenvalues; C86_bands the same for wave vectors; C86_folding compares two systems of the same structure. The sign of the phase is part of the claim (see section 4: it is the opposite of the usual one)."
  },
  {
   "property": "C87",
   "status": "proved",
   "theorems": [
    "Verif.Pipeline.C87_rewriting",
    "Verif.Pipeline.C87_order",
    "Verif.Pipeline.C87_states"
   ],
   "note": "Exact arithmetic; hypotheses on lattice, shape and periods as in C50/C86. C87_rewriting: general change of description (order, cell of a sublattice, direction of hoppings, lattice vectors), with the bijection of rows and the phases given; C87_order: only the order of the calls differs, for any shape given by a condition on positions, no phases; C87_states: what such matrices have in common."
  },
  {
   "property": "C88",
   "status": "proved",
   "theorems": [
    "Verif.Pipeline.C88_bloch"
   ],
   "note": "Exact arithmetic, any lattice the building calls can make in which aliases come after the sublattices they name and are aliases of real sublattices (needed, see C13/C57), with hoppings of any length; the specification (blochRow) is the matrix of the textbook. Uses C50/C86. The sign of the phase is that of C86."
  },
  {
   "property": "C89",
   "status": "partial",
   "theorems": [
    "Verif.Pipeline.Repository.C89_monolayer",
    "Verif.Pipeline.Repository.C89_dirac",
    "Verif.Pipeline.Repository.C89_width",
    "Verif.Pipeline.Repository.C89_monolayer_alt",
    "Verif.Pipeline.Repository.C89_monolayer_4atom",
    "Verif.Pipeline.Repository.C89_bilayer",
    "Verif.Pipeline.Repository.C89_bilayer_inversion",
    "Verif.Pipeline.Repository.C89_bilayer_gamma4_witness",
    "Verif.Pipeline.Repository.C89_chain",
    "Verif.Pipeline.Repository.C89_square",
    "Verif.Pipeline.Repository.C89_phosphorene",
    "Verif.Pipeline.Repository.C89_tmd"
   ],
   "note": "False for graphene.bilayer with gamma4 (C89_bilayer_gamma4_witness): B1-B2 hoppings are missing, which breaks the inversion symmetry. The rest is proved in full for the functions of the repository, in exact arithmetic with the numbers of the source: C89_monolayer (one to three shells), C89_dirac, C89_width, C89_monolayer_alt, C89_monolayer_4atom, C89_bilayer and C89_bilayer_inversion (without gamma4), C89_chain, C89_square, C89_phosphorene (mirrors), C89_tmd (rotation and mirror). HasBands includes the whole way from the building calls to the matrix (C88)."
  },
  {
   "property": "C90",
   "status": "proved",
   "theorems": [
    "Verif.Field.C90_peierls",
    "Verif.Field.C90_flux",
    "Verif.Field.C90_motion",
    "Verif.Field.C90_reversal",
    "Verif.Field.C90_period",
    "Verif.Field.C90_ready",
    "Verif.Field.C90_translation",
    "Verif.Field.C90_ribbon",
    "Verif.Field.C90_potential",
    "Verif.Field.C90_coulomb",
    "Verif.Field.C90_coulomb_witness",
    "Verif.Field.C90_mass",
    "Verif.Field.C90_mass_orbitals_witness",
    "Verif.Field.C90_mass_levels",
    "Verif.Field.C90_gap",
    "Verif.Field.C90_strain",
    "Verif.Field.C90_strain_factor",
    "Verif.Field.C90_unstrained_witness",
    "Verif.Field.C90_triaxial",
    "Verif.Field.C90_bump"
   ],
   "note": "Exact arithmetic with the constants of the source; other modifiers may be any that act elementwise. The claims with a magnetic field and strain are for systems without periodic boundaries (C90_ribbon and C90_translation give the condition under which they carry over by C86); C90_ready shows that every system made from a lattice meets the hypothesis Ready. Of mass_term one orbital per site is assumed (it fails otherwise: C90_mass_orbitals_witness), of coulomb_potential a positive cutoff (the default 0 fails on a site at the offset: C90_coulomb_witness). C90_unstrained_witness: strain of size zero changes hoppings since a is not sqrt(3) a_cc."
  },
  {
   "property": "C91",
   "status": "proved",
   "theorems": [
    "Verif.Kpm.C91_lorentz",
    "Verif.Kpm.C91_closeness",
    "Verif.Kpm.C91_converges",
    "Verif.Kpm.C91_greens",
    "Verif.Kpm.C91_ldos"
   ],
   "note": "Exact real arithmetic. C91_lorentz and C91_converges are about the sum of C59/C62 (greensSpec), C91_greens composes this with the whole calculation (every format and choice of algorithms, number of moments from the broadening; elements (col, row) as found in C59). Eigen H U E is the diagonalisation, which every Hermitian matrix has (exists_eigen)."
  },
  {
   "property": "C92",
   "status": "partial",
   "theorems": [
    "Verif.Leads.C92_h0",
    "Verif.Leads.C92_h1_partial",
    "Verif.Leads.C92_h1_exact",
    "Verif.Leads.C92_infinite_partial",
    "Verif.Leads.C92_bands_partial",
    "Verif.Leads.C92_hermitian",
    "Verif.Leads.C92_wave",
    "Verif.Leads.C92_long",
    "Verif.Leads.C92_plain",
    "Verif.Leads.C92_attached",
    "Verif.Leads.C92_norb_exact",
    "Verif.Leads.C92_orbitals_witness",
    "Verif.Leads.C92_norb_witness",
    "Verif.Sublat.C92_element_exact",
    "Verif.Sublat.C92_element_witness"
   ],
   "note": "lead.h0 is proved in full (C92_h0). lead.h1 is false in general: hoppings which point out of the system are inserted without their adjoint. C92_h1_exact gives the exact criterion (each such hopping equals its own adjoint), under SquareBack; if their matrices are not square, elements are written at other sites or at column -1 (C92_orbitals_witness). C92_infinite_partial and C92_bands_partial further need that no hopping reaches over two cells (false otherwise: C92_long) and that modifiers do the same in each cell. C92_norb_exact is the exact criterion for the counts given to kwant, which fails for sublattices not ordered by number of orbitals (C92_norb_witness). C92_element_exact: single elements for kwant are right exactly for one orbital per site."
  },
  {
   "property": "C93",
   "status": "partial",
   "theorems": [
    "Verif.Binding.SweepResult.C93_getitem_partial",
    "Verif.Binding.SweepResult.C93_getitem_values",
    "Verif.Binding.SweepResult.C93_cropped",
    "Verif.Binding.SweepResult.C93_mirrored_partial",
    "Verif.Binding.SweepResult.C93_file",
    "Verif.Binding.SweepResult.C93_nearest",
    "Verif.Binding.SweepResult.C93_interpolated_partial",
    "Verif.Binding.SweepResult.C93_column_witness",
    "Verif.Binding.SweepResult.C93_masks_witness",
    "Verif.Binding.SweepResult.C93_mirrored_witness",
    "Verif.Binding.SweepResult.C93_axis_witness",
    "Verif.Binding.SweepResult.C93_integer_witness"
   ],
   "note": "False in general for indexing: numpy takes two masks or index arrays in pairs, and a single column comes back as a row, so that the data do not fit the parameters; C93_getitem_partial is the exact criterion (C93_column_witness, C93_masks_witness). mirrored loses the values at the first place if the axis does not start at zero (C93_mirrored_witness) and returns None for an invalid axis, since the exception is not raised (C93_axis_witness). interpolated rounds the new places of an integer axis (C93_integer_witness). cropped, save_txt and slices are proved in full. Exact arithmetic; numpy and interp1d (linear) by their documentation; plots and _convolved are not modelled."
  },
  {
   "property": "C94",
   "status": "partial",
   "theorems": [
    "Verif.Kpm.Py.C94_moments",
    "Verif.Kpm.Py.C94_ldos",
    "Verif.Kpm.Py.C94_agree",
    "Verif.Kpm.Py.C94_scale",
    "Verif.Kpm.Py.C94_bounds",
    "Verif.Kpm.Py.C94_bounds_witness",
    "Verif.Kpm.Py.C94_shape",
    "Verif.Kpm.Py.C94_sites",
    "Verif.Kpm.Py.C94_spatial",
    "Verif.Kpm.Py.C94_structure_map",
    "Verif.Kpm.Py.C94_ldos_at"
   ],
   "note": "Moments, densities, agreement with every execution of the C++ calculation, sites, maps and series are proved in full (exact arithmetic). False in general: the bounds are those of the model of the first calculation, also after another model is assigned (C94_bounds for every history, C94_bounds_witness: eigenvalues leave the interval of the expansion); the two implementations scale alike iff the center is zero or at least 1/10000 of the half width (C94_scale); reduce=False has the documented shape, and reduced() works, iff there are several energies and several orbitals (C94_shape); ldos(position, sublattice) with a name which selects nothing is the series of the first site (last part of C94_ldos_at)."
  },
  {
   "property": "C95",
   "status": "proved",
   "theorems": [
    "Verif.Pipeline.EndToEnd.C95_matrix",
    "Verif.Pipeline.EndToEnd.C95_greens",
    "Verif.Pipeline.EndToEnd.C95_ldos"
   ],
   "note": "Composes C50, C21, C33, C62, C85 and C91 without any hypothesis about intermediate results. Exact arithmetic; the bounds are given (the automatic ones need not enclose the spectrum: C64); the Hamiltonian is not exactly the center of the bounds times the unit matrix (then the scaled matrix has no elements; see Setup of C51); reordering needs a connected system (it fails otherwise: C24); one energy matrix fits into the buffer (C23); Green function elements are (col, row) as found in C59."
  },
  {
   "property": "C96",
   "status": "partial",
   "theorems": [
    "Verif.Pipeline.Generators.C96_build",
    "Verif.Pipeline.Generators.C96_extends",
    "Verif.Pipeline.Generators.C96_lattice",
    "Verif.Pipeline.Generators.C96_succeeds",
    "Verif.Pipeline.Generators.C96_ordered",
    "Verif.Pipeline.Generators.C96_reversed",
    "Verif.Pipeline.Generators.C96_self",
    "Verif.Pipeline.Generators.C96_hermitian_partial",
    "Verif.Pipeline.Generators.C96_reversed_witness",
    "Verif.Pipeline.Generators.C96_rectangular_witness",
    "Verif.Pipeline.Generators.C96_self_witness",
    "Verif.Pipeline.Generators.C96_upper_witness",
    "Verif.Pipeline.Generators.C96_orbitals_witness"
   ],
   "note": "Proved for all generators which return pairs of existing sites with fitting energies, each new family having at least as many orbitals as the families before it (AcceptsAll); rejected iff the two lists differ in length (C96_succeeds). False in general: a pair with the larger index first gets the conjugate transpose of the energy (C96_reversed, C96_reversed_witness), with a rectangular energy undefined behaviour (C96_rectangular_witness); a pair of equal indices adds the energy and its conjugate transpose (C96_self); new sites with fewer orbitals than the lattice put hoppings into wrong rows (C96_orbitals_witness); an upper triangular onsite energy is accepted but not made Hermitian (C96_upper_witness; Hermitian otherwise: C96_hermitian_partial)."
  },
  {
   "property": "C97",
   "status": "proved",
   "theorems": [
    "Verif.Kpm.Float.C97_moments",
    "Verif.Kpm.Float.C97_greens",
    "Verif.Kpm.Float.C97_function",
    "Verif.Kpm.Float.C97_unit",
    "Verif.Kpm.Float.C97_identical",
    "Verif.Kpm.Float.C97_vectors"
   ],
   "note": "Standard model of floating-point arithmetic: every operation has a bounded relative error (C97_unit: met by binary arithmetic of any precision); no overflow, underflow, infinities or NaN; contraction by the compiler of the statement r += a * b is allowed where the error bound holds. The rounding of the scaled matrix is a hypothesis (Holds), discharged in C99; that of collecting and reconstructing is not included. The vectorised kernel with fused operations does not give identical numbers (C97_vectors)."
  },
  {
   "property": "C98",
   "status": "proved",
   "theorems": [
    "Verif.Hamiltonian.C98_hermitian",
    "Verif.Hamiltonian.C98_hermitian_complex",
    "Verif.Hamiltonian.C98_hermitian_real",
    "Verif.Hamiltonian.C98_accuracy",
    "Verif.Hamiltonian.C98_eigenvalues",
    "Verif.Hamiltonian.C98_terms",
    "Verif.Hamiltonian.C98_phase_single"
   ],
   "note": "Roundings are odd, idempotent and have a bounded relative error (Format; met by binary arithmetic of any precision, Format.binary); no overflow, underflow, signed zeros, infinities or NaN; complex multiplication without contraction. The relative error of the terms is a hypothesis (Terms.Near), discharged for models without modifiers up to the relative error of the phases (C98_terms); C98_phase_single shows that this error is not below 2^-27 for the phase exp(i pi/4), whatever the type of the Hamiltonian. That the two ways of building the matrix give the same digits is C22_build_paths_agree, which needs no law of arithmetic."
  },
  {
   "property": "C99",
   "status": "proved",
   "theorems": [
    "Verif.Kpm.Float.C99_greens",
    "Verif.Kpm.Float.C99_function",
    "Verif.Kpm.Float.C99_complex",
    "Verif.Kpm.Float.C99_real",
    "Verif.Kpm.Float.C99_scale",
    "Verif.Kpm.Float.C99_stores",
    "Verif.Kpm.Float.C99_system"
   ],
   "note": "Roundings as in C97 and C98 (bounded relative errors; no overflow, underflow, infinities or NaN). The interval [b - a, b + a] contains the exact spectrum (hspec): that the computed bounds do is C17/C93 and depends on the Lanczos iteration. The offset b counts as exact (val b = c): its rounding is absorbed by the choice of the interval. With reordering the row must be connected to all others (hconn), as in C23. Diagonal moments (a single column equal to the row) use other kernels: C100. Collecting and reconstructing are exact."
  },
  {
   "property": "C100",
   "status": "proved",
   "theorems": [
    "Verif.Kpm.Float.C100_moments",
    "Verif.Kpm.Float.C100_ldos",
    "Verif.Kpm.Float.C100_density",
    "Verif.Kpm.Float.C100_unit",
    "Verif.Kpm.Float.C100_line"
   ],
   "note": "Roundings, scales and connectedness as in C97 to C99. The number of moments is even, with interleaving twice an odd number (what round_num_moments gives, C25). The orders of summation are trees that contain every product once (Orders.Valid); C100_line shows that simple loops are such orders, with D = 7 n + 10. A column of a batch of vectors behaves like a single vector with the kernel for vectors of one row; batches are not modelled separately here. The error of the scalar products grows with the number of sites unless the sums are trees: unlike C99 the bound is not independent of the size. Reconstruction is exact."
  },
  {
   "property": "C101",
   "status": "proved",
   "theorems": [
    "Verif.Kpm.C101_columns",
    "Verif.Kpm.C101_batches",
    "Verif.Kpm.C101_singles",
    "Verif.Kpm.C101_one_thread",
    "Verif.Kpm.C101_one_thread_columns",
    "Verif.Kpm.C101_can_finish",
    "Verif.Kpm.C101_ldos_depends",
    "Verif.Kpm.Float.C101_average",
    "Verif.Kpm.Float.C101_error",
    "Verif.Kpm.Float.C101_dos_depends",
    "Verif.Kpm.Float.C101_ldos"
   ],
   "note": "What the kernels compute is a parameter (Columns): moments depend on the number of the first vector of the job and on its kind, not on the thread (the kernels have no shared state; C30, C97). The accumulator is modelled with rounded additions and division by a real number, the order of rowwise().sum() is an arbitrary tree. C101_ldos connects with the kernels of C100, with any kernel and order for single vectors and any other for batches. C101_ldos_depends and C101_dos_depends are the executions with different digits (in two-digit binary arithmetic)."
  },
  {
   "property": "C102",
   "status": "partial",
   "theorems": [
    "Verif.Kpm.Progress.C102_calls",
    "Verif.Kpm.Progress.C102_returns",
    "Verif.Kpm.Progress.C102_deferred_never_returns",
    "Verif.Kpm.Progress.C102_bar",
    "Verif.Kpm.Progress.C102_one_vector",
    "Verif.Kpm.Progress.C102_no_vectors",
    "Verif.Kpm.Progress.C102_one_thread",
    "Verif.Kpm.Progress.C102_over_hundred",
    "Verif.Kpm.Progress.C102_bar_can_finish",
    "Verif.Kpm.Progress.C102_goes_back",
    "Verif.Kpm.Progress.C102_output",
    "Verif.Kpm.Progress.C102_output_one",
    "Verif.Kpm.Progress.C102_output_lost",
    "Verif.Kpm.Progress.C102_inside",
    "Verif.Kpm.Progress.C102_overlap"
   ],
   "note": "False in general, with witnesses: C102_deferred_never_returns (the caller holds the lock of the interpreter while it waits for threads that need it), C102_over_hundred, C102_goes_back, C102_no_vectors with C102_output_lost, C102_overlap. Proved otherwise: C102_returns and C102_calls for methods and for parallel_for with several threads, C102_bar, C102_one_thread, C102_output, C102_inside. pybind11 is not part of the repository; that a std::function made of a Python callable takes the lock of the interpreter is assumed. A thread of Python can be interrupted between reading, testing, setting and drawing the number of the bar, not within these. Times (elapsed, remaining) and the characters of the bar are not modelled, nor is text printed by other threads between the last drawing and the end of the capture."
  },
  {
   "property": "C103",
   "status": "proved",
   "theorems": [
    "Verif.Kpm.Float.C103_system",
    "Verif.Kpm.Float.C103_density"
   ],
   "note": "Composition of C98 (the Hamiltonian of a system), C99 (scaling), C100 (moments) and C101 (threads). Roundings, casts and modifiers as in C98, scales as in C99. The energies must lie in [c - a, c + a], which is what the bounds of C83 and C84 are for. Reconstruction from moments is exact, as in C100."
  },
  {
   "property": "C104",
   "status": "partial",
   "theorems": [
    "Verif.Thread.C104_places",
    "Verif.Thread.C104_count",
    "Verif.Thread.C104_waiting",
    "Verif.Thread.C104_memory",
    "Verif.Thread.C104_arguments",
    "Verif.Thread.C104_unbounded",
    "Verif.Thread.C104_attained",
    "Verif.Thread.C104_refs",
    "Verif.Thread.C104_lift",
    "Verif.Thread.C104_shared"
   ],
   "note": "The documented bound is false: C104_unbounded (for every number of threads and every queue size, all jobs can be in memory at once, because the queue of finished jobs has no limit). Proved: jobs whose computation is not finished are at most queue_size + num_threads + 1 (C104_waiting), and this is attained (C104_attained); all jobs are at most that plus one plus the finished jobs that wait to be retired (C104_memory); every produced job is in exactly one place (C104_places, C104_count). Reference counts are proved correct if produce returns a new object for every job, which the functions of the library do (C104_refs, for all executions of C31 by C104_lift); false if the same object is returned for two jobs: C104_shared, Queue::pop copies and destroys a Python reference without the interpreter's lock. Reads and writes of counts are single steps; exceptions of user functions end the program and are not modelled."
  },
  {
   "property": "C105",
   "status": "proved",
   "theorems": [
    "Verif.Kpm.C105_mean",
    "Verif.Kpm.C105_calculation",
    "Verif.Kpm.C105_signs",
    "Verif.Kpm.C105_phases",
    "Verif.Kpm.C105_probability",
    "Verif.Kpm.C105_jackson",
    "Verif.Kpm.C105_moments",
    "Verif.Kpm.C105_size"
   ],
   "note": "Random numbers are independent and equally distributed on [0, 1) (Lebesgue measure, product over all elements of all vectors), which is an idealisation of std::mt19937 and std::uniform_real_distribution; the generator of a calculation always has the same seed, so repeated calls give the same numbers. Arithmetic is exact; roundings are C100 and C101. Real Hamiltonians are treated as complex ones with random signs. The mean square and the mean are shown to exist (Estimates)."
  },
  {
   "property": "C106",
   "status": "partial",
   "theorems": [
    "Verif.Lattice.C106_exact",
    "Verif.Lattice.C106_accepted",
    "Verif.Lattice.C106_valid",
    "Verif.Lattice.C106_stored",
    "Verif.Lattice.C106_tolerance_witness",
    "Verif.Lattice.C106_vector"
   ],
   "note": "Exact for comparisons without tolerance (C106_exact). The functions of Eigen which the code calls compare with a tolerance of 1e-12 (written from the documentation of Eigen, whose source is not part of the repository): C106_accepted says exactly what is accepted, C106_valid that everything documented is. False in general: an imaginary part up to 1e-12 on the diagonal is accepted and stored, so that the matrix is not Hermitian (C106_tolerance_witness); C106_stored bounds this and what is dropped below the diagonal."
  },
  {
   "property": "C107",
   "status": "proved",
   "theorems": [
    "Verif.Kpm.C107_conductivity"
   ],
   "note": "Mean and mean square are over independent, equally distributed random numbers as in C105. The number of moments is as in C61 (the remainder by 4 is 2), the arithmetic is exact, and the bound on the deviation is the Frobenius norm of the matrix whose trace is the result: it is finite for every calculation, its size is not estimated. The integral over energies itself has the errors recorded in C61."
  },
  {
   "property": "C108",
   "status": "proved",
   "theorems": [
    "Verif.Report.C108_duration",
    "Verif.Report.C108_python",
    "Verif.Report.C108_digits",
    "Verif.Report.C108_monotone",
    "Verif.Report.C108_same",
    "Verif.Report.C108_suffix",
    "Verif.Report.C108_witness"
   ],
   "note": "Times are whole numbers of nanoseconds in C++ and rational numbers in Python; the conversion to float before formatting is exact in the model. The roundings of {:.2f} and {:.3g} are any functions that round to the nearest (Rounds, ThreeDigits), so the library fmt is not modelled. C++ cuts off where Python rounds (C108_witness: 59.7 seconds are 59s and 60s), which C108_same delimits."
  },
  {
   "property": "C109",
   "status": "proved",
   "theorems": [
    "Verif.Images.C109_images",
    "Verif.Images.C109_bonds",
    "Verif.Images.C109_twice",
    "Verif.Images.C109_tolerance_witness"
   ],
   "note": "Arithmetic of shifts is exact; the comparison is any function that tells the images within reach apart (Separated). Without this it is false, since the tolerance of FuzzySet is relative (C109_tolerance_witness). Bonds between two images of the same level are drawn more than once, at the same place (C109_twice). What matplotlib does with lines and circles is not modelled."
  },
  {
   "property": "C110",
   "status": "partial",
   "theorems": [
    "Verif.Convolve.C110_gaussian_partial",
    "Verif.Convolve.C110_bounds",
    "Verif.Convolve.C110_constant",
    "Verif.Convolve.C110_rings",
    "Verif.Convolve.C110_distance_witness",
    "Verif.Convolve.C110_integer_witness"
   ],
   "note": "True if all sites are on a half-line from the origin (C110_gaussian_partial). False in general: the code takes the difference of the distances from the origin for the distance of two sites (C110_distance_witness), so all sites on a circle around the origin get the same value (C110_rings). Constant data and the range are kept for every position (C110_constant, C110_bounds), but not for data of an integer type, where a constant one becomes zero (C110_integer_witness)."
  },
  {
   "property": "C111",
   "status": "partial",
   "theorems": [
    "Verif.SiteRadius.C111_overlap_partial",
    "Verif.SiteRadius.C111_lattice",
    "Verif.SiteRadius.C111_positive",
    "Verif.SiteRadius.C111_witness"
   ],
   "note": "True for the sublattices of one cell (C111_overlap_partial), and for all sites if none are closer than the spacing that the code takes (C111_lattice). False in general: the spacing is that of the sublattices in one cell, so sites of neighboring cells can be closer (C111_witness: a chain with sublattices at 0 and 0.9 of the cell). The radius is positive (C111_positive). Distances are any function; the area of the cell and the number of visible sublattices are parameters."
  },
  {
   "property": "C112",
   "status": "partial",
   "theorems": [
    "Verif.Colors.C112_bins",
    "Verif.Colors.C112_color",
    "Verif.Colors.C112_consistent",
    "Verif.Colors.C112_distinct",
    "Verif.Colors.C112_palette_witness",
    "Verif.Colors.C112_radii",
    "Verif.Colors.C112_small_witness",
    "Verif.Colors.C112_order"
   ],
   "note": "The same kind always has the same color (C112_color, C112_consistent). Different kinds have different colors exactly if one has a color before the last of the palette (C112_distinct); with more kinds than colors it is false (C112_palette_witness: the eighth kind of hopping has the color of the seventh). Radii grow with the values if these differ by more than 1e-8 (C112_radii); below, all are equal (C112_small_witness). BoundaryNorm and ListedColormap of matplotlib are written from their documentation."
  },
  {
   "property": "C113",
   "status": "proved",
   "theorems": [
    "Verif.Hexagon.C113_no_dangling",
    "Verif.Hexagon.C113_armchair",
    "Verif.Hexagon.C113_width",
    "Verif.Hexagon.C113_center"
   ],
   "note": "Proved with the constants of the repository, through the polygon test of the C++ code in exact arithmetic, for every width up to 14 micrometers; the bound is needed because a is smaller than sqrt(3) a_cc by five parts in a million. Rounding of positions to 32 bits is not modelled."
  },
  {
   "property": "C114",
   "status": "partial",
   "theorems": [
    "Verif.GrapheneMod.C114_strain_symmetric",
    "Verif.GrapheneMod.C114_strain_decay",
    "Verif.GrapheneMod.C114_strain_nearest",
    "Verif.GrapheneMod.C114_strain_next_witness",
    "Verif.GrapheneMod.C114_triaxial_zero",
    "Verif.GrapheneMod.C114_triaxial_symmetric",
    "Verif.GrapheneMod.C114_bump",
    "Verif.GrapheneMod.C114_bump_flat",
    "Verif.GrapheneMod.C114_bump_witness",
    "Verif.GrapheneMod.C114_bump_bilayer_witness",
    "Verif.GrapheneMod.C114_coulomb_finite",
    "Verif.GrapheneMod.C114_coulomb",
    "Verif.GrapheneMod.C114_mass"
   ],
   "note": "Strained hoppings are symmetric, keep their sign and decay with length (C114_strain_symmetric, C114_strain_decay); without strain nearest neighbors keep theirs up to 1e-4 (C114_strain_nearest), but next-nearest neighbors do not (C114_strain_next_witness). Triaxial strain has threefold symmetry and vanishes without field. A bump is right for sites at z = 0 and only for those (C114_bump, C114_bump_flat): the layers of a bilayer collapse (C114_bump_witness, C114_bump_bilayer_witness). The Coulomb potential is finite exactly with a cutoff or off the charge (C114_coulomb_finite). Exact arithmetic."
  },
  {
   "property": "C115",
   "status": "partial",
   "theorems": [
    "Verif.GrapheneLattice.C115_grid",
    "Verif.GrapheneLattice.C115_nearest",
    "Verif.GrapheneLattice.C115_next_nearest",
    "Verif.GrapheneLattice.C115_third_nearest",
    "Verif.GrapheneLattice.C115_same_neighbors",
    "Verif.GrapheneLattice.C115_same_places",
    "Verif.GrapheneLattice.C115_bilayer",
    "Verif.GrapheneLattice.C115_skew",
    "Verif.GrapheneLattice.C115_gamma4_witness"
   ],
   "note": "Proved for all pairs of sites of the infinite lattices, for all three monolayers, all numbers of neighbors, and gamma0, gamma1 and gamma3 of the bilayer. gamma4 joins exactly A1 with A2 (C115_skew) but not B1 with B2, which are at the same distance in the same layers (C115_gamma4_witness). Positions on the grid with a = sqrt(3) a_cc."
  },
  {
   "property": "C116",
   "status": "proved",
   "theorems": [
    "Verif.Phosphorene.C116_lengths",
    "Verif.Phosphorene.C116_numbers",
    "Verif.Phosphorene.C116_included"
   ],
   "note": "For all values of the lattice constants and of the lengths derived from the angles."
  }
 ]
}