{"id": "C01", "title": "Sublattice labels survive run-length compression", "statement": "After any sequence of calls that add sites of a given sublattice, the decompressed label array of the system is exactly the sequence of labels in the order the sites were added, and its size is the total number of sites added.", "quantifier": "every history of add(id, norb, count) calls, any ids, orbital counts and site counts", "why_tests_cant": "The block structure depends on the whole history of calls; a test only samples a few label sequences.", "anchors": ["cppcore/src/system/CompressedSublattices.cpp: CompressedSublattices::add, decompressed, decompressed_size"]}
{"id": "C02", "title": "Filtering sites keeps sublattice labels aligned with the surviving sites", "statement": "Removing sites with a keep-mask leaves a compressed label table whose decompression is the original label array with exactly the masked-out positions deleted; filtering twice is the same as filtering once with the combined mask.", "quantifier": "every label table and every keep-mask of matching length, any number of successive filters", "why_tests_cant": "Off-by-one block accounting only shows up for particular block/mask alignments.", "anchors": ["cppcore/src/system/CompressedSublattices.cpp: CompressedSublattices::filter", "cppcore/src/system/System.cpp: remove_invalid"]}
{"id": "C03", "title": "Site indices and Hamiltonian indices correspond one to one", "statement": "For any system, the Hamiltonian rows of the sites tile 0..hamiltonian_size-1 without gap or overlap, in site order: every Hamiltonian index belongs to exactly one (site, orbital) pair, and to_hamiltonian_indices(site) returns exactly that site's consecutive rows and is undefined only for sites outside the system.", "quantifier": "every list of sublattice blocks (any ids, site counts, orbital counts) and every site/Hamiltonian index", "why_tests_cant": "Multi-orbital blocks of every size and mixture must be right; a test fixes one mixture.", "anchors": ["cppcore/src/system/System.cpp: System::hamiltonian_size, to_hamiltonian_indices, expanded_positions", "cppcore/include/system/CompressedSublattices.hpp: CompressedSublattices::It"]}
{"id": "C04", "title": "Saved systems reload unchanged", "statement": "The array form of the compressed sublattices and of the hopping blocks, as written out for saving, rebuilds exactly the same object, and the hopping matrix exported in CSR form contains each stored hopping exactly once with its family id.", "quantifier": "every compressed sublattice table and every hopping block table", "why_tests_cant": "A round trip must hold for all contents including empty blocks and empty families.", "anchors": ["cppcore/src/system/CompressedSublattices.cpp: ctor, alias_ids, site_counts, orbital_counts", "cppcore/src/system/HoppingBlocks.cpp: ctor, get_serialized_blocks, tocsr"]}
{"id": "C05", "title": "Generated hoppings are normalised and complete", "statement": "Appending generated hoppings to a family makes the family contain exactly the old and the new site pairs, each unordered pair once, lower index first, sorted; appending the same pairs again (or with the ends swapped) changes nothing; arrays of different length are rejected and nothing changes.", "quantifier": "every existing hopping list and every pair of generator index arrays", "why_tests_cant": "Order, duplicates and orientation of generator output are arbitrary.", "anchors": ["cppcore/src/system/HoppingBlocks.cpp: HoppingBlocks::append", "cppcore/src/system/StructureModifiers.cpp: apply(HoppingGenerator)"]}
{"id": "C06", "title": "Neighbour counts equal the degree of each site", "statement": "count_neighbors returns for every site the number of stored hoppings that touch it, and the counts sum to twice the number of hoppings.", "quantifier": "every hopping table whose indices are within the system", "why_tests_cant": "Depends on the complete hopping table.", "anchors": ["cppcore/src/system/HoppingBlocks.cpp: HoppingBlocks::count_neighbors, nnz"]}
{"id": "C07", "title": "Removing sites from a built system leaves a consistent system", "statement": "After invalid sites are removed from a system, the hoppings are exactly the hoppings between surviving sites, expressed in the new site numbering, and every stored index is below the new number of sites.", "quantifier": "every system and every set of removed sites", "why_tests_cant": "Whether indices are stale depends on which sites disappear; most tests remove sites before the hoppings exist.", "anchors": ["cppcore/src/system/System.cpp: remove_invalid", "cppcore/src/system/HoppingBlocks.cpp: HoppingBlocks::filter"]}
{"id": "C08", "title": "No hopping is ever defined twice", "statement": "After any sequence of lattice-building calls (successful or rejected), no two hopping terms connect the same pair of sites, in either direction and across all families, and no term connects a site to itself; a call that would create one is rejected.", "quantifier": "every history of add_sublattice / add_alias / register_hopping_energy / add_hopping calls with arbitrary arguments", "why_tests_cant": "Requires all histories, including conjugate duplicates and failed calls.", "anchors": ["cppcore/src/Lattice.cpp: Lattice::add_hopping, register_hopping_energy", "cppcore/include/Lattice.hpp: HoppingTerm operator=="]}
{"id": "C09", "title": "Sublattice and hopping ids are dense, unique and stable", "statement": "After any sequence of lattice-building calls the sublattice ids are exactly 0..nsub-1 in creation order, the hopping family ids are exactly 0..nhop-1, no later call changes an existing id, name or energy, and names are unique.", "quantifier": "every history of lattice-building calls", "why_tests_cant": "Requires induction over all call histories.", "anchors": ["cppcore/src/Lattice.cpp: make_unique_sublattice_id, add_sublattice, add_alias, register_hopping_energy"]}
{"id": "C10", "title": "Every valid lattice has a site registry", "statement": "For every lattice that can be built, the registry of site families (used when building a system) can be constructed and resolves the id of each sublattice to its own name and energy.", "quantifier": "every lattice reachable through the building API, including aliases in any order", "why_tests_cant": "Only particular interleavings of aliases and sublattices expose the failure.", "anchors": ["cppcore/src/Lattice.cpp: Lattice::site_registry, add_alias", "cppcore/src/system/Registry.cpp: SiteRegistry"]}
{"id": "C11", "title": "The optimised unit cell describes the same lattice", "statement": "The unit cell used by the system builder is a reordering of the sublattices, sorted by orbital count with aliases adjacent, and its hopping lists contain, for every hopping term, one entry seen from each end with opposite direction, the ends renamed consistently, and nothing else.", "quantifier": "every lattice (any number of sublattices, aliases, families and terms)", "why_tests_cant": "The renaming must be right for all permutations.", "anchors": ["cppcore/src/Lattice.cpp: OptimizedUnitCell::OptimizedUnitCell"]}
{"id": "C12", "title": "max_hoppings bounds the off-diagonal entries of every row", "statement": "For a system made from a lattice without generators, no Hamiltonian row has more entries than max_hoppings()+1, whatever the shape, so reserved storage is never exceeded.", "quantifier": "every lattice, every site of that lattice, every orbital", "why_tests_cant": "Bound must hold for all lattices and shapes.", "anchors": ["cppcore/src/Lattice.cpp: Lattice::max_hoppings", "cppcore/include/hamiltonian/Hamiltonian.hpp: build_main"]}
{"id": "C13", "title": "Lattice coordinates and positions are inverse to each other", "statement": "Translating a Cartesian position given by lattice-vector coordinates returns those coordinates, for 1, 2 and 3 dimensional lattices with linearly independent vectors; a unit-cell position is the integer combination of the lattice vectors plus the offset.", "quantifier": "all independent lattice vectors and all coordinates (exact arithmetic)", "why_tests_cant": "Linear algebra identity over all inputs.", "anchors": ["cppcore/src/Lattice.cpp: translate_coordinates, calc_position"]}
{"id": "C14", "title": "Walking the foundation visits every site exactly once", "statement": "Iterating over the foundation visits every (i, j, k, sublattice) exactly once, and the running index equals the site's position in the arrays; slices visit exactly the sites within the slice.", "quantifier": "every foundation size and sublattice count, every slice", "why_tests_cant": "Odometer carries are size dependent.", "anchors": ["cppcore/include/system/Foundation.hpp: Foundation::Iterator, SpatialSliceIterator, SublatticeSlice, Site::reset_idx"]}
{"id": "C15", "title": "Neighbourhood is symmetric and stays inside the foundation", "statement": "for_each_neighbor visits only sites inside the foundation, and site B is visited from A through a hopping exactly as often as A is visited from B through the opposite hopping.", "quantifier": "every unit cell, every foundation size, every pair of sites", "why_tests_cant": "All pairs near all boundaries.", "anchors": ["cppcore/include/system/Foundation.hpp: Site::for_each_neighbor"]}
{"id": "C16", "title": "Final site numbering is an order preserving bijection", "statement": "The sites of the final system are numbered 0..n-1 in foundation order, every valid site gets exactly one number, invalid sites get none, and hoppings of the system are exactly the lattice hoppings between valid sites, each once.", "quantifier": "every validity mask and foundation", "why_tests_cant": "All masks.", "anchors": ["cppcore/src/system/Foundation.cpp: Foundation::get_finalized_indices", "cppcore/src/system/System.cpp: populate_system"]}
{"id": "C17", "title": "Removing dangling sites leaves no dangling site next to a removed one", "statement": "After removal every site that lost a neighbour either has at least min_neighbors valid neighbours or is removed, the recorded neighbour counts stay correct, only sites below the minimum are removed, and the recursion terminates.", "quantifier": "every foundation graph, validity mask and min_neighbors", "why_tests_cant": "Recursive cascades have unbounded depth.", "anchors": ["cppcore/src/system/Foundation.cpp: detail::clear_neighbors, remove_dangling"]}
{"id": "C18", "title": "A primitive shape has exactly the requested number of cells", "statement": "Primitive(a,b,c) yields exactly a*b*c unit cells (times the number of sublattices), spanning consecutive indices that contain the origin cell; sizes below one are rejected.", "quantifier": "all sizes", "why_tests_cant": "Integer rounding for all parities.", "anchors": ["cppcore/src/system/Foundation.cpp: Foundation(Lattice, Primitive)", "cppcore/src/system/Shape.cpp: Primitive"]}
{"id": "C19", "title": "A shape's foundation contains every site of its bounding box", "statement": "Every lattice site whose position lies in the bounding box of the shape (the parallelepiped hull of its vertices in lattice coordinates) is inside the generated foundation.", "quantifier": "all lattices, offsets allowed by the API, vertices and sites (exact arithmetic)", "why_tests_cant": "Truncation and padding must work for all real positions.", "anchors": ["cppcore/src/system/Foundation.cpp: find_bounds, Foundation(Lattice, Shape)"]}
{"id": "C20", "title": "Translational symmetry closes the lattice", "statement": "With translational symmetry, every hopping of the infinite repeated structure whose cell distance is at most one, and every hopping of any length along a direction whose period is a single cell, is represented exactly once: either inside the unit block or in exactly one boundary with the right shift; boundaries and their opposites are not double counted.", "quantifier": "all foundation sizes, periods that fit into the foundation, validity masks within the periodic area, lattices, and hopping terms with relative index in {-1,0,1} along the periodic directions with a period of more than one cell", "why_tests_cant": "Corner and edge cases in 1, 2 and 3 dimensions for all sizes.", "anchors": ["cppcore/src/system/Symmetry.cpp: TranslationalSymmetry", "cppcore/src/system/System.cpp: populate_boundaries"]}
{"id": "C21", "title": "The Hamiltonian is Hermitian for every wave vector", "statement": "The matrix produced from any system, onsite and hopping energies, and wave vector equals its own conjugate transpose.", "quantifier": "every system, every Hermitian onsite energy, every hopping energy, every phase of modulus one, any number of orbitals", "why_tests_cant": "Tests check a few wave vectors and models.", "anchors": ["cppcore/include/hamiltonian/Hamiltonian.hpp: build_main, build_periodic", "cppcore/src/system/Registry.cpp: check_onsite_energy"]}
{"id": "C22", "title": "The two Hamiltonian build paths agree", "statement": "For systems without overlapping hoppings, the direct insertion path and the triplet path produce the same matrix (or raise the same exception).", "quantifier": "every system without duplicate site pairs and with sites ordered by orbital count, any number of orbitals, arbitrary modifiers", "why_tests_cant": "The path is chosen by the presence of generators.", "anchors": ["cppcore/include/hamiltonian/Hamiltonian.hpp: build_main"]}
{"id": "C23", "title": "Hopping modifiers see every hopping once, whatever the buffer size", "statement": "Applying hopping modifiers in buffered chunks passes every hopping of every family exactly once to the consumer with the value computed from its own energy and its own end positions; the result does not depend on the chunk size, and the no-modifier fast path gives the same result as the general path with no modifiers.", "quantifier": "every hopping table whose energies match the orbital counts of the sites, sites ordered by orbital count (as in every lattice-built system), every chunk size that holds one matrix, every element-wise modifier chain", "why_tests_cant": "Chunk boundaries depend on the number of hoppings (100000 by default).", "anchors": ["cppcore/include/hamiltonian/HamiltonianModifiers.hpp: apply_to_hoppings_impl, HoppingBuffer, IndexTranslator", "cppcore/include/detail/algorithm.hpp: sliced"]}
{"id": "C24", "title": "KPM reordering is an exact relabelling of the scaled Hamiltonian", "statement": "The reordered matrix equals (2/a)(H - b) with rows and columns renamed by a permutation that sends the first target index to 0; vectors and operators reordered with the same map stay consistent; the procedure is well defined exactly when every index is reachable from the first target.", "quantifier": "every sparse square matrix, target index, scale factors", "why_tests_cant": "Graph search over all matrices.", "anchors": ["cppcore/src/kpm/OptimizedHamiltonian.cpp: create_reordered, create_scaled, reorder_indices", "cppcore/include/kpm/OptimizedHamiltonian.hpp: reorder"]}
{"id": "C25", "title": "KPM slices bound the spread of the recursion", "statement": "In the reordered matrix, a row in slice k only has columns in slices k-1..k+1 (structurally symmetric matrix), slice borders increase strictly and end at the system size.", "quantifier": "every structurally symmetric connected matrix", "why_tests_cant": "Graph search over all matrices.", "anchors": ["cppcore/src/kpm/OptimizedHamiltonian.cpp: create_reordered", "cppcore/include/kpm/OptimizedHamiltonian.hpp: SliceMap"]}
{"id": "C26", "title": "KPM moments equal Chebyshev expectation values", "statement": "The moments computed by the basic algorithms equal <l|T_n(H)|r> (zeroth halved), with the diagonal doubling formulas giving the same numbers as the direct recursion for Hermitian H.", "quantifier": "every Hermitian matrix, starting vector, and number of moments accepted by the API", "why_tests_cant": "Identity in all sizes and all moment numbers.", "anchors": ["cppcore/include/kpm/calc_moments.hpp: basic", "cppcore/src/kpm/default/collectors.cpp"]}
{"id": "C27", "title": "The optimal-size optimisation does not change any moment", "statement": "Running the recursion only on the slices selected by the slice map yields exactly the same moments as on the full system, for diagonal and off-diagonal targets.", "quantifier": "every banded slice map, source and destination offsets, moment count", "why_tests_cant": "Light-cone argument over all sizes.", "anchors": ["cppcore/include/kpm/OptimizedHamiltonian.hpp: SliceMap::index", "cppcore/include/kpm/calc_moments.hpp: basic"]}
{"id": "C28", "title": "Interleaving does not change any moment", "statement": "Computing two moments per sweep with lagging slices yields exactly the same vectors and moments as computing them one after another.", "quantifier": "every banded slice map and moment count", "why_tests_cant": "Data hazards depend on slice structure.", "anchors": ["cppcore/include/kpm/calc_moments.hpp: interleaved"]}
{"id": "C29", "title": "ELLPACK and CSR matrices multiply alike", "statement": "Converting a CSR matrix to ELLPACK preserves the linear map, and the KPM multiply kernels (scalar, column-wise, SIMD split loop) all compute y = M x - y on the requested rows and leave other rows unchanged.", "quantifier": "every CSR matrix, row range, vector, alignment", "why_tests_cant": "All row lengths including empty rows and padding.", "anchors": ["cppcore/include/numeric/ellmatrix.hpp: csr_to_ell", "cppcore/include/compute/kernel_polynomial.hpp: kpm_spmv, kpm_spmv_diagonal", "cppcore/include/support/simd.hpp: split_loop"]}
{"id": "C30", "title": "Batched KPM results do not depend on thread timing", "statement": "For every order in which worker threads take starter vectors and deliver results, LDOS column j belongs to target j, and the DOS accumulation is the average over exactly the requested number of vectors.", "quantifier": "every number of vectors, batch size, thread count and delivery order", "why_tests_cant": "Schedules cannot be enumerated by tests.", "anchors": ["cppcore/src/kpm/default/Compute.cpp: operator()(BatchDiagonalMoments*)", "cppcore/src/kpm/Moments.cpp: BatchAccumulatorImpl, BatchConcatenatorImpl", "cppcore/src/kpm/Starter.cpp: UnitStarter"]}
{"id": "C31", "title": "parallel_for handles every job exactly once and never deadlocks", "statement": "For at least one worker thread and any interleaving, every job is produced, computed and retired exactly once, no thread waits forever, and the call returns.", "quantifier": "all numbers of jobs, threads, queue capacities and all interleavings", "why_tests_cant": "Interleavings are unbounded.", "anchors": ["cppcore/include/detail/thread.hpp: Queue, QueueGuard, parallel_for"]}
{"id": "C32", "title": "The thread pool runs every submitted job before join returns", "statement": "All jobs added before join are executed exactly once before join returns, for at least one worker and any interleaving; further joins do nothing.", "quantifier": "all job lists, worker counts and interleavings", "why_tests_cant": "Interleavings are unbounded.", "anchors": ["cppcore/include/detail/thread.hpp: ThreadPool"]}
{"id": "C33", "title": "Scaled energies stay strictly inside (-1, 1)", "statement": "For min < max, every energy within the spectrum bounds is mapped strictly inside (-1, 1) by the scale factors, including when the centre is rounded to zero, and the mapping is strictly increasing.", "quantifier": "all real bounds and energies", "why_tests_cant": "All real inputs.", "anchors": ["cppcore/include/kpm/Bounds.hpp: Scale"]}
{"id": "C34", "title": "The number of moments is rounded up minimally to a legal value", "statement": "The rounded number of moments is at least the requested number, at least 2, satisfies the divisibility required by every algorithm variant, is the least such value, and rounding is idempotent.", "quantifier": "all requested numbers including negative", "why_tests_cant": "All integers.", "anchors": ["cppcore/include/kpm/Kernel.hpp: round_num_moments"]}
{"id": "C35", "title": "Green's function indices are validated", "statement": "calc_greens rejects every index that is not a valid row or column of the Hamiltonian and never reads outside it.", "quantifier": "all Hamiltonian sizes and all index arguments", "why_tests_cant": "Boundary values for all sizes.", "anchors": ["cppcore/src/KPM.cpp: KPM::calc_greens, calc_greens_vector"]}
{"id": "C36", "title": "Conductivity direction strings are validated", "statement": "calc_conductivity accepts exactly the two-letter strings over x, y, z and rejects everything else.", "quantifier": "all strings", "why_tests_cant": "All strings.", "anchors": ["cppcore/src/KPM.cpp: KPM::calc_conductivity"]}
{"id": "C37", "title": "Model results always reflect the current model", "statement": "At any point of any sequence of model changes and reads, the system and Hamiltonian returned equal those of a freshly built model with the same parameters.", "quantifier": "every history of model operations", "why_tests_cant": "Cache staleness depends on the history.", "anchors": ["cppcore/src/Model.cpp: Model::add, set_wave_vector, system, hamiltonian, clear_structure, clear_hamiltonian", "cppcore/include/Model.hpp: clear_structure_modifiers, clear_hamiltonian_modifiers"]}
{"id": "C38", "title": "A rejected call leaves the model and lattice unchanged", "statement": "If a lattice or model building call throws, subsequent results are the same as if the call had not been made.", "quantifier": "every history and every rejected call", "why_tests_cant": "Exception safety over all histories.", "anchors": ["cppcore/src/Lattice.cpp", "cppcore/src/Model.cpp: Model::add"]}
{"id": "C39", "title": "Polygon membership follows the even-odd rule", "statement": "A point is inside a polygon exactly when the number of polygon sides crossed by the leftward ray is odd; the answer does not depend on which vertex the list starts from, on the orientation, or on a common translation of polygon and point.", "quantifier": "all polygons and points (exact arithmetic)", "why_tests_cant": "All vertex lists and positions.", "anchors": ["cppcore/src/system/Shape.cpp: WithinPolygon"]}
{"id": "C40", "title": "find_nearest returns a nearest site", "statement": "find_nearest returns a site of the requested sublattice (or any site when none is given) at minimal distance, the lowest index among ties; unknown names are rejected.", "quantifier": "all positions arrays, sublattices and targets", "why_tests_cant": "All position sets.", "anchors": ["cppcore/src/system/System.cpp: System::find_nearest, sublattice_range"]}
{"id": "C41", "title": "Buffered and sliced loops visit each element once, in order", "statement": "Splitting a sequence into chunks and iterating a sparse matrix in buffers visits exactly the elements of the original sequence in order, with buffers never larger than requested.", "quantifier": "all sequences, buffer sizes at least one, sparse matrices", "why_tests_cant": "All sizes relative to buffer size.", "anchors": ["cppcore/include/detail/algorithm.hpp: sliced", "cppcore/include/numeric/sparse.hpp: Loop::buffered_for_each, slice_for_each"]}
{"id": "C42", "title": "Row-wise insertion builds a correct sorted CSR matrix", "statement": "Inserting entries row by row in any column order yields a CSR matrix with sorted rows containing exactly the inserted entries.", "quantifier": "all sequences of row starts and inserts within capacity", "why_tests_cant": "All insertion orders.", "anchors": ["cppcore/include/numeric/sparse.hpp: CompressedInserter"]}
{"id": "C43", "title": "The velocity operator is anti-Hermitian with zero diagonal", "statement": "The operator built from a Hermitian Hamiltonian and real coordinates satisfies V^dagger = -V, has the same sparsity, and is additive in the coordinates.", "quantifier": "all Hermitian matrices and coordinate vectors", "why_tests_cant": "All matrices.", "anchors": ["cppcore/src/kpm/Moments.cpp: Velocity"]}
{"id": "C44", "title": "Damping kernels preserve the norm and never amplify", "statement": "Each kernel leaves the zeroth moment unchanged; the Lorentz coefficients are strictly decreasing and lie in (0, 1]; the Dirichlet kernel changes nothing; lambda <= 0 is rejected.", "quantifier": "all moment counts and lambda > 0 (real arithmetic)", "why_tests_cant": "Real-analytic facts for all N.", "anchors": ["cppcore/src/kpm/Kernel.cpp"]}
{"id": "C45", "title": "Eigensolver results belong to the current model", "statement": "For every sequence of set_model, clear, solve and eigenvalue reads, returned eigenvalues are those of the Hamiltonian of the last model set, and solving twice does not recompute.", "quantifier": "every history of solver calls", "why_tests_cant": "Cache flags depend on history.", "anchors": ["cppcore/src/solver/Solver.cpp: BaseSolver"]}
{"id": "C46", "title": "Leads attach where they were specified", "statement": "A lead is accepted exactly when the lattice has at least two axes and the direction names one of them with non-zero sign. Building the system fails with an error exactly when the lead's cross-section meets no site, its shape contains no site of the cross-section, or one of its columns meets no site of the system; otherwise leads only add sites, inside their own columns, so that all sites of the lead in the outermost layer of the cross-section exist and each is joined to the original system by an unbroken column. Attaching the same lead again adds nothing.", "quantifier": "all lattices, foundations, states, directions and shapes, any number of leads", "why_tests_cant": "All geometries.", "anchors": ["cppcore/src/Model.cpp: Model::attach_lead", "cppcore/src/leads/Spec.cpp", "cppcore/src/leads/Structure.cpp"]}
{"id": "C47", "title": "Structure modifiers keep the parts of a system in step", "statement": "After any sequence of site-state modifiers, position modifiers, site generators and hopping generators applied to a built system, the sublattice table, the position array and the hopping table agree on the number of sites, no removal is pending and the system is not empty.", "quantifier": "every sequence of system-level modifiers with arbitrary user callbacks, every coherent starting system", "why_tests_cant": "The number of modifier sequences and callback results is unbounded; tests exercise a few fixed orders.", "anchors": ["cppcore/src/system/StructureModifiers.cpp: apply", "cppcore/src/system/System.cpp: remove_invalid", "cppcore/src/Model.cpp: make_system"]}
{"id": "C48", "title": "Registry names and ids are inverse to each other", "statement": "After any sequence of family registrations (successful or rejected), looking up the id of a name and the name of an id are inverse operations, everything registered earlier keeps its id, name and energy, and lookups of unknown names or ids throw out_of_range.", "quantifier": "every registry and every history of registrations with arbitrary names and energies", "why_tests_cant": "Requires induction over all histories, including rejected duplicates.", "anchors": ["cppcore/src/system/Registry.cpp: Registry::register_family, name, energy, id"]}
{"id": "C49", "title": "Every Hamiltonian element is the energy the model prescribes", "statement": "The Hamiltonian element between orbital i of site a and orbital j of site b is exactly the onsite energy (if a = b) plus the hopping energies stored from a to b plus the conjugate transposes of those stored from b to a, plus the same for every periodic boundary multiplied by its Bloch phase. Each energy is the registered one after all modifiers have been applied in order, with the positions of its own sites.", "quantifier": "every system ordered by orbital count, every chain of element-wise modifiers, every wave vector phase, every buffer that holds one matrix, every number of orbitals, both construction paths", "why_tests_cant": "The formula ranges over all systems, matrices, chains of callbacks and buffer splits; tests compare a few known small matrices.", "anchors": ["cppcore/include/hamiltonian/Hamiltonian.hpp: build_main, build_periodic", "cppcore/include/hamiltonian/HamiltonianModifiers.hpp: apply_to_onsite, apply_to_hoppings"]}
{"id": "C50", "title": "The Hamiltonian of a lattice is the textbook tight-binding (Bloch) Hamiltonian", "statement": "For a model made from a lattice (with shape, optional periods and modifiers, without generators) the Hamiltonian element between orbital i of site k and orbital j of site k' equals the onsite energy of the sublattice (if k = k') plus the sum, over every hopping term of the lattice that leads from k to k' or to a periodic copy of k', of its modified energy times the Bloch phase of the translation between the copy and k' itself, plus the conjugate of that sum for the reverse pair. The phase is exp(i k.d) where the copy lies d before k'.", "quantifier": "every sequence of lattice building calls (aliases last), every foundation size, every mask of valid sites, every set of periods that fits, terms at most one cell long along periodic directions, every chain of element-wise modifiers, any number of orbitals, both construction paths", "why_tests_cant": "Tests compare a handful of lattices and wave vectors with stored numbers; the identity ranges over all lattices, shapes, periods and callbacks.", "anchors": ["cppcore/src/Model.cpp: make_system, make_hamiltonian", "cppcore/src/system/System.cpp: populate_system, populate_boundaries", "cppcore/include/hamiltonian/Hamiltonian.hpp: build_main, build_periodic", "cppcore/src/Lattice.cpp"]}
{"id": "C52", "title": "A requested energy resolution is always reached, with no more moments than needed", "statement": "For a positive broadening (in units of the scaled energy) the number of moments chosen by every kernel is the least number accepted by all algorithms for which the kernel's resolution (pi/N for Jackson and Dirichlet, lambda/N for Lorentz) is strictly finer than the requested broadening.", "quantifier": "every positive kernel width and every positive broadening", "why_tests_cant": "Tests check the number of moments for a few broadenings; truncation and rounding at boundaries range over all real numbers.", "anchors": ["cppcore/src/kpm/Kernel.cpp: required_num_moments", "cppcore/include/kpm/Kernel.hpp: round_num_moments", "cppcore/src/kpm/Core.cpp"]}
{"id": "C53", "title": "Densities of states are non-negative and normalised", "statement": "With the default Jackson kernel the (local) density of states is never negative at energies inside the energy bounds, provided the bounds enclose the spectrum. For every kernel its integral over the energy range equals the squared norm of the starting vector, so that of the local density of states of an orbital is 1. All moments are real and bounded by that norm.", "quantifier": "every Hermitian Hamiltonian, every starting vector, every number of moments, every energy inside the bounds", "why_tests_cant": "Tests compare a few spectra with reference data; positivity and normalisation are statements about all Hamiltonians and energies.", "anchors": ["cppcore/include/kpm/reconstruct.hpp: SpectralDensity", "cppcore/src/kpm/Kernel.cpp", "cppcore/src/kpm/Core.cpp: ldos, dos"]}
{"id": "C54", "title": "The local density of states is the imaginary part of the diagonal Green's function", "statement": "For the same number of moments, kernel and energy scale, the local density of states at an orbital is -1/pi times the imaginary part of the Green's function element at that orbital.", "quantifier": "every Hermitian Hamiltonian, starting vector, kernel, number of moments and energy inside the bounds", "why_tests_cant": "It relates two different calculations for all inputs.", "anchors": ["cppcore/include/kpm/reconstruct.hpp: SpectralDensity, GreensFunction"]}
{"id": "C55", "title": "The energy integral of the conductivity is the trapezoidal rule", "statement": "The integral over energy in the Kubo-Bastin conductivity is the trapezoidal rule over the given number of equidistant energy samples; in particular constants are integrated exactly.", "quantifier": "every number of samples (at least two), every function and every width", "why_tests_cant": "The relative error 1/N is invisible at the large N used in tests.", "anchors": ["cppcore/include/kpm/reconstruct.hpp: KuboBastin::integrate"]}
{"id": "C56", "title": "KPM results do not depend on earlier calculations", "statement": "For every sequence of KPM calculations and set_model calls, each calculation returns what a newly constructed KPM object with the last model set would return, or throws the same exception.", "quantifier": "every history of calculations and model changes, every configuration", "why_tests_cant": "Energy bounds and optimised matrices are kept between calls; a stale one shows only for particular sequences of calls.", "anchors": ["cppcore/src/kpm/OptimizedHamiltonian.cpp: optimize_for", "cppcore/src/kpm/Core.cpp: set_hamiltonian", "cppcore/src/KPM.cpp: set_model", "cppcore/src/kpm/Bounds.cpp: compute_bounds"]}
{"id": "C57", "title": "Lines and freeform shapes cover what they claim", "statement": "A line contains exactly the points whose perpendicular foot on it lies between its end points, whichever end point is given first; the bounding vertices of a freeform shape are exactly the corners of the box of the given width around the given center; a shape with fewer than two vertices is rejected.", "quantifier": "all points, end points, widths and centers (exact arithmetic)", "why_tests_cant": "All positions, including those where the angle is undefined.", "anchors": ["cppcore/src/system/Shape.cpp: Line, is_acute_angle, make_freeformshape_vertices"]}
{"id": "C58", "title": "The unit cell of a lead is cut out of the system and repeats along the lead", "statement": "The sites of a lead's unit cell are exactly the sites of its shape in the layer where it attaches, its indices are their numbers in the system, its sublattices and orbital counts are those of the lattice, its inner hoppings are exactly those which the system has between the same sites, and the coupling between neighbouring cells is that of the lattice between a cell and the next one further out.", "quantifier": "all lattices, foundations, states, lead shapes and energies", "why_tests_cant": "All geometries and all energies, including complex ones.", "anchors": ["cppcore/src/leads/Structure.cpp", "cppcore/src/leads/Spec.cpp", "cppcore/include/leads/HamiltonianPair.hpp"]}
{"id": "C51", "title": "KPM results are the Chebyshev elements of the Hamiltonian, whatever algorithm computes them", "statement": "The moments returned for vectors alpha, beta and an operator are <beta|op T_k((H-b)/a)|alpha>, those behind a Green's function are the elements of T_k((H-b)/a) between its two indices, and those behind a local density of states are its diagonal elements at the targets; the zeroth is halved and moments() applies the kernel of the rounded number of moments. The result does not depend on the matrix format, SIMD kernels, reordering, optimal size, interleaving, batching, thread count or schedule. The density is never negative for the Jackson kernel. Mismatched sizes and complex arguments for a real model are rejected.", "quantifier": "every Hermitian Hamiltonian, indices, vectors, operators, number of moments, kernel, storage format, algorithm selection, batch size and thread schedule", "why_tests_cant": "The combinations of algorithms, formats, schedules and Hamiltonians are unbounded; tests compare a few of them on a few systems.", "anchors": ["cppcore/src/kpm/Core.cpp: moments, ldos, greens_vector", "cppcore/src/kpm/OptimizedHamiltonian.cpp: optimize_for", "cppcore/src/kpm/default/Compute.cpp", "cppcore/src/KPM.cpp: moments"]}
{"id": "C59", "title": "calc_greens(i, j) returns element (i, j) of the Green's function", "statement": "The value returned for row i and column j at an energy inside the bounds is the KPM expansion of the element (i, j) of the Green's function of the Hamiltonian.", "quantifier": "every Hermitian Hamiltonian, pair of indices, energy inside the bounds, kernel, storage format and algorithm selection", "why_tests_cant": "For real symmetric Hamiltonians (i, j) and (j, i) agree, so only complex Hamiltonians with non-symmetric elements show a swap.", "anchors": ["cppcore/src/KPM.cpp: calc_greens", "cppcore/src/kpm/Core.cpp: greens_vector", "docs/tutorial/kpm.rst"]}
{"id": "C60", "title": "calc_dos is the average over the requested number of random vectors and counts the states", "statement": "The density of states is the average of the KPM densities of exactly num_random vectors of elements with modulus one, whatever format, algorithm, number of threads, batch size and schedule; its integral is the number of states, it is never negative with the Jackson kernel, and over all sign vectors the moments average to the trace of T_m((H-b)/a).", "quantifier": "every Hermitian Hamiltonian, sequence of random vectors, number of vectors and moments, kernel, storage format, algorithm selection, batch size, thread count and schedule", "why_tests_cant": "The random numbers, schedules and Hamiltonians are unbounded; a test sees one seed.", "anchors": ["cppcore/src/kpm/Core.cpp: dos", "cppcore/src/kpm/Starter.cpp: RandomStarter", "cppcore/src/kpm/Moments.cpp: BatchAccumulator", "cppcore/src/kpm/default/Compute.cpp"]}
{"id": "C61", "title": "calc_conductivity evaluates the Kubo-Bastin formula", "statement": "The conductivity for a chemical potential mu is the real part of 4/a^2 times the integral over the bounds, by the trapezoidal rule with num_points samples, of f(E)/(1-E^2)^2 sum_nm g_n g_m mu_nm Gamma_nm(E), where f is the Fermi-Dirac distribution, v is the commutator of the coordinate with the Hamiltonian, and mu_nm is the average over num_random vectors of -<r|T_m v_right T_n v_left|r> with the zeroth moments halved; the expected value of mu_nm is the trace. It does not depend on the storage format or algorithm selection.", "quantifier": "every Hermitian Hamiltonian, coordinates, random vectors, bounds, chemical potential, temperature above zero, at least one random vector and two energy samples, kernel, storage format and algorithm selection", "why_tests_cant": "The value depends on the random numbers and on all of the Hamiltonian; tests compare single runs with stored results.", "anchors": ["cppcore/src/kpm/Core.cpp: conductivity", "cppcore/include/kpm/reconstruct.hpp: KuboBastin", "cppcore/src/kpm/Moments.cpp: velocity, MomentMultiplication", "cppcore/src/kpm/default/collectors.cpp: DenseMatrixCollector"]}
{"id": "C62", "title": "calc_ldos and calc_spatial_ldos return the densities of the sites asked for", "statement": "calc_ldos(position, sublattice) returns the local density of states of the site nearest to the position among those of the sublattice: one column per orbital in the order of the orbitals, or their sum with reduce. calc_spatial_ldos(shape, sublattice) returns one column for each site inside the shape with that sublattice, in the order of the sites, and rejects models with several orbitals per site. Unknown sublattices are rejected by both. The result does not depend on storage format, algorithm selection, threads, batches or schedule.", "quantifier": "every system, position, shape, sublattice, energy inside the bounds, kernel, number of moments, storage format, algorithm selection, batch size, thread count and schedule", "why_tests_cant": "The correspondence of columns, sites and reordered matrix rows must hold for all systems and schedules; tests check a few sites of one lattice.", "anchors": ["cppcore/src/KPM.cpp: calc_ldos, calc_spatial_ldos", "cppcore/src/system/System.cpp: find_nearest, to_hamiltonian_indices, sublattice_range", "cppcore/src/kpm/Core.cpp: ldos"]}
{"id": "C63", "title": "The eigenvalues of the tridiagonal matrix are right up to the deflation threshold", "statement": "The diagonalization used for the automatic energy bounds either throws or returns as many values as the tridiagonal matrix has rows. They are the diagonal of an orthogonal transform of the matrix, up to the elements that were set to zero because they are below the deflation threshold: every eigenvalue is next to a returned value and every returned value is next to an eigenvalue, with an error of at most B((1+2eps)^(n-1) - 1) for a matrix of norm B; with a threshold of zero the returned values are the eigenvalues with their multiplicities.", "quantifier": "every symmetric tridiagonal matrix of any size and every threshold eps >= 0", "why_tests_cant": "The number of QR steps is not bounded by the size and depends on the values; the claim is about all real matrices.", "anchors": ["cppcore/include/compute/eigen3/lanczos.hpp: tridiagonal_qr_step, tridiagonal_eigenvalues"]}
{"id": "C64", "title": "The automatic energy bounds are inside the spectrum; when they enclose it and when not", "statement": "If no energy range is given, the energy bounds come from the Lanczos procedure. The returned bounds never extend beyond the spectrum of the Hamiltonian, min <= max, and the procedure ends with a result after at most as many iterations as there are rows. After as many iterations as there are rows the bounds enclose the spectrum; the scaling factors tolerate a spectrum that exceeds the bounds by 0.49% of their distance. Ideally the bounds would always enclose the spectrum; that is false: see the witnesses.", "quantifier": "every Hermitian Hamiltonian of any size, real or complex, every starting vector, precision, and scalar or vectorised implementation", "why_tests_cant": "The claim is about the relation of an iterative procedure to the spectrum of all matrices; tests compare the bounds of one lattice with known numbers.", "anchors": ["cppcore/include/compute/lanczos.hpp: minmax_eigenvalues, lanczos_spmv, lanczos_axpy", "cppcore/src/kpm/Bounds.cpp: compute_bounds", "cppcore/include/kpm/Bounds.hpp: Scale"]}
{"id": "C65", "title": "A model is described by the calls made on it: parameters, leads and scalar type", "statement": "Whatever was read in between and whichever calls threw: the wave vector, symmetry, primitive size and shape in force are the last ones given; the modifiers are those added since they were last cleared, in that order; leads[i] is the lead of the i-th accepted attach_lead, built from the current foundation with the current modifiers, and any other index is rejected. is_complex() is true if the lattice or a modifier has complex values or there is a symmetry, and otherwise only if a Hamiltonian was found to need it; a new model makes a complex Hamiltonian exactly in these cases.", "quantifier": "every sequence of calls on a model, including rejected ones, and every model environment", "why_tests_cant": "Histories are unbounded; a modifier lost or a lead mixed up after a particular order of adding, clearing, failing and reading shows in no single example.", "anchors": ["cppcore/src/Model.cpp: add, set_*, attach_lead, clear_*, is_complex, leads"]}
{"id": "C66", "title": "The number of elements reserved for the Hamiltonian is exact", "statement": "hamiltonian_nnz is one for every pair of orbitals of the same site plus two for every pair of orbitals of the two ends of every hopping, and the number of elements collected for the main part of the Hamiltonian never exceeds it, whatever the modifiers do.", "quantifier": "every system whose hopping families fit its sublattices, any number of sites, orbitals and hoppings, all modifiers and buffer sizes", "why_tests_cant": "Sizes are unbounded, and an undercount changes only memory use, which unit tests do not observe.", "anchors": ["cppcore/src/system/System.cpp: hamiltonian_nnz", "cppcore/include/hamiltonian/Hamiltonian.hpp: build_main"]}
{"id": "C67", "title": "Densities of states of an eigenvalue solver: normalised, consistent and independent of the chosen states", "statement": "For a positive broadening b, calc_dos(E) is the sum of one normal distribution of standard deviation b for every eigenvalue found: positive, with the number of eigenvalues as its integral. A negative b gives the negative of the result for -b, and zero gives no numbers. If the states are normalised, the values of calc_spatial_ldos(E) over all rows add up to calc_dos(E). Both results depend only on the Hamiltonian and on the energy range that was solved, not on the order of the eigenvalues nor on which states the solver picks for degenerate ones, and they are those of the model set last.", "quantifier": "all Hermitian matrices of any size, real or complex, all energy ranges, all complete orthonormal sets of states in them, all energies and broadenings, all histories of calls whose models can be built", "why_tests_cant": "Degenerate states can be chosen in infinitely many ways, and an integral over all energies is not observed by sampling a few of them.", "anchors": ["cppcore/src/solver/Solver.cpp: CalcDOS, CalcSpatialLDOS, calc_dos, calc_spatial_ldos"]}
{"id": "C68", "title": "Vectorised arithmetic on registers of interleaved real and imaginary parts is complex arithmetic", "statement": "On every supported instruction set (SSE2, SSE3, AVX, AVX2) and for float, double, complex<float> and complex<double>, the vectorised multiplication kernels of the KPM compute y = H x - y for exactly the rows of the given slice, and the squared norm of x and the scalar product of the new y with x over the slice, although complex numbers are handled as pairs of lanes which are permuted, gathered, sign-flipped and added up. The batched kernels do this independently for every vector of the batch.", "quantifier": "all matrices in ELLPACK format of any size, all slices, all vectors, all positions of the arrays in memory, all instruction sets and scalar types", "why_tests_cant": "A test runs on the instruction set of one machine and on arrays with one alignment; a lane mixed up in one specialisation or one section of the split loop shows only for particular sizes and addresses.", "anchors": ["cppcore/include/support/simd.hpp: addsub, complex_mul, conjugate, madd_rc, conjugate_madd_rc, reduce_add_rc, reduce_imag, load_splat_rc, Gather", "cppcore/include/compute/kernel_polynomial.hpp: kpm_spmv, kpm_spmv_diagonal"]}
{"id": "C69", "title": "Vectorised loops only make aligned accesses inside their arrays", "statement": "Every vector load and store of the vectorised kernels is aligned as the instruction requires and lies inside the array it belongs to, for every slice of the matrix, also for the padded matrix data and indices whose alignment is never tested at run time. The vectorised step of the Lanczos procedure treats every element exactly once.", "quantifier": "all sizes, all slices, all columns and rows, all instruction sets and scalar types, all addresses which are multiples of 32 (as the build configuration requests from Eigen)", "why_tests_cant": "A misaligned access faults only for particular sizes and instruction sets, and an access slightly outside an array usually goes unnoticed.", "anchors": ["cppcore/include/support/simd.hpp: split_loop, is_aligned, Gather", "cppcore/include/numeric/ellmatrix.hpp: EllMatrix", "cppcore/include/numeric/traits.hpp: aligned_size", "cppcore/include/compute/kernel_polynomial.hpp: kpm_spmv, kpm_spmv_diagonal", "cppcore/include/compute/lanczos.hpp: lanczos_axpy"]}
{"id": "C70", "title": "The reported KPM workload is the work that is done", "statement": "The report of a KPM calculation states the part of the workload removed by the reordering optimisation. The percentage is between 0 and 100, it is 0 if the size optimisation is off, and the underlying numbers of matrix and vector elements are those which the calculation processes (up to the first two moments, and the middle one for diagonal elements), whether or not the calculation is interleaved. The report is marked as inefficient if and only if no moment needs the whole system. The reported memory is that of the arrays.", "quantifier": "all Hamiltonians, target indices, numbers of moments, matrix formats and algorithm options", "why_tests_cant": "The reported numbers depend on the slice structure of every Hamiltonian and on the number of moments; a test can compare a few of them only.", "anchors": ["cppcore/src/kpm/Stats.cpp: Stats::reset, hamiltonian_report", "cppcore/src/kpm/OptimizedHamiltonian.cpp: num_nonzeros, num_vec_elements, matrix_memory", "cppcore/include/kpm/OptimizedHamiltonian.hpp: SliceMap::uses_full_system, optimal_size", "cppcore/include/kpm/calc_moments.hpp: basic, interleaved"]}
{"id": "C71", "title": "The FEAST solver corrects the size guess and gives the results of a successful run", "statement": "Whatever guess of the number of eigenvalues a user gives, a FEAST calculation ends: it gives exactly the eigenvalues and eigenvectors which the library found in a successful run for the current Hamiltonian, with as many elements per eigenvector as the system has states, or throws an exception because the library failed. The library is always called with arrays that are big enough and with the entries of the Hamiltonian in its own format, also after the Hamiltonian was changed and with recycled results.", "quantifier": "all behaviours of the library that its documentation allows, all Hamiltonians, guesses, intervals and sequences of Hamiltonians", "why_tests_cant": "The repetitions depend on the replies of an external library and on the history of the solver object; a test sees a few matrices and guesses, and cannot show that the repetition ends.", "anchors": ["cppcore/src/solver/FEAST.cpp: solve, call_feast, call_feast_impl, change_hamiltonian, force_clear", "cppcore/include/solver/FEAST.hpp: eigenvalues, eigenvectors", "pybinding/solver.py: feast (initial_size_guess: may be completely wrong, the solver will auto-correct as needed)"]}
{"id": "C72", "title": "What a Python modifier returns becomes the energies of the Hamiltonian", "statement": "A modifier written in Python gets an array whose element [s] (one orbital) or [s, i, j] is the energy of site or hopping s for the orbitals i and j. If it returns an array of the same shape, whose type can be converted, then its element [s, i, j] becomes the energy of site or hopping s for the orbitals i and j, whatever way the array is stored in memory. A complex result for a real model restarts the calculation with complex numbers. Anything else throws an exception.", "quantifier": "all Python functions, all numbers of sites and orbitals, all storage orders (strides, offsets, ownership) and types of the result", "why_tests_cant": "The way back to C++ depends on the storage order of the array that the user's function happens to return, of which tests cover the few that occur in them; views, broadcast arrays and other orders are unbounded in number.", "anchors": ["pybinding/modifier.py: onsite_energy_modifier, hopping_energy_modifier, _process_modifier_args, _sanitize_modifier_result", "cppmodule/src/modifiers.cpp: ExtractModifierResult, OnsiteModifier, HoppingModifier", "cppmodule/include/cast.hpp: arrayref_caster", "cppcore/include/hamiltonian/HamiltonianModifiers.hpp: apply_to_onsite, apply_to_hoppings"]}
{"id": "C73", "title": "Arrays passed between C++ and Python keep type, shape and elements", "statement": "For every packed Eigen object and scalar type, the array that Python sees has that type and shape and the same elements on the same memory; reading the reference in C++ with the storage order of the original gives the original. A function which accepts several scalar types is called with exactly the type of the array, a function of two arrays with both types, and types or precisions that are not accepted throw an exception.", "quantifier": "all scalar types, type lists, sizes, offsets and storage orders of packed arrays", "why_tests_cant": "The dispatch is over all combinations of types and sizes; a test fixes one instantiation.", "anchors": ["cppcore/include/numeric/arrayref.hpp: arrayref, ArrayConstRef, ArrayRef, match, match2, match2sp", "cppcore/include/detail/typelist.hpp: Combinations, Filter", "cppmodule/include/cast.hpp: arrayref_caster"]}
{"id": "C74", "title": "Systems up to the limit of 32-bit integers are built exactly", "statement": "If the box of unit cells around the shape has less than 2^31 sites (inside and outside of the shape), no family has 2^31 hoppings and the Hamiltonian has less than 2^31 rows, no calculation of a position, site number, hopping count or Hamiltonian index overflows and the results are those of exact arithmetic. If the box or a family reaches the limit, an overflow occurs, even for shapes which contain few sites.", "quantifier": "all lattices, shapes, box sizes, orbital counts and sets of valid sites", "why_tests_cant": "Systems near the limit need hundreds of gigabytes of memory, so that no test reaches them; the claim is about all sizes up to it.", "anchors": ["cppcore/src/system/Foundation.cpp: detail::find_bounds, detail::generate_positions, detail::generate_sublattices, Foundation::get_finalized_indices", "cppcore/include/system/CompressedSublattices.hpp: It", "cppcore/src/system/System.cpp: hamiltonian_size, to_hamiltonian_indices", "cppcore/include/hamiltonian/HamiltonianModifiers.hpp: IndexTranslator"]}
{"id": "C75", "title": "A saved lattice, system or result behaves as the original after loading", "statement": "Loading what was saved gives a lattice with the same vectors, offset, sublattices and hopping families, or a system with the same registries, positions, sublattices, hoppings and boundaries, and so the same Hamiltonian for all modifiers and wave vectors. The maps of names may be iterated in another order afterwards: all queries, registries and the optimised unit cell do not depend on it, and every further history of building calls is accepted or rejected as before and gives the same bonds with the same energies (with the same family names, unless two families have the same energy). Results are loaded with the fields they were saved with, or an exception is raised if the version differs.", "quantifier": "all lattices built by any history, all systems, all orders of iteration, all further histories of building calls", "why_tests_cant": "Tests load one file in one process; the order of iteration of a hash map depends on its history and its implementation, and the continuations are unbounded.", "anchors": ["cppmodule/src/lattice.cpp: py::pickle of Sublattice, HoppingTerm, HoppingFamily, Lattice", "cppmodule/src/system.cpp: py::pickle of the registries, CartesianArray, CompressedSublattices, HoppingBlocks, Boundary, System", "pybinding/support/pickle.py: pickleable"]}
{"id": "C76", "title": "Matrices handed to Python stay valid while they are used", "statement": "A scipy matrix obtained from model.hamiltonian, lead.h0 or lead.h1 contains the matrix of the model at that time, and reading it is defined and gives the same entries for as long as the matrix object is used, whatever is done to the model, the solvers and the other objects in between.", "quantifier": "all programs of creating, changing, copying, reading, solving and dropping models, leads, solvers and matrices, in every order", "why_tests_cant": "Use of freed memory usually goes unnoticed in a test because the old bytes are still there; the lifetimes depend on the order of all operations.", "anchors": ["cppmodule/src/model.cpp: Model.hamiltonian", "cppmodule/src/leads.cpp: Lead.h0, Lead.h1", "cppmodule/include/cast.hpp: csrref, arrayref casts, keep_alive", "cppcore/src/Model.cpp: Model::hamiltonian, clear_hamiltonian", "cppcore/include/hamiltonian/Hamiltonian.hpp: Hamiltonian"]}
{"id": "C77", "title": "Every row of a band structure has the eigenvalues at its wave vector", "statement": "Row i of solver.calc_bands has all the eigenvalues of the model at point i of the path, in ascending order, whatever the solver calculated before; after any history of calls the eigenvalues and eigenvectors of a solver are those of its current model, each vector with its own value, and arrays of eigenvalues that were returned keep their values.", "quantifier": "all models, paths of any length, solvers in every state, all histories of set_wave_vector, model assignment, clear and reads", "why_tests_cant": "The rows depend on the caches of the solver and of the model and on the memory the returned arrays refer to, for every history; tests calculate one band structure with one solver.", "anchors": ["pybinding/solver.py: Solver.calc_bands, set_wave_vector, model, _SolverPythonImpl", "cppcore/include/solver/Solver.hpp: Solver, BaseSolver", "cppcore/src/solver/Solver.cpp: set_model, solve, clear, eigenvalues", "cppcore/src/solver/FEAST.cpp: change_hamiltonian, force_clear"]}
{"id": "C78", "title": "A parameter sweep gives the result of every parameter at its place", "statement": "When parallel_for, sweep or ndsweep returns, element [i1, ..., in, e] of the result is number e of what the decorated function computes for the values number i1, ..., in of its swept parameters and the default values of the others, whatever the number of threads, the size of the queue and the order in which the jobs finish; the partial results saved on the way have for every parameter its own result or none. A call whose arguments can not be assigned in this way raises an exception, and no solver is used by two threads as long as every job makes its own.", "quantifier": "all decorated functions, all numbers and lengths of parameter lists, all numbers of threads, queue sizes and interleavings of the threads, all points in time", "why_tests_cant": "The order in which jobs finish is chosen by the scheduler, and the positions depend on the number and lengths of all parameter lists; tests see a few schedules of small sweeps.", "anchors": ["pybinding/parallel.py: parallelize, Factory, ParallelFor, _sequential_for, sweep, ndsweep", "pybinding/results.py: NDSweep", "cppmodule/src/parallel.cpp: parallel_for", "cppmodule/include/thread.hpp: Deferred"]}
{"id": "C79", "title": "Wave vectors which differ by a reciprocal lattice vector are equivalent, and the Brillouin zone has each of them once", "statement": "lattice.reciprocal_vectors() are dual to the lattice vectors (the scalar product of vector i of the lattice and vector j of the reciprocal lattice is 2 pi if i = j and 0 otherwise). The Hamiltonian of a periodic model does not change if a combination of the reciprocal vectors with integer coefficients (for a model with N cells per period, integers divided by N) is added to its wave vector, and it does not depend on the wave vector along directions without periodicity. With real energies and modifiers the Hamiltonian at -k is the complex conjugate of the one at k. Every wave vector is equivalent to one in lattice.brillouin_zone(), and no two in the interior of the zone are equivalent.", "quantifier": "all lattices with up to three vectors, all shapes, periods, onsite energies, hoppings and elementwise modifiers, all wave vectors", "why_tests_cant": "There are infinitely many wave vectors and lattices; tests compare a few points of a few lattices, which all have short vectors.", "anchors": ["pybinding/lattice.py: Lattice.reciprocal_vectors, Lattice.brillouin_zone", "cppcore/src/system/Symmetry.cpp: build_translations", "cppcore/include/hamiltonian/Hamiltonian.hpp: build_periodic", "cppcore/src/system/System.cpp: populate_boundaries"]}
{"id": "C80", "title": "A shape selects exactly the sites of the lattice which lie in it", "statement": "A model with a shape has a site at every position of the infinite lattice which the shape contains, and no other sites (before dangling sites are removed). rectangle, circle, regular_polygon and Polygon contain the points of their figures; a & b, a | b, a + b, a ^ b and a - b contain the intersection, union, union, symmetric difference and difference of both; shape.with_offset(v) contains a point p + v if and only if the shape contains p, and selects all of its sites again.", "quantifier": "all lattices with up to three vectors, all offsets and sublattice positions, all polygons, circles, freeform functions, and nested compositions and offsets of them", "why_tests_cant": "A site is lost when the box computed from the vertices is too small by one cell in one direction, which depends on the skew of the lattice, the sublattice positions and the outline; there are infinitely many of each, and tests look at a few shapes centered at the origin.", "anchors": ["pybinding/shape.py: Polygon, FreeformShape, CompositeShape, rectangle, circle, regular_polygon, Line", "cppcore/src/system/Shape.cpp", "cppcore/src/system/Foundation.cpp: find_bounds, Foundation::Foundation"]}
{"id": "C81", "title": "Names of sublattices and hoppings select the right sites, everywhere in the same way", "statement": "Comparing an array of sublattice or hopping ids with a name (system.sublattices == 'A', structure.sub != 'A', and sub_id == 'A' in a modifier) is true exactly for the sites of the families which the name stands for: the family of this name, or the families 'A|...' whose part before the bar is 'A'; != is the opposite. find_nearest(position, name) gives the nearest of these sites, for a system and for the structures made from it alike.", "quantifier": "all sets of names, all tables of sublattices, all systems with any number of sites, all positions", "why_tests_cant": "Whether the array in Python, the index object given to modifiers and the table in C++ agree depends on the whole set of registered names and on which of them have sites; tests look at a few lattices where names do not overlap.", "anchors": ["pybinding/support/alias.py: SplitName, AliasArray, AliasIndex", "pybinding/support/structure.py: AbstractSites.find_nearest, argsort_nearest", "pybinding/system.py: System.find_nearest", "cppcore/src/system/System.cpp: find_nearest"]}
{"id": "C82", "title": "A part of a structure has exactly the chosen sites and all hoppings between them", "statement": "system[idx], structure[idx], structure[shape], structure.cropped(x=[a, b]) and structure_map[idx] have exactly the sites chosen by the mask, list of numbers, slice, shape or limits, in this order, with their positions, sublattices and data; a hopping of some family joins two sites of the part if and only if it joins them in the whole (also for the first family, whose id is zero, and across periodic boundaries). A part of a part is the part with the sites chosen twice.", "quantifier": "all systems with any number of sites, hoppings and boundaries, all masks, lists of numbers (also negative and repeated ones) and slices, all limits and shapes, all sequences of such operations", "why_tests_cant": "The matrix with family ids is sliced with the zeros shifted away and back again, separately from the positions, ids, data and boundaries; a loss depends on which id stands at which place and on the order of the index, and tests look at single masks of small systems.", "anchors": ["pybinding/support/structure.py: _slice_csr_matrix, Sites, Hoppings, Boundary", "pybinding/results.py: SpatialMap, StructureMap, Structure, _make_crop_indices", "pybinding/system.py: System, structure_map"]}
{"id": "C83", "title": "A path through wave vectors meets the given points, in steps of the requested size, and its indices find them", "statement": "make_path(k0, k1, ..., step) samples the straight segments between neighboring points with equal distances; every given point is one of the samples, path.points returns the given points, neighboring samples are at least one and less than two steps apart, and the bands at path.point_indices[i] are those at the i-th given point. Points with different numbers of components are refused. (False as stated for points closer than one step to their successor, which are lost.)", "quantifier": "all numbers of points, all dimensions, all positions of the points and all positive steps", "why_tests_cant": "The samples of a segment are the quotient of two real numbers rounded down; whether a point is lost or an index is off by one depends on this rounding and on all segments before it.", "anchors": ["pybinding/results.py: Path, make_path, Bands", "pybinding/solver.py: Solver.calc_bands"]}
{"id": "C84", "title": "Probabilities and local densities of states belong to the named site and do not depend on the choice of degenerate states", "statement": "calc_probability(n), calc_eigenvalues(map_probability_at) and calc_ldos/calc_spatial_ldos give, for a site, the values at all rows of this site in the Hamiltonian; the values over degenerate states do not depend on which orthonormal states the eigenvalue solver returned; the sum over all sites is the sum over all rows; both local densities of states agree. (False as stated for calc_eigenvalues in models with several orbitals, which reads the row with the number of the site.)", "quantifier": "all Hermitian matrices, all complete orthonormal results of the solver, all tables of sublattices with any number of orbitals, all tolerances, energies, broadenings and sites", "why_tests_cant": "Eigenvectors of degenerate energies are arbitrary up to a unitary matrix, and libraries and machines differ in the choice; a test sees one choice.", "anchors": ["pybinding/solver.py: Solver.calc_probability, calc_eigenvalues, calc_ldos, calc_spatial_ldos, find_degenerate_states", "pybinding/system.py: System.reduce_orbitals", "pybinding/solver.py: _SolverPythonImpl", "cppcore/src/system/CompressedSublattices.cpp"]}
{"id": "C85", "title": "KPM densities approximate the exact densities; the broadening bounds the error", "statement": "calc_ldos and calc_dos of pb.kpm for a broadening give functions whose integral against any function with Lipschitz constant L differs from the exact value (the sum over all eigenstates of their weight times the function at their energy) by at most L times the broadening, per orbital; they converge to the exact density when the broadening goes to zero; with the Dirichlet kernel integrals against polynomials of a degree below the number of moments are exact; over all random vectors of signs the mean of the density of states is the exact density of states.", "quantifier": "all Hermitian matrices, bounds which enclose the spectrum, broadenings, positions, labels, storage formats, algorithms, numbers of threads, schedules, random vectors with elements of modulus one, and all Lipschitz (or continuous) functions of the energy", "why_tests_cant": "The exact density is a sum of delta functions, so a result can only be compared with it through integrals against all functions; tests compare a few curves with stored ones.", "anchors": ["cppcore/src/kpm/Core.cpp: ldos, dos, required_num_moments", "cppcore/src/kpm/Kernel.cpp", "cppcore/include/kpm/reconstruct.hpp", "pybinding/chebyshev.py: calc_ldos, calc_dos, jackson_kernel"]}
{"id": "C86", "title": "The Hamiltonian of a system is that of the infinite crystal on Bloch waves; supercells have folded bands", "statement": "For a model of a lattice, shape and symmetry, multiplying model.hamiltonian at a wave vector k with the values of a wave on the sites of the system is the same as applying the tight-binding Hamiltonian of the whole infinite structure (written with the lattice alone) to the wave, for all waves which are multiplied with exp(i k.S) by a translation by minus a period S and vanish away from the sites. So eigenvalues are exactly the energies of such states. A supercell, i.e. a model of the same structure with periods M times larger, has at k exactly the eigenvalues of the smaller cell at the M wave vectors k + sum (t_j/N_j) b_j, with the vectors b_j of reciprocal_vectors.", "quantifier": "all lattices, shapes, periods (finite systems, ribbons and supercells included), wave vectors, hopping and onsite modifiers which respect the periods, numbers of orbitals, both build paths, and all waves", "why_tests_cant": "Tests compare bands of single models at a few wave vectors with stored numbers; that they are the bands of the infinite structure, whatever cell is chosen, is about all waves, cells and wave vectors.", "anchors": ["cppcore/include/hamiltonian/Hamiltonian.hpp:70-133", "cppcore/src/system/System.cpp:120-170", "cppcore/src/system/Symmetry.cpp", "pybinding/lattice.py:298-302"]}
{"id": "C87", "title": "The Hamiltonian does not depend on how the lattice is written down", "statement": "Two lattices which describe the same crystal give the same model: adding sublattices and hoppings in another order, taking the site of a sublattice from another cell, writing a hopping in the opposite direction with the conjugate transposed energy, or choosing other lattice vectors changes model.hamiltonian at every wave vector only by the numbering of the rows and by one phase for each row, which is the phase of the translation between the two copies of the site. If only the order of the calls differs there are no phases. Therefore eigenvalues, their multiplicities and the probabilities of the states on each site and orbital are equal.", "quantifier": "all pairs of sequences of lattice building calls with the same content, all shapes and periods with the same sites, wave vectors, numbers of orbitals, both build paths, and modifiers which respect the periods, the names and (where a hopping is reversed) the conjugation", "why_tests_cant": "Tests build each lattice in one way. That every way to write the same crystal gives an equivalent matrix is about all orders of calls, choices of cells and directions.", "anchors": ["cppcore/src/Lattice.cpp:23-140", "cppcore/src/Lattice.cpp:185-245", "cppcore/include/hamiltonian/Hamiltonian.hpp:70-133", "cppcore/src/system/System.cpp:60-170"]}
{"id": "C88", "title": "A model of the primitive cell has the bands of the Bloch matrix", "statement": "pb.Model(lattice, pb.translational_symmetry()) can be built for every lattice, and after set_wave_vector(k) the eigenvalues of model.hamiltonian are the eigenvalues of the Bloch matrix of the lattice: for each pair of orbitals the onsite energy plus, for each hopping, its energy times the phase of k and its relative index, and the conjugate for the opposite direction. This holds for hoppings of any length.", "quantifier": "all sequences of lattice building calls, one to three lattice vectors, wave vectors, numbers of orbitals per sublattice, iteration orders of the maps, both build paths", "why_tests_cant": "Tests compare stored eigenvalues for a few lattices and points. That the whole construction (unit cell, foundation, boundaries, phases) is equal to the textbook matrix for every lattice needs a proof.", "anchors": ["cppcore/src/Lattice.cpp:23-140", "cppcore/src/system/Symmetry.cpp", "cppcore/src/system/System.cpp:60-170", "cppcore/include/hamiltonian/Hamiltonian.hpp:70-133"]}
{"id": "C89", "title": "The lattices of the material repository have the bands of the literature", "statement": "graphene.monolayer has for one, two and three shells of neighbours, any onsite and hopping energies and every k the two bands of the tight binding formula (Wallace), which meet at both corners of the Brillouin zone at the onsite energies; monolayer_alt and monolayer_4atom describe the same crystal with other cells; bilayer has the four bands of the literature and is symmetric under inversion; chain_lattice and square_lattice have cosine bands; phosphorene has two mirror symmetries and the group 6 transition metal dichalcogenides a threefold rotation and a mirror, for all parameters. Wrong numbers of shells raise.", "quantifier": "all wave vectors, onsite energies, hopping energies and material parameters of the functions", "why_tests_cant": "Tests compare bands at a few points on a path with stored values of the same code. A wrong relative index or sign in one hopping can leave these unchanged.", "anchors": ["pybinding/repository/graphene/lattice.py", "pybinding/repository/phosphorene.py", "pybinding/repository/group6_tmd.py", "pybinding/repository/examples.py"]}
{"id": "C90", "title": "Magnetic field, potentials, mass and strain of the repository have their physical effect", "statement": "constant_magnetic_field(B) multiplies the product of the hoppings around every closed loop by exp(2 pi i Phi / Phi0), where Phi is B times the enclosed area with sign; moving or rotating the whole system in the plane does not change energies and probabilities, reversing B gives the complex conjugate states, and if all sites lie on a lattice and the hoppings meet the parity condition one flux quantum per cell changes nothing. Along x the modifier has the period of the crystal, along y exactly if the flux is a whole number of quanta. constant_potential(V) shifts every energy by V and keeps the states. mass_term(d) turns the levels e of a bipartite system into +-sqrt(e^2 + d^2) and leaves no state with |E| < |d|. coulomb_potential with a positive cutoff adds -beta*hbar*v_F/max(r, cutoff) to the energies of every site; strained_hopping scales hoppings by a decreasing function of the bond length which is 1 exactly at a_cc; triaxial_strain commutes with rotations by 120 degrees; gaussian_bump moves sites only along z.", "quantifier": "all systems that can be made, all fields, energies, positions, angles, closed loops of any length, and any other modifiers applied elementwise", "why_tests_cant": "Tests compare the matrix for one small system with stored values. Gauge invariance, the flux through every loop, periodicity in the flux and the gap are statements about all systems, loops and fields.", "anchors": ["pybinding/repository/graphene/modifiers.py", "pybinding/modifier.py:391-402", "pybinding/constants.py", "pybinding/repository/graphene/constants.py"]}
{"id": "C91", "title": "KPM Green's functions approximate the exact resolvent", "statement": "With the Lorentz kernel, every element calculated by calc_greens for a Hermitian Hamiltonian is the element of the exact Green's function (z - H)^-1 at a complex energy z above the given energy, times a factor close to 1, up to an error exp(-lambda)/tanh(lambda/2N) * 2/(a sqrt(1-x^2)), where x is the scaled energy. |z - E| is at most a (exp(broadening/a) - 1), and the factor differs from 1 by at most (exp(broadening/a) - 1)/sqrt(1-x^2). The local density of states is -1/pi times the imaginary part of the same. At every energy in the range which is not an eigenvalue the result converges to the exact Green's function without broadening when the number of moments grows, whatever lambda is.", "quantifier": "all Hermitian matrices with a spectrum inside of the scaled range, all energies in the range, rows, columns, broadenings, lambda > 0, numbers of moments, storage formats and algorithm choices", "why_tests_cant": "Tests compare with stored results of the same program. An error bound with respect to the exact inverse, and convergence for every matrix, need the closed form of the series with the kernel.", "anchors": ["cppcore/include/kpm/reconstruct.hpp", "cppcore/src/kpm/Kernel.cpp", "cppcore/src/kpm/Core.cpp", "cppcore/include/kpm/Core.hpp"]}
{"id": "C92", "title": "Leads have the Hamiltonian and the bands of the infinite crystal", "statement": "lead.h0 is the Hamiltonian of one cell of the lead and lead.h1 the coupling of a cell to the one before: every element is the element of the Hamiltonian of the infinite crystal between these sites, after all modifiers. The pair is the Hamiltonian of the infinite lead: applied to any wave on the lead it is h0 on the same cell, h1 on the cell before and its adjoint on the cell after. The eigenvectors of the matrix diagonalized by lead.calc_bands are exactly the Bloch waves of the infinite lead with the same energy, and the matrix is Hermitian. The orbital counts given to kwant are those of the sites.", "quantifier": "all lattices, shapes, lead directions, attached leads, numbers of orbitals, elementwise modifiers, waves, wave vectors and energies", "why_tests_cant": "Tests compare the bands of a few leads with stored results. That h0 and h1 describe the infinite lead must hold for every lattice and every wave, and fails for hoppings which are not their own adjoint or which reach over two cells.", "anchors": ["cppcore/include/leads/HamiltonianPair.hpp", "cppcore/src/leads/Structure.cpp", "pybinding/leads.py", "pybinding/support/kwant.py"]}
{"id": "C93", "title": "Results of two-dimensional sweeps keep every value at its parameters", "statement": "Every operation on a Sweep keeps each value of the data at the parameters it was computed for: sweep[ix, iy] has the values at the selected parameters, cropped(x, y) has exactly the values within the limits (both included), mirrored(axis) has the values of the sweep and of its mirror image, save_txt writes each value once in a line with its parameters, a slice at x is the row of the nearest parameter, and interpolated(size) gives the values of the lines which connect neighboring points at equally spaced parameters between the smallest and the largest one.", "quantifier": "all sweeps of any size, all indices (numbers, slices, masks, index arrays), limits, axes, sizes and orders of the parameters", "why_tests_cant": "Only one example of each operation is tested, on data whose shape hides exchanged axes; that a value stays at its parameters must hold for every combination of indices and every order of parameters, and fails for pairs of masks, for single columns and for integer axes.", "anchors": ["pybinding/results.py"]}
{"id": "C94", "title": "The Python interface of KPM: same densities as the C++ implementation, each at its site and energy", "statement": "The implementation of KPM in Python computes the Chebyshev moments and the local densities of states of their definition, and gives exactly what every execution of the C++ implementation gives for the same scaling. In the result of calc_spatial_ldos each column belongs to the site at the same place of the structure which comes with it: all sites inside the shape and of the selected sublattice, and no others. structure_map(energy) is the map of the nearest energy, ldos(position, sublattice) the series of the nearest selected site, and results of calc_ldos have one row per energy and one column per orbital. Each calculation uses the energy bounds of the model which is assigned.", "quantifier": "all Hermitian Hamiltonians, numbers of moments, kernels, energies, site names, shapes, sublattices, positions and histories of assignments of the model and calculations", "why_tests_cant": "The tests compare the two implementations at a few orbitals of one model, never reassign the model, and compare the spatial density with a stored file; that no site is exchanged and that bounds are current must hold for every structure, selection and history.", "anchors": ["pybinding/chebyshev.py", "cppcore/src/KPM.cpp"]}
{"id": "C95", "title": "From the definition of a lattice to Green's functions and densities of states", "statement": "For a model built from add_sublattices and add_hoppings, a shape, periods, modifiers and a wave vector, KPM calculates the Green's functions and local densities of states of the textbook tight-binding matrix of this lattice: its element between two orbitals is the onsite energy plus the sum of all hoppings to periodic copies with their phases, plus the conjugate of the reverse sum. Green's functions approximate the exact resolvent of this matrix; the local density of states belongs to a nearest site with the given label, and its integrals differ by at most the broadening from the sums over all eigenstates.", "quantifier": "all lattices built through the API, shapes, periods, element-wise modifiers, wave vectors, energies, broadenings, positions, labels, matrix formats, choices of algorithms, numbers of threads and schedules; bounds which enclose the spectrum", "why_tests_cant": "Tests compare stored numbers of single models. That the whole chain from the definition of the lattice over the foundation, the compressed system, the sparse matrix, the reordering and the vectorised recursion to the result computes the defined quantity is a statement about all lattices, shapes and options at once.", "anchors": ["cppcore/src/Lattice.cpp", "cppcore/src/Model.cpp", "cppcore/include/hamiltonian/Hamiltonian.hpp", "cppcore/src/KPM.cpp", "cppcore/src/kpm/Core.cpp"]}
{"id": "C96", "title": "Site and hopping generators add exactly what they return", "statement": "The Hamiltonian of a model with site generators and hopping generators is that of the model without them, with the generated sites appended after the existing ones in the order of the generators, their onsite energies (after the onsite modifiers) on the diagonal and, for every returned pair, the energy of the generator (after the hopping modifiers) from the first site to the second and its conjugate transpose back. The old sites keep their rows, their elements and the hoppings over periodic boundaries; the matrix is Hermitian; a generator which returns lists of different lengths is rejected with an error.", "quantifier": "all lattices, shapes, periods, numbers and orders of generators and position modifiers, functions of generators (which see the positions and sublattices of all former sites), energies with any numbers of orbitals, element-wise Hamiltonian modifiers and wave vectors", "why_tests_cant": "Tests of generators use one or two generators with scalar real energies and sorted pairs. That the appended sites and hoppings never disturb the compressed tables, whose order by orbitals the construction of the matrix relies on, must hold for all sequences of generators and all functions.", "anchors": ["cppcore/src/Model.cpp", "cppcore/src/system/StructureModifiers.cpp", "cppcore/src/system/HoppingBlocks.cpp", "cppcore/src/system/CompressedSublattices.cpp", "cppcore/src/system/Registry.cpp", "cppcore/include/hamiltonian/HamiltonianModifiers.hpp"]}
{"id": "C97", "title": "KPM in floating-point arithmetic: rounding errors stay bounded in every algorithm", "statement": "In rounded arithmetic the off-diagonal moments of KPM differ from the exact values <l|T_k(H)|r> of the scaled Hamiltonian by at most (gamma + nu) (R + 1) k (k + 1) |r|, where gamma is about the number of elements in a row times the unit roundoff, nu the relative error of the stored matrix and R its largest row sum; the error does not depend on the size of the system and grows at most quadratically with the number of the moment. Green's functions computed from them have correspondingly bounded errors. For the CSR and the generic ELLPACK kernels the size optimisation and interleaving change no digit of the result; for vectorised kernels with fused operations they may.", "quantifier": "all Hermitian matrices with energies in [-1, 1], storage formats, alignments and widths of vectors, with and without fused multiplication and addition, all optimisation options, starting vectors, collected values and numbers of moments as long as the bound is below 1, and all roundings with a relative error bound (in particular binary arithmetic with any number of digits)", "why_tests_cant": "Tests compare two algorithms on a few systems with a tolerance chosen for them. Whether errors can grow exponentially with the number of moments, or with the size of the system, for some matrix, alignment or slicing, cannot be seen from samples; equality to the last digit must hold for all inputs.", "anchors": ["cppcore/include/compute/kernel_polynomial.hpp", "cppcore/include/compute/detail.hpp", "cppcore/include/support/simd.hpp", "cppcore/include/kpm/Starter.hpp", "cppcore/src/kpm/default/Compute.cpp", "cppcore/include/kpm/calc_moments.hpp"]}
{"id": "C98", "title": "The Hamiltonian in floating-point arithmetic: Hermitian to the last digit, and accurate", "statement": "In rounded arithmetic the Hamiltonian matrix is exactly Hermitian: the element at (b, a) is the conjugate of the element at (a, b) digit by digit, diagonal elements of complex Hamiltonians have imaginary part zero, and an element is stored if and only if its transposed one is. Each element differs from its exact value by at most (1 + e) (1 + u)^n - 1 times the sum of the absolute values of its terms, where u is the unit roundoff, n the number of hoppings between the two sites and e the relative error of single energies and phases; no error depends on the size of the system. The k-th eigenvalue differs from the exact one by no more than the largest row sum of these bounds. Phases of wave vectors are single-precision numbers whatever the type of the Hamiltonian, which limits e.", "quantifier": "all lattices, systems, modifiers (functions of single sites and hoppings), wave vectors, numbers of orbitals and boundaries, both ways of building the matrix, real and complex numbers, and all roundings that are odd, idempotent and have a relative error bound (in particular binary arithmetic with any number of digits)", "why_tests_cant": "Solvers read one triangle or assume a Hermitian matrix; tests compare a few matrices with a tolerance, so a last-digit asymmetry for some order of additions, or an error growing with the number of sites, is not seen. It must hold for every order in which terms reach an element.", "anchors": ["cppcore/include/hamiltonian/Hamiltonian.hpp", "cppcore/include/hamiltonian/HamiltonianModifiers.hpp", "cppcore/include/numeric/traits.hpp", "cppcore/include/numeric/constant.hpp"]}
{"id": "C99", "title": "From the system to Green's functions in floating-point arithmetic, with every step rounded", "statement": "KPM Green's functions computed in rounded arithmetic are accurate although the Hamiltonian they start from, the scaling factors and the scaled and reordered matrix are rounded as well. If the energies and phases of a system have relative errors e and every pair of sites is joined by at most D hoppings, the matrix that KPM works with is stored at the same places as the exact scaled matrix and each of its elements has a relative error of at most s = (1 + e) (1 + u)^(D + 5) (1 + h) - 1 with respect to the magnitudes of the terms, where u is the unit roundoff and h the relative error of 2 / a. The k-th moment then differs from that of the exact Hamiltonian by at most (g + s) w k (k + 1), with g the error of one matrix-vector product and w the largest row sum of the scaled magnitudes: the error neither grows exponentially with the number of moments nor depends on the number of sites. This holds for every kernel, every algorithm, with or without reordering, although these scale the matrix by different sequences of operations.", "quantifier": "all systems, modifiers, wave vectors, Hamiltonians of real and complex numbers, scales whose interval contains the spectrum, all rows and non-empty lists of columns (other than the row itself as the only column, which is computed by other kernels), all storage formats and vector widths, with and without reordering, size limits and interleaving, all numbers of moments, and all roundings with a relative error bound", "why_tests_cant": "Errors of the matrix, of the scale and of the recursion interact: an unstable combination shows only for particular spectra, numbers of moments or orders of the sites. Tests compare a few small systems with a tolerance.", "anchors": ["cppcore/src/kpm/OptimizedHamiltonian.cpp", "cppcore/include/kpm/OptimizedHamiltonian.hpp", "cppcore/src/kpm/Bounds.cpp", "cppcore/include/kpm/calc_moments.hpp", "cppcore/src/kpm/Core.cpp", "cppcore/include/hamiltonian/Hamiltonian.hpp"]}
{"id": "C100", "title": "Local densities of states are accurate in floating-point arithmetic, whatever the order of summation", "statement": "The KPM moments behind local densities of states and diagonal Green's functions, which come in pairs from scalar products of the vectors of the recursion, stay accurate in rounded arithmetic. Moment k of every requested site differs from the diagonal element of the Chebyshev polynomial of the exact scaled Hamiltonian by at most 7/4 (g + s) (w + 1) (k + 2) (k + 4) + 72 ((1 + u)^D - 1), where g, s and w are the errors and magnitudes of Green's functions (the matrix, the scale and one product), u is the unit roundoff, and D is the number of additions that a product of a scalar product goes through plus a constant per slice. The order in which a kernel adds up products (vector lanes, reductions, the rows before and after the vectors, Eigen's reductions) is arbitrary and may be different in every call. A density computed from damped moments has the corresponding error; the doubling formulas do not amplify errors from one moment to the next.", "quantifier": "all Hamiltonians stored with relative errors, scales whose interval contains the spectrum, non-empty lists of sites, storage formats, vector widths, with and without reordering, size limits and interleaving, all orders of summation, all even numbers of moments that the algorithm accepts, all energies inside the interval, and all roundings with a relative error bound", "why_tests_cant": "The doubling formulas subtract numbers of similar size, and the order of summation depends on alignment, slices and the compiler. Tests run one order on one machine and compare with a tolerance.", "anchors": ["cppcore/include/compute/kernel_polynomial.hpp", "cppcore/src/kpm/default/collectors.cpp", "cppcore/include/kpm/calc_moments.hpp", "cppcore/src/kpm/default/Compute.cpp", "cppcore/src/kpm/Core.cpp", "cppcore/include/kpm/reconstruct.hpp"]}
{"id": "C101", "title": "In floating-point arithmetic thread timing can change the last digits of a density of states but not its accuracy, and with one thread nothing", "statement": "Local and total densities of states are computed by jobs of one vector or of a batch of vectors that take their vectors and deliver their moments in whatever order the threads run. Nothing is assumed about arithmetic: a vector may have other digits in a batch than alone, and sums depend on their order. For every schedule, column k of a local density of states holds moments of vector k, computed alone or as a column of some batch, and so has the accuracy of C100; a total density of states is the average of such moments up to nv + 1 roundings. The digits are the same in every run if there is one worker thread, and for local densities of states also if the number of vectors is a multiple of the batch size, if the rest is rounded up to a batch, or if there are fewer vectors than a batch. Otherwise they are not: three vectors, two threads and batches of two have two executions with different digits, and a total density of states may differ even if batches and single vectors give equal moments.", "quantifier": "all numbers of threads, batch sizes, numbers of vectors, schedules of the threads including spurious wake-ups, results of the kernels, orders of summation, and roundings with a relative error bound", "why_tests_cant": "Whether a batch or a single vector comes first depends on the scheduler; a test sees a few schedules and compares with a tolerance or with one thread.", "anchors": ["cppcore/src/kpm/default/Compute.cpp", "cppcore/src/kpm/Moments.cpp", "cppcore/include/kpm/Moments.hpp", "cppcore/include/kpm/Starter.hpp", "cppcore/include/detail/thread.hpp"]}
{"id": "C102", "title": "A KPM calculation that reports its progress returns, counts every vector, ends at 100% and gives back the output of the program", "statement": "calc_ldos, calc_spatial_ldos, calc_dos and deferred calculations call a progress callback before the first vector, after every job from whichever thread ran it, and at the end. Whatever the schedule of the threads: the calculation returns; the callback sees a negative delta first, then one delta per job, which add up to the number of computed vectors (the number asked for or less than one batch more), and delta = total last. The default progress bar starts at 0, never shows more than the vectors that are computed, ends at 100% and is stopped; with one thread it shows exactly the running sums. What the program prints while a bar is shown reaches the user once and in order, and sys.stdout is given back, also when bars of calculations inside parallel_for overlap. False in these cases: Deferred.compute(), Deferred.result and parallel_for with one thread never return when there is a callback, which is the default; the bar exceeds 100% when a batch is rounded up; with several threads it can go back and lose jobs; zero vectors raise ZeroDivisionError and leave sys.stdout redirected; bars of two calculations in two Python threads raise an exception when the first one ends first.", "quantifier": "all numbers of threads, batch sizes, numbers of vectors, schedules of the threads and of the interpreter including spurious wake-ups, ways to start a calculation, and sequences of printed text", "why_tests_cant": "Deadlocks, lost updates and overlapping bars depend on how threads take turns; the tests of KPM are all silent, and those of parallel_for always use several threads.", "anchors": ["cppcore/src/kpm/default/Compute.cpp", "cppcore/include/detail/thread.hpp", "cppmodule/src/kpm.cpp", "cppmodule/src/parallel.cpp", "cppmodule/include/thread.hpp", "pybinding/chebyshev.py", "pybinding/utils/progressbar.py", "pybinding/parallel.py"]}
{"id": "C103", "title": "Local densities of states of a model are accurate from its matrix elements to the result, on any number of threads and for every schedule", "statement": "For a Hermitian model, let every step of calc_ldos use floating-point arithmetic: casting and modifying matrix elements, adding several bonds between two sites, phases of periodic boundaries, scaling and reordering the Hamiltonian, and computing moments of several sites in batches on several threads. However the threads take turns and in whatever order sums are computed, every moment k of every site that was asked for is in the place of that site and differs from that of the exact Hamiltonian, which has the energies the user gave, by at most 7/4 (gamma + sigma)((1 + sigma)R + 1)(k+2)(k+4) + 72 delta. The density at every energy inside the scaled spectrum is accurate accordingly. sigma is fixed by the accuracy of the matrix elements and the number of bonds between two sites, gamma by the number of elements of a row, delta by the sums.", "quantifier": "all systems and Hermitian modifiers, wave vectors, matrix formats, algorithm configurations, sites, numbers of moments and threads, batch sizes, schedules, orders of summation, and rounding functions", "why_tests_cant": "Rounding errors of several stages combine with the schedule; a test sees one model, one schedule and one compiler's order of summation, and compares with a tolerance that was chosen by trial.", "anchors": ["cppcore/src/hamiltonian/Hamiltonian.cpp", "cppcore/include/hamiltonian/Hamiltonian.hpp", "cppcore/src/kpm/OptimizedHamiltonian.cpp", "cppcore/src/kpm/default/Compute.cpp", "cppcore/src/kpm/Core.cpp", "cppcore/src/KPM.cpp"]}
{"id": "C104", "title": "Parameter sweeps keep at most queue_size + num_threads jobs in memory, and every job lives until it is retired and no longer", "statement": "While parallel_for or a parallelized function runs, the number of jobs that were produced and not retired yet is at most queue_size + num_threads, as documented. However the threads take turns, the Python object that produce returned for a job exists until retire was called with it, nothing touches an object after it was destroyed, and when the call has returned exactly those objects are left to which Python code kept a reference, with their correct reference counts; all others were destroyed once.", "quantifier": "all numbers of jobs, threads and queue sizes, all schedules including spurious wake-ups, all interleavings of the reads and writes of reference counts by threads without the interpreter's lock, and all references kept by Python", "why_tests_cant": "Memory peaks and reference counts depend on the schedule; a lost update of a count shows as a leak or as a crash later, in one of very many schedules.", "anchors": ["cppcore/include/detail/thread.hpp", "cppmodule/src/parallel.cpp", "pybinding/parallel.py"]}
{"id": "C105", "title": "Densities of states from random vectors are right in the mean, and become more accurate with the number of vectors and with the size of the system", "statement": "Averaged over the random numbers, calc_dos gives at every energy exactly the sum of what calc_ldos gives for all sites with the same kernel and number of moments. The mean square of the deviation is at most 2 / num_random (1 / num_random for complex Hamiltonians) times the sum of the squares of the densities of the single eigenstates, and with the Jackson kernel at most a factor that does not depend on the system, times the density of states, divided by num_random. Integrals of the density of states against a smooth function, per state, differ from the exact ones by more than the broadening plus delta only with a probability of at most 2 / (number of states * num_random * delta^2), as the documentation says: larger systems need fewer random vectors.", "quantifier": "all Hermitian Hamiltonians and system sizes, all kernels and numbers of moments, all numbers of random vectors, all energies, all smooth functions", "why_tests_cant": "A test sees one sequence of random numbers; means and probabilities are statements about all of them, and the dependence on the size is a statement about all systems.", "anchors": ["cppcore/src/kpm/Starter.cpp", "cppcore/include/numeric/random.hpp", "cppcore/src/kpm/Core.cpp", "pybinding/chebyshev.py"]}
{"id": "C106", "title": "add_sublattice accepts exactly the documented onsite energies and stores the Hermitian matrix they mean", "statement": "An onsite energy is accepted exactly if it is a non-empty list of real numbers (one per orbital) or a non-empty square matrix with a real main diagonal which is upper triangular or Hermitian; everything else raises an error. What is stored is Hermitian: the diagonal matrix of the list, the Hermitian matrix itself, or the upper triangle and its conjugate below.", "quantifier": "all matrices and lists of any size, all tolerances of the comparisons", "why_tests_cant": "Tests try a few matrices of two or three orbitals; the claim is about all matrices, and violations hide within the tolerance of the comparisons.", "anchors": ["cppcore/src/system/Registry.cpp", "cppcore/src/Lattice.cpp", "pybinding/lattice.py"]}
{"id": "C107", "title": "Conductivities from random vectors are right in the mean, and their mean square error falls with the number of vectors", "statement": "Averaged over the random numbers, calc_conductivity gives exactly what its integral over energies gives with the traces of the Kubo-Bastin formula in place of the averages over random vectors. There is a number, the same for all num_random, such that the mean square of the deviation is at most that number divided by num_random.", "quantifier": "all Hermitian Hamiltonians and system sizes, all coordinates, kernels, numbers of moments and of energies, chemical potentials and temperatures, all numbers of random vectors", "why_tests_cant": "A test sees one sequence of random numbers and one number of vectors; the mean and the rate are statements about all of them.", "anchors": ["cppcore/src/kpm/Core.cpp", "cppcore/src/kpm/Starter.cpp", "cppcore/include/numeric/random.hpp", "cppcore/include/kpm/Moments.hpp", "pybinding/chebyshev.py"]}
{"id": "C108", "title": "Durations and numbers in reports are right to the last printed digit and never go back", "statement": "The duration at the end of a report (of a model, a solver or a KPM calculation) differs from the elapsed time by less than one unit of its last digit, has at least two digits from one millisecond on, and its minutes and seconds are below sixty. A longer time is never printed as a smaller one. C++ and Python print the same time in the same notation, and their digits differ by at most one in the last place. Numbers of sites, hoppings and operations per second, printed with k, M or G, are within half a percent, with digits below 1000 up to 999 billion.", "quantifier": "all elapsed times, all numbers, all ways to round halves", "why_tests_cant": "The notation changes at seven bounds, and errors of carrying (60 seconds, 1000 milliseconds) appear only near them; tests print a few times.", "anchors": ["cppcore/src/utils/Chrono.cpp", "cppcore/include/support/format.hpp", "pybinding/utils/time.py", "pybinding/utils/misc.py"]}
{"id": "C109", "title": "Plots of periodic systems show every image within reach once, and the bonds between them", "statement": "A plot with num_periods = n draws the system shifted by every sum of at most n boundary shifts, in either direction, and draws each of these images exactly once. It draws the hoppings of a boundary exactly between two images (or the system) that differ by the shift of this boundary, unless both are n boundaries away from the system.", "quantifier": "all lists of boundaries, all numbers of periods, all shifts which the tolerance of the comparison (0.1 percent) tells apart", "why_tests_cant": "The sets of shifts are made by recursion over levels with sets of all earlier levels removed, and depend on the linear relations between the shifts; tests compare a few pictures.", "anchors": ["pybinding/system.py", "pybinding/support/fuzzy_set.py"]}
{"id": "C110", "title": "Smoothing a spatial map averages over nearby sites", "statement": "After SpatialMap.convolve(sigma) the value at each site is the average, with Gaussian weights of the distance, of the values at sites closer than sigma. Constant data is not changed, and no value is outside of the range of the data.", "quantifier": "all numbers of sites, all positions and data, all sigma > 0", "why_tests_cant": "Whether far sites are mixed depends on the positions relative to the origin; there are no tests, and samples near the origin along one direction do not show it.", "anchors": ["pybinding/results.py"]}
{"id": "C111", "title": "Circles of different sites do not overlap in plots of a lattice", "statement": "Lattice.site_radius_for_plot(max_fraction) returns a positive radius, and with max_fraction below 0.5 the circles of any two sites of the lattice at different positions do not overlap.", "quantifier": "all lattices with sublattices, all positions of sublattices and all vectors, all fractions between 0 and 0.5", "why_tests_cant": "Tests look at pictures of known materials, where the sites of neighboring cells are as far apart as those of one cell.", "anchors": ["pybinding/lattice.py"]}
{"id": "C112", "title": "Colors and sizes in plots tell sites and hoppings apart", "statement": "In a plot of a structure the sites of one sublattice, and the hoppings of one kind, have the same color in the system, in its images and at its boundaries, and different kinds have different colors. In a plot of data on a structure each site is drawn once at its position, and its radius grows with its value from the smallest to the largest given radius.", "quantifier": "all numbers of sublattices and kinds of hoppings, all palettes without repeated colors, all data, all orders by height", "why_tests_cant": "Every call that draws computes its own map from numbers to colors from the largest number in it; tests compare a few pictures with few kinds.", "anchors": ["pybinding/pltutils.py", "pybinding/system.py", "pybinding/results.py"]}
{"id": "C113", "title": "The armchair hexagon of graphene has armchair edges only", "statement": "The sites of monolayer graphene inside `graphene.hexagon_ac(side_width)` form a flake centered at a carbon hexagon in which every site has at least two neighbors and every site that lacks a neighbor is bound to another site that lacks one, so that all edges are armchair edges and nothing is removed as dangling. The side width used differs from the given one by less than five halves of the distance between neighbors.", "quantifier": "all side widths up to 14 micrometers, all sites of the infinite lattice", "why_tests_cant": "Whether sites near the six sides and corners are inside depends on the rounding of the width for every size; the tests only compare a picture of one flake. The lattice constant of the material repository is not exactly the square root of three times the distance between neighbors, so that the margin shrinks with the size.", "anchors": ["pybinding/repository/graphene/shape.py", "pybinding/repository/graphene/lattice.py", "pybinding/repository/graphene/constants.py", "cppcore/src/system/Shape.cpp"]}
{"id": "C114", "title": "Deformations, charges and mass terms of graphene do what they say, and nothing at zero strength", "statement": "The modifiers of the graphene repository keep the Hamiltonian symmetric and the sign of hoppings, weaken hoppings that get longer, deform with the symmetry they are named after, give finite potentials, and leave sites and energies as they are when their strength is zero.", "quantifier": "all fields, heights, widths, charges, cutoffs and offsets, all positions, all neighbors of the infinite lattice", "why_tests_cant": "The tests compare the modifiers with stored results for one set of parameters on monolayers with nearest neighbors only; other lattices of the repository and other parameters are not covered.", "anchors": ["pybinding/repository/graphene/modifiers.py", "pybinding/repository/graphene/constants.py", "pybinding/repository/graphene/lattice.py"]}
{"id": "C115", "title": "The lattices of graphene join exactly the neighbors they say", "statement": "`graphene.monolayer(n)` joins exactly the sites up to the n-th smallest distance, the three forms of the monolayer have the same sites and the same neighbors, and each kind of hopping of `graphene.bilayer()` joins exactly the pairs of sites of its distance and layers.", "quantifier": "all pairs of sites of the infinite lattices, all numbers of nearest neighbors that are accepted", "why_tests_cant": "A missing or misplaced hopping family leaves a valid lattice; tests compare with stored results of the same code.", "anchors": ["pybinding/repository/graphene/lattice.py"]}
{"id": "C116", "title": "Hoppings of one kind in phosphorene have one length and are complete", "statement": "In `phosphorene.monolayer_4band(n)` all hoppings of one kind have the same length, every site has the same number of hoppings of each kind whatever its sublattice, no two sites are joined twice, and exactly the first n kinds are included for n from two to five.", "quantifier": "all lattice constants, all numbers of hoppings, all sublattices and kinds", "why_tests_cant": "A hopping family to the wrong cell or from the wrong sublattice still gives a valid lattice and a Hamiltonian; the tests do not check lengths.", "anchors": ["pybinding/repository/phosphorene.py"]}
