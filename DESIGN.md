# Formal model of pybinding (cppcore) in Lean 4

## 1. Approach

The C++ core of pybinding (`/repo/cppcore`) is modelled function by function as total, computable Lean
functions over `List`, `Nat`, `Int`, `Option` and plain structures.  Every definition of the model cites
the file and lines it models and says what was simplified.

Each area lives in `lean/Verif/<Area>/`:

* `Model.lean` (or another file named after the class): the transcription of the code.
* `Spec.lean`: small definitions that do not mention the model (degree of a vertex, crossing parity,
  Chebyshev polynomials, bonds of a lattice, ...).  Statements are phrased with these and with Mathlib.
* `Props*.lean`: the property theorems.  They are named after the property (`C07_...`), and beside each
  there is an `example` with concrete data that meets its hypotheses.
* all other files: lemmas.

Conventions

* `Res` (`Basic.lean`) is the outcome of a call: `ok value`, `err exception`, or `ub` for undefined
  behaviour (out-of-range access, null pointers, division by zero).  Theorems that say "defined" say that
  the outcome is not `ub`.
* Machine integers are unbounded `Nat`/`Int`, except in `Machine`, where the construction of the system and the indices of the Hamiltonian are computed with
  32-bit `int`s and overflow is undefined behaviour (C74).  `idx_t` (64 bits) is unbounded everywhere.
* Floating point is replaced by exact arithmetic: an arbitrary commutative (star) ring, an ordered field
  or the reals and complex numbers.  Rounding is outside the model.
* `std::unordered_map` is a list of bindings.  Where the code iterates over a map, the theorems hold
  for every iteration order (C11, C16, C20, C50), or the definition says why the order is irrelevant.
* Concurrency (C30-C32) is a transition system; theorems quantify over all its executions.
* If a property is false of the code, the negation is proved with a concrete witness, the
  strongest true version is proved under the suffix `_partial`, and the claim is "partial".

## 2. Properties, model and proof

| Id | Files | Method |
|----|-------|--------|
| C01-C03, C40 | `Sublat/` | induction over add histories and over blocks; tiling; argmin of a fold |
| C04-C07 | `Hopping/`, `Sublat/` | round trips; sorted-unique lemmas; double counting; criterion for `filter` |
| C47 | `Hopping/`, `Foundation/` | invariant over modifier sequences |
| C08-C13, C48 | `Lattice/` | state machine of the building calls; invariants over operation lists; linear algebra |
| C14-C19 | `Foundation/` | odometer induction; graph invariants; prefix counts; rational arithmetic |
| C20 | `Symmetry/` | closed form of a boundary, counting per axis |
| C21-C23, C49 | `Hamiltonian/` | coefficient of the triplet list; correspondence with inserted rows |
| C12, C50 | `Pipeline/` | composition of Lattice, Foundation, Symmetry and Hamiltonian |
| C29, C41, C42 | `Numeric/` | row-wise sums; concatenation; insertion-sort invariant |
| C24, C25 | `Kpm/Reorder*` | loop invariant of the breadth-first search with explicit queue |
| C26-C28 | `Kpm/Model`, `Cheb`, `Slice`, `Interleave`, `With`, `Moments`, `Props` | Chebyshev identities; light-cone invariants |
| C30 | `Kpm/Batch*`, `PropsBatch` | invariant over interleavings, on top of the thread pool |
| C33-C36, C43, C52 | `Kpm/Config`, `PropsConfig` | real and integer arithmetic; decision logic |
| C44, C53-C55 | `Kpm/Kernel`, `Spectral`, `Reconstruct`, `PropsKernel` | trigonometric identities; Fejer-type positivity; integrals |
| C56 | `Kpm/Cache`, `PropsCache` | refinement of the stateful object by a fresh one |
| C31, C32 | `Thread/` | transition systems with condition variables; inductive invariants; variant; progress |
| C37, C38 | `Model/`, `Lattice/` | refinement of the caching model by a fresh one |
| C45 | `Solver/` | refinement |
| C39, C57 | `Shape/` | parity of crossings; ordered-field arithmetic |
| C46, C58 | `Leads/` | loop invariants of the slice filling; columns as lists |
| C51, C59 | `Kpm/Core`, `CoreLemmas`, `PropsCore`, `PropsGreens` | composition of C24-C30: permutation of vectors and matrices, polynomials of matrices |
| C60, C61 | `Kpm/Stochastic`, `PropsStochastic`, `PropsConductivity` | composition of C24-C30, C33, C43, C53, C55 for arbitrary random vectors |
| C62 | `Kpm/Ldos`, `PropsLdos` | composition of C03, C40, C51; possible results over all schedules |
| C63 | `Lanczos/Tridiag`, `Qr`, `QrLoop`, `PropsTridiag` | quadratic forms under orthogonal maps; each rotation preserves the form, each deflation perturbs it; induction over the loop |
| C64 | `Lanczos/Vectors`, `Ritz`, `Loop`, `PropsLanczos`, `PropsMissed` | invariant: the vectors are orthonormal and make the matrix tridiagonal; then expectation values |
| C65 | `Model/PropsParams` | induction over the calls from the end; the leads by C37's invariant |
| C66 | `Hamiltonian/PropsNnz` | every triplet has its own place (C10), counting the places |
| C67 | `Solver/Dos`, `PropsDos` | identification with the normal distribution of Mathlib; expansion of one basis in the other |
| C68 | `Numeric/Simd`, `SimdLemmas`, `SimdKernels`, `PropsSimd` | every operation on registers corresponds to one on pairs of lanes; induction over the iterations of each section |
| C69 | `Numeric/Simd`, `SimdKernels`, `PropsSimd` | divisibility of the first aligned row and of the padded column lengths |
| C70 | `Kpm/Stats`, `StatsLemmas`, `PropsStats` | the algorithms are run on a matrix whose kernels count; loop invariants |
| C71 | `Solver/Feast`, `PropsFeast` | loop invariant on buffer sizes; termination by the growth of the subspace, for every library that fulfils its documentation |
| C72 | `Binding/Modifier`, `ModifierLemmas`, `PropsModifier` | positions of elements computed from strides; the copies numpy makes are arrays of energies in three orders; injectivity of positions for the exact criterion |
| C73 | `Binding/ArrayRef`, `PropsArrayRef` | induction over type lists; arithmetic of strides |
| C74 | `Machine/Model`, `Machine/Props` | each checked operation equals the exact one or is undefined; monotonicity of counters |
| C75 | `Binding/Pickle`, `Binding/PropsPickle`, `Lattice/PropsOrder` | round trips; induction over histories with a relation between lattices iterated in different orders |
| C76 | `Binding/Lifetime`, `Binding/PropsLifetime` | invariant: the counter of every matrix is the number of its owners; induction over programs |
| C77 | `Solver/Bands`, `Solver/PropsBands` | induction over paths and histories; invariants of the caches |
| C78 | `Thread/Sweep`, `Thread/PropsSweep` | every permutation of the jobs gives the same data; with the invariants of C31; induction over the parameter lists |
| C79 | `Pipeline/Reciprocal`, `Pipeline/PropsReciprocal`, `Pipeline/PropsZone` | the phases depend only on the scalar products with translations, which are multiples of the period; C50 for time reversal; quadratic forms of two-dimensional lattices |
| C80 | `Shape/Python`, `Shape/PropsPython` | the point-in-polygon test against half-planes (parity of crossings), linear functions on vertices, with C19, C39, C14 and C57 |
| C81 | `Binding/Names`, `Binding/PropsNames` | `StandsFor` as specification of names (equal, or a prefix before the first bar); the C++ search over a slice of the table against the Python search over a masked array |
| C82 | `Binding/Slicing`, `Binding/PropsSlicing` | `Part` as specification (sites and hoppings by places); product of sparse matrices with ids shifted by one; C04_tocsr |
| C83 | `Solver/Paths`, `Solver/PropsPaths` | induction over the segments; the samples by distance and line (`OnLine`), independent of numpy.linspace; C77 for the bands |
| C84 | `Solver/Probability`, `Solver/PropsProbability` | maximal runs of neighbors as specification of degenerate groups; the projector on an energy window does not depend on the basis (with C67's hypotheses on the solver) |
| C85 | `Kpm/Convergence`, `Kpm/PropsConvergence` | eigenstates turn the density into a sum of kernels around the exact energies; the Jackson kernel is nonnegative (C53) with mean one and variance at most (π/(N+1))² (Cauchy-Schwarz gives the mean distance); Weierstrass for continuous functions |
| C86 | `Pipeline/Crystal`, `Pipeline/PropsCrystal`, `Pipeline/PropsFolding`, `Pipeline/PropsSupercell` | operator of the infinite crystal as specification; C50 gives the elements, uniqueness of the representative in the periodic area turns sums over columns into sums over terms; folding by common eigenvectors of the three commuting translations (a power of each is a phase) |
| C87 | `Pipeline/Represent`, `Pipeline/PropsRewrite`, `Pipeline/PropsRewriteOrder` | both matrices represent the operator of the crystal on quasi-periodic waves (C86); the operator does not change under renaming of sites; unit vectors give the elements |
| C88 | `Pipeline/PropsPrimitive` | `blochRow` as specification; C86_spectrum for the foundation of one cell; waves on the primitive cell have one amplitude for each sublattice and orbital |
| C89 | `Pipeline/Repository`, `Pipeline/RepositoryRun`, `Pipeline/PropsRepository`, `Pipeline/PropsRepository2`, `Pipeline/PropsRepository3` | the building calls are carried out symbolically; C88; determinants of 2×2 and 4×4 matrices in the phases; bond vectors as specification of the amplitudes; orthogonal matrices on the orbitals for the symmetries |
| C90 | `Pipeline/Field`, `Pipeline/FieldLemmas`, `Pipeline/PropsField`, `Pipeline/PropsField2`, `Pipeline/PropsField3` | the modifiers as functions on buffers, shown to act elementwise; coefficients from C50; signed polygon area as specification of the flux; gauge transformations as diagonal unitary matrices; the mass term anticommutes with the rest of a bipartite matrix |
| C91 | `Kpm/Resolvent`, `Kpm/PropsResolvent` | generating function of the Chebyshev polynomials with a complex angle; the Lorentz kernel is a difference of two geometric damping factors, the second gives the error term; dominated limits term by term for the convergence |
| C92 | `Leads/Pair`, `Leads/PropsPair`, `Leads/PropsPair2`, `Leads/PropsKwant` | IsLead of C58 gives the blocks; sums over hopping terms as specification of the crystal; translation along the lead by induction over the integers; sums over rows as sums over sites |
| C93 | `Binding/SweepResult`, `Binding/PropsSweepResult` | places of C82; membership of a value at its parameters as specification; position of a number in a strictly sorted list by counting |
| C94 | `Kpm/PythonKpm`, `Kpm/PropsPythonKpm` | loop invariant of the Python recursion against Chebyshev polynomials (momentList of C62); C62 for the C++ side; filters of index lists; induction over histories for the bounds |
| C95 | `Pipeline/PropsEndToEnd` | every row belongs to an orbital of one site, so the textbook matrix is unique; composition of C50, C21, C33, C62, C85, C91 |
| C96 | `Pipeline/Generators`, `Pipeline/GeneratorSpec`, `Pipeline/GeneratorLattice`, `Pipeline/PropsGenerators`, `Pipeline/PropsGenerators2` | specification as lists of sites and bonds without tables; refinement relation (Ready) between the compressed tables and these lists, kept by every step; C49 for the matrix; C50 for the lattice at the start |
| C97 | `Kpm/RowKernel`, `Kpm/Stability`, `Kpm/Float`, `Kpm/FloatKernels`, `Kpm/FloatContracts`, `Kpm/PropsFloat` | the algorithms proved against a relation for single rows without any arithmetic; forward error analysis of the three-term recursion with Chebyshev polynomials of the second kind and Schur's test; fold invariants for the kernels |
| C98 | `Hamiltonian/Rounded`, `Hamiltonian/RoundedNumbers`, `Hamiltonian/RoundedTerms`, `Hamiltonian/RoundedMake`, `Hamiltonian/Weyl`, `Hamiltonian/PropsRounded` | the list of values added at each place, without any law of arithmetic; conjugation commutes with odd roundings; one error per addition by induction; Weyl's inequality from a vector between two sets of eigenstates |
| C99 | `Kpm/ScaleRelated`, `Kpm/ScaleRounded`, `Kpm/PropsScaleRounded`, `Kpm/PropsScaleSystem` | a relation between two runs of the scaling and reordering code over different numbers (parametricity of `optimizeFor`), used with rounded numbers on one side and triples (exact value, magnitude, sign of presence) on the other; C97 for the recursion, C98 for the elements |
| C100 | `Kpm/FloatDiag`, `Kpm/FloatDiagRun`, `Kpm/PropsFloatDiag` | sums as trees of additions, the error of a sum by induction over the tree; partial sums over slices joined; the rows that the loops touch are those of C97; doubling formulas and the norm of the exact vectors |
| C101 | `Kpm/BatchRounded`, `Thread/OneWorker`, `Kpm/PropsBatchRounded`, `Kpm/PropsBatchLdos` | the invariant of C30 with a predicate in place of the moments of a vector; a pool with one worker refines sequential execution; errors of sums by induction over deliveries; two explicit executions |
| C102 | `Kpm/Progress`, `Kpm/PropsProgress`, `Kpm/PropsProgressBar`, `Kpm/PropsProgressOutput` | the thread pool of C32 with jobs that call the callback; a thread that waits for the lock of the interpreter tries again; invariant: the bar is at most the number of vectors of the jobs that have read it; C101's sequential refinement for one worker; streams as numbers, 0 for the user's |
| C103 | `Kpm/PropsLdosSystem` | composition of C98 to C101 |
| C104 | `Thread/JobRefs`, `Thread/PropsJobs`, `Thread/PropsJobRefs` | the state machine of C31; multisets of jobs by place; reference counts with separate reads and writes, invariant: the registers of different threads belong to different jobs |
| C105 | `Kpm/RandomVectors`, `Kpm/PropsTrace`, `Kpm/PropsTraceRun` | Fubini for products of powers of elements; only two correlations of pairs of indices are not zero; the average as one quadratic form on all random numbers; with C60 and C85 |
| C106 | `Lattice/PropsOnsite` | the documented conditions as a separate structure (`Valid`); the maximum of a fold is attained |
| C107 | `Kpm/PropsTraceConductivity` | the result is linear in the moments, so it is the average of one quadratic form; with C61 and the mean and variance of C105 |
| C108 | `Binding/PropsReport` | the value a reader understands and the unit of the last digit as separate functions of what is printed; a bound between two notations separates the values |
| C109 | `Binding/PropsImages` | paths over boundaries as a separate notion; combinations with replacement give all paths because addition commutes; induction over levels |
| C110 | `Binding/PropsConvolve` | an average with positive weights; the intended Gaussian of distances as a separate definition |
| C111 | `Binding/PropsSiteRadius` | distances between sites as a parameter; every pair of positions is in the list of distances |
| C112 | `Binding/PropsColors` | the number of bounds up to the k-th of a sorted list; the color as a function of the number alone |
| C113 | `Shape/PropsHexagon` | the neighbors of a site; how many of them are in the shape |
| C114 | `Pipeline/PropsGraphene` | a third of a turn; the neighbors and positions of C113 |
| C115 | `Lattice/PropsGrapheneLattice` | the square of the distance on the grid; joined in one direction or the other |
| C116 | `Lattice/PropsPhosphorene` | the length of a hopping from the positions; hoppings in both directions |

## 3. Trusted base

* The kernel of Lean 4.33.0.
* The axioms `propext`, `Classical.choice` and `Quot.sound` of Lean.  No axiom is declared here, and there is
  no `sorry`, `native_decide` or `bv_decide`.  The appendix lists the axioms of every theorem in the manifest, as printed by
  `#print axioms`.
* The definitions of Mathlib used in statements (`List`, `Finset` sums, polynomials, matrices, reals, complex
  numbers, integrals).
* That the hand-written model says the same as the cited lines.  No tool checks this.

### 3.1 Modelled

| Source (`cppcore/`) | Model | What is left out |
|---|---|---|
| `system/CompressedSublattices.{hpp,cpp}` | `Sublat/Model` | - |
| `system/HoppingBlocks.{hpp,cpp}` | `Hopping/Model` | `reserve` |
| `system/Registry.{hpp,cpp}` | `Lattice/Model` | - |
| `system/System.{hpp,cpp}` | `Hopping/Model`, `Foundation/Populate`, `Sublat/Model` | `Boundary` positions beyond their shift |
| `system/StructureModifiers.{hpp,cpp}` | `Hopping/Model` (`applyModifiers`), `Foundation/Populate` | callbacks are arbitrary functions; conversion of Python arrays |
| `system/Foundation.{hpp,cpp}` | `Foundation/Model`, `Foundation/Populate` | memory layout of the position array (C14 relates index and place) |
| `system/Symmetry.{hpp,cpp}` | `Symmetry/Model` | - |
| `system/Shape.{hpp,cpp}` | `Shape/Model`, `Foundation/Model` | `FreeformShape`'s user function is arbitrary |
| `Lattice.{hpp,cpp}` | `Lattice/Model`, `Lattice/Geometry` | `with_offset` / `with_min_neighbors` beyond the range check |
| `Model.{hpp,cpp}` | `Model/Cache` | timers, `report` strings |
| `hamiltonian/Hamiltonian.{hpp,cpp}`, `HamiltonianModifiers.{hpp,cpp}` | `Hamiltonian/Model` | scalar type selection is in `Model/Cache` (`ComplexOverride`); modifiers act element by element or on a whole chunk |
| `leads/*` | `Leads/Model` | - |
| `numeric/sparse.hpp`, `ellmatrix.hpp`, `detail/algorithm.hpp`, `detail/slice.hpp` | `Numeric/Model` | reference wrappers |
| `compute/kernel_polynomial.hpp`, `support/simd.hpp` | `Numeric/Model`, `Kpm/Model` | SIMD registers are fixed-length lists of lanes with one scalar each (justified by C68) |
| `kpm/OptimizedHamiltonian.{hpp,cpp}` | `Kpm/Reorder`, `Kpm/Model` | timers, `memory usage` |
| `kpm/calc_moments.hpp`, `default/collectors.*`, `default/Compute.cpp` | `Kpm/Model`, `Kpm/Batch` | progress callback |
| `kpm/Core.cpp`, `kpm/Moments.*`, `kpm/Starter.*` | `Kpm/Cache`, `Kpm/Batch` | random numbers are an arbitrary function of the vector's number |
| `kpm/Bounds.*`, `kpm/Kernel.*`, `kpm/Config.hpp`, `KPM.cpp` | `Kpm/Config`, `Kpm/Kernel` | formatted reports |
| `kpm/reconstruct.hpp` | `Kpm/Reconstruct`, `Kpm/Spectral` | - |
| `detail/thread.hpp` | `Thread/Pool`, `Thread/ParallelFor` | memory model: steps are critical sections, sequentially consistent; user functions do not throw |
| `solver/Solver.{hpp,cpp}` | `Solver/Solver` | a strategy is an arbitrary function of the Hamiltonian |
| `kpm/Core.cpp` (`moments`, `ldos`, `greens_vector`), `kpm/Moments.hpp`, `kpm/Starter.cpp`, `kpm/OptimizedHamiltonian.cpp` (`optimize_for`) | `Kpm/Core` | scalar dispatch, timers |
| `kpm/Core.cpp` (`dos`, `conductivity`), `kpm/Starter.cpp` (`RandomStarter`), `kpm/Moments.cpp` (`MatrixMulAdd`, `Div`), `default/collectors.cpp` (dense), `reconstruct.hpp` (`KuboBastin`) | `Kpm/Stochastic` | the random generator (its output is arbitrary), scalar dispatch, timers |
| `KPM.cpp` (`calc_ldos`, `calc_spatial_ldos`) | `Kpm/Ldos` | timers; `shape.contains` is an arbitrary array of booleans |
| `compute/lanczos.hpp`, `compute/eigen3/lanczos.hpp`, `compute/detail.hpp` | `Lanczos/Model` | exact real arithmetic with the machine epsilon as a parameter; the starting vector is arbitrary; Eigen's `makeGivens` by its formula |
| `solver/Solver.cpp` (`CalcDOS`, `CalcSpatialLDOS`) | `Solver/Dos` | exact arithmetic; dispatch on scalar types |
| `support/simd.hpp` (registers, `Gather`, complex arithmetic), `compute/kernel_polynomial.hpp` (vectorised) on raw memory | `Numeric/Simd` | exact arithmetic; libsimdpp and the intrinsics by their documentation; `scope_disable_denormals`, `split_loop_t::for_each` (unused) |
| `kpm/Stats.cpp`, `kpm/OptimizedHamiltonian.cpp` (`num_nonzeros`, `num_vec_elements`, `matrix_memory`) | `Kpm/Stats` | times; formatting |
| `solver/FEAST.{hpp,cpp}` | `Solver/Feast` | the library is an arbitrary function of the number of the call and its arguments; parameters of the library other than interval, size and recycling; report |
| `numeric/arrayref.hpp`, `detail/typelist.hpp`, parts of `numeric/dense.hpp` and `cppmodule/include/cast.hpp` | `Binding/ArrayRef` | template dispatch is a search in a list of types |
| `cppmodule/src/modifiers.cpp` (onsite and hopping), `pybinding/modifier.py` (`_process_modifier_args`, `_sanitize_modifier_result`) | `Binding/Modifier` | numpy (`astype`, `moveaxis`, `copy`, flags) by its documentation; the user's function is arbitrary; aliases of names |
| `Foundation.cpp` (`find_bounds`, `generate_positions`, `finalized_indices`), `CompressedSublattices.hpp` (`It`), `System.cpp`, `HamiltonianModifiers.hpp` (`IndexTranslator`) with 32-bit integers | `Machine/Model` | 64-bit integers are unbounded |
| `cppmodule/src/lattice.cpp`, `cppmodule/src/system.cpp` (`py::pickle`), `pybinding/support/pickle.py` | `Binding/Pickle` | Python values are an inductive type; files, compression and the pickle byte format are not modelled; the order of iteration of `std::unordered_map` is an arbitrary permutation |
| lifetimes: `cppmodule/src/model.cpp`, `cppmodule/src/leads.cpp`, `cppmodule/include/cast.hpp` (`csrref`, `keep_alive`), `Hamiltonian.hpp`, `Model.cpp` (`clear_hamiltonian`) | `Binding/Lifetime` | the contents of matrices are arbitrary; memory is never used again after it was freed |
| `pybinding/solver.py` (`calc_bands`, `set_wave_vector`, `_SolverPythonImpl`), result arrays of `FEAST.cpp` | `Solver/Bands` | eigenvalue routines and `argsort` are arbitrary functions with their documented property |
| `pybinding/parallel.py`, `NDSweep` of `pybinding/results.py`, `cppmodule/src/parallel.cpp`, `cppmodule/include/thread.hpp` (`Deferred`) | `Thread/Sweep` | Python's rules for calls are modelled for positional and named arguments; exceptions of user functions, files, plots and messages are not modelled |
| `pybinding/lattice.py` (`reciprocal_vectors`, `brillouin_zone`), the phases of `build_periodic` and the translation vectors of `Symmetry.cpp` over the reals | `Pipeline/Reciprocal` | `numpy.linalg.inv` is the inverse matrix; `scipy.spatial.Voronoi` is the set of points nearest to the origin; the order of corners is not modelled |
| `pybinding/shape.py`, `static_vec_caster` of `cast.hpp`, the constructor of `Foundation` for shapes | `Shape/Python` | user functions `contains` act on single positions; `scipy.spatial.ConvexHull` by its documented result (`Hull`); plots are not modelled |
| `pybinding/support/alias.py`, `AbstractSites.find_nearest` | `Binding/Names` | numpy broadcasting over one axis; `argsort_nearest` is not modelled |
| `pybinding/support/structure.py`, `SpatialMap`, `StructureMap` and `Structure` of `results.py`, `_CppSites` | `Binding/Slicing` | numpy and scipy by their documentation; indices with one number, plots and `save_txt` are not modelled |
| `Path`, `make_path` and `Bands` of `results.py`, `calc_bands` of `solver.py` | `Solver/Paths` | real numbers instead of floats; plots are not modelled |
| `calc_probability`, `calc_eigenvalues`, `calc_ldos`, `calc_spatial_ldos`, `find_degenerate_states` of `solver.py`, `System.reduce_orbitals` | `Solver/Probability` | real numbers; the solver by its documented result |
| `pybinding/repository/graphene/lattice.py`, `phosphorene.py`, `group6_tmd.py`, `examples.py` | `Pipeline/Repository` | lattice vectors and building calls, with exact real numbers; the positions of phosphorene are left out (no call uses them) |
| `pybinding/repository/graphene/modifiers.py`, `constant_potential` of `modifier.py`, `constants.py` | `Pipeline/Field` | real numbers; numpy by its documentation; division by zero is an error of the modifier (the result is not finite and the core rejects it) |
| `leads/HamiltonianPair.hpp`, `Lead.calc_bands` of `leads.py`, `hamiltonian_submatrix` of `support/kwant.py` | `Leads/Pair`, `Leads/PropsPair2` | complex numbers; `eigh` by its documentation (not modelled); negative indices of numpy are not modelled |
| class `Sweep` of `pybinding/results.py` | `Binding/SweepResult` | numbers of an ordered field; numpy and `interp1d` with `kind='linear'` by their documentation; labels, tags, formatting of the file, plots and `_convolved` are not modelled |
| `pybinding/chebyshev.py` (`_PythonImpl`, `calc_ldos`, `calc_spatial_ldos`, `SpatialLDOS`) | `Kpm/PythonKpm` | numpy, scipy and `eigsh` by their documentation; real and complex numbers instead of floating point; plots, reports and progress bars are not modelled |
| `SiteGenerator`, `HoppingGenerator`, `PositionModifier` and their part of `Model::add` and `Model::make_system` | `Pipeline/Generators` | the functions of generators are arbitrary functions of the positions and sublattices of the former sites; numbers of orbitals, boundaries and leads as in `Pipeline/System` |
| off-diagonal kernels and `make_r1` in floating point | `Kpm/Float` | a rounding with a bounded relative error after every operation; no overflow, underflow, signed zeros, infinities or NaN; without rounding the kernels are those of `Numeric/Model` (lemmas `*_exact`); batches of vectors and diagonal kernels are not modelled with rounding |
| numbers of the Hamiltonian (`float`, `double`, `std::complex` of them) | `Hamiltonian/RoundedNumbers` | the representable numbers of a rounding, with rounded sums and products; one zero, no overflow, underflow, infinities or NaN. Eigen's `setFromTriplets` adds duplicates in the order of insertion, like `coeffRef` |
| moments of Green's functions with rounded scaling (`roundedMoments`) | `Kpm/PropsScaleRounded` | `optimizeFor` of `Kpm/Optimized` over rounded numbers, then the kernels of `Kpm/Float` with the same rounding; the branch of diagonal moments is `roundedLdos` |
| diagonal moments with rounding (`diagKernel`, `diagCollect`, `withDiagonal`, `roundedLdos`) | `Kpm/FloatDiag`, `Kpm/PropsFloatDiag` | every operation rounded; the order of a sum is a parameter (a tree for every call); batches of vectors are left out |
| batch jobs whose moments depend on the batch (`Columns`, `roundedStep`) and the accumulator with rounding (`roundedAccumulator`, `sumOps`) | `Kpm/BatchRounded`, `Kpm/PropsBatchRounded` | as `Kpm/Batch`, nothing assumed about arithmetic |
| progress callbacks (`reportStep`, `allCalls`), `_ComputeProgressReporter` and `ProgressBar` (`Bar`, `barStep`), `StdCapture` (`Std`) | `Kpm/Progress` | the computation of a job is one step; the lock of the interpreter is held by the caller all the time or not at all; no times, widths or log files |
| reference counts of `Job` in `cppmodule/src/parallel.cpp`, `Queue::pop` | `Thread/JobRefs` | the interpreter's lock is left out (more executions); `retire` changes the count once; the atomic count of the `std::shared_ptr` is left out |
| random numbers (`uniform`, `draws`), random vectors (`vectors`) | `Kpm/RandomVectors`, `Kpm/PropsTrace` | independent real numbers with equal distribution in place of the generator; no seed |
| `check_onsite_energy` with the tolerances of Eigen (`checkOnsiteTol`), `canonical_onsite_energy` | `Lattice/PropsOnsite` | Eigen from its documentation; the other areas use the check without tolerance (`Lattice/Model`) |
| `Chrono::str`, `pretty_duration`, `fmt::with_suffix`, `with_suffix` (`chronoStr`, `prettyDuration`, `withSuffix`) | `Binding/PropsReport` | exact arithmetic; any rounding to the nearest; base 1000 |
| `FuzzySet`, `_make_shift_set`, `plot_periodic_boundaries`, the ends of lines in `plot_hoppings` (`fuzzyAdd`, `shiftSets`, `drawnImages`, `drawnBonds`) | `Binding/PropsImages` | any comparison in place of `np.allclose`; exact arithmetic; no colors |
| `SpatialMap.convolve` (`convolve`) | `Binding/PropsConvolve` | exact arithmetic; division by zero is an error in place of nan |
| `Lattice.site_radius_for_plot` (`siteRadius`, `heuristicRadius`, `shortestSpacing`) | `Binding/PropsSiteRadius` | exact arithmetic; the number of visible sublattices is a parameter |
| `direct_cmap_norm`, `to_radii`, order by height in `plot_sites` (`colorOf`, `radiusOf`, `drawOrder`) | `Binding/PropsColors` | matplotlib from its documentation; no blending |
| `graphene.hexagon_ac`, sites and hoppings of `graphene.monolayer` (`sideAtoms`, `newWidth`, `vertices`, `position`, `neighbors`) | `Shape/PropsHexagon` | exact arithmetic with the constants of the repository; sites of the infinite lattice |
| `mass_term`, `coulomb_potential`, `strained_hopping`, `triaxial_strain`, `gaussian_bump` (`massTerm`, `coulomb`, `strainedHopping`, `triaxial`, `bump`) | `Pipeline/PropsGraphene` | exact arithmetic, one site or hopping at a time; division by zero is a separate outcome |
| `graphene.monolayer`, `monolayer_alt`, `monolayer_4atom`, `bilayer` (vectors, sublattices and hopping families) | `Lattice/PropsGrapheneLattice` | integer grid with a = sqrt(3) a_cc; energies left out |
| `phosphorene.monolayer_4band` (positions, hopping families, number of kinds) | `Lattice/PropsPhosphorene` | the lengths derived from the angles are parameters; energies left out |

### 3.2 Not modelled

`cuda/`, the FEAST library itself, `compute/mkl`,
`support/variant.hpp`, `numeric/traits.hpp` (type plumbing),
the Python package and the bindings in `cppmodule/` (other than those of energy modifiers).

### 3.3 Assumptions that are hypotheses of theorems

* C20, C50: hopping terms reach at most one cell along periodic directions and periods fit into the foundation.
  Witnesses show both are needed.
* C23, C49: sites are ordered by orbital count.  Every lattice provides it (C50 has no such hypothesis); site generators may not.
* C53: the energy bounds enclose the spectrum.
* C37, C45, C56: building a system or Hamiltonian is a deterministic function of the parameters.

## 4. Findings

Each item is a theorem (named in brackets) or, where marked "note", an observation from reading the code.

Lattice and system

* `HoppingBlocks::filter` does not renumber the remaining indices [C07 witness].
* `HoppingBlocks::append` duplicates a bond when a stored pair has row > column [C05 witness].  Indices from hopping generators are not range checked [C05 witness].
* `HoppingBlocks::tocsr` is undefined when one pair is stored in two families [C04 witness].
* An alias created before another sublattice makes `site_registry` throw; an alias of an alias has no entry [C10 witnesses].
* `translate_coordinates` is wrong for 2D lattices whose leading components are dependent (lattices standing out of the plane) [C13 witness].
* Anonymous `add_hopping` leaves a family registered when it is rejected [C38].
* Iterating over one sublattice of a foundation reports sublattice index 0 [C14 witness].
* `find_bounds` is too small when offset plus sublattice position is longer than one lattice vector [C19 witness].
* Hoppings longer than one cell are lost along a periodic direction, and a period larger than the foundation reads out of bounds [C20 witnesses].
* `find_nearest` for a sublattice whose block is empty returns a site of another sublattice or reads out of range [C40 witnesses].
* Site generators leave the number of sites of the boundaries stale [C47 witness].
* A line does not contain its own end points (0/0) [C57].  The polygon test skips sides that are flat relative to their distance from the origin, so it is not translation invariant [C39 witness].

Hamiltonian

* A generated onsite energy that is upper triangular gives a non-Hermitian matrix [C21 witness].
* Generated sites that are not ordered by orbital count get wrong rows [C23 witness].
* A buffer smaller than one hopping matrix gives slices of size zero and an endless loop [C23 witness].
* A pair bonded twice is undefined behaviour on the insertion path [C22 witness].
* Note: the direct path stores explicit zeros; the zero test has tolerance 1e-12; the size of a hopping generator's energy is unchecked.
* Bloch convention: the phase is exp(+i k.d) where the copy lies d *before* the site [C50].

Leads

* A lead shape entirely beside the foundation along its axis reads out of bounds [C46_outside_witness].
* A later lead can fill sites further out in an earlier lead's cross-section, leaving indices -1 and bogus hoppings [C46_order_witness].
* The coupling between cells uses the plain energy for hoppings in the conjugate direction [C58_adjoint_witness].
* Note: lead indices are stale if modifiers after a generator remove sites; a slice whose end is negative is taken for the whole dimension; 1D lattices reject all directions.

Model, solver

* `clear_structure_modifiers` and `clear_hamiltonian_modifiers` do not invalidate the cached results [C37 witnesses].
* Rejected `add(Shape)`, `add(Primitive)` and generators leave traces [C38 witnesses].  `ComplexOverride` is sticky.
* `leads()` after a failing `leads()` returns incomplete leads [C37].
* `set_model` of the solver and of KPM keeps the old results when building the Hamiltonian throws [C45, C56 witnesses].

KPM

* `create_reordered` reads outside its queue when the system is not connected [C24].
* `calc_greens` accepts an index equal to the size [C35_off_by_one]; `calc_conductivity` accepts directions such as "xa" and dereferences null [C36_half_valid].
* Equal energy bounds divide by zero [C33_degenerate].
* The integral in the Kubo-Bastin conductivity is (N-1)/N times the trapezoidal rule [C55].
* The vectorised kernels are wrong for a matrix without stored elements [C29_simd_empty].
* The interleaved diagonal algorithm writes out of bounds if the number of moments violates its divisibility rule [C28].
* A KPM calculation with an empty list of indices depends on earlier calculations [C56 witness].

Threads

* A pool without workers runs nothing, yet `join` returns [C32_no_workers]; `parallel_for` without threads never returns [C31_no_threads].

Results of KPM

* `calc_greens(i, j)` returns element (j, i) for complex Hamiltonians [C59_witness].
* The documentation of `moments` promises <beta|op T_n(H)|alpha>; the result uses the scaled Hamiltonian, damping factors for the
  rounded number of moments, and halves the zeroth moment [C51_moments].
* Note: `moments` decides whether an argument is real with a tolerance and then drops the imaginary part; a negative number of moments is not rejected by the
  C++ core.
* `calc_conductivity` with zero random vectors divides zero by zero; `calc_dos` leaves the moments empty [C61_no_vectors].
* Note: in the conductivity both sides use the same random vector in every round because both starters begin with the default seed.  With the
  direction 'xy' the coordinate x belongs to the operator next to the vector (`-Tr(T_m v_y T_n v_x)`) [C61_trace].
* `calc_spatial_ldos` with a shape that contains no site does not fail: the optimised matrix is not built, and what follows reads
  from empty arrays [C62_empty_shape, C56_empty_indices_witness].
* The automatic energy bounds can miss the spectrum. Convergence is judged by the change in one iteration, so that for every starting
  vector (the code uses a fixed one: the generator is default-seeded) and every precision there are Hamiltonians for which the procedure
  returns bounds in (0, 2) in spite of arbitrarily large eigenvalues [C64_missed].
* For a Hamiltonian that is a multiple of the identity (also: one site) the Lanczos procedure divides by zero and continues with NaN
  [C64_multiple_of_identity]. More generally it has no treatment of an exhausted Krylov space.
* The convergence test divides by the eigenvalue: bounds of exactly 0 are never accepted [C64_precision].
* The vectorised `lanczos_axpy` skips the loop before the first aligned element and relies on an `assert`; the model of C64 assumes the
  alignment, which `detail/config.hpp` requests from Eigen (`Axpy.Valid`; C69 shows that it suffices).
* The mark for an inefficient KPM calculation is off by one: it is set although the whole system is used [C70_full_converse_witness].
  The reported memory of an ELLPACK matrix leaves out the padding [C70_memory].  For diagonal elements the reported work differs from the work
  done by the first two moments and the middle one [C70_work_diagonal].
* FEAST: the documentation says that the size guess may be completely wrong.  With the guess 1 and two or more eigenvalues in the interval `solve`
  never ends, because `1 * 1.7` is truncated to 1 [C71_guess_one_witness].  A guess bigger than the system is replaced for good, so that the
  guess 10, after a system of one site, becomes 1 [C71_reduced_guess_witness].  An interval without eigenvalues, which the code calls "not really
  an error", evaluates `maxCoeff` of an empty array [C71_no_eigenvalues_witness].  With `recycle_subspace` the arrays are not adapted to a Hamiltonian
  of another size: the library writes outside of them, or eigenvectors have the length of the earlier system [C71_recycle_bigger_witness,
  C71_recycle_smaller_witness].
* Python modifiers: C++ compares only type and size of the returned array and reads its memory from the first element on.  Results that are
  views are therefore wrong without an exception: `energy.transpose(0, 2, 1)` is ignored [C72_view_witness], `energy[::-1]` and
  `np.broadcast_to` read outside of the array [C72_reversed_witness, C72_broadcast_witness], and `_sanitize_modifier_result` moves
  the axes of a C-contiguous array back only if it owns its memory, which `reshape` prevents [C72_reshaped_witness].  The comment "type and shape
  matching" is not what is checked: sizes are compared, not shapes [C72_shape_witness].
* `arrayref` of a writable `std::vector` has three sizes, `{1, 1, n}`, because of the order of its arguments [C73_vector_witness]; no caller uses it
  for more than its size.  The storage order in a reference is never used to read it back [C73_order_witness].
* The number of sites of the foundation (all sites of the box around the shape) must be less than 2^31, also if the shape contains only few of them; the
  overflow of `size.prod() * nsub` is not checked [C74_foundation_witness].  `to_hamiltonian_indices` returns negative numbers for a Hamiltonian
  with more than 2^31 rows, whose size is still reported correctly [C74_narrow_witness].
* `pickleable` (support/pickle.py:94-102) iterates over the keys of the saved properties and unpacks each name into two characters, so that a class
  with properties can not be loaded [C75_props_witness].  `add_one_hopping` by energy uses the first family with this energy in the order of iteration of
  a hash map [C75_ambiguous_witness].
* `h = model.hamiltonian; model.set_wave_vector(k)` leaves `h` with pointers into freed memory: the arrays keep the model alive, not the matrix
  [C76_dangling, C76_dangling_witness].
* For the FEAST solver `solver.set_wave_vector` and so `calc_bands` have no effect on the eigenvalues: all the rows of a band structure are equal to the
  eigenvalues at the wave vector the model had when it was given to the solver [C77_cpp_constant, C77_cpp_witness].  The array `solver.eigenvalues` of this solver
  is freed when another model is assigned [C77_array].
* `parallelize` ignores names which are not parameters of the function, which then may get the class `inspect.Parameter.empty` as a value [C78_misspelt_witness];
  jobs of a sweep that share one `KPM` object are computed at the same time without a lock [C78_race].
* `Lattice.brillouin_zone` takes the Voronoi cell among nine points of the reciprocal lattice, which for skewed lattice vectors is larger than the Brillouin zone
  [C79_zone2_witness].  `reciprocal_vectors` needs the first `n` components of the vectors to be independent: a chain along `y` raises `LinAlgError`
  [C79_singular_witness].
- Shapes of Python: `Line.with_offset([vx, vy])` gives the line from `a + vx` to `b + vy` [C80_line_offset: right if and only if `vx = vy`].  `FreeformShape.with_offset` keeps only as many
  components of the center as the vector has, so a center `[0, 0, 5]` moved by `[1, 0]` becomes `[1, 0]` and the box stays at height zero [C80_freeform_offset_witness].  Compositions put
  all vertices at height zero, so that the union of two solids has sites in three layers only [C80_height_witness].  `Line` and `Primitive` have no `&`, `|`, `-`, `^`.
* **Names.** With families `A` and `A|1`, `system.sublattices == "A"` selects the sites of the first and `sub_id == "A"` in a modifier the sites of both [C81_disagree_witness].
  `find_nearest` of a structure returns site 0 if the name has no sites [C81_nearest_missing]; heights are ignored for targets with two components, in contrast to
  `System.find_nearest` [C81_height_witness].
* **Parts.** `SpatialMap(data, positions)[idx]` raises an `AttributeError`, since `Sites.__getitem__` uses `_ids`, which exists only if ids were given, and not the property `ids`
  [C82_ids_witness].
* **Paths.** A point which is closer than one step to its successor is dropped from `make_path`; if there are two points only, `Bands.plot` fails [C83_kept, C83_short_witness]. The check of
  the shapes compares `k_points[:1]` with the first point, i.e. the first point with itself [C83_shape_witness]. Parts of a path keep stale indices [C83_part_witness].
* **Probabilities.** `calc_eigenvalues(map_probability_at)` uses the number of the site as a row of the Hamiltonian [C84_row_exact, C84_row_witness].
* **Sign of the wave vector.** The phase of a hopping from a site to the copy of another one `S` before it is `exp(+i k·S)` (Hamiltonian.hpp:125), so the states at `k` obey `ψ(r + S) = exp(-i k·S) ψ(r)`:
  what the library calls `k` is `-k` in the usual convention [C86_crystal, C86_bands]. The documentation does not say so. Bands agree if there is time reversal symmetry [C79_time_reversal], not in general.
* **Bilayer with `gamma4`.** `graphene.bilayer(gamma4=True)` (graphene/lattice.py:186-192) adds the hoppings between A1 and A2 and none between B1 and B2. With them missing the bilayer is not symmetric
  under inversion; the bands of the bilayer and of the same one upside down differ [C89_bilayer_gamma4_witness; without `gamma4`: C89_bilayer_inversion].
* **Third neighbours.** `graphene.monolayer(nearest_neighbors=3)` has the hopping [1, -2] (graphene/lattice.py:57). It is kept if the period is one cell [C88_bloch, C89_monolayer] and lost at the edges of
  larger periods [C20_far_witness is the mechanism].
* **Square lattice.** `examples.square_lattice` has hoppings along the diagonals with the same energy [C89_square]; its documentation does not say so.
* **Coulomb potential.** With the default `cutoff_radius=0` a site at the position of the charge gives a value that is not finite and the model cannot be built (graphene/modifiers.py:44-50) [C90_coulomb_witness].
  The potential is added to all elements of the block of a site with several orbitals, not only to the diagonal [C90_coulomb].
* **Mass term.** `mass_term` uses a mask of shape (n, 1, 1) on energies of shape (n, k, k); numpy rejects this for k > 1 (graphene/modifiers.py:20-22) [C90_mass_orbitals_witness]. The same holds for the example
  `energy[sub_id == 'A'] = 0` of the documentation.
* **Zero strain.** The hopping law of `triaxial_strain` and `gaussian_bump` is relative to `a_cc = 0.142`, while the lattice has `a = 0.24595`, which is not `sqrt(3) * a_cc`. Strain of size zero therefore changes two of
  three hoppings (by about 10^-5) [C90_unstrained_witness]. `gaussian_bump` discards the z-coordinates the sites had [C90_bump].
* **Field and periods.** `constant_magnetic_field` uses the gauge A = (By, 0, 0): together with a periodic direction that has a component along y the Hamiltonian is only that of the infinite crystal if the flux is a
  whole number of quanta [C90_translation, C90_ribbon]. Nothing in the code checks this.

* **Lorentz broadening.** The broadening of Green's functions is not the number given but `a sqrt(1-x^2) sinh(lambda/N)`: it shrinks to zero towards the edges of the scaled range, where the result is also multiplied by a
  complex factor that differs from 1 [C91_closeness]. Without broadening the limit exists only away from the eigenvalues [C91_converges].

* **h1 of leads.** Hoppings of the lattice which point out of the system, along the lead, enter `lead.h1` without the adjoint: wrong for complex hoppings and hopping matrices which are not Hermitian [C92_h1_exact]. Between sites with
  different numbers of orbitals the elements land on other sites, or in column -1 of the sparse matrix [C92_orbitals_witness].
* **Long hoppings in leads.** Hoppings over two or more cells of the lead are in neither `h0` nor `h1`, without an error [C92_long].
* **Orbital counts for kwant.** `hamiltonian_submatrix(return_norb=True)` indexes the list of the runs by sublattice numbers: wrong if a sublattice with more orbitals is defined before one with fewer [C92_norb_witness]; also if a
  sublattice has no sites in the system (wrong counts or an `IndexError`) [C92_norb_exact]. `hamiltonian(i, j)` returns a single matrix element where kwant expects the block of two sites: right exactly for one orbital per site [C92_element_exact].
* **Indexing of sweeps.** `sweep[:, j]` has data of shape `(1, x.size)` instead of `(x.size, 1)` [C93_column_witness]; two masks or index arrays are taken in pairs [C93_masks_witness].
* **Mirrored sweeps.** `mirrored` of an axis which does not start at zero has the mirror image of the first value but not the value [C93_mirrored_witness]; an invalid axis gives `None`, the `RuntimeError` is created but not raised
  [C93_axis_witness].
* **Interpolated sweeps.** New places of an integer axis are rounded towards zero and coincide [C93_integer_witness]. `_convolved` (private, not modelled) puts 11 samples in front of the data but cuts off 10, so that the result is
  shifted. `Sweep.cropped` includes both limits, `SpatialMap.cropped` only the lower one [C82_cropped, C93_cropped].
* **KPM in Python.** The Python implementation keeps the energy bounds of the first calculation when another model is assigned, so that the expansion may diverge [C94_bounds, C94_bounds_witness]; the C++ one resets them.
  The C++ implementation takes a center below 1/10000 of the half width as zero, the Python one does not [C94_scale]. Results of `calc_ldos(reduce=False)` are squeezed, so that `reduced()` fails for one orbital or one energy [C94_shape].
  `SpatialLDOS.ldos(position, sublattice)` silently takes the first site if the name selects none [C94_ldos_at]. An unknown `matrix_format` silently means CSR (`cppmodule/src/kpm.cpp`, not modelled).
* **Generators.** `HoppingBlocks::append` sorts the two indices of every returned pair without conjugating or transposing the energy: a pair with the larger index first gets the conjugate hopping [C96_reversed, C96_reversed_witness], a rectangular energy then is written outside of the matrix [C96_rectangular_witness].
  Equal pairs of one generator are merged; a pair of equal indices adds E + E† to the onsite energy [C96_self]. `CompressedSublattices::add` keeps the order of generators, not the order by number of orbitals on which `hamiltonian_start` and `apply_to_hoppings` rely (`verify` is only called after the foundation): new sites with fewer orbitals get their hoppings in rows of other sites [C96_orbitals_witness].
  An upper triangular onsite energy of a site generator passes the check for Hermitian energies like one of a sublattice, but is not completed: the Hamiltonian is not Hermitian [C96_upper_witness]. Generated sites never get hoppings over periodic boundaries.
* **Rounding.** With FMA3 and real scalars `simd::madd_rc` rounds once, but the peeled and the remaining rows of the same kernel round twice; which rows these are depends on the alignment and on the slices, so results with and without optimisation, and on two runs with differently aligned memory, may differ in the last digits [C97_vectors]. CSR and generic ELLPACK kernels do not have this problem [C97_identical].
  `create_scaled` computes (h - b) inv and `create_reordered` h inv - b inv: the scaled matrices of the two paths may differ by rounding even if the kernels do not.
* **Phases in single precision.** `constant::i1` is a `std::complex<float>`, wave vectors and shifts are `Vector3f`: the phase of a periodic boundary is computed in single precision and converted afterwards, also for `std::complex<double>` [C98_phase_single]. Bands of models with double-precision energies are accurate to about seven digits only.
* **Results depend on thread timing.** Batches and single vectors compete for the vectors of the starter, and a batch uses other kernels than a single vector: with two or more threads, and a number of vectors that is neither a multiple of the batch size nor rounded up, the last digits of local densities of states differ from run to run [C101_ldos_depends]. The average of a total density of states is added up in order of completion and differs even with equal kernels [C101_dos_depends]. A fixed seed does not make `calc_dos` reproducible to the last digit unless `num_threads` is 1 [C101_one_thread].
* **Deferred calculations deadlock.** `Deferred.compute()` and `Deferred.result` are bound without releasing the lock of the interpreter; the jobs of a KPM calculation call the Python progress callback, which needs it, from other threads, while the caller waits for them. With the default callback `kpm.deferred_ldos(...).result`, and `parallel_for` with `num_threads=1` (also on a machine with one core), never return [C102_deferred_never_returns]; with `silent=True` they do [C102_returns].
* **Progress bars.** More than 100% when a batch is rounded up [C102_over_hundred]; lost and backward updates with several threads [C102_goes_back]; `calc_dos(num_random=0)` raises `ZeroDivisionError` and leaves `sys.stdout` redirected, so that later output vanishes [C102_no_vectors, C102_output_lost]; two calculations in two Python threads: when the one that started first ends first, the other raises `AttributeError` in a thread of the pool, which ends the program [C102_overlap].
* **Memory of parallel sweeps.** The documentation of `parallel_for` and `parallelize` says that at most `queue_size + num_threads` jobs are in memory. The queue of finished jobs has no limit, so all jobs can be [C104_unbounded]; even before the first result there can be one more than documented [C104_attained].
* **Reference counts without the interpreter's lock.** `Queue::pop` copies a `Job`, which contains a `py::object`, and destroys the original, in threads that do not hold the lock. If `produce` returns the same object for two jobs, an increment can be lost and the object is destroyed while Python still uses it [C104_shared]. With a new object for every job nothing goes wrong [C104_refs].
* **Repeated densities of states.** The generator of random vectors always starts with the default seed, so calling `calc_dos` again gives the same random error; only a larger `num_random` reduces it, as bounded by [C105_size].
* **Onsite energies are checked with a tolerance.** An imaginary part of up to 1e-12 on the diagonal passes the check and is stored, so the Hamiltonian is not exactly Hermitian [C106_tolerance_witness]; elements below the diagonal that are 1e-12 times smaller than those above are dropped without an error [C106_stored].
* **Durations in C++ and Python.** Between 10 and 100 milliseconds and between 20 and 60 seconds C++ cuts off and Python rounds, so the same time can be printed as 59s and 60s [C108_witness].
* **Smoothing mixes far sites.** `SpatialMap.convolve` compares distances from the origin in place of distances between sites: sites on opposite sides are averaged [C110_distance_witness], and all sites on a circle get the same value [C110_rings]. Integer data is truncated twice, so that a constant one becomes zero [C110_integer_witness].
* **Images missing from plots.** The comparison of shifts has a relative tolerance of 0.1 percent, so images of large systems with nearly equal shifts are left out [C109_tolerance_witness].
* **Overlapping sites in plots.** The radius is limited by the distances of the sublattices of one cell only; the sites of neighboring cells can overlap [C111_witness].
* **Colors and sizes in plots.** With the default palette the eighth and all further kinds of hoppings have the color of the seventh [C112_palette_witness]. Data whose values differ by less than 1e-8, such as probabilities in large systems, is drawn with one radius [C112_small_witness].
* **Armchair hexagon.** The constants a and a_cc of graphene do not have the ratio of the square root of three; the margin of a quarter of the distance between neighbors absorbs this up to 14 micrometers [C113_armchair].
* **Deformed graphene.** `strained_hopping` compares every hopping with the distance of nearest neighbors: without any strain next-nearest hoppings fall below a tenth [C114_strain_next_witness]. `gaussian_bump` replaces the height of the sites instead of adding to it: the two layers of a bilayer get the same positions, and the hopping between them grows more than twenty times even if the bump has no height [C114_bump_witness, C114_bump_bilayer_witness]. `coulomb_potential` with its default cutoff is infinite for a site at the charge [C114_coulomb_finite].
* **Bilayer graphene.** `bilayer(gamma4=True)` joins A1 with A2 but not B1 with B2, although both pairs are equally distant; the two layers are not equivalent then [C115_gamma4_witness].

## 5. Tests against wrong programs

`seeded/LOG.jsonl` records edits of the model (in a scratch copy) as a realistic bug would make them, with the theorems that
stopped proving.  Edits that nothing noticed led to new or stronger theorems, or are recorded as harmless with the reason.
A proof that stops compiling is evidence, not a refutation of the statement: often the first failure is a lemma, and the
property theorems after it were not reached (`not_reached_downstream_of_failure`).

## Appendix: axioms of each theorem

### none

* `Verif.Sublat.C01_inconsistent_norb_witness`
* `Verif.Hopping.C05_out_of_range_witness`
* `Verif.Foundation.C14_sublattice_witness`
* `Verif.Sublat.C40_empty_block_ub`
* `Verif.Solver.C45_failed_set_model_witness`
* `Verif.Kpm.Cache.C56_failed_set_model_witness`
* `Verif.Kpm.Cache.C56_empty_indices_witness`
* `Verif.Binding.C73_types`
* `Verif.Binding.C73_vector_witness`
* `Verif.Thread.C78_misspelt_witness`
* `Verif.Solver.Probability.C84_row_witness`
* `Verif.Sublat.C92_element_witness`
* `Verif.Binding.SweepResult.C93_axis_witness`
* `Verif.Kpm.Progress.C102_output_one`

### propext

* `Verif.Sublat.C04_sublattices_roundtrip`
* `Verif.Hopping.C04_tocsr_duplicate_ub`
* `Verif.Hopping.C05_duplicate_bond_witness`
* `Verif.Hopping.C07_witness`
* `Verif.Symmetry.C20_far_witness`
* `Verif.Symmetry.C20_period_too_long_ub`
* `Verif.Hamiltonian.C21_upper_triangular_witness`
* `Verif.Hamiltonian.C22_double_bond_witness`
* `Verif.Hamiltonian.C23_generated_sites_witness`
* `Verif.Hamiltonian.C23_interleaved_sites_witness`
* `Verif.Hamiltonian.C23_small_buffer_witness`
* `Verif.Numeric.C29_simd_empty`
* `Verif.Numeric.C29_diagonal_simd_empty`
* `Verif.Thread.C32_no_workers`
* `Verif.Kpm.C33_user_bounds`
* `Verif.Model.C38_model_partial`
* `Verif.Model.C38_retry`
* `Verif.Sublat.C40_empty_block_wrong_sublattice`
* `Verif.Solver.C45_current_partial`
* `Verif.Leads.C46_order_witness`
* `Verif.Hopping.C47_boundary_size_witness`
* `Verif.Kpm.Cache.C56_history_partial`
* `Verif.Kpm.C70_full_converse_witness`
* `Verif.Kpm.C70_memory`
* `Verif.Feast.C71_start`
* `Verif.Feast.C71_recycle_bigger_witness`
* `Verif.Feast.C71_recycle_smaller_witness`
* `Verif.Binding.C72_shape_witness`
* `Verif.Binding.C73_numpy`
* `Verif.Binding.C73_container`
* `Verif.Binding.C73_three`
* `Verif.Binding.C73_order_witness`
* `Verif.Binding.C73_stride_witness`
* `Verif.Binding.C73_two`
* `Verif.Machine.C74_narrow_witness`
* `Verif.Binding.Pickle.C75_offset_accepted`
* `Verif.Binding.Lifetime.C76_in_use`
* `Verif.Binding.Lifetime.C76_dangling_witness`
* `Verif.Solver.C77_cpp_witness`
* `Verif.Binding.SweepResult.C93_column_witness`
* `Verif.Binding.SweepResult.C93_masks_witness`
* `Verif.Kpm.Progress.C102_one_vector`
* `Verif.Kpm.Progress.C102_no_vectors`
* `Verif.Thread.C104_lift`
* `Verif.Thread.C104_shared`
* `Verif.Phosphorene.C116_numbers`

### propext, Quot.sound

* `Verif.Sublat.C02_short_mask_ub`
* `Verif.Hopping.C04_hoppings_roundtrip`
* `Verif.Hopping.C04_tocsr`
* `Verif.Hopping.C05_append_rejects`
* `Verif.Hopping.C07_filter_correct_iff`
* `Verif.Lattice.C09_ids`
* `Verif.Lattice.C09_stable`
* `Verif.Lattice.C09_lookups`
* `Verif.Lattice.C09_hopping_lookups`
* `Verif.Lattice.C09_unknown`
* `Verif.Lattice.C09_onsite_hermitian`
* `Verif.Foundation.C15_count`
* `Verif.Numeric.C29_aligned_size`
* `Verif.Kpm.C33_degenerate`
* `Verif.Model.C37_fresh_partial`
* `Verif.Model.C37_leads_partial`
* `Verif.Model.C37_reads_pure`
* `Verif.Model.C37_read_twice`
* `Verif.Model.C37_clear_structure_witness`
* `Verif.Model.C37_clear_hamiltonian_witness`
* `Verif.Model.C37_rejected_shape_witness`
* `Verif.Model.C37_scalar_type_witness`
* `Verif.Model.C37_leads_after_failure_witness`
* `Verif.Model.C38_lattice_partial`
* `Verif.Model.C38_lattice_same_structure`
* `Verif.Model.C38_primitive_witness`
* `Verif.Model.C38_shape_witness`
* `Verif.Model.C38_site_generator_witness`
* `Verif.Model.C38_hopping_generator_witness`
* `Verif.Solver.C45_once`
* `Verif.Solver.C45_count`
* `Verif.Leads.C46_outside_witness`
* `Verif.Shape.C57_vertices`
* `Verif.Shape.C57_freeform_accepted`
* `Verif.Leads.C58_once`
* `Verif.Model.C65_complex`
* `Verif.Binding.C73_match`
* `Verif.Binding.C73_match_two`
* `Verif.Machine.C74_size`
* `Verif.Machine.C74_orbitals_witness`
* `Verif.Lattice.C75_continue`
* `Verif.Lattice.C75_continue_exact`
* `Verif.Solver.C77_python_history_partial`
* `Verif.Solver.C77_cpp_constant`
* `Verif.Thread.C78_saved`
* `Verif.Binding.Names.C81_split`
* `Verif.Binding.Names.C81_modifier`
* `Verif.Binding.Names.C81_index_ne`
* `Verif.Binding.Names.C81_nearest_any`
* `Verif.Binding.Names.C81_target`
* `Verif.Binding.Names.C81_nearest`
* `Verif.Binding.Names.C81_nearest_missing`
* `Verif.Binding.Slicing.C82_compose`
* `Verif.Solver.Probability.C84_row_exact`
* `Verif.Leads.C92_orbitals_witness`
* `Verif.Leads.C92_norb_witness`
* `Verif.Sublat.C92_element_exact`
* `Verif.Binding.SweepResult.C93_getitem_values`
* `Verif.Binding.SweepResult.C93_mirrored_partial`
* `Verif.Binding.SweepResult.C93_file`
* `Verif.Binding.SweepResult.C93_mirrored_witness`
* `Verif.Kpm.Py.C94_shape`
* `Verif.Pipeline.Generators.C96_ordered`
* `Verif.Pipeline.Generators.C96_reversed_witness`
* `Verif.Pipeline.Generators.C96_rectangular_witness`
* `Verif.Pipeline.Generators.C96_self_witness`
* `Verif.Pipeline.Generators.C96_upper_witness`
* `Verif.Pipeline.Generators.C96_orbitals_witness`
* `Verif.Kpm.Progress.C102_inside`
* `Verif.Colors.C112_order`

### propext, Classical.choice, Quot.sound

* `Verif.Sublat.C01_labels_roundtrip`
* `Verif.Sublat.C01_hamiltonian_size`
* `Verif.Sublat.C02_filter_labels`
* `Verif.Sublat.C02_filter_twice`
* `Verif.Sublat.C03_size`
* `Verif.Sublat.C03_rows`
* `Verif.Sublat.C03_tiling`
* `Verif.Sublat.C03_unique_owner`
* `Verif.Sublat.C03_expanded_positions`
* `Verif.Sublat.C03_verify_iff`
* `Verif.Sublat.C04_sublattices_roundtrip'`
* `Verif.Hopping.C05_unique_exact`
* `Verif.Hopping.C05_append`
* `Verif.Hopping.C05_unordered_unique_partial`
* `Verif.Hopping.C05_append_idempotent`
* `Verif.Hopping.C06_count_neighbors`
* `Verif.Hopping.C06_out_of_range_ub`
* `Verif.Hopping.C07_system_correct_iff`
* `Verif.Hopping.C07_suffix_removed_partial`
* `Verif.Lattice.C08_no_duplicate_bond`
* `Verif.Lattice.C08_no_self_bond`
* `Verif.Lattice.C08_rejected`
* `Verif.Lattice.C08_rejected_anonymous`
* `Verif.Lattice.C08_accepted`
* `Verif.Lattice.C10_registry_iff`
* `Verif.Lattice.C10_registry_partial`
* `Verif.Lattice.C10_interleaved_alias_witness`
* `Verif.Lattice.C10_alias_of_alias_witness`
* `Verif.Lattice.C10_hopping_registry`
* `Verif.Lattice.C11_unit_cell`
* `Verif.Lattice.C11_aliases_adjacent`
* `Verif.Lattice.C12_max_hoppings`
* `Verif.Pipeline.C12_rows`
* `Verif.Lattice.C13_exact`
* `Verif.Lattice.C13_translate_partial`
* `Verif.Lattice.C13_translate_inverse`
* `Verif.Lattice.C13_position`
* `Verif.Lattice.C13_cell_roundtrip_partial`
* `Verif.Lattice.C13_set_offset_partial`
* `Verif.Lattice.C13_out_of_plane_witness`
* `Verif.Foundation.C14_sites`
* `Verif.Foundation.C14_slice`
* `Verif.Foundation.C14_positions`
* `Verif.Foundation.C14_sublattice_partial`
* `Verif.Foundation.C15_inside`
* `Verif.Foundation.C15_symmetric`
* `Verif.Foundation.C15_flat`
* `Verif.Foundation.C16_numbering`
* `Verif.Foundation.C16_populate`
* `Verif.Foundation.C16_reserve`
* `Verif.Foundation.C17_remove_dangling`
* `Verif.Foundation.C17_fuel`
* `Verif.Foundation.C17_foundation`
* `Verif.Foundation.C18_primitive`
* `Verif.Foundation.C18_sites`
* `Verif.Foundation.C19_bounds_partial`
* `Verif.Foundation.C19_exact`
* `Verif.Foundation.C19_witness`
* `Verif.Symmetry.C20_closure`
* `Verif.Symmetry.C20_apply`
* `Verif.Symmetry.C20_tiling`
* `Verif.Symmetry.C20_period`
* `Verif.Hamiltonian.C21_hermitian`
* `Verif.Pipeline.C21_lattice`
* `Verif.Hamiltonian.C22_build_paths_agree`
* `Verif.Pipeline.C22_lattice`
* `Verif.Hamiltonian.C23_hoppings`
* `Verif.Hamiltonian.C23_buffer_size`
* `Verif.Kpm.C24_matrix`
* `Verif.Kpm.C24_defined_iff`
* `Verif.Kpm.C24_vectors`
* `Verif.Kpm.C24_scaled`
* `Verif.Kpm.C24_compressed`
* `Verif.Kpm.C25_borders`
* `Verif.Kpm.C25_spread`
* `Verif.Kpm.C25_balls`
* `Verif.Kpm.C26_offdiagonal`
* `Verif.Kpm.C26_diagonal`
* `Verif.Kpm.C26_batch`
* `Verif.Kpm.C26_agreement`
* `Verif.Kpm.C27_offdiagonal`
* `Verif.Kpm.C27_diagonal`
* `Verif.Kpm.C28_offdiagonal`
* `Verif.Kpm.C28_diagonal`
* `Verif.Kpm.C28_unrounded_out_of_bounds`
* `Verif.Numeric.C29_conversion`
* `Verif.Numeric.C29_csr`
* `Verif.Numeric.C29_ell`
* `Verif.Numeric.C29_simd_partial`
* `Verif.Numeric.C29_diagonal`
* `Verif.Numeric.C29_diagonal_simd_partial`
* `Verif.Numeric.C29_first_vector`
* `Verif.Numeric.C29_split_loop`
* `Verif.Kpm.C30_average`
* `Verif.Kpm.C30_columns`
* `Verif.Kpm.C30_terminates`
* `Verif.Kpm.C30_can_finish`
* `Verif.Thread.C31_exactly_once`
* `Verif.Thread.C31_at_most_once`
* `Verif.Thread.C31_no_deadlock`
* `Verif.Thread.C31_terminates`
* `Verif.Thread.C31_no_threads`
* `Verif.Thread.C32_all_jobs`
* `Verif.Thread.C32_exactly_once`
* `Verif.Thread.C32_after_join`
* `Verif.Thread.C32_no_deadlock`
* `Verif.Thread.C32_terminates`
* `Verif.Thread.C32_can_finish`
* `Verif.Thread.C32_finished_joined`
* `Verif.Kpm.C33_scaled_inside`
* `Verif.Kpm.C34_rounding`
* `Verif.Kpm.C35_indices_partial`
* `Verif.Kpm.C35_off_by_one`
* `Verif.Kpm.C35_off_by_one_column`
* `Verif.Kpm.C36_directions_partial`
* `Verif.Kpm.C36_half_valid`
* `Verif.Model.C38_anonymous_witness`
* `Verif.Shape.C39_even_odd`
* `Verif.Shape.C39_start`
* `Verif.Shape.C39_orientation`
* `Verif.Shape.C39_translation`
* `Verif.Shape.C39_rectangle`
* `Verif.Shape.C39_triangle_inside`
* `Verif.Shape.C39_triangle_outside`
* `Verif.Shape.C39_translation_witness`
* `Verif.Sublat.C40_exact`
* `Verif.Sublat.C40_find_nearest_sublattice_partial`
* `Verif.Sublat.C40_find_nearest_any`
* `Verif.Sublat.C40_unknown_label`
* `Verif.Numeric.C41_sliced`
* `Verif.Numeric.C41_for_each`
* `Verif.Numeric.C41_buffered`
* `Verif.Numeric.C41_slice`
* `Verif.Numeric.C42_inserter`
* `Verif.Kpm.C43_commutator`
* `Verif.Kpm.C43_antihermitian`
* `Verif.Kpm.C44_jackson`
* `Verif.Kpm.C44_lorentz`
* `Verif.Kpm.C44_dirichlet`
* `Verif.Kpm.C44_damp`
* `Verif.Leads.C46_direction`
* `Verif.Leads.C46_rejected`
* `Verif.Leads.C46_area`
* `Verif.Leads.C46_contiguous`
* `Verif.Leads.C46_again`
* `Verif.Leads.C46_leads_partial`
* `Verif.Hopping.C47_modifiers_coherent`
* `Verif.Lattice.C48_registry`
* `Verif.Hamiltonian.C49_coefficients`
* `Verif.Pipeline.C50_bloch`
* `Verif.Kpm.C52_resolution`
* `Verif.Kpm.C53_nonnegative`
* `Verif.Kpm.C53_sum_rule`
* `Verif.Kpm.C53_bounded`
* `Verif.Kpm.C54_greens_ldos`
* `Verif.Kpm.C55_integration_partial`
* `Verif.Kpm.C55_constant_too_small`
* `Verif.Shape.C57_line_partial`
* `Verif.Shape.C57_line_endpoints`
* `Verif.Shape.C57_line_symmetric`
* `Verif.Shape.C57_freeform_corners`
* `Verif.Leads.C58_structure`
* `Verif.Leads.C58_after_area`
* `Verif.Leads.C58_induced`
* `Verif.Leads.C58_coupling_partial`
* `Verif.Leads.C58_adjoint_witness`
* `Verif.Kpm.C51_moments`
* `Verif.Kpm.C51_moments_rejected`
* `Verif.Kpm.C51_greens`
* `Verif.Kpm.C51_ldos`
* `Verif.Kpm.C51_ldos_batch`
* `Verif.Kpm.C51_ldos_value`
* `Verif.Kpm.C51_ldos_nonnegative`
* `Verif.Kpm.C59_real_partial`
* `Verif.Kpm.C59_transposed`
* `Verif.Kpm.C59_witness`
* `Verif.Kpm.C60_unit_modulus`
* `Verif.Kpm.C60_moments`
* `Verif.Kpm.C60_batch`
* `Verif.Kpm.C60_value`
* `Verif.Kpm.C60_nonnegative`
* `Verif.Kpm.C60_number_of_states`
* `Verif.Kpm.C60_unbiased`
* `Verif.Kpm.C61_moments`
* `Verif.Kpm.C61_no_vectors`
* `Verif.Kpm.C61_trace`
* `Verif.Kpm.C61_integral_partial`
* `Verif.Kpm.C61_conductivity_partial`
* `Verif.Kpm.C62_targets`
* `Verif.Kpm.C62_ldos`
* `Verif.Kpm.C62_spatial_targets`
* `Verif.Kpm.C62_spatial_partial`
* `Verif.Kpm.C62_rejected`
* `Verif.Kpm.C62_empty_shape`
* `Verif.Kpm.C62_possible`
* `Verif.Lanczos.C63_rotation`
* `Verif.Lanczos.C63_complete`
* `Verif.Lanczos.C63_sound`
* `Verif.Lanczos.C63_exact`
* `Verif.Lanczos.C63_two`
* `Verif.Lanczos.C64_inside`
* `Verif.Lanczos.C64_loops`
* `Verif.Lanczos.C64_full`
* `Verif.Lanczos.C64_precision`
* `Verif.Lanczos.C64_tolerance`
* `Verif.Lanczos.C64_multiple_of_identity`
* `Verif.Lanczos.C64_missed`
* `Verif.Model.C65_parameters`
* `Verif.Model.C65_lead_at`
* `Verif.Hamiltonian.C66_count`
* `Verif.Hamiltonian.C66_enough`
* `Verif.Solver.C67_dos`
* `Verif.Solver.C67_sign`
* `Verif.Solver.C67_sum`
* `Verif.Solver.C67_unique`
* `Verif.Solver.C67_current`
* `Verif.Simd.C68_arithmetic`
* `Verif.Simd.C68_gather`
* `Verif.Simd.C68_spmv`
* `Verif.Simd.C68_diagonal`
* `Verif.Simd.C68_block`
* `Verif.Simd.C69_aligned`
* `Verif.Simd.C69_aligned_block`
* `Verif.Simd.C69_axpy`
* `Verif.Kpm.C70_counters`
* `Verif.Kpm.C70_full_partial`
* `Verif.Kpm.C70_work_offdiagonal`
* `Verif.Kpm.C70_work_diagonal`
* `Verif.Kpm.C70_scope`
* `Verif.Feast.C71_solve_partial`
* `Verif.Feast.C71_recycle_partial`
* `Verif.Feast.C71_matrix`
* `Verif.Feast.C71_guess_one_witness`
* `Verif.Feast.C71_no_eigenvalues_witness`
* `Verif.Feast.C71_reduced_guess_witness`
* `Verif.Binding.C72_argument`
* `Verif.Binding.C72_result_partial`
* `Verif.Binding.C72_new_array`
* `Verif.Binding.C72_in_place`
* `Verif.Binding.C72_exact`
* `Verif.Binding.C72_complex`
* `Verif.Binding.C72_refused`
* `Verif.Binding.C72_onsite`
* `Verif.Binding.C72_hopping`
* `Verif.Binding.C72_view_witness`
* `Verif.Binding.C72_reversed_witness`
* `Verif.Binding.C72_broadcast_witness`
* `Verif.Binding.C72_reshaped_witness`
* `Verif.Machine.C74_positions`
* `Verif.Machine.C74_bounds`
* `Verif.Machine.C74_numbering`
* `Verif.Machine.C74_site_indices`
* `Verif.Machine.C74_hopping_indices`
* `Verif.Machine.C74_foundation_witness`
* `Verif.Binding.Pickle.C75_lattice`
* `Verif.Binding.Pickle.C75_system`
* `Verif.Binding.Pickle.C75_hamiltonian`
* `Verif.Binding.Pickle.C75_old_format`
* `Verif.Binding.Pickle.C75_results`
* `Verif.Binding.Pickle.C75_props_witness`
* `Verif.Lattice.C75_queries`
* `Verif.Lattice.C75_unit_cell`
* `Verif.Lattice.C75_ambiguous_witness`
* `Verif.Binding.Pickle.C75_fields`
* `Verif.Binding.Lifetime.C76_exact`
* `Verif.Binding.Lifetime.C76_valid_partial`
* `Verif.Binding.Lifetime.C76_no_leak`
* `Verif.Binding.Lifetime.C76_dangling`
* `Verif.Solver.C77_python_partial`
* `Verif.Solver.C77_cpp_history`
* `Verif.Solver.C77_array`
* `Verif.Thread.C78_call`
* `Verif.Thread.C78_call_fails`
* `Verif.Thread.C78_sequence`
* `Verif.Thread.C78_sequential`
* `Verif.Thread.C78_parallel`
* `Verif.Thread.C78_progress`
* `Verif.Thread.C78_sweep`
* `Verif.Thread.C78_no_race`
* `Verif.Thread.C78_race`
* `Verif.Thread.C78_rows`
* `Verif.Pipeline.C79_dual`
* `Verif.Pipeline.C79_periodic`
* `Verif.Pipeline.C79_time_reversal`
* `Verif.Pipeline.C79_zone1`
* `Verif.Pipeline.C79_zone2_partial`
* `Verif.Pipeline.C79_zone2_exact`
* `Verif.Pipeline.C79_zone2_witness`
* `Verif.Pipeline.C79_singular_witness`
* `Verif.Pipeline.C79_shift`
* `Verif.Shape.C80_polygon`
* `Verif.Shape.C80_rectangle`
* `Verif.Shape.C80_regular_polygon`
* `Verif.Shape.C80_freeform`
* `Verif.Shape.C80_circle`
* `Verif.Shape.C80_composite`
* `Verif.Shape.C80_operators`
* `Verif.Shape.C80_composite_offset`
* `Verif.Shape.C80_polygon_offset`
* `Verif.Shape.C80_freeform_offset_partial`
* `Verif.Shape.C80_freeform_offset_witness`
* `Verif.Shape.C80_line_offset`
* `Verif.Shape.C80_sites_partial`
* `Verif.Shape.C80_height_witness`
* `Verif.Shape.C80_line_ends`
* `Verif.Shape.C80_vertices`
* `Verif.Binding.Names.C81_array`
* `Verif.Binding.Names.C81_agreement`
* `Verif.Binding.Names.C81_nearest_agree_partial`
* `Verif.Binding.Names.C81_height_witness`
* `Verif.Binding.Names.C81_missing_witness`
* `Verif.Binding.Names.C81_disagree_witness`
* `Verif.Binding.Slicing.C82_mask`
* `Verif.Binding.Slicing.C82_ints`
* `Verif.Binding.Slicing.C82_slice`
* `Verif.Binding.Slicing.C82_matrix`
* `Verif.Binding.Slicing.C82_part`
* `Verif.Binding.Slicing.C82_cropped`
* `Verif.Binding.Slicing.C82_shape`
* `Verif.Binding.Slicing.C82_map`
* `Verif.Binding.Slicing.C82_system`
* `Verif.Binding.Slicing.C82_ids_witness`
* `Verif.Solver.Paths.C83_path`
* `Verif.Solver.Paths.C83_kept`
* `Verif.Solver.Paths.C83_points_partial`
* `Verif.Solver.Paths.C83_spacing_partial`
* `Verif.Solver.Paths.C83_bands_partial`
* `Verif.Solver.Paths.C83_as_1d_partial`
* `Verif.Solver.Paths.C83_short_witness`
* `Verif.Solver.Paths.C83_shape_witness`
* `Verif.Solver.Paths.C83_shape`
* `Verif.Solver.Paths.C83_step`
* `Verif.Solver.Paths.C83_part_witness`
* `Verif.Solver.Probability.C84_groups`
* `Verif.Solver.Probability.C84_reduce`
* `Verif.Solver.Probability.C84_mean`
* `Verif.Solver.Probability.C84_eigenvalues`
* `Verif.Solver.Probability.C84_probability`
* `Verif.Solver.Probability.C84_single`
* `Verif.Solver.Probability.C84_total`
* `Verif.Solver.Probability.C84_ldos`
* `Verif.Solver.Probability.C84_ldos_value`
* `Verif.Solver.Probability.C84_chain_witness`
* `Verif.Kpm.C85_jackson`
* `Verif.Kpm.C85_broadening`
* `Verif.Kpm.C85_converges`
* `Verif.Kpm.C85_dirichlet`
* `Verif.Kpm.C85_lorentz`
* `Verif.Kpm.C85_ldos`
* `Verif.Kpm.C85_dos`
* `Verif.Kpm.C85_expected`
* `Verif.Pipeline.C86_crystal`
* `Verif.Pipeline.C86_spectrum`
* `Verif.Pipeline.C86_bands`
* `Verif.Pipeline.C86_folding`
* `Verif.Pipeline.C87_rewriting`
* `Verif.Pipeline.C87_order`
* `Verif.Pipeline.C87_states`
* `Verif.Pipeline.C88_bloch`
* `Verif.Pipeline.Repository.C89_monolayer`
* `Verif.Pipeline.Repository.C89_dirac`
* `Verif.Pipeline.Repository.C89_width`
* `Verif.Pipeline.Repository.C89_monolayer_alt`
* `Verif.Pipeline.Repository.C89_monolayer_4atom`
* `Verif.Pipeline.Repository.C89_bilayer`
* `Verif.Pipeline.Repository.C89_bilayer_inversion`
* `Verif.Pipeline.Repository.C89_bilayer_gamma4_witness`
* `Verif.Pipeline.Repository.C89_chain`
* `Verif.Pipeline.Repository.C89_square`
* `Verif.Pipeline.Repository.C89_phosphorene`
* `Verif.Pipeline.Repository.C89_tmd`
* `Verif.Field.C90_peierls`
* `Verif.Field.C90_flux`
* `Verif.Field.C90_motion`
* `Verif.Field.C90_reversal`
* `Verif.Field.C90_period`
* `Verif.Field.C90_ready`
* `Verif.Field.C90_translation`
* `Verif.Field.C90_ribbon`
* `Verif.Field.C90_potential`
* `Verif.Field.C90_coulomb`
* `Verif.Field.C90_coulomb_witness`
* `Verif.Field.C90_mass`
* `Verif.Field.C90_mass_orbitals_witness`
* `Verif.Field.C90_mass_levels`
* `Verif.Field.C90_gap`
* `Verif.Field.C90_strain`
* `Verif.Field.C90_strain_factor`
* `Verif.Field.C90_unstrained_witness`
* `Verif.Field.C90_triaxial`
* `Verif.Field.C90_bump`
* `Verif.Kpm.C91_lorentz`
* `Verif.Kpm.C91_closeness`
* `Verif.Kpm.C91_converges`
* `Verif.Kpm.C91_greens`
* `Verif.Kpm.C91_ldos`
* `Verif.Leads.C92_h0`
* `Verif.Leads.C92_h1_partial`
* `Verif.Leads.C92_h1_exact`
* `Verif.Leads.C92_infinite_partial`
* `Verif.Leads.C92_bands_partial`
* `Verif.Leads.C92_hermitian`
* `Verif.Leads.C92_wave`
* `Verif.Leads.C92_long`
* `Verif.Leads.C92_plain`
* `Verif.Leads.C92_attached`
* `Verif.Leads.C92_norb_exact`
* `Verif.Binding.SweepResult.C93_getitem_partial`
* `Verif.Binding.SweepResult.C93_cropped`
* `Verif.Binding.SweepResult.C93_nearest`
* `Verif.Binding.SweepResult.C93_interpolated_partial`
* `Verif.Binding.SweepResult.C93_integer_witness`
* `Verif.Kpm.Py.C94_moments`
* `Verif.Kpm.Py.C94_ldos`
* `Verif.Kpm.Py.C94_agree`
* `Verif.Kpm.Py.C94_scale`
* `Verif.Kpm.Py.C94_bounds`
* `Verif.Kpm.Py.C94_bounds_witness`
* `Verif.Kpm.Py.C94_sites`
* `Verif.Kpm.Py.C94_spatial`
* `Verif.Kpm.Py.C94_structure_map`
* `Verif.Kpm.Py.C94_ldos_at`
* `Verif.Pipeline.EndToEnd.C95_matrix`
* `Verif.Pipeline.EndToEnd.C95_greens`
* `Verif.Pipeline.EndToEnd.C95_ldos`
* `Verif.Pipeline.Generators.C96_build`
* `Verif.Pipeline.Generators.C96_extends`
* `Verif.Pipeline.Generators.C96_lattice`
* `Verif.Pipeline.Generators.C96_succeeds`
* `Verif.Pipeline.Generators.C96_reversed`
* `Verif.Pipeline.Generators.C96_self`
* `Verif.Pipeline.Generators.C96_hermitian_partial`
* `Verif.Kpm.Float.C97_moments`
* `Verif.Kpm.Float.C97_greens`
* `Verif.Kpm.Float.C97_function`
* `Verif.Kpm.Float.C97_unit`
* `Verif.Kpm.Float.C97_identical`
* `Verif.Kpm.Float.C97_vectors`
* `Verif.Hamiltonian.C98_hermitian`
* `Verif.Hamiltonian.C98_hermitian_complex`
* `Verif.Hamiltonian.C98_hermitian_real`
* `Verif.Hamiltonian.C98_accuracy`
* `Verif.Hamiltonian.C98_eigenvalues`
* `Verif.Hamiltonian.C98_terms`
* `Verif.Hamiltonian.C98_phase_single`
* `Verif.Kpm.Float.C99_greens`
* `Verif.Kpm.Float.C99_function`
* `Verif.Kpm.Float.C99_complex`
* `Verif.Kpm.Float.C99_real`
* `Verif.Kpm.Float.C99_scale`
* `Verif.Kpm.Float.C99_stores`
* `Verif.Kpm.Float.C99_system`
* `Verif.Kpm.Float.C100_moments`
* `Verif.Kpm.Float.C100_ldos`
* `Verif.Kpm.Float.C100_density`
* `Verif.Kpm.Float.C100_unit`
* `Verif.Kpm.Float.C100_line`
* `Verif.Kpm.C101_columns`
* `Verif.Kpm.C101_batches`
* `Verif.Kpm.C101_singles`
* `Verif.Kpm.C101_one_thread`
* `Verif.Kpm.C101_one_thread_columns`
* `Verif.Kpm.C101_can_finish`
* `Verif.Kpm.C101_ldos_depends`
* `Verif.Kpm.Float.C101_average`
* `Verif.Kpm.Float.C101_error`
* `Verif.Kpm.Float.C101_dos_depends`
* `Verif.Kpm.Float.C101_ldos`
* `Verif.Kpm.Progress.C102_calls`
* `Verif.Kpm.Progress.C102_returns`
* `Verif.Kpm.Progress.C102_deferred_never_returns`
* `Verif.Kpm.Progress.C102_bar`
* `Verif.Kpm.Progress.C102_one_thread`
* `Verif.Kpm.Progress.C102_over_hundred`
* `Verif.Kpm.Progress.C102_bar_can_finish`
* `Verif.Kpm.Progress.C102_goes_back`
* `Verif.Kpm.Progress.C102_output`
* `Verif.Kpm.Progress.C102_output_lost`
* `Verif.Kpm.Progress.C102_overlap`
* `Verif.Kpm.Float.C103_system`
* `Verif.Kpm.Float.C103_density`
* `Verif.Thread.C104_places`
* `Verif.Thread.C104_count`
* `Verif.Thread.C104_waiting`
* `Verif.Thread.C104_memory`
* `Verif.Thread.C104_arguments`
* `Verif.Thread.C104_unbounded`
* `Verif.Thread.C104_attained`
* `Verif.Thread.C104_refs`
* `Verif.Kpm.C105_mean`
* `Verif.Kpm.C105_calculation`
* `Verif.Kpm.C105_signs`
* `Verif.Kpm.C105_phases`
* `Verif.Kpm.C105_probability`
* `Verif.Kpm.C105_jackson`
* `Verif.Kpm.C105_moments`
* `Verif.Kpm.C105_size`
* `Verif.Lattice.C106_exact`
* `Verif.Lattice.C106_accepted`
* `Verif.Lattice.C106_valid`
* `Verif.Lattice.C106_stored`
* `Verif.Lattice.C106_tolerance_witness`
* `Verif.Lattice.C106_vector`
* `Verif.Kpm.C107_conductivity`
* `Verif.Report.C108_duration`
* `Verif.Report.C108_python`
* `Verif.Report.C108_digits`
* `Verif.Report.C108_monotone`
* `Verif.Report.C108_same`
* `Verif.Report.C108_suffix`
* `Verif.Report.C108_witness`
* `Verif.Images.C109_images`
* `Verif.Images.C109_bonds`
* `Verif.Images.C109_twice`
* `Verif.Images.C109_tolerance_witness`
* `Verif.Convolve.C110_gaussian_partial`
* `Verif.Convolve.C110_bounds`
* `Verif.Convolve.C110_constant`
* `Verif.Convolve.C110_rings`
* `Verif.Convolve.C110_distance_witness`
* `Verif.Convolve.C110_integer_witness`
* `Verif.SiteRadius.C111_overlap_partial`
* `Verif.SiteRadius.C111_lattice`
* `Verif.SiteRadius.C111_positive`
* `Verif.SiteRadius.C111_witness`
* `Verif.Colors.C112_bins`
* `Verif.Colors.C112_color`
* `Verif.Colors.C112_consistent`
* `Verif.Colors.C112_distinct`
* `Verif.Colors.C112_palette_witness`
* `Verif.Colors.C112_radii`
* `Verif.Colors.C112_small_witness`
* `Verif.Hexagon.C113_no_dangling`
* `Verif.Hexagon.C113_armchair`
* `Verif.Hexagon.C113_width`
* `Verif.Hexagon.C113_center`
* `Verif.GrapheneMod.C114_strain_symmetric`
* `Verif.GrapheneMod.C114_strain_decay`
* `Verif.GrapheneMod.C114_strain_nearest`
* `Verif.GrapheneMod.C114_strain_next_witness`
* `Verif.GrapheneMod.C114_triaxial_zero`
* `Verif.GrapheneMod.C114_triaxial_symmetric`
* `Verif.GrapheneMod.C114_bump`
* `Verif.GrapheneMod.C114_bump_flat`
* `Verif.GrapheneMod.C114_bump_witness`
* `Verif.GrapheneMod.C114_bump_bilayer_witness`
* `Verif.GrapheneMod.C114_coulomb_finite`
* `Verif.GrapheneMod.C114_coulomb`
* `Verif.GrapheneMod.C114_mass`
* `Verif.GrapheneLattice.C115_grid`
* `Verif.GrapheneLattice.C115_nearest`
* `Verif.GrapheneLattice.C115_next_nearest`
* `Verif.GrapheneLattice.C115_third_nearest`
* `Verif.GrapheneLattice.C115_same_neighbors`
* `Verif.GrapheneLattice.C115_same_places`
* `Verif.GrapheneLattice.C115_bilayer`
* `Verif.GrapheneLattice.C115_skew`
* `Verif.GrapheneLattice.C115_gamma4_witness`
* `Verif.Phosphorene.C116_lengths`
* `Verif.Phosphorene.C116_included`
