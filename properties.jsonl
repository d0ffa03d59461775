{"id": "C01", "title": "Lexicographic index and coordinates are inverse", "statement": "For any box, the index computed from coordinates inside the box lies below the volume, converting it back gives the same coordinates, and every index below the volume is the index of the coordinates computed from it.", "quantifier": "every box size (all extents > 0), every index and every coordinate in the box", "why_tests_cant": "the domain is every lattice extent; a test visits a handful of lattices", "anchors": ["src/geometry/geometry_lx.cpp:coordOfLx", "src/geometry/geometry_lx.hpp:lxOfCoord"]}
{"id": "C02", "title": "Every global site belongs to exactly one (rank, local site)", "statement": "Mapping a global coordinate to (rank, local index) and composing back through rank coordinates and local coordinates returns the original global coordinate; distinct global sites go to distinct (rank, local index) pairs and every pair is hit.", "quantifier": "every lattice, every rank grid dividing it, every global site", "why_tests_cant": "needs every decomposition of every lattice, tests run on one or a few ranks", "anchors": ["src/geometry/geometry_lx.cpp:getLoclxAndRankOfCoords", "src/geometry/geometry_lx.cpp:getLoclxAndRankOfGlblx", "src/geometry/geometry_lx.cpp:glblxOfCoord", "src/geometry/geometry_lx.hpp:rankOfCoord"]}
{"id": "C03", "title": "Neighbour tables describe the torus", "statement": "For every local (bulk) site, the up/down neighbour in each direction is a valid extended-lattice index whose global coordinate is the site's coordinate shifted by one modulo the global size; up and down are inverse wherever both are bulk.", "quantifier": "every lattice, rank grid, rank, bulk site and direction", "why_tests_cant": "depends on all lattice/rank-grid shapes incl. non parallel directions and the 2-site wide local case", "anchors": ["src/geometry/geometry_lx.cpp:fullLxOfCoords", "src/geometry/geometry_lx.cpp:set_lx_geometry", "loclxNeighup", "loclxNeighdw"]}
{"id": "C04", "title": "Halo indices enumerate outside sites bijectively", "statement": "The border/edge index returned for coordinates just outside the local box is in the border (edge) range, each index in that range is attained by exactly one such outside coordinate, and different outside coordinates never share an index; coordinates reaching further out are reported as not available.", "quantifier": "every lattice, rank grid and extended coordinate at distance one in one or two directions", "why_tests_cant": "needs all combinations of parallel directions and sizes", "anchors": ["src/geometry/geometry_lx.cpp:fullLxOfCoords", "bordOffset", "edge_offset", "bordVol", "edgeVol"]}
{"id": "C05", "title": "Halo exchange delivers the neighbour's data", "statement": "After a halo update every rank's halo site holds exactly the value that the owning rank stores at the same global site.", "quantifier": "every lattice, rank grid, rank, halo site and field contents", "why_tests_cant": "the property is about all ranks simultaneously, for all decompositions", "anchors": ["src/base/field.cpp", "src/base/field.hpp:updateHalo", "src/base/field.hpp:fillSendingBufWithSurface", "src/geometry/geometry_lx.cpp:surflxOfBordlx"]}
{"id": "C06", "title": "Edge exchange delivers the diagonal neighbour's data", "statement": "After an edges update every rank's edge site (shifted in two parallel directions) holds the value stored by the owner at the same global site.", "quantifier": "every lattice, rank grid, rank, edge site, field contents", "why_tests_cant": "as C05, with corner neighbours", "anchors": ["src/base/field.hpp:updateEdges", "src/communicate/edges.cpp", "src/geometry/geometry_lx.cpp:surflxOfEdgelx"]}
{"id": "C07", "title": "Even/odd split is a bijection and neighbours flip parity", "statement": "Each parity holds exactly half of the local sites; the (parity, half-index) maps are mutually inverse with the lexicographic index; one step in any direction from a site of one parity leads to a site of the other parity with the tabulated half-index.", "quantifier": "every lattice with even local sizes, every rank grid, every site incl. halo", "why_tests_cant": "all sizes and decompositions", "anchors": ["src/geometry/geometry_eo.cpp:set_eo_geometry", "loceo_of_loclx", "loclx_of_loceo", "loceo_neighup"]}
{"id": "C08", "title": "Splitting and pasting even/odd parts round-trips", "statement": "Splitting a full field into parities and pasting back gives the original field, and conversely, for any contents.", "quantifier": "every lattice, field content", "why_tests_cant": "all sizes", "anchors": ["src/geometry/geometry_mix.hpp", "src/geometry/geometry_mix.cpp"]}
{"id": "C09", "title": "Field memory layout is collision free and in bounds", "statement": "For either storage layout, distinct (site, internal index) pairs are stored at distinct offsets, all offsets lie below sites*internal size, and every offset is used; the 32-bit computation of the device layout equals the ideal one whenever the total size fits in 31 bits (and is wrong beyond).", "quantifier": "every number of sites, of internal components, both layouts", "why_tests_cant": "collision freedom is about all pairs", "anchors": ["src/base/field.hpp:index", "src/base/field.hpp:Field"]}
{"id": "C10", "title": "A valid-halo flag implies a fresh halo", "statement": "In any sequence of kernels, halo/edges updates, copies, constructions and asynchronous communications in which each kernel that writes a field captures it first as writable, no field is written while its own communication is pending, and a field with valid halo is not overwritten across memory spaces from one without: whenever the library skips a halo update because the halo is flagged valid, the halo content equals what an update would produce; after an edges update both halo and edges are fresh. Each of these rules is necessary: dropping it yields a concrete stale halo.", "quantifier": "every history of field operations", "why_tests_cant": "quantifies over all histories of captures/releases", "anchors": ["src/base/field.hpp:FieldRef", "src/base/field.hpp:invalidateHalo", "src/base/field.hpp:updateHalo", "src/base/field.hpp:assign"]}
{"id": "C11", "title": "Local reduction returns the sum of all entries", "statement": "The pairwise strided reduction of a buffer of n entries returns the sum (any commutative associative reducer) of all n entries, per slice in the multi-slice version, for every n.", "quantifier": "every length n, every slice number dividing n, all contents, any commutative associative operator", "why_tests_cant": "all lengths, odd/even at every tree level", "anchors": ["src/base/field.hpp:selfReduce", "src/routines/reduce.hpp:locReduce", "src/routines/reduce.hpp:glbReduce"]}
{"id": "C12", "title": "Concurrent allocations never share memory", "statement": "Over any sequence of provide/release/clear requests, two simultaneously live pointers are distinct, each live block is at least as large as requested and respects the requested alignment.", "quantifier": "every sequence of provide/release/clearCache requests, every size and alignment, any behaviour of the underlying allocator that returns fresh blocks", "why_tests_cant": "histories of cache hits and misses are unbounded", "anchors": ["src/base/memory_manager.hpp:provide", "release", "popFromCache"]}
{"id": "C13", "title": "Memory accounting is exact", "statement": "At any time the reported used (cached) size equals the sum of the sizes of live (cached) blocks, and the reported maxima are the maxima over the history.", "quantifier": "every sequence of requests", "why_tests_cant": "histories", "anchors": ["src/base/memory_manager.hpp:ValWithMax", "usedSize", "cachedSize"]}
{"id": "C14", "title": "Clearing the cache returns every cached block to the system", "statement": "After clearing the cache no block handed back by the user is retained or leaked.", "quantifier": "every reachable cache state", "why_tests_cant": "violated only for alignments below the default: needs all histories", "anchors": ["src/base/memory_manager.hpp:clearCache"]}
{"id": "C15", "title": "Vector registry and required-memory accounting", "statement": "After any sequence of named allocations and frees the registry contains exactly the live vectors in allocation order, the reported required memory is their total size, and the maximum is the history maximum.", "quantifier": "every sequence of malloc/free", "why_tests_cant": "histories", "anchors": ["src/base/vectors.cpp:internal_nissa_malloc", "src/base/vectors.cpp:internal_nissa_free"]}
{"id": "C16", "title": "Rank grid search returns a valid grid of minimal surface", "statement": "Given the lattice, the number of ranks and fixed directions, the grid chosen divides the lattice in each direction, multiplies to the number of ranks, respects the fixed directions and has minimal total surface among all such grids; if none exists no grid is silently used.", "quantifier": "every lattice, every number of ranks, every set of fixed directions", "why_tests_cant": "search space is unbounded; the pruning logic must be complete for every factorisation", "anchors": ["src/base/init.cpp:findMinimalSurfaceGrid", "src/base/init.cpp:initGrid"]}
{"id": "C17", "title": "Random generator state stays valid, no overflow", "statement": "Each update of the per-site generator computes the exact modular multiplication without signed overflow, keeps the two seeds and the table inside their ranges, indexes the shuffle table within bounds and returns a number in [0,1).", "quantifier": "every seed admitted by the start routine, any number of draws", "why_tests_cant": "2^31 seeds times unbounded draws", "anchors": ["src/base/random.cpp:start_rnd_gen", "src/base/random.cpp:rnd_get_unif"]}
{"id": "C18", "title": "Random generator state survives text save/restore", "statement": "Converting a generator to text and back yields the same state, hence the same future draws.", "quantifier": "every generator state", "why_tests_cant": "all states", "anchors": ["src/base/random.cpp:convert_rnd_gen_to_text", "src/base/random.cpp:convert_text_to_rnd_gen"]}
{"id": "C19", "title": "Per-site seeding is independent of the parallel decomposition", "statement": "The random numbers drawn at a global site depend only on the global seed and the site, and different sites get different seeds.", "quantifier": "every lattice, two arbitrary rank grids, every site", "why_tests_cant": "all decompositions", "anchors": ["src/base/random.cpp:start_loc_rnd_gen", "src/base/random.cpp:start_glb_rnd_gen"]}
{"id": "C20", "title": "Endianness conversion is an involution acting byte-wise", "statement": "Swapping the byte order twice is the identity; swapping maps byte k to byte size-1-k.", "quantifier": "every word of every size", "why_tests_cant": "all values", "anchors": ["src/base/.. endianness", "src/io/endianness.hpp:byteSwap"]}
{"id": "C21", "title": "Configuration checksum is decomposition independent and sees single-site corruption", "statement": "The pair of checksums is the same for every rank decomposition, and any change confined to the bytes of one site that changes its CRC changes both checksums; any single corrupted byte changes the CRC.", "quantifier": "every lattice, every two rank grids, all data", "why_tests_cant": "all data and decompositions", "anchors": ["src/io/checksum.hpp", "src/io/checksum.cpp"]}
{"id": "C22", "title": "ILDG records can be read back", "statement": "A file made by writing any list of records is parsed back record by record: same types, data, and MB/ME flags; the search for a type finds the first record of that type and skips the others at the right offset.", "quantifier": "every list of records with any types and payload lengths", "why_tests_cant": "all payload lengths incl. those not multiple of 8", "anchors": ["src/io/ILDG_File.cpp:ILDG_File_write_record", "ILDG_File_get_next_record_header", "ILDG_File_search_record"]}
{"id": "C23", "title": "Stored checksum text is read back", "statement": "The checksum pair written as hexadecimal text is parsed back to the same pair.", "quantifier": "all pairs of 32-bit words", "why_tests_cant": "2^64 pairs", "anchors": ["src/io/ILDG_File.cpp:ILDG_File_write_checksum", "ILDG_File_read_checksum"]}
{"id": "C24", "title": "All-to-all communicator delivers every element to its destination", "statement": "After the exchange, element i of the source on rank r is found at the (rank, position) requested by the list that built the communicator; duplicate destinations are rejected.", "quantifier": "every rank number, every destination list", "why_tests_cant": "all permutations and rank counts", "anchors": ["src/communicate/all_to_all.cpp:all_to_all_comm_t", "communicate"]}
{"id": "C25", "title": "Directional remapping lx<->locd is lossless", "statement": "Going to the layout where one direction is fully local and back yields the original field; each local line contains all sites of the global line in order.", "quantifier": "every lattice, rank grid, direction", "why_tests_cant": "balanced/unbalanced perpendicular volumes over all decompositions", "anchors": ["src/operations/remap_vector.hpp", "src/geometry/geometry_lx.cpp:set_lx_geometry", "locd_perp_size_per_dir"]}
{"id": "C26", "title": "Integer helper routines are correct", "statement": "Factorisation returns primes in order whose product is the input; bit reversal is an involution on k-bit words; the power-of-two and base-2 logarithm helpers return the documented value or are shown not to.", "quantifier": "all inputs", "why_tests_cant": "all integers", "anchors": ["src/routines/math_routines.cpp"]}
{"id": "C27", "title": "Recursive determinant is the determinant", "statement": "The recursive Laplace expansion returns the Leibniz determinant, for matrices of any size over any commutative ring.", "quantifier": "all sizes, all matrices", "why_tests_cant": "all sizes", "anchors": ["src/routines/math_routines.cpp:determinant"]}
{"id": "C28", "title": "Conjugate gradient invariants in exact arithmetic", "statement": "At every iteration the recursively updated residue is the true residue, residues are orthogonal, search directions are conjugate, hence in exact arithmetic the loop ends within the dimension with the solution; on return the stopping criterion holds or the code aborts.", "quantifier": "every hermitian positive operator, source, guess and iteration", "why_tests_cant": "all operators and all iteration counts", "anchors": ["src/inverters/templates/cg_invert_template_threaded.hpp"]}
{"id": "C29", "title": "Multi-shift solver solves every shifted system", "statement": "At each iteration the residue of each shifted system is the tracked multiple of the unshifted residue, so the returned vectors solve (A+shift) x = source with the tracked residue.", "quantifier": "every operator, shift set, source, iteration", "why_tests_cant": "all operators/shifts/iterations", "anchors": ["src/inverters/templates/cgm_invert_template_threaded.hpp"]}
{"id": "C30", "title": "Gamma matrices satisfy the Clifford algebra", "statement": "The tabulated sparse spin matrices satisfy {g_mu,g_nu}=2 delta, are hermitian, gamma5 is the product of the four and anticommutes with each, and the sixteen form a closed basis under multiplication up to a phase.", "quantifier": "all pairs of the sixteen matrices and all spinors they are applied to", "why_tests_cant": "statement about linear operators on all spinors", "anchors": ["src/new_types/dirac.cpp:init_base_gamma", "src/new_types/dirac.hpp"]}
{"id": "C31", "title": "Colour matrix kernels implement matrix algebra", "statement": "The hand-unrolled 3x3 complex routines (product, product with dagger on either side, trace, determinant, summ/subt variants, partial inversions) equal the mathematical operation, and dagger reverses products.", "quantifier": "all matrices over the complex numbers", "why_tests_cant": "all real entries", "anchors": ["src/new_types/su3_op.hpp"]}
{"id": "C32", "title": "Gauge observables are gauge invariant", "statement": "The plaquette and any closed path product traced are unchanged by a random gauge transformation of the configuration; open paths transform at the end points only.", "quantifier": "every lattice, configuration, gauge transformation, path", "why_tests_cant": "all configurations, transformations and paths", "anchors": ["src/operations/su3_paths/plaquette.hpp", "src/operations/su3_paths/arbitrary.cpp", "src/operations/gauge_fixing.cpp:gauge_transform_conf"]}
{"id": "C33", "title": "Counter-based generator never repeats a block", "statement": "For each seed, two different offsets into the counter-based random stream are encrypted to different 256-bit blocks; advancing the state by a nonzero amount is exact 256-bit addition; the uniform numbers lie in [0,1).", "quantifier": "every key, every state, every pair of 64-bit offsets", "why_tests_cant": "2^128 pairs of offsets times all keys", "anchors": ["src/base/sitmo.hpp:encrypt", "src/base/sitmo.hpp:State::operator+", "src/base/sitmo.hpp:generateNth", "src/base/sitmo.hpp:getUniformDistributed"]}
{"id": "C34", "title": "Field random streams never reuse random numbers and do not depend on the decomposition", "statement": "In any sequence of drawers (scalar or field, of any type), every real drawn at every site uses numbers of the stream used by no other real, site or drawer; the number drawn at a global site is the same for every grid of ranks; Z2 noise is +-1.", "quantifier": "every history of drawers, every lattice (up to the integer limits), every grid", "why_tests_cant": "unbounded histories and all lattices", "anchors": ["src/base/sitmo.hpp:FieldRngStream", "src/base/sitmo.hpp:FieldRngOf", "src/base/sitmo.hpp:getRngViewOnGlbSiteIRndReal"]}
{"id": "C35", "title": "ILDG field data does not depend on the grid of ranks", "statement": "Field data written to an ILDG record from one grid of ranks puts the value of each global site at the ILDG position of that site, and reading it with any other grid gives each site its value: writing and reading back is the identity, whatever the two grids.", "quantifier": "every lattice, every pair of rank grids, every field", "why_tests_cant": "all lattices and pairs of grids; the communication pattern is different for each", "anchors": ["src/io/ILDG_File.hpp:index_to_ILDG_remapping", "src/io/ILDG_File.hpp:index_from_ILDG_remapping", "src/io/ILDG_File.hpp:ILDG_File_write_ildg_data_all", "src/io/ILDG_File.hpp:ILDG_File_read_ildg_data_all"]}
{"id": "C36", "title": "fft4d computes the discrete Fourier transform", "statement": "fft4d in a set of directions gives, at each site, the sum over the points of the selected directions with phases exp(sign*2*pi*i*p*x/L), divided by the number of points if normalisation is asked; the transform of opposite sign, normalised, undoes it. The result does not depend on the grid of ranks.", "quantifier": "every lattice, grid, set of directions, field, number of components per site", "why_tests_cant": "all fields, lattices and grids", "anchors": ["src/operations/fft.hpp:fft4d", "src/operations/remap_vector.hpp:remap_lx_vector_to_locd"]}
{"id": "C37", "title": "Link updates and projections stay in the gauge group", "statement": "Completing the third row, orthonormalising, unitarising by averaging with the inverse, projecting by maximal trace and overrelaxing return matrices of SU(3) whenever the documented precondition holds (independent rows, unitary or group input), leave group elements unchanged where they should, overrelaxation keeps the action of the link and trace projection never lowers it.", "quantifier": "every matrix, staple, number of hits and iterations", "why_tests_cant": "continuum of matrices and unbounded iterations; tests sample a few", "anchors": ["src/new_types/su3_op.hpp:su3_build_third_row", "src/new_types/su3_op.hpp:su3_unitarize_orthonormalizing", "src/new_types/su3_op.hpp:su3_unitarize_explicitly_inverting", "src/new_types/su3_op.cpp:su3_unitarize_maximal_trace_projecting", "src/new_types/su3_op.cpp:su3_find_overrelaxed"]}
{"id": "C38", "title": "Algebra projections and exponentials of colour matrices", "statement": "The (traceless) (anti)hermitian parts are the mathematical ones, also in place; the closed-form exponential of a hermitian traceless matrix equals exp(iQ) and is in SU(3); the Taylor exponential is the partial sum of the series; a returned square root squares to its argument within the tolerance.", "quantifier": "every hermitian or generic matrix, every order", "why_tests_cant": "continuum of matrices", "anchors": ["src/new_types/su3_op.hpp:hermitian_exp_ingredients", "src/new_types/su3_op.hpp:unsafe_su3_traceless_anti_hermitian_part", "src/new_types/su3_op.hpp:unsafe_su3_taylor_exponentiate", "src/new_types/su3_op.hpp:unsafe_su3_sqrt"]}
{"id": "C39", "title": "Staggered Dirac operator", "statement": "The staggered operators, applied on even/odd split fields over any grid of ranks, compute on the global lattice m x +- 1/2 sum_mu (U_mu(c) x(c+mu) - U_mu(c-mu)^+ x(c-mu)); the dagger variants are the adjoints; the even-even squared operator is m^2 - (hop/2)^2, hermitian and bounded below by m^2, equal to D^+D restricted to the even sites; all are gauge covariant; asking the squared operator to work in place aborts.", "quantifier": "every lattice, grid of ranks, configuration, field, mass and unitary gauge transformation", "why_tests_cant": "unbounded lattices and grids, continuum of configurations", "anchors": ["src/dirac_operators/stD/dirac_operator_stD.hpp:apply_st2Doe", "src/dirac_operators/stD/dirac_operator_stD.hpp:apply_stD2ee_m2", "src/dirac_operators/stD/dirac_operator_stD.hpp:apply_stD"]}
{"id": "C40", "title": "Wilson twisted-mass clover operator", "statement": "The tmQ and tmclovQ kernels compute on the global lattice gamma5 (1/(2k) - W/2 + C) x + i mu x, with W the Wilson hopping with projectors 1-+gamma_mu and the anisotropy as weight of the spatial directions; changing sign of mu gives the adjoint; Q2 is Q(-mu)Q(mu), hermitian and bounded below by mu^2; the doublet is made of the two signs of mu; everything is gauge covariant.", "quantifier": "every lattice, grid of ranks, configuration, clover term, field, hopping, anisotropy and twisted mass", "why_tests_cant": "unbounded lattices and grids, continuum of configurations", "anchors": ["src/dirac_operators/tmQ/dirac_operator_tmQ_portable.cpp:apply_tmQ", "src/dirac_operators/tmclovQ/dirac_operator_tmclovQ.cpp:apply_tmclovQ", "src/dirac_operators/tmclovQ2/dirac_operator_tmclovQ2.hpp:apply_tmclovQ2", "src/dirac_operators/tmclovQ/reconstruct_tmclov_doublet.cpp"]}
{"id": "C41", "title": "Even/odd preconditioned twisted-mass (clover) inversion", "statement": "The preconditioned kernels apply gamma5 times the Schur complement on the odd sites of the full Dirac operator, their daggered variants are the adjoints, and the squared kernel is hermitian and non negative; the field returned by the preconditioned inverters, pasted on the full lattice, solves the full system exactly on the even sites, and its residue on the odd sites has the same norm as that of the odd system, hence below the request; for non vanishing twisted mass the inverter does return within the real dimension of the odd system, unless the preconditioned source vanishes.", "quantifier": "every lattice, grid of ranks, configuration, hermitian clover term with exact inverse, source, hopping, anisotropy, mass, residue", "why_tests_cant": "unbounded lattices and grids, continuum of configurations and sources", "anchors": ["src/inverters/twisted_mass/cg_invert_tmD_eoprec.cpp:inv_tmD_cg_eoprec", "src/inverters/twisted_clover/cg_invert_tmclovD_eoprec.cpp:inv_tmclovD_cg_eoprec", "src/dirac_operators/tmD_eoprec/dirac_operator_tmD_eoprec_portable.cpp:tmDkern_eoprec_eos", "src/dirac_operators/tmclovD_eoprec/dirac_operator_tmclovD_eoprec_portable.cpp:tmclovDkern_eoprec_eos"]}
{"id": "C42", "title": "Staggered and unpreconditioned twisted-clover inverters solve the full system", "statement": "A field returned by the staggered inverter solves D sol = source exactly on the odd sites, and on the even sites the residue times the squared mass is below the requested fraction of the norm of D^dagger source; the one returned by the hermitian twisted-clover inverter solves Q(mu) sol = source with relative residue below the request; for non vanishing mass and source both return within twice the real dimension of the system.", "quantifier": "every lattice, grid of ranks, configuration, clover term, source, mass, requested residue, starting guess", "why_tests_cant": "unbounded lattices and grids, continuum of configurations and sources", "anchors": ["src/inverters/staggered/cg_invert_stD.cpp:inv_stD_cg", "src/inverters/staggered/cg_invert_stD2ee_m2.cpp:inv_stD2ee_m2_cg", "src/inverters/twisted_clover/cg_64_invert_tmclovQ2.cpp:inv_tmclovQ2_cg_64"]}
{"id": "C43", "title": "Clover term and topological charge", "statement": "The four-leaf sum stored for each pair of directions is the sum of the four plaquettes around the site; the clover term built from it is -(cSW+1e-16)/4 times the sum of gamma_mu gamma_nu F_mu_nu, is hermitian, transforms covariantly under gauge transformations (and so does the twisted clover operator), and adding and removing cSW are inverse operations; the topological charge density is -1/(32 pi^2) eps tr F F, its total does not depend on the grid of ranks nor on the order of the sum, is gauge invariant and vanishes on a flat configuration.", "quantifier": "every lattice, grid of ranks, configuration of SU(3) links, gauge transformation, cSW", "why_tests_cant": "unbounded lattices and grids, continuum of configurations", "anchors": ["src/measures/gauge/topological_charge.cpp:point_chromo_operator", "src/measures/gauge/topological_charge.cpp:local_topological_charge", "src/measures/gauge/topological_charge.cpp:total_topological_charge_eo_conf", "src/operations/su3_paths/clover_term.hpp:clover_term", "src/operations/su3_paths/clover_term.hpp:chromo_operator_adjust_cSW"]}
{"id": "C44", "title": "Inverse of the twisted clover term", "statement": "For a hermitian clover term and any nonvanishing mass (or whenever the blocks are invertible) the pointwise inversion never exceeds the allowed iterations, and the stored 6x6 matrices invert the blocks 1/(2 kappa)+i mass+clover with each column having squared residue below 1e-32; their adjoints, used for the second half of the spin components, invert the blocks of opposite mass up to the same tolerance; the filled matrix is that of the block.", "quantifier": "every hermitian clover term, hopping, mass, block, vector", "why_tests_cant": "continuum of clover terms; termination within a fixed number of iterations must hold for all of them", "anchors": ["src/operations/su3_paths/clover_term.hpp:invert_point_twisted_clover_term", "src/operations/su3_paths/clover_term.hpp:apply_point_squared_twisted_clover_term_to_halfspincolor", "src/operations/su3_paths/clover_term.cpp:fill_point_twisted_clover_term"]}
{"id": "C45", "title": "Recursive gradient flow serves any sequence of requests as a flow from scratch", "statement": "After any sequence of binds and update requests (forward or backward in flow time), the configuration held by the user is the last bound one flowed from scratch by the number of steps last requested, and a request never performs more integration steps than a flow from scratch would. This needs at least one recursion level: with none, a single-step object accepts requests but never flows.", "quantifier": "for every number of recursion levels and block sizes, every integrator step, every configuration and every history of bind/update requests", "why_tests_cant": "the intermediate snapshots that a request starts from depend on the entire earlier history of requests; tests cover a few ascending or descending sequences only", "anchors": ["src/operations/smearing/recursive_Wflower.hpp:recursive_Wflower_t::update", "src/operations/smearing/recursive_Wflower.hpp:recursive_Wflower_t::bind_conf"]}
{"id": "C46", "title": "Background electromagnetic field, chemical potential and staggered phases have the intended plaquettes and winding lines", "statement": "Building the background field of a flavour gives, for 1/L^2 quantization and integer charge times strength, a U(1) field whose product around every square of each plane (also across lattice and rank boundaries) is exp(2 pi i q F/(L_mu L_nu)) with F the requested E and B components; for half-half quantization +F and -F on the two halves, for any strength; it aborts exactly when half-half is asked on a size not multiple of four or the quantization is unknown. Time winding lines give -exp(i pi im_pot) (times the electric Aharonov-Bohm phase). Elements are phases; the staggered phases are (-1)^{x_0+..+x_{mu-1}} and multiply each plaquette by -1; adding then removing the field (even/odd or full configuration) gives back the configuration.", "quantifier": "for every lattice and grid of ranks, every site and plane, all strengths, charges, potentials and configurations", "why_tests_cant": "uniformity must hold at every site including the boundary-closing ones for every lattice size and rank grid; fractional flux breaks exactly one plaquette per plane", "anchors": ["src/hmc/backfield.cpp:add_em_field_to_backfield", "src/hmc/backfield.cpp:add_or_rem_backfield_with_or_without_stagphases_to_conf", "src/hmc/backfield.cpp:init_backfield", "src/geometry/geometry_lx.cpp:getStagphaseOfLx"]}
{"id": "C47", "title": "Boundary conditions and gauge energy", "statement": "After any history of changes of the boundary phases the configuration is the starting one times the phases of the last requested condition, without memory of the intermediate ones; removing undoes putting; any product of links along a path changes only by exp(i pi theta_mu n_mu/L_mu), so a line winding once takes exp(i pi theta) and closed non-winding paths are unchanged; halos stay in agreement when they are treated. The average gauge energy is the average over the global lattice of the squared norm of the clover field strength, non-negative, zero only for vanishing field strength, gauge invariant and independent of the boundary phases and of the distribution over ranks.", "quantifier": "for every lattice, grid of ranks, configuration, history of requests, path and reduction order", "why_tests_cant": "the phases accumulate over the history of the program; invariances quantify over all configurations and gauge transformations", "anchors": ["src/operations/gaugeconf.cpp:put_boundaries_conditions", "src/operations/gaugeconf.cpp:rem_boundaries_conditions", "src/operations/gaugeconf.cpp:adapt_theta", "src/operations/gaugeconf.cpp:average_gauge_energy", "src/operations/gaugeconf.cpp:generate_cold_eo_conf"]}
{"id": "C48", "title": "Link smearing: gradient flow, stout, APE", "statement": "One step of the gradient flow computes the three-stage Runge-Kutta integrator of Luescher for the field Z = traceless anti-Hermitian part of staples times link, in exactly the selected directions, whatever the distribution over ranks; stout smearing is the iteration of U -> exp(rho Z) U, the same for full and even/odd fields; both commute with gauge transformations, keep links in SU(3), and leave pure-gauge configurations unchanged. Each APE step projects U + alpha staples onto SU(3) in the selected directions only and does not touch the others. (Found violated: the smearing called spatial uses the staples along the time too; the full-field stout leaves the non-selected directions of the output uninitialised.)", "quantifier": "for every lattice, grid of ranks, configuration, step, parameter, number of levels and set of directions", "why_tests_cant": "covariance, unitarity and the agreement between representations quantify over all configurations and gauge transformations; stage ordering errors show only beyond the first order", "anchors": ["src/operations/smearing/Wflow.cpp:Wflow_lx_conf", "src/operations/smearing/stout_lx.cpp:stout_smear_single_level", "src/operations/smearing/stout_eo.cpp:stout_smear", "src/operations/smearing/APE.hpp:ape_smear_conf", "src/operations/smearing/APE.hpp:ape_spatial_smear_conf"]}
{"id": "C49", "title": "Squared and rectangular staples with overlapped communications", "statement": "For each link, the squared staples hold the products of the three links along each of the six paths closing a plaquette with it, the rectangular staples the sums of the products of the five links along the paths closing a 1x2 rectangle with it, and the summed versions the sum over all of them, of the configuration spread over the ranks: the same numbers as on one rank, whatever the grid, the content of the halos and of the buffers before the call, and the order in which threads visit the sites. The tables of bulk and surface sites on which the overlap rests have exactly the sizes they are allocated with.", "quantifier": "for every lattice, grid of ranks, configuration, previous content of buffers, halos and output, and order of visit of the sites", "why_tests_cant": "the computation is split into parts done before and after the communications, on sites selected by position with respect to the surface, and staples attached to sites of other ranks are computed remotely and sent back; an error shows up only for particular grids and sites, or only for particular timings", "anchors": ["src/operations/su3_paths/squared_staples.cpp:compute_squared_staples_lx_conf", "src/operations/su3_paths/rectangular_staples.cpp:compute_rectangular_staples_lx_conf", "src/geometry/geometry_lx.cpp:find_bulk_sites"]}
{"id": "C50", "title": "Gauge action, gauge force and elementary evolution steps agree with each other", "statement": "gluonic_action returns, for a full or even/odd field and for every decomposition in ranks and order of reduction, beta*sum_x[(1-8 C1) sum_{mu<nu}(1-Re Tr square/3)+C1 sum_{mu!=nu}(1-Re Tr rectangle/3)] with C1=0, -1/12, -0.331 for Wilson, tlSym, Iwasaki; it is gauge invariant, zero on the trivial configuration, between 0 and 12 beta V for Wilson on unitary links. compute_gluonic_force_lx_conf returns on every local site an antihermitian traceless, gauge covariant matrix which is the derivative of that action: d(action)=sum Re Tr(i H F) when the links move as dU=i H U. Moving the links with the momenta and the momenta with the force leaves momenta_action+gluonic_action unchanged at first order in the step; momenta stay hermitian and traceless, links stay in SU(3) and the step is undone by the opposite step (where the exponential is not in its truncated branches). The name of an action is read back case-insensitively; an unspecified action crashes.", "quantifier": "all configurations, momenta, couplings, lattice sizes, rank grids, orders of the site loops and reductions, contents of halos and buffers before the calls, times", "why_tests_cant": "the identity between force and derivative of the action is a statement on all the smooth paths in an infinite set of configurations; a test checks it numerically on few links with finite differences", "anchors": ["src/hmc/gauge/gluonic_action.hpp gluonic_action", "src/hmc/gauge/Symanzik_action.cpp Symanzik_action", "src/hmc/gauge/Wilson_action.hpp Wilson_action", "src/operations/su3_paths/rectangles.cpp global_plaquette_and_rectangles_lx_conf, global_plaquette_and_rectangles_eo_conf", "src/hmc/gauge/Wilson_force.cpp Wilson_force_lx_conf", "src/hmc/gauge/Symanzik_force.cpp Symanzik_force_lx_conf", "src/hmc/gauge/gluonic_force.cpp compute_gluonic_force_lx_conf, gluonic_force_finish_computation", "src/hmc/momenta/momenta_action.cpp momenta_action", "src/hmc/momenta/momenta_evolve.cpp evolve_lx_momenta_with_force, evolve_lx_conf_with_momenta", "src/hmc/gauge/pure_gauge_Omelyan_integrator.cpp evolve_momenta_with_pure_gauge_force"]}
{"id": "C51", "title": "The molecular dynamics integrator is a reversible Omelyan trajectory", "statement": "Omelyan_integrator performs on the global lattice nmd_steps second order minimum norm steps (lambda=0.1931833) with the quark force, the two motions of each step being ngauge_substeps such steps with the gauge force, whatever the decomposition in ranks and the contents of the buffers; links, gauge force and quark force each act for a total time traj_length. Starting again from the final links and the opposite of the final momenta (before the final projection, and when no exponential is taken from a truncated series) it returns to the initial links and the opposite of the initial momenta. Momenta stay hermitian and traceless, links special unitary; a gauge transformed start ends in the gauge transformed end. When it returns the links are the maximal trace projections of those of the trajectory, in SU(3). With zero steps nothing changes; a topological potential or an unspecified action crashes.", "quantifier": "all configurations, momenta, quark forces (any function of the configuration), couplings, positive numbers of steps, trajectory lengths, lattice sizes, rank grids, schedules and buffer contents", "why_tests_cant": "reversibility and the sequence of steps must hold for every number of steps and every configuration and force; a test observes few trajectories up to rounding", "anchors": ["src/hmc/multipseudo/Omelyan_integrator.cpp Omelyan_integrator, Omelyan_pure_gauge_evolver_lx_conf, Omelyan_pure_gauge_evolver_eo_conf, evolve_momenta_with_quark_force", "src/hmc/hmc.hpp omelyan_lambda", "src/operations/gaugeconf.cpp unitarize_eo_conf_maximal_trace_projecting"]}
{"id": "C52", "title": "Rooted staggered pseudofermions: action, force and molecular dynamics with them", "statement": "With a solver of the shifted systems returning the solutions, compute_quark_action returns the sum over flavours and pseudofermions of phi^+ [c + sum_i w_i/(D^+D+p_i)] phi with D the staggered operator on the links dressed with phases and background field, and compute_quark_force the traceless anti-hermitian part of link times derivative: along any motion dU/dt = iHU of the links with hermitian traceless H, the derivative of the action is Re tr[iH F] summed over links. Both leave the links on the lattice unchanged. The force is traceless anti-hermitian and gauge covariant, the action gauge invariant. With this force the trajectory of the multi-step integrator is reversible and gauge covariant, and the sum of momenta_action, gluonic_action and compute_quark_action at its end has vanishing derivative in the trajectory length at zero. When the solver is the conjugate gradient of the program and it returns, the action differs from the exact one by at most sqrt(residue) |phi|^2 sum_i |w_i|/p_i. Flavours of other discretizations crash; with asynchronous residue tracking the computation never returns.", "quantifier": "all configurations, background fields of modulus one, rational approximations with positive poles, numbers of flavours and pseudofermions, lattice sizes, rank grids, junk in halos, schedules, numbers of steps", "why_tests_cant": "gradient, covariance and error bound must hold for every configuration and approximation; finite differences test them only at some points and up to rounding", "anchors": ["src/hmc/multipseudo/theory_action.cpp compute_quark_action", "src/hmc/fermions/rootst_eoimpr_quark_force.cpp summ_the_rootst_eoimpr_quark_force", "src/hmc/multipseudo/quark_force.cpp compute_quark_force", "src/inverters/staggered/cgm_invert_stD2ee_m2_portable.hpp summ_src_and_all_inv_stD2ee_m2_cgm_portable"]}
{"id": "C53", "title": "History-dependent potential: deposit, interpolation, force, saving", "statement": "When the barrier is a multiple of the width, after init and any sequence of update calls no access falls out of the grid and compute_pot between the barriers is the sum over the counted sweeps (isweep>=after, multiple of each after it) of coeff times the overlap on the grid points of the hats of size width centred on the charge and on x; each charge between the barriers adds coeff in total, with barycentre in the charge; beyond the barriers the potential grows quadratically from its value at the barrier. compute_pot_der is the derivative of compute_pot everywhere but on the grid points. A saved grid is read back on all the ranks up to the digits printed if positions are printed with error smaller than half the width; a file with a missing or misplaced line crashes. Violated: with an odd number of intervals the hat is deposited half a width away from the charge; when the grid does not end on the barrier the potential jumps there by force_out (ngrid width-2 barr)^2/2; before init the potential reads out of the grid.", "quantifier": "all histories (any number of updates, any charges), positions, coefficients, widths, barriers", "why_tests_cant": "the potential depends on the whole history of charges; a test explores few histories and positions", "anchors": ["src/new_types/metadynamics.cpp meta_pars_t::update, compute_pot, compute_pot_der, save, load, init"]}
{"id": "C54", "title": "Free twisted quarks: operator, propagator, energy, wave functions", "statement": "For every quark and momentum the momentum-space twisted operator is the Wilson operator (in the two bases) at the momenta pi(2n+theta)/L, and the propagator is its two-sided inverse divided by the volume whenever the operator is invertible (iff not massless on a zero of the Wilson operator), except on the zero mode of the massless quark where it is the prescribed multiple of the identity; the left and right multiplications of spin, spincolor and spinspin fields apply it on every site of any grid of ranks. On the unit configuration with the boundary conditions put, the operator of position space acts on plane waves as gamma5 times the momentum-space operator, so that the propagator inverts it. The quark energy is the only non-negative energy at which the operator is singular at imaginary time momentum; the on-shell operators are the operator there and its complementary factor; in the physical basis the wave functions of particles and antiparticles solve the Dirac equation, are orthogonal with squared norm 2 sinh E and complete on the projector; same for naive massless quarks. kappa and m0 conversions are inverse. Violated: in the Wilson basis the wave functions are normalised with the mass rather than with the scalar coefficient, so that the squared norm is not 2 sinh E.", "quantifier": "all quarks (kappa, mass, boundary phases, r), momenta, lattices, grids of ranks, bases", "why_tests_cant": "identities for all momenta and real masses, including the singular ones", "anchors": ["src/free_theory/twisted_propagator.cpp mom_space_twisted_propagator_of_imom, mom_space_twisted_operator_of_imom, tm_quark_energy, twisted_on_shell_operator_of_imom, twisted_wavefunction_of_imom, naive_massless_wavefunction_of_imom, multiply_from_left_by_mom_space_twisted_propagator"]}
{"id": "C55", "title": "Tree-level Symanzik gauge (photon) propagator: gauges, zero modes, square root, convolution", "statement": "For every momentum which is not a removed zero mode and every c1<=0, the propagator in Landau (Coulomb, for the Wilson action) gauge is the only symmetric matrix (divided by the volume) respecting the gauge condition and inverting on it the quadratic form of the action with plaquettes and rectangles of coefficients 1-8c1 and c1; in Feynman gauge it inverts the quadratic form plus the gauge fixing term. It is positive semidefinite, vanishes on the removed modes, and contracted with conserved currents does not depend on the gauge; Coulomb gauge with c1!=0 crashes. The square root is the only positive semidefinite root, never crashes with a correct eigensolver, and applied twice is the propagator. Passing a field to momentum space and back uses the plane waves in the middle of the links with the boundary phases, the two passes are inverse of each other, and the product by the propagator is the convolution with the sum on the momenta; with periodic boundary conditions the resulting field has no zero modes (global or per timeslice), has vanishing (spatial) backward divergence in Landau (Coulomb) gauge, and in Feynman gauge with Wilson action minus its lattice Laplacian is the input without zero modes. The gluon energy is the only zero of the propagator denominator at imaginary energy (virtuality zero).", "quantifier": "all lattices, grids of ranks with correct remapping, momenta, boundary phases, c1<=0, gauges, zero-mode prescriptions, input fields, eigensolvers meeting their contract", "why_tests_cant": "the closed form of the propagator and its positivity must hold at each momentum of each lattice and for each c1; convolution and gauge condition for each field", "anchors": ["src/free_theory/tlSym_gauge_propagator.cpp mom_space_tlSym_gauge_propagator_of_imom, multiply_mom_space_tlSym_gauge_propagator, multiply_mom_space_sqrt_tlSym_gauge_propagator, multiply_by_tlSym_gauge_propagator, multiply_by_sqrt_tlSym_gauge_propagator, gluon_energy", "src/operations/fourier_transform.cpp pass_spin1field_from_mom_to_x_space, pass_spin1field_from_x_to_mom_space"]}
{"id": "C56", "title": "Rational approximations: what generation, adaptation and storage of the expansions guarantee", "statement": "The linear solver used by the Remez finder returns a solution of the given system whenever it does not stop on a singular one; a completed generation for x^(num/den) on [lo,hi] with error maxerr returns (for num=-den) exactly 1/x, and otherwise the first degree d for which the Remez loop reached the error, with 2d+1 distinct interpolation nodes interleaved with 2d+2 extrema in the interval, the rational function equal to the target at the nodes and within maxerr of it at the extrema, and with constant, poles and weights whose partial-fraction sum equals that rational function; the deflating Newton root finder factors the polynomial; x^(n/d) is computed by an iteration whose stopping value satisfies y^d=x^n within tolerance. set_expansions keeps a stored approximation exactly when degree, exponent, condition number (within a factor sqrt 2 either way) and error fit, rescales it so that it covers [eig_min,eig_max] with the same relative error, regenerates every other one on exactly one rank, and leaves all ranks with the same approximations, each accurate for its own exponent (deg/(2*root*npf) for the pseudofermions, -deg/(root*npf) for action and force). For a quark whose degeneracy is npf times the root the range is [m^2,1.1 m^2], whatever its spectrum (defect of the code).", "quantifier": "every degree, interval, exponent, target error, system matrix, starting guess, number of ranks and flavours, and every stored set of approximations", "why_tests_cant": "tests try a few exponents and ranges; the guarantees must hold for every range produced along a simulation and every distribution over ranks", "anchors": ["src/operations/remez/remez_algorithm.cpp: linear_system_solve, generate_approx, generate_approx_of_maxerr, root_find", "src/operations/remez/remez_algorithm.hpp: rat_approx_finder_t", "src/hmc/multipseudo/set_expansions.cpp: check_approx_validity, set_expansions", "src/new_types/rat_approx.hpp: rat_approx_t", "src/routines/mpi_routines.cpp: broadcast"]}
{"id": "C57", "title": "RHMC step: pseudofermion heat bath, energy difference and Metropolis test leave the target distribution invariant", "statement": "One RHMC step returns the energy difference (final minus initial) of momenta, gauge and pseudofermion action along the trajectory that starts from the given links and momenta, and as new links the group projection of the end of that trajectory; the rational approximations are left with the poles they had (shift by the squared mass undone). The pseudofermions are the rational function of the Dirac operator applied to the noise; their initial action is taken to be the squared norm of the noise, and the true one differs from it by at most ((1+eps)^3-1) of it when the approximations are accurate to eps on the spectrum. For unitary links the spectrum lies in [m^2, 16+m^2]; the estimate of the largest eigenvalue is between m^2 and the true bound, stopped early or not, and equals the square root of a norm because the normalization takes the square root twice (defect of the code). The acceptance probability is min(1,exp(-diff)), always 1 when the action does not grow or when the test is skipped, and with the reversible trajectory it satisfies detailed balance for the Boltzmann weight.", "quantifier": "every lattice, distribution over ranks, configuration, momenta, set of quarks, masses, noises, approximations, trajectory length and number of steps", "why_tests_cant": "a test runs a few trajectories; exactness of the algorithm is a statement on every trajectory and every configuration", "anchors": ["src/hmc/multipseudo/multipseudo_rhmc_step.cpp: multipseudo_rhmc_step, shift_all_ROOT_STAG_poles", "src/hmc/fermions/pseudofermions_generation.cpp: generate_pseudofermions", "src/hmc/multipseudo/theory_action.cpp: full_theory_action", "src/hmc/multipseudo/set_expansions.cpp: max_eigenval, set_expansions", "src/base/field.hpp: normalize, norm2", "src/routines/math_routines.cpp: metro_tresh, metro_test", "projects/generate_confs/generate.cpp: generate_new_conf"]}
{"id": "C58", "title": "Gaussian numbers, momenta and random links follow the laws they claim", "statement": "Given independent uniform draws, the complex gaussian numbers are pairs of independent gaussians with the requested average and width, rnd_get_gauss_double is a gaussian of the requested average and width, each of the N roots of unity of rnd_get_ZN has probability 1/N, and a momentum of the molecular dynamics is a hermitian matrix whose eight coordinates are independent gaussians. With the actual generator no draw fails, numbers never exceed 4 sigma from the average, and the momenta of the whole lattice depend on the seed and not on the grid of ranks, the order of visit or the previous content. Random links are in SU(3), and the random configuration of the whole lattice depends on the seed and not on the grid of ranks, the order of visit or the previous content. Violations recorded: momenta are not exactly traceless, random links do not follow the invariant measure.", "quantifier": "all averages and widths, all N, all draws, all valid generator states, all lattices, seeds, grids of ranks and visiting orders", "why_tests_cant": "A law over a continuum cannot be read off samples; independence of the grid must hold for every lattice, seed and schedule.", "anchors": ["src/base/random.hpp: rnd_get_gauss_complex, rnd_get_ZN, herm_put_to_gauss, su3_put_to_rnd", "src/base/random.cpp: rnd_get_gauss_double, color_put_to_gauss", "src/hmc/momenta/momenta_generation.cpp: generate_hmc_momenta", "src/operations/gaugeconf.cpp:generate_hot_eo_conf"]}
{"id": "C59", "title": "Gaussian smearing is the repeated covariant average; the field shift translates the lattice", "statement": "gaussian_smearing with n iterations gives at each site the n-fold repetition of the average of the site with its parallel transported spatial neighbours, whatever the grid of ranks and the content of the halo before the call (n<1 copies the source). Hence smearing n then m times is smearing n+m times, a time slice is only affected by itself, it is gauge covariant, it is hermitian, with unitary links and non negative coefficients it does not increase the norm, and with trivial links it preserves the sum of the field. su3_vec_single_shift terminates and moves the whole lattice by one site in the requested direction and sign, for any order of the lines and any grid of ranks; quad_su3_vec_single_shift does so for sign 1 (from behind) and 0 (from ahead). Violation recorded: the polynomial version gives the products of the coefficients up to each term instead of the coefficients.", "quantifier": "all lattices and grids of ranks, link and vector fields, coefficients, iteration counts, orders of the lines, previous contents of the halo", "why_tests_cant": "Independence of the grid, of the schedule and of stale halo contents and the norm bound must hold for every lattice and configuration.", "anchors": ["src/operations/smearing/gaussian.hpp: gaussian_smearing, gaussian_smearing_apply_kappa_H", "src/operations/shift.hpp: su3_vec_single_shift, quad_su3_vec_single_shift"]}
{"id": "C60", "title": "Landau and Coulomb gauge fixing returns a gauge transform of the input, always stops, and descends the functional", "statement": "Landau_or_Coulomb_gauge_fix returns the input configuration gauge transformed by the matrices it found, whose determinant is one and which are in SU(3) up to the tolerance of the unitarization (exactly in SU(3) for the overrelaxation and for the exponentiation with an exact exponential), so that closed loops are unchanged. The functional and the quality computed are, for every grid of ranks and order of reduction, minus the sum of the real traces of the links and the average squared lattice divergence; the quality vanishes exactly where the functional is stationary under gauge transformations. The routine stops after at most the maximum number of iterations (and at least one), either at the required precision or at the maximum. A step of the exponentiation method, plain or Fourier accelerated, decreases the functional for all the small enough alpha when the quality is not zero; the adaptive search finds the minimum of a parabola in two turns and, when it succeeds, lowers the functional. Violations recorded: the failure to reach the precision is never reported; the period of the unitarization is inverted; a sweep of the overrelaxation changes the configuration by something which is not a gauge transformation.", "quantifier": "all lattices, grids of ranks, configurations, parameters, orders of the reductions, random numbers drawn and contents of memory never written", "why_tests_cant": "Gauge equivalence, termination and descent must hold for every configuration, parameter set and decomposition; the functional has no closed form to compare with.", "anchors": ["src/operations/gauge_fixing.cpp: Landau_or_Coulomb_gauge_fix, compute_Landau_or_Coulomb_functional, compute_Landau_or_Coulomb_gauge_fixing_quality, Landau_or_Coulomb_gauge_fixing_overrelax, Landau_or_Coulomb_gauge_fixing_exponentiate, adapt_alpha, GCG_improve_gauge_fixer", "src/operations/gauge_fixing.hpp: LC_gauge_fixing_pars_t"]}
{"id": "C61", "title": "Floating point: double-double numbers and reductions are as accurate as documented", "statement": "In IEEE arithmetic with rounding to nearest: the two-term sums and products used by the extended precision types give the rounded result and its exact error, for all operands (products: unless they underflow); sums, differences and products of Float128 are again non overlapping pairs and are right up to a few units of the square of the double precision; the comparisons agree with the order of the numbers meant; the reduction of a field over sites and ranks differs from the exact sum by at most one precision (squared precision for preciseReduce) per level of sums times the sum of the moduli, whatever the schedule and the way the ranks are combined; the precision check at startup never stops the program. Conversion of a Float128 to double rounds down for positive numbers; it does not for negative ones (violated).", "quantifier": "all floating point operands (no overflow), all tie breaking rules, all field contents, number of sites and ranks, schedules of the parallel loops and orders and associations of MPI_Allreduce", "why_tests_cant": "exactness of an error-free transformation must hold for all 2^128 pairs of doubles, including cancellation, ties and subnormal numbers, and the accuracy of a reduction for every association MPI may choose", "anchors": ["src/new_types/float_128.hpp: Float128", "src/new_types/float_256.cpp: quick_two_summ, two_summ, three_summ, three_summ2, quick_three_accum, split, two_prod, float_256_summ_double", "src/base/field.hpp: Field::reduce, Field::preciseReduce", "src/base/debug.cpp: check_128_bit_prec", "src/routines/mpi_routines.cpp: MPI_FLOAT_128_SUM_routine"]}
{"id": "C62", "title": "Staggered spin-taste operators, traces and meson correlators", "statement": "On every lattice and process grid: (a) apply_covariant_shift in a direction gives, at each global site, the link times the forward neighbour, or the adjoint of the backward link times the backward neighbour, or their average, and stops if input and output are the same field; (b) apply_shift_op(shift) is the average over all the orderings of the directions set in shift of the product of the symmetric covariant shifts, computed with the links times the background, visiting each ordering exactly once and dividing by their number; (c) put_stag_phases multiplies each site by minus one to the sum of the coordinates selected by the mask; (d) apply_stag_op(spin,taste) is the composition, is the identity for (1,1) and the site parity for (g5,g5), is gauge covariant, is hermitian up to a sign that depends only on spin and taste, and in the free theory represents the gamma matrices of that spin and taste; (e) summ_the_time_trace adds to each time the real part of the scalar product on that slice and accumulates over the hits; (f) mult_dMdmu(n) is the n-th derivative with respect to the chemical potential of the staggered operator, and mult_Minv returns a solution within the residue; (g) compute_meson_corr returns, for each pair of flavours and of operators and each distance from the source, in the cell that the printing routine reads, the sum over the hits of the product, summed over the slice at that distance, of the propagators obtained from the smeared source and the operators; no two cells coincide and all are inside the array. The statement that summ_the_trace accumulates over the hits is false, and is shown false.", "quantifier": "all lattice sizes and process grids, gauge configurations, backgrounds, sources, spins and tastes, masks, lists of hits, legal schedules of the reductions, initial contents of the scratch buffers", "why_tests_cant": "a test sees one configuration, one grid and one source; the permutation loop, the slices and the cells must be right for all of them", "anchors": ["src/measures/fermions/stag.cpp: summ_covariant_shift, apply_shift_op, put_stag_phases, mult_Minv, mult_dMdmu, summ_the_time_trace", "src/measures/fermions/stag.hpp: form_stag_op_pattern, form_stag_meson_pattern_with_g5g5, apply_stag_op, summ_the_trace", "src/measures/fermions/mesons.cpp: gaussian_smear_eo, compute_meson_corr"]}
{"id": "C64", "title": "Scheduling of propagators and contractions with limited memory", "statement": "For every plan of a run of the ib program (original sources, propagators each built out of sources given before it, meson contractions and sides of handcuffs) in which names are distinct and, if the number of propagators kept in memory is limited, the limit leaves room for each propagator and its sources: (a) the search of the dependencies ends, and a propagator has dependencies if and only if a contraction or side needs it, directly or through others; (b) a hit ends without crash and never reads the storage of a propagator which was freed, nor a stale pointer of the library of contracted propagators; (c) every contraction and every side is computed exactly once, with the content that its propagators must have (each is the result of its generation out of the content of its sources), whatever was written to disk and read back meanwhile; (d) at the end nothing is left in memory nor on disk, and the dependencies are as before, so any number of hits can follow with the same object; (e) the number of propagators in memory never exceeds the limit or the number of original sources. Outside the conditions (sources offloaded, contracted or unused with limited memory; a propagator with the name of a contraction) the statement is false, and is shown false.", "quantifier": "all plans (any number of sources, propagators, contractions, sides and any dependence graph), limits on the memory, contents of the sources, numbers of hits", "why_tests_cant": "the eviction order depends on the whole graph, on the history of the hits and on the limit; a use after free appears only for particular combinations", "anchors": ["projects/ib/hit.hpp: HitLooper, offloadRecallDelete, eraseUnnededProps, offloadIfNeededToAccommodate, ensureInMemory, internalRun, run", "projects/ib/contr.cpp: compute_mes2pt_contr, removeMes2PtsProp", "projects/ib/prop.hpp: qprop_t"]}
{"id": "C63", "title": "Contractions of propagators, conserved current and propagators of the ib program", "statement": "On every lattice and process grid, for 1 or 4 source spins and any number of source colours: (a) compute_mes2pt_contr gives for every pair of matrices and distance from the source the trace of the two propagators with the matrices on source and sink, summed over the slice and normalised, whatever the order of the reduction, and the two implementations (generic and on the processor) agree; (b) compute_prop_scalprod is the sum over sites of the scalar product; (c) vector_current_mel and conserved_vector_current_mel give at each site the local and the point-split current between the two propagators; (d) Ward identity: for any configuration, hopping parameter, mass, clover coefficient, the backward divergence of the conserved current is the difference of the contact terms, in which the operator applied is the one of mult_by_Dop; so it vanishes out of the sources; (e) for twisted mass the propagator returned by get_qprop solves the equation of mult_by_Dop up to the defect of the linear solver, with the same norm. Known failures: the version on the processor reads out of bounds when the buffer is longer than 2^31 elements, the propagator without twisted mass is rotated at the sink only, local and conserved current take the source matrix transposed one of the other.", "quantifier": "all lattices, process grids, configurations, propagators, gamma matrices, flavours, masses, reduction orders, solvers", "why_tests_cant": "the identities hold for every configuration and propagator; a test compares a few numbers on one configuration, and the conservation is only visible for exact solutions", "anchors": ["projects/ib/contr.cpp:compute_mes2pt_contr_on_cpu", "projects/ib/contr.cpp:compute_mes2pt_contr_classic", "projects/ib/contr.cpp:compute_prop_scalprod", "projects/ib/contr.cpp:vector_current_mel", "projects/ib/contr.cpp:conserved_vector_current_mel", "projects/ib/prop.cpp:get_qprop", "projects/ib/prop.cpp:mult_by_Dop"]}
{"id": "C65", "title": "An interrupted run gives, once resumed, the results of an uninterrupted one", "statement": "For every list of configurations, number of hits, set of meson contractions (possibly sharing output files), and for every history of jobs of the ib program started from an empty output, each interrupted at any byte written to disk and skipping any configurations: (a) the file of partial data is accepted exactly if complete, and then gives back the hits done and the contractions; a truncated one is never taken as good; (b) when hits are averaged, each configuration marked as finished has in every output file exactly the bytes that a single uninterrupted job would have written, with each hit using the same random numbers; (c) an uninterrupted job finishes all the configurations it does not skip, unless partial data were left truncated; (d) when hits are not averaged the same holds if interruptions happen between hits.", "quantifier": "all plans, all contents of contractions, all histories of jobs, interruption points and choices of skipped configurations", "why_tests_cant": "the crash points are as many as the bytes written times the number of jobs, and the histories are unbounded", "anchors": ["projects/ib/ib.cpp:in_main", "projects/ib/hit.hpp:maybeLoadPartialData", "projects/ib/hit.hpp:writePartialData", "projects/ib/hit.hpp:start_hit", "projects/ib/conf.cpp:skip_conf", "projects/ib/conf.cpp:finalizeConf", "projects/ib/contr.cpp:print_mes2pts_contr"]}
{"id": "C66", "title": "Jobs sharing the list of configurations work on different ones", "statement": "Any number of jobs of the ib program share the configurations through the running file of each. If writing the tag after testing the file always takes less time than loading the configuration, and loading it less than the period of update of the file: (a) at most one job at a time works on a configuration, for every interleaving of the steps of the jobs, some being killed at any time; (b) a configuration is completed at most once, and exactly if its finished file exists; (c) a running file left by a killed job does not block the configuration for ever.", "quantifier": "all numbers of jobs, interleavings, delays within the bounds, kills and crashes", "why_tests_cant": "races depend on the interleaving and on the delays, which are unbounded in number", "anchors": ["projects/ib/conf.cpp:read_conf_parameters", "projects/ib/conf.cpp:checkRunningIsRecent", "projects/ib/conf.cpp:touchRunning", "projects/ib/conf.cpp:releaseConf", "src/routines/ios.hpp:lock_file_t"]}
{"id": "C67", "title": "Photon vertices are the derivatives of the Dirac operator; covariant derivative, Laplace operators, charged configuration", "statement": "On any grid of ranks, inserting a photon field on a quark field multiplies the forward and backward transport of the conserved current by -i/2 and +i/2 times the field on the link; this is exactly minus the derivative of the Dirac operator (Wilson or twisted mass, no clover, isotropic) with respect to the charge, per e/3, on the configuration that includes the photon at any charge. Hence, if the propagator is differentiable in the charge, its derivative is obtained by inverting on the inserted photon (the chain of propagators the program computes). The derivative of the photon insertion is 2e/3 times the tadpole insertion when the squared field equals the tadpole. Summed on the lattice against another field, the insertions give the sum of field times conserved current (resp. -i times the conserved current; spatial components also at fixed time, the temporal component at fixed time mixes two times). The local insertion is i A gamma_mu; the covariant derivative is antihermitian; the Laplace operator is hermitian and minus the sum of squares of forward differences; the two-link one is a quarter of the squared derivative. Removing the photon undoes including it, charges add, links stay unitary. The configuration returned for an inversion always equals the current configuration with the requested boundary conditions and charge, whatever was requested before and whenever configurations and photons were replaced.", "quantifier": "all lattices, rank grids, configurations, photon fields, quark fields, charges, masses, hopping parameters, times, directions; all sequences of requests, new configurations and new photons", "why_tests_cant": "identities between derivatives and insertions must hold for every configuration, photon field and charge, and the cache must be right after every history of requests", "anchors": ["src/operations/covariant_derivative.cpp: insert_vector_vertex, insert_external_source, insert_tadpole, insert_conserved_current, apply_nabla_i, Laplace_operator, Laplace_operator_2_links", "src/operations/covariant_derivative.hpp: insert_external_source", "projects/ib/prop.cpp: add_photon_field_to_conf, rem_photon_field_to_conf, insert_external_loc_source, insert_tadpole, insert_external_source, bwFwInsertCurr", "projects/ib/conf.cpp: get_updated_conf"]}
{"id": "C68", "title": "HEX smearing", "statement": "hex_smear_conf(sm_conf,conf,a1,a2,a3) computes, independently of the way the lattice is split among ranks, three nested levels of exponential smearing: the links of the first level are smeared only in the direction orthogonal to three given ones, those of the second level in the directions orthogonal to two, with staples made of links of the first level, and the result in all the directions orthogonal to the link, with staples made of links of the second level (weights a3/2, a2/4, a1/6). It commutes with gauge transformations, keeps SU(3) links in SU(3), leaves pure gauge configurations as they are and does nothing when a1=0.", "quantifier": "all lattices and rank grids, all configurations, all gauge transformations, all parameters", "why_tests_cant": "A test can compare a finite set of configurations and grids; an omission of staples in one plane does not break gauge covariance nor unitarity and is not seen by checks of these.", "anchors": ["src/operations/smearing/hex.cpp: sme, hex_smear_conf", "tools/conf_transform/smear/hex.cpp"]}
{"id": "C69", "title": "Measurement of the topological charge and of its correlator", "statement": "measure_topology_lx_conf measures the charge and the plaquette of the configuration smoothed 0, m, 2m, ... times (m = MeasEachNSmooth) up to the largest multiple of m not beyond the number of smoothing steps, writes one line for each of them, and, after the steps multiple of MeasCorr, appends to the correlator file one record: trajectory, charge, number of steps, then the correlator of the charge density, average over y of q(y) q(y+x), for all the points x not beyond half of the lattice, in lexicographic order, independently of the number of ranks and of the order in which they write; previous records are not touched.", "quantifier": "all lattices with even sides and rank grids, all charge densities, all smoothing steps, all numbers of steps and distances of measures, all orders in which ranks write, any previous content of the file", "why_tests_cant": "A test on one rank with a symmetric charge does not see that a convolution is computed in place of a correlation, nor that with more ranks the pieces written do not match the pieces owned; the loop must end for all parameters.", "anchors": ["src/measures/gauge/topological_charge.cpp: compute_topo_corr, storeTopoCorr, measure_topology_lx_conf", "src/operations/remap_vector.hpp: index_to_topo_corr_remapping, lxToSextinantsRemapper", "src/operations/smearing/smooth.hpp: next_nsmooth_meas", "src/operations/smearing/smooth.cpp: smooth_lx_conf_until_next_meas"]}
{"id": "C70", "title": "Sets of links of the gauge sweeper, and their staples", "statement": "A sweep of the gauge configuration visits every link of the rank exactly once; the links of a set (box, direction, parity) are never used to compute the staples of another link of the same set, and no link of another rank used while a box is treated belongs to the same box of that rank, so that links of a set can be updated together, in any order, with the links gathered at the beginning of the box. The staples computed are the sum of the square staples (Wilson), or 1-8C1 times the squares plus C1 times the rectangles (Symanzik), and the coefficient C1 is that of the action asked for.", "quantifier": "all lattices, rank grids with local side at least 2 (Wilson) or 4 (Symanzik), all links, all gauge configurations in SU(3), all contents of uninitialised temporaries", "why_tests_cant": "The checks of the program only look at the lattice on which it runs, and only at links of the same rank; staples agree on the unit configuration even if a term of a product is lost.", "anchors": ["src/operations/su3_paths/gauge_sweeper.cpp: init_box_dir_par_geometry, check_hit_exactly_once, init_staples, Symanzik_par, Wilson_par, add_Symanzik_staples, add_Wilson_staples, compute_Symanzik_staples, compute_Wilson_staples", "src/operations/su3_paths/gauge_sweeper.hpp: get_sweeper", "src/base/init.cpp: init_boxes", "src/communicate/all_to_all.cpp: add_conf_link_for_paths"]}
{"id": "C71", "title": "Input files: words, comments, tags, lists and the configuration file", "statement": "For every text, however laid out in blanks and lines and whatever comments it contains: (a) successive readings give the words outside comments in the order of the file; (b) a program reading its parameters each after its tag goes on exactly when the words are, in order, its tags (up to the case) each followed by a value that is understood, and gets those values, otherwise it stops; (c) decimal integers are read back; lists give their entries and leave the reading right after them; (d) the nissa_config file gives each known parameter the last value assigned to it and leaves the others unchanged, unknown names stop the program unless they were asked to be skipped; (e) an input file opened inside another one, read and closed, gives back the outer one where it was. Counterexamples found: the last value missing from a file ending with a newline is not noticed (the variable keeps its content), a nissa_config not ending with a blank stops the program, what follows the digits of an integer is ignored (0.5 is read as 0), an isolated slash inside a comment is compared with memory before the token, words of 1024 characters overrun the buffer, file_lock returns a descriptor exactly when the lock was not taken.", "quantifier": "all texts, lists of tags, integers, lists of entries, sets of known names, contents of uninitialised memory", "why_tests_cant": "the texts a user can write are unlimited, and the failures depend on uninitialised memory or on the last character of the file", "anchors": ["src/io/input.cpp: read_next_token, check_tok_ends_comment, read_up_to_end_of_comment, read_var_catcherr, read_var, expect_str, read_str_int, read_list_of_var, read_nissa_config_file, open_input, close_input, file_lock"]}
{"id": "C72", "title": "Conversion of a configuration to the even/odd layout", "statement": "The tool ildg_to_eo writes the sizes and the plaquette in the first 24 bytes and then, for every odd site of the T x L^3 lattice in lexicographic order (x fastest) and for the directions t, z, y, x in this order, the link starting from the site and the link arriving to it; every link of the configuration is written exactly once, nothing else is in the file, and the content does not depend on the grid of ranks nor on the order in which the ranks write. With three or more ranks the remapping copies the wrong number of links inside of a rank and the file contains uninitialised memory.", "quantifier": "every even lattice T x L^3, every grid of ranks on which the local copy is right (all those with one or two ranks), every configuration, every order of execution of the ranks", "why_tests_cant": "The place of a link depends on the sizes, the parity and the grid; a test compares a file on one lattice with one grid.", "anchors": ["tools/conf_transform/convert/ildg_to_eo.cpp: index_from_lx_to_Neo, conf_convert", "src/operations/remap_vector.hpp: vector_remap_t", "src/communicate/all_to_all.cpp: communicate"]}
{"id": "C73", "title": "Fields and gauge configurations written to a file are read back the same by every program", "statement": "Writing a field appends to the file the messages given, then one record with the numbers of the field (sites with x fastest, then y, z, t; numbers big-endian; for a gauge configuration the links of each site in the order x, y, z, t, after a record describing the format), then the record of the SciDAC checksum of the field, whatever the grid of ranks, the endianness of the machine, the order in which ranks write and threads run; the configuration in memory is left as it was. Reading such a file on any other grid of ranks and machine gives the same field, the records before the data as messages, and never the warning on the checksum; if the bytes of one site were altered in a run of at most 4 bytes the warning is given.", "quantifier": "all lattices and grids of ranks of writer and reader for which the all-to-all copies the right count locally (C24, C35), both endiannesses of both machines, all contents, messages, schedules, orders of the writes of the ranks and contents of uninitialised memory", "why_tests_cant": "a test writes and reads on one machine with one grid; compatibility is about every pair of grids and machines, every order of writes and every content", "anchors": ["src/io/writer.hpp:write_real_vector", "src/io/writer.hpp:write_ildg_gauge_conf", "src/io/reader.hpp:read_real_vector", "src/io/reader.hpp:read_ildg_gauge_conf", "src/io/ILDG_File.hpp:ILDG_File_write_ildg_data_all", "src/io/ILDG_File.hpp:ILDG_File_read_ildg_data_all", "src/new_types/su3_op.hpp:quad_su3_nissa_to_ildg_reord"]}
{"id": "C74", "title": "Sources of the ib program: what they contain, and stochastic contractions are unbiased", "statement": "A stochastic source has, at each point of the requested slice (or of the whole lattice), the noise drawn for the number of the point in the whole lattice, only in the spin and colour of the dilution, and zero elsewhere, on every grid of ranks; its norm is twelve times the number of points whatever the dilution; a point source is one in one component at the origin. The program stops exactly for the noises it does not implement and for point sources not fully diluted. The origin of a hit is a point of the lattice got from four numbers of the stream, and the stream advances in the same way whether the source is moved or not. The insertions acting site by site (gamma matrix, colour, slice, phase, point, spin, sum of sources) do what their name says on the slice at the requested distance from the source. The meson contraction computed by the program from Z2 or Z4 sources with any dilution, averaged on independent uniform random numbers, is the average on the points of the source of the contraction from that point, so the estimator is unbiased and the norm is the right one.", "quantifier": "all lattices, grids of ranks, source positions and times, noise types, dilutions, random numbers, reduction schedules, pairs of linear propagators and gamma matrices", "why_tests_cant": "unbiasedness is a statement on the average over all the random numbers; a test draws some and sees fluctuations; independence of the grid quantifies over all grids", "anchors": ["projects/ib/hit.hpp:generate_original_source", "projects/ib/hit.hpp:HitLooper", "projects/ib/prop.cpp:build_source", "projects/ib/prop.cpp:phase_prop", "projects/ib/prop.cpp:select_position", "projects/ib/prop.cpp:select_spin", "projects/ib/prop.cpp:select_color", "src/operations/covariant_derivative.cpp:prop_multiply_with_gamma", "src/operations/source.hpp:select_propagator_timeslice", "projects/ib/contr.cpp:compute_mes2pt_contr_classic"]}
{"id": "C75", "title": "Scripts of nice: memory safety, scoping and isolation", "statement": "In the interpreter of the scripts of the nice program, whatever a script does, every variable, list element, struct member, closure and enclosing scope it reaches is a place that exists; a piece of script can change only what is reachable from the scopes enclosing it, adds names only to the scope it runs in, never rebinds a name, and leaves the current scope as it found it; blocks, for and if add no name to any existing scope; a call can change only what is reachable from its arguments and from the scope where the function was defined, and its outcome does not depend on the scope from where it is made. Taking a reference, calling a function with a reference parameter and calling a variadic function, which the grammar offers, always fail.", "quantifier": "all scripts (trees), all reachable memories, all depths of recursion and numbers of iterations, either order of evaluation of the arguments of the operators", "why_tests_cant": "the claim is about what is NOT changed, for every program of the language, including recursive ones, and every memory with aliasing", "anchors": ["projects/nice/nASTy.hpp: Evaluator, Environment, EnvironmentWindUnwinder, pushNewEnvironment, callFunction, UnaryRefNode"]}
{"id": "C76", "title": "Scripts of nice: meaning of the core, of the arguments of calls and of seq", "statement": "A script does what its text says: assignments, increments, blocks, if, for and expressions follow the usual block-structured semantics (a name is that of the innermost scope which has it, otherwise assignment declares it in the current scope), integer operators are those of the 32 bit integers, the arguments of a call go to the parameter with their name, otherwise in order, otherwise the default is used, seq gives the arithmetic progression. Proved for the core (assignment, ++, --, blocks, if with else, for; expressions of integers, variables and operators), in both directions and whatever the order of evaluation; outside it the code departs: if without else and false condition is undefined behaviour, return nested in if/for/block is lost, += and the like always fail, using the result of a function that has no return is undefined, x++ + x depends on the compiler, lists are aliased by assignment, and/or do not short-cut, defaults are evaluated in the scope of the caller.", "quantifier": "all statements of the core, all stacks of scopes, all memories holding them; all lists of arguments, named or not; all ranges of seq", "why_tests_cant": "equivalence of two semantics for all programs, with unbounded loops and nesting, and for both orders of evaluation the compiler may choose", "anchors": ["projects/nice/nASTy.hpp: Evaluator::operator(), getRefOrInsert, insertNamedOrUnnamed, env[\"seq\"], BinOpNode, UnOpNode, UnaryPostfixOpNode"]}
{"id": "C77", "title": "Generation program: trajectories, measurements, saved configurations, restarts and crashes", "statement": "A session of the generation program starts from the running configuration if its file is there (with its trajectory number and random state, unless seed_new asks for a new seed), otherwise from scratch. It does consecutive trajectories, each from the previous configuration, until ntraj_tot, a stop or restart file, or not enough time. After each trajectory the file of every due gauge measurement gets its lines, once, in order, and nothing else; every multiple of StoreEach is stored under its own name; the running configuration is the one of the last multiple of StoreRunning, and of the last trajectory at the end. So a history of sessions is a single chain of trajectories, each measured once. After a crash at any point the running configuration is the old one, a later one of the chain, or a half-written file (only if the crash is during that write), and measurement files are prefixes of what was due. Departures: with StoreRunning 0 a session ending at a multiple of StoreEach does not save the running configuration; a crash while writing it loses it; a crash after the measurements makes them appear twice; restarts change the chain; fermionic measurements with after not multiple of each are never done; two measurements in the same file erase each other in the first trajectory.", "quantifier": "every update, measurements and parameters; every sequence of clock readings and external stop/restart files; every sequence of sessions; every crash point", "why_tests_cant": "the history of sessions, the moments at which the files appear and the crash points are unbounded, and the loop runs for days", "anchors": ["projects/generate_confs/generate.cpp: run_program_for_production, run_program_for_analysis, init_program_to_run, init_rnd_gen, measurements, store_conf_if_necessary, check_if_continue, enough_time, close_simulation, write_conf, read_conf", "projects/generate_confs/driver.hpp: measure_is_due, if_meas_is_due_print, any_fermionic_measure_is_due", "src/measures/fermions/fermionic_meas.hpp: measure_is_due"]}
{"id": "C78", "title": "GPU loops: every index once, and tuning a kernel is invisible", "statement": "On the GPU build, a parallel loop over [min,max) executes its body exactly once for each index, whatever the number of threads per block and the order in which the threads run; and the automatic tuning of a loop (thousands of trial launches the first time a kernel is met with a given length, with the block size found stored in autoTunedKernelInfo.snf) does not change the result of the program: fields and random generators are afterwards those of one single launch, whether the kernel was known or not and whatever the times measured. The block size chosen is a power of two accepted by the device and none of those tried took less time. Outside of the conditions under which this is proved (the kernel registers all what it writes, each field once; the index fits in 32 bits; the file was written at the end of a tuning on the same device) the code violates it: the hot start does not register the random generators, so that its configuration depends on whether the kernel had been tuned before; a program killed while tuning can leave a block size 0 in the file which then stops every later session.", "quantifier": "all kernels, memories, block sizes, thread schedules, clocks, devices, nested tuning of the copy kernels and contents of the tuning file", "why_tests_cant": "tests see one device, one clock and one history of tuned kernels; the property is about every combination of already known and unknown kernels, and every schedule of the threads", "anchors": ["src/threads/threads.hpp: cudaParallelFor, CUDA_PARALLEL_LOOP, cudaGenericKernel", "src/threads/benchmarks.hpp: getOptimalBlockSize, storeTunedKernelsInfo, tryLoadTunedKernelsInfo", "src/base/field.hpp: Field::getWritable, Field::assign, benchmarkBeginActions", "src/base/random.cpp: maybeBackupLocRndGenForBenchmark", "src/operations/gaugeconf.cpp: generate_hot_eo_conf"]}
{"id": "C79", "title": "Fields exchanged with QUDA keep their sites, directions and ranks", "statement": "When solves are delegated to the QUDA library, the gauge configuration, the sources and the solutions are exchanged by tables that renumber sites, directions and ranks. The two tables are inverse of each other; the link that QUDA finds at the site y of the rank it calls rho in its direction d is the link of nissa at the corresponding point of the whole lattice in the corresponding direction, both for a plain and for an even/odd split configuration; sources and solutions are moved point by point, and a vector given to QUDA and taken back is unchanged.", "quantifier": "all lattice sizes and grids of ranks with even local sides, all ranks, sites and directions, all fields", "why_tests_cant": "a test looks at one lattice and one grid; a transposed pair of directions is invisible on symmetric volumes or on a single rank", "anchors": ["src/base/quda_bridge.cpp: initialize, get_rank_of_quda_coords, remap_nissa_to_quda, remap_quda_to_nissa"]}
{"id": "C80", "title": "A sequence of solves through QUDA always inverts the operator that was asked", "statement": "QUDA keeps between solves the gauge configuration, the clover term and the multigrid preconditioner; nissa reloads them only when the tag of the configuration changes. For any sequence of solves with different configurations, masses, kappa and clover coefficients, as long as the tag determines configuration and clover coefficient, each solve inverts exactly the operator asked, and the multigrid in use was built on that configuration and updated to those parameters; the same holds with no condition on tags if the export is forced. The runs of ib satisfy this if each path names one configuration with a single photon field and all kappas are equal. Otherwise the code violates it: the tag of ib contains neither the photon (second hit of a charged propagator uses the photon of the first) nor kappa (stale clover coefficient), a negative clover coefficient is ignored. The residue check, active by default, turns these into a stop of the program, unless the residue is not a number, in which case the solution is accepted.", "quantifier": "all sequences of solves, configurations, photons, charges, boundary conditions, masses, options of the multigrid", "why_tests_cant": "stale state shows up only in particular histories (same tag, different content), and tests run a handful of solves", "anchors": ["src/base/quda_bridge.cpp: solve_tmD, set_inverter_pars, setup_quda_multigrid, load_clover_term", "src/base/export_conf_to_external_solver.hpp: export_gauge_conf_to_external_solver", "src/inverters/twisted_clover/cg_invert_tmclovD_eoprec.cpp: inv_tmclovD_cg_eoprec", "projects/ib/prop.cpp: get_qprop"]}
{"id": "C81", "title": "Block sizes of the QUDA multigrid tile the lattice", "statement": "The block sizes used for the multigrid, given in the input or chosen automatically, divide the extents at each level, leave an even number of sites on each coarser lattice of each rank, and the coarsest lattice is not blocked; otherwise the program stops. Proved for the automatic choice when the direction is not split among ranks, and for given sizes which divide the extents. The code violates it otherwise: extents are those of the whole lattice, so the lattice of a rank can become odd or smaller than a block, and given sizes are not checked to divide.", "quantifier": "all sizes, numbers of levels and of ranks, block sizes given or not", "why_tests_cant": "arithmetic over all lattice sizes, levels and grids", "anchors": ["src/base/quda_bridge.cpp: set_inverter_pars (geo_block_size)"]}
{"id": "C82", "title": "Averaging a gathered vector over mirrors and permutations of the axes", "statement": "average_list_of_gathered_vector_sites leaves on each listed site the mean over the listed sites, component by component, and touches nothing else. gathered_vector_mirrorize leaves at every site the mean over its mirror images in all four directions, and gathered_vector_cubic_symmetrize the mean over the permutations of the three spatial axes, each value being computed from the original vector. The code does so only in part: mirrors in the last direction are never taken and only sites with last coordinate up to L/2 are visited; permutations are averaged only in the first octant. Lattices with odd time or first spatial extent are refused.", "quantifier": "for every even T and L, every number of components, every vector, every site", "why_tests_cant": "the in-place averages read what earlier averages wrote: only disjointness of all orbits, at every size, makes the outcome the mean of the original values", "anchors": ["src/operations/vector_gather.cpp:average_list_of_gathered_vector_sites", "src/operations/vector_gather.cpp:gathered_vector_mirrorize", "src/operations/vector_gather.cpp:gathered_vector_cubic_symmetrize"]}
{"id": "C83", "title": "Momenta kept by the Fourier filter of ib", "statement": "Given a list of momentum ranges with a democratic cut, the filter keeps each lattice momentum which up to the signs of its components lies in a range and satisfies its cut, once and only once, also for negative offsets, overlapping ranges and antiperiodic time (where minus n is T-1-n); the set is closed under sign changes. All ranks agree on the list; momentum i is sent to position i of rank 0 only by the rank hosting it. The momenta are written to mom_list.txt in that order, and reading that file back makes the same filter. A file with distinct momenta keeps its order, an incomplete last line being ignored; a file repeating a momentum makes two momenta share a position or writes past the end (violation).", "quantifier": "for every lattice, number of ranks and rank, boundary condition in time, list of ranges, file", "why_tests_cant": "overlaps among ranges and their mirror images depend on sizes and offsets; positions are given by a growing set", "anchors": ["projects/ib/prop.cpp:init_fft_filter_from_range", "projects/ib/prop.cpp:init_fft_filterer_from_file", "src/geometry/geometry_lx.hpp:get_mirrorized_site_coord", "src/geometry/geometry_lx.hpp:coordsSum"]}
{"id": "C84", "title": "Heat bath of a link", "statement": "su3_find_heatbath maps a link of SU(3) to a link of SU(3) for any staple, beta, number of hits and random numbers. Each subgroup step multiplies the link by an SU(2) matrix so that the part of Re Tr(U staple^+) along the subgroup becomes k*a0, where a0 is distributed in [-1,1] with density proportional to exp(beta/3*k*a0)*sqrt(1-a0^2), the weight of the Wilson action times the Haar measure, and the other three components are uniform on the sphere of radius sqrt(1-a0^2). The rejection loop ends as soon as a pair of random numbers is accepted, which has a positive probability. When k=0 (e.g. zero staple) the weight used is exp(beta/3*a0) instead of the flat one (violation).", "quantifier": "for every link, staple, beta, number of hits, sequence of random numbers for which the rejection loops end; the law, for every continuous test function", "why_tests_cant": "an error in the distribution is visible only statistically, and the algebra must hold for every staple", "anchors": ["src/base/random.cpp:su3_find_heatbath", "src/new_types/su3_op.hpp:su2_part_of_su3", "src/new_types/su3_op.hpp:su2_prodassign_su3"]}
{"id": "C85", "title": "The mapping file puts every rank on its own node, and neighbouring ranks on neighbouring nodes", "statement": "When the partitioning tool writes its mapping file, the ranks are in one to one correspondence with the nodes of the five dimensional torus (no node is used twice, none is left out), ranks that follow each other in any lattice direction are on nodes that differ by one step in exactly one torus direction, and for every built-in block also the first and the last rank of a row, that are neighbours on the periodic lattice, are joined by a link of the machine.", "quantifier": "all machines (sizes of the five directions, odd or even, closed or not), all lattices, all ranks and directions; the periodic closure for all built-in blocks and for all machines whose directions have size one or even and are closed when longer than two", "why_tests_cant": "The rank of a node is a snake through an arbitrary distribution of the torus directions over the lattice directions: 1024 distributions for each of the infinitely many sizes.", "anchors": ["tools/find_best_vir_partitioning/find.cpp: assignement_t::set_from_way", "tools/find_best_vir_partitioning/find.cpp: assignement_t::fit_the_rank", "tools/find_best_vir_partitioning/find.cpp: assignement_t::create_mapping", "tools/find_best_vir_partitioning/find.cpp: main"]}
{"id": "C86", "title": "The partitioning tool proposes the best rank grid", "statement": "Given a lattice divisible by the number of nodes with local volume multiple of 32, the tool ends and writes a rank grid which divides the lattice in parts of even sides with one side multiple of four, which is hosted by the torus, and such that no other such grid has a smaller border (then smaller sum of squared borders, then a larger local time); the scan of the combinations, although it jumps over groups of them, proposes every admissible grid exactly once; the virtually parallel direction written is the one with the largest local size among those multiple of four.", "quantifier": "all lattices, all machines with at least two nodes, all admissible grids and all distributions of the torus directions", "why_tests_cant": "Optimality compares with every factorization of every number of ranks, and the correctness of the jumps depends on the history of the scan.", "anchors": ["tools/find_best_vir_partitioning/find.cpp: valid_partition_lister_t", "tools/find_best_vir_partitioning/find.cpp: factorize", "tools/find_best_vir_partitioning/find.cpp: find_torus_assignement", "tools/find_best_vir_partitioning/find.cpp: compute_border_border2_size", "tools/find_best_vir_partitioning/find.cpp: main"]}
{"id": "C87", "title": "The printed input can be scanned again", "statement": "For the configuration generator, the text printed by #PrintScannedInput or #PrintFullInput after an input file has been scanned is itself an input file, and scanning it gives exactly the same parameters: same geometry, theories, quarks, measurements, evolution and configuration settings.", "quantifier": "every accepted input file, both ways of printing", "why_tests_cant": "every combination of set and unset parameters of every block prints a different text; the losses appear only for particular combinations", "anchors": ["projects/generate_confs/parser.ypp", "projects/generate_confs/tokenizer.lpp", "projects/generate_confs/driver.hpp: driver_t::get_str", "src/hmc/theory_pars.cpp: theory_pars_t::get_str", "src/operations/smearing/smooth.hpp: smooth_pars_t::get_str", "src/hmc/backfield.hpp: em_field_pars_t::get_str", "src/hmc/gauge/topological_action.hpp: topotential_pars_t::get_str"]}
{"id": "C88", "title": "Order of the settings of a block", "statement": "In an input file of the configuration generator the settings of a block can be written in any order: the file gives the same parameters, or is refused in both cases; if a setting is given twice the last value counts. (L, which sets the three spatial sizes, is the exception: its order with respect to LX, LY and LZ counts.)", "quantifier": "every input file before and after, every block, every list of distinct settings and every permutation of it", "why_tests_cant": "the permutations of the settings of every block in every position of a file cannot be enumerated", "anchors": ["projects/generate_confs/parser.ypp"]}
{"id": "C89", "title": "A setting of the generate_confs input changes its own parameter only", "statement": "After any accepted beginning of an input file of generate_confs, `Name = value` stores the value written in the parameter Name of the last opened block that has a parameter of that name, going outwards from the block that is open (so `Beta` after a quark goes to the theory of that quark), and changes no other parameter of that block, of the other theories, quarks, measures, smoothing methods, nor of the geometry, run, evolution or configuration blocks. Integers are accepted where reals are expected with the same value, a real given where the time is expected is truncated towards zero, a flag becomes 0 exactly when 0 was written. The exception is L, which sets the three spatial sides at once (C87).", "quantifier": "for every accepted prefix of tokens, every open block, every keyword and value of matching type", "why_tests_cant": "the prefix can open any number of blocks of any kind in any order, and absence of side effects ranges over all the other parameters of all of them", "anchors": ["projects/generate_confs/parser.ypp", "projects/generate_confs/tokenizer.lpp", "projects/generate_confs/driver.hpp"]}
{"id": "C90", "title": "clusterize writes the jackknives of the files it is given", "statement": "The tool clusterize, given a number of configurations and of jackknives, uses the first (configurations/jackknives)*jackknives configurations of those asked for that have a file, and writes for each correlator of the first file, part, time: for each j the mean over the configurations used that are not in the cluster j of consecutive ones, then the mean over all; the values are those written in the files after the corresponding title. The mean of the jackknives is the average. If enough complete files are in the range the tool does not fail. The configurations used are only those asked for (violated: when one is missing a file after the range is used), and the number of jackknives is checked against that of configurations (violated: 0/0 is written).", "quantifier": "for every set of existing files and their contents, every number of configurations, jackknives, times and correlators", "why_tests_cant": "any subset of the files can be missing and any sizes can be asked for", "anchors": ["tools/clusterize.cpp"]}
{"id": "C91", "title": "clusterize2 writes the jackknives over configurations and copies", "statement": "The tool clusterize2 with the old layout writes for each type of correlator a file that has, for each combination, part and time in this order, the mean over the configurations not in cluster j and over all the copies for each j, and then the mean over all, of the numbers read in the files, where a file lists the combinations with the types inside; the places in which threads with different clusters sum are distinct and allocated. The new layout gives the same with one number per time (violated: an uninitialised number is added to the next combination, and after the end of the allocated memory). A configuration is left out by the jackknife of its cluster (violated: with missing files copies of the same configuration are in different clusters).", "quantifier": "for every set of existing files and contents, all numbers of combinations, types, times, copies, configurations and jackknives", "why_tests_cant": "the layout and sums must be right for all sizes and all sets of missing files", "anchors": ["tools/clusterize2.cpp", "tools/common_tools.cpp"]}
{"id": "C92", "title": "ave writes the mean of the files of each line", "statement": "For each line `out in1 ... inn` of its input the tool ave writes in out, number by number, the mean of the files in1...inn, and changes no other file; a missing file, one with a fraction of a double, or with another number of doubles than the first one, or a line without inputs, is an error and nothing is written for that line. This is proved when lines have at most 1023 characters, no line reads what a previous one writes, the outputs differ and the total number of files is within the limit of open files; without these it is violated: a longer line is taken as two and an input is overwritten, the output of a previous line is read before it is written, files are never closed.", "quantifier": "for every list of lines, all files and contents, any buffering of the output", "why_tests_cant": "holds for all lists of lines, files and sizes", "anchors": ["tools/ave.cpp", "tools/common_tools.cpp"]}
{"id": "C93", "title": "The parameters of the multigrid solver are those of its file", "statement": "Reading the parameter file of the multigrid solvers gives to each parameter, at each level and direction, the last number written for it in the file; the parameters that are not named keep their values, as all of them do if there is no file; a name followed by fewer numbers than it needs is refused. The block sizes are written in order T,Z,Y,X. [Violated: setup_refresh_tol is read twice, so that it is refused unless two numbers are given; a file with no final new line is refused; unknown names are silently ignored; the numbers of the levels depend on the number of levels at the point where they are written, and more than four levels are written out of bounds; the defaults of the coarse levels are not those of the first one.]", "quantifier": "all the files made of parameters with their numbers, in any order and number of times, and any number of levels", "why_tests_cant": "the files are arbitrarily long and the meaning of each name depends on the settings before; a test on one file does not show the double reading nor the order dependence", "anchors": ["src/base/multiGridParams.cpp:read_DDalphaAMG_pars", "src/base/multiGridParams.hpp", "src/io/input.cpp:read_var_catcherr"]}
{"id": "C94", "title": "read_ildg extracts each record of an ILDG file", "statement": "Given a pattern, the tool read_ildg writes each record of an ILDG file that is shorter than the limit, with exactly its bytes, to the file pattern_rec_index_name, no two records to the same file, and no other file is changed; without a pattern it writes no file and prints name, length and data of each record. The file may come from a machine of any endianness. A file cut within a record that is read, or with a rest after the last record, is refused. [Violated: a file cut within a record over the limit is not noticed; with a pattern of more than 1023 characters all the records go to the same file; data with a zero byte are printed only up to it.]", "quantifier": "all the lists of records, with names up to 127 characters, any lengths and flags, patterns up to 880 characters, endianness of writer and reader", "why_tests_cant": "the number, the names and the sizes of the records are arbitrary; a test on some files says nothing on the alignment of the others", "anchors": ["tools/read_ildg/read_ildg.cpp:main", "src/io/ILDG_File.cpp:ILDG_File_get_next_record_header", "src/io/ILDG_File.cpp:ILDG_File_skip_record", "src/routines/ios.cpp:combine"]}
{"id": "C95", "title": "Creation of photon fields and of U(3) configurations", "statement": "The tool create_U1 writes each photon configuration in a file of its own, whose name comes from the given pattern and the number of the configuration: different configurations have different names, at the end every file has its own field, no other file is touched, and a pattern that cannot number the files is refused. The U(3) configuration it builds has in each link the SU(3) link times exp(i e A) with A the last photon field: unitary links, each square multiplied by the phase of the flux of A, and the printed plaquette of the phase is the average of cos(e flux) over sites and planes, for any grid of ranks and unchanged by a gauge transformation of A. It is written whenever its name is given.", "quantifier": "every pattern, number of configurations and field; every lattice, grid of ranks, reduction order, charge, photon field and SU(3) configuration", "why_tests_cant": "the number of patterns and of configurations is not bounded, and the plaquette must be right for all the fields and decompositions", "anchors": ["tools/conf_transform/create/create_U1.cpp: main, write_u1_field", "src/new_types/complex.hpp: complex_iexp", "src/new_types/su3_op.hpp: su3_put_to_diag_complex, su3_prodassign_su3", "src/operations/su3_paths/plaquette.hpp: global_plaquette_lx_conf"]}
{"id": "C96", "title": "The tool landau writes a gauge transform of the configuration, and the profile of the straight lines", "statement": "When the tool ends, the configuration written is a gauge transform, by SU(3) matrices, of the one read, also when a preliminary random transformation is asked; hence its products along closed paths and the two plaquettes printed are those of the configuration read. It satisfies the Landau or Coulomb condition to the precision asked unless the iterations are exhausted, and the tool always ends; a gauge other than the two is refused. The file of the profile, if asked, holds for each direction and each length from 0 to half of the lattice the average over all the sites of the real trace of the straight line of that length, in the configuration written: 3 for length 0, and always between -3 and 3.", "quantifier": "all configurations, grids of ranks, orders of the reductions, parameters of the fixing, coefficients of the random transformation, numbers of iterations", "why_tests_cant": "it must hold for every configuration, lattice, grid of ranks and random transformation", "anchors": ["tools/conf_transform/gaugefix/landau.cpp:inMain", "src/operations/gauge_fixing.cpp:perform_random_gauge_transform", "src/operations/gauge_fixing.hpp:gaugeFromTag"]}
{"id": "C97", "title": "Dynamics and topological charge of the CP(N-1) program", "statement": "In the CP(N-1) program every update of the positions keeps the norm of each site at one, its orthogonality with the momentum and the norm of the momentum, and is undone by reversing the momenta; momenta drawn and forces are tangent to the sphere; the forces used are exactly minus the derivative of the action with respect to the moves made by the update. The action is zero for the cold start and, like the charge, does not change under a change of the phases of the sites. The geometric charge printed is an integer for every configuration with no vanishing scalar product on the edges. A trajectory has the length asked. [Violated: the time step is divided by two once too many, so trajectories have half of the length asked: with no force, a link with momentum p asked for a time t gets the phase p*t/2.]", "quantifier": "all configurations and momenta, numbers of components, lattices, couplings, numbers of steps, lengths, coefficients of the integrator", "why_tests_cant": "it must hold for every configuration, momentum and lattice; tests compare forces at a point or charges of a few configurations", "anchors": ["projects/cpn/cpn.cpp:energy", "projects/cpn/cpn.cpp:update_zeta_positions", "projects/cpn/cpn.cpp:compute_zeta_forces", "projects/cpn/cpn.cpp:compute_lambda_forces", "projects/cpn/cpn.cpp:hmc_integrate", "projects/cpn/cpn.cpp:geometric_topology_simplified"]}
