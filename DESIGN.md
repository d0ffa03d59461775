# Formal model of sunpho84/nissa in Lean 4 — design

## Layout

* `lean/Verif/<Area>/*.lean` – one directory per part of the code. A model file holds definitions only, each citing the lines of `/repo` it models and saying
  what is simplified; `Props*.lean` (or the last section of small files) hold the theorems `Cxx_*` with the non-vacuity examples; `*Lemmas.lean` are helpers.
* `properties.jsonl` – the English properties; `MANIFEST.json` – the theorems of each; `seeded/LOG.jsonl` – wrong programs tried against the theorems.
* A theorem `Cxx_violated_*` (or saying "violated" in its comment) is a proof that the code, as written, does *not* have the property on a given input: the
  property is then proved under the stated restriction, and the witness documents why the restriction is needed.

## Technique, per property

| id | what is modelled | how it is proved |
|---|---|---|
| C01 | `coordOfLx`, `lxOfCoord` loops, their int-truncated global variant | mixed radix arithmetic, any box |
| C02 | rank/local split of coordinates | composition of C01 with div/mod |
| C03 | `fullLxOfCoords` and neighbour table construction | case analysis bulk / border / edge |
| C04 | the same, injectivity + surjectivity of the halo enumeration | mixed radix + offset disjointness |
| C05 | all ranks at once: send buffers, messages (to, from, tag, slot range), receive buffers | refinement to "halo = global field" |
| C06 | as C05 for edges | as C05 |
| C07 | `set_eo_geometry` counting construction | counting lemma: rank of a site among same-parity sites |
| C08 | split/paste loops | inverse permutations from C07 |
| C09 | `Field::index` for both layouts, with 32-bit version | div/mod; witness for overflow |
| C10 | field/reference state machine: flags, references, halo content version | invariant over histories; one witness for each usage rule dropped |
| C11 | strided pairwise reduction loop | induction on n; any commutative monoid |
| C12–C14 | MemoryManager: cache map, used map, counters, abstract system allocator | invariant over all lists of operations |
| C15 | linked vector list + counters | invariant over all lists of operations |
| C16 | mixed radix enumeration of the grids with the skip logic | completeness + minimality of the loop |
| C17 | ran2 with Schrage steps on machine ints (overflow = distinct outcome) | arithmetic invariants |
| C18 | decimal print/scan of the 35 integers of the generator | round trip |
| C19 | seed = base + global index | from C02 |
| C20 | byte swap on byte lists/words | involution |
| C21 | CRC32 bitwise, rotation, xor reduction over sites and ranks | injectivity of the CRC step, invariance of xor under permutations |
| C22–C23 | record header encode/decode, padding, stream of records; hexadecimal text | round trip |
| C24 | all_to_all set-up and exchange on all ranks | refinement; witnesses of violation |
| C25 | index makers of the lx↔locd remap | bijection when balanced; witnesses otherwise |
| C26–C27 | integer routines, Laplace determinant | induction; Mathlib `Matrix.det` |
| C28–C29 | CG / multishift recurrences over real inner product spaces | induction on iterations (orthogonality, shifted-residue invariants) |
| C30 | sparse gamma tables and spin kernels | finite tables decided completely, then linearity |
| C31, C37, C38 | complex/SU(3) kernels in a flat memory of reals (aliasing), SU(3) projections, exponentials | symbolic execution + `ring`; invariants of the iterations; Mathlib `NormedSpace.exp`, Cayley–Hamilton |
| C32 | stencils on the distributed lattice, plaquette, generic path machine | refinement to the global lattice, induction on the path |
| C33–C34 | threefry/sitmo counter generator, field random streams | bijectivity of the cipher, injectivity of the counters |
| C35–C36 | ILDG remap; fft4d (bit-reversal, factor-3/5/… passes by definition of the library 1D transform) | C24/C25 + Fubini on the transform |
| C39 | staggered operator (eo/oe, squared, with mass), all ranks | refinement to the global operator, adjointness by reindexing of sums |
| C40 | Wilson twisted-mass clover operator (hopping, projectors, clover) | the same + gamma algebra |
| C41 | e/o preconditioned kernels and inverters (`tmD_eoprec`, `tmclovD_eoprec`) | Schur complement algebra, then C28 on the odd sublattice |
| C42 | staggered and twisted-clover inverters | reconstruction algebra, then C28 |
| C43 | four leaves, chromo operator, cSW, topological charge | refinement to the global lattice, covariance of open paths, trace identities |
| C44 | pointwise CG inversion of the twisted clover term | the loop is an instance of C28; adjoint blocks; Cauchy–Schwarz for the residue of the matrix |

(further properties are appended at the end of this file, in "Additions")

## Trusted base

* The Lean 4.33.0 kernel. Axioms: only `propext`, `Classical.choice`, `Quot.sound` (`vcheck` prints them for each theorem). No `native_decide`, no axioms of our own.
* Mathlib definitions used in statements: `ℝ`, `ℂ`, `Matrix`, `Finset.sum`, `Matrix.det`, inner product spaces, `NormedSpace.exp`.
* The reading of `/repo` recorded in the comment of every definition of the model.

### Modelling conventions

* Floating point numbers are real (complex) numbers: rounding, overflow and underflow are not modelled. Not-a-number is met only through explicit divisions by zero,
  modelled as a distinct outcome.
* Machine integers are modelled as such (with truncation or overflow as an outcome) where a property depends on it (C01, C09, C17, C20–C22, C33, C34); elsewhere they are
  unbounded integers.
* MPI: messages are matched in order by (source, destination, tag); the collective reductions add over all the ranks. Network failures, deadlock inside MPI and
  process crashes are not modelled.
* Threads/GPU: a `PAR` loop executes its body once for every index, in any order (the bodies modelled write disjoint locations); GPU kernels are not modelled, but
  the layouts and index computations they use are (C09).
* A distributed field is a function of rank and local index; junk values (`ji`, `jq`, `jv`, …) stand for unallocated or uninitialised memory and the theorems hold for any of them.
* `CRASH` ends the run with a distinct outcome (`Except`/`none`).

### Modelled, by directory of `/repo/src`

| directory | modelled | not modelled |
|---|---|---|
| `geometry/` | lx and eo geometry, neighbour tables, halo and edges (set-up and exchange), grid search | hypercubic remapping, vir-node layouts (commented out in the code) |
| `base/` | field layout and flags, memory manager, `nissa_malloc` registry, random field sources | bench, debug, close/init beyond the grid, multi-thread support, CUDA |
| `routines/` | integer maths, determinant, MPI reductions as sums | timers, vectors of MPI types |
| `new_types/` | complex, spin, SU(3) kernels in use, gamma matrices | 128-bit and single precision variants, rational approximations file format, high precision |
| `random/` | ran2, text save/restore, sitmo/threefry, source generation | hardware seeds |
| `io/` | endianness, checksum, ILDG header/records, checksum text | XML parsing beyond the fields cited, input tokenizer |
| `communicate/` | borders, edges, all-to-all, remaps | the asynchronous start/finish interleavings (only the flags, C10) |
| `operations/` | fft4d, path machine, plaquette, clover term | smearings, contractions, stag correlators, gauge fixing (see Additions) |
| `inverters/` | cg, cgm templates; staggered, tmclovQ2, eo preconditioned wrappers | bicgstab, deflation (EIGEN), 128-bit mixed precision (all stubs), QUDA/DDalphaAMG interfaces |
| `dirac_operators/` | staggered, Wilson, twisted-mass clover, e/o preconditioned | overlap, rooted operators, 128-bit (stubs) |
| `measures/` | topological charge | fermionic measures |
| `hmc/` | see Additions | force of the fermions, input files |

## Disagreements found between the code and the expected behaviour

Those marked † are proved (theorem or example beside the model), the others were noted while reading.

* geometry: stepping outward from an edge site gives a wrong border index†; the global coordinate of a global index truncates to 32 bits†.
* fields: `SubscribedField` `+=`/`-=` touch wrong degrees†; the 32-bit GPU index overflows†; `finishCommunicatingEdges` marks the halo instead of the edges; capturing
  a field to read and then writing it leaves a stale valid halo†; assignment across memory spaces leaves the flags; overlapping asynchronous communications share the
  buffers; `normalize(oth,newNorm)` takes the root twice; `scalarProdWith(complex&)` never writes the result; `EoField *=`, `/=` are ill-formed.
* memory manager: clearing the cache keeps blocks of smaller alignment†; at high verbosity `end()` may be dereferenced; the GPU allocator ignores the alignment;
  `internal_nissa_free` tests the address of the pointer.
* grid: a fixed grid is ignored when there is one site per rank†; a single rank skips the even-odd check†; `4^nFact` overflows for many factors; the initial "found" flag is set.
* routines: `find_max_pow2(0)` does not terminate†; `log2N` is wrong†; `matrix_determinant` of size 0 is 0.
* random: seed `INT_MAX` overflows†; one seed makes the generator stuck†; small text buffers overflow†; `state+0` advances by 2^64†; `int` truncation of the
  global index reuses random numbers†; the order of two calls inside an expression is unspecified.
* io: shift by 32 at rotation 0†; MB/ME flags not byte-swapped†; checksum uninitialised when its record is missing†; padded length stored; `sscanf` EOF is truthy;
  the header of a configuration writes the sizes with exchanged directions; padding bug in `write_ildg_data_all` for lengths not multiple of 8; `int` overflow of the ILDG index.
* all-to-all: the final loop runs over the outgoing elements†; the local copy uses a wrong count (met on a real lattice)†; offsets zero when nothing is sent†;
  `add_conf_link_for_paths` exchanges its arguments; the locd remap loses elements when the ranks do not divide the orthogonal sites†. `vector_gather`: half of the mirrors.
* cg/cgm: abort when converging exactly at the last allowed iteration†, with an exact guess†, with a vanishing (preconditioned) source†; unconverged return for `niter<=0`†; the
  asynchronous default of cgm always aborts†.
* complex/spin/SU(3) kernels: `complex_summ_the_conj1_prod_i` and `complex_subt_the_conj1_prod_i` miss the factor i†; `complex_sqrt(0)` is NaN†; several kernels are
  wrong when the arguments alias†; `unsafe_spinspin_prod_dirac` assigns instead of summing†; `unsafe_su3_dag_prod_su3` with fewer rows truncates the inner sum†; Taylor
  exponentiation at order 0 includes the first order†; `su3_overrelax` with fewer than two orders writes out of bounds.
* paths: one write out of bounds after the last allowed move†; a path of zero moves is lost; `int` overflow of the codes.
* topological charge: the even-odd wrapper always aborts, as the edges are not allocated†; `compute_topo_corr` computes a convolution rather than the correlator.
* preconditioned inverters: the updated guess is passed by value and lost; the inversion of a singular clover block silently gives NaN†.
* many functions are stubs (`CRASH("reimplement")`): `apply_tmQ2`, `reconstruct_tm_doublet`, Adams operators, `Omelyan_pure_gauge_evolver`, `pure_gauge_action`,
  `vector_gather`, `remap_to_write_ildg_data`, `write_spincolor`, `summ_src_and_all_inv_cgm`, cooling, 128-bit operators and inverters, …

## Additions

* **C45** recursive flow (`Verif/Smearing/RecursiveFlow.lean`, `Nissa.RecFlow`): `recursive_Wflower_t` modelled as a state machine (bound configuration, list of
  snapshots with their flow time, user's configuration) over an arbitrary step function; proved by an invariant over request histories. Found: with zero recursion
  levels and one flow the object never flows†, with two or more it aborts†; the destructor frees with `nissa_free` fields obtained from `new`.
* **C46** background field (`Verif/Hmc/Backfield.lean`, `PropsBackfield*.lean`, `Nissa.Back`): all of `hmc/backfield.cpp` and `getStagphaseOfLx` on even/odd distributed
  fields; every step multiplies by a phase, so the field is described by its angles (`HasAngle`), whose curl around a square is computed from the integer arguments of the
  exponentials. Specification: `square1` (product around a square), `line1` (winding line), `strength` (antisymmetric tensor requested by the user), `eta`. Found: a
  fractional charge times strength is accepted and leaves one wrong plaquette per plane†; a flag outside 0..2 indexes outside the table of functions.
* **C47** boundary conditions and energy (`Verif/Operations/GaugeConf.lean`, `Nissa.GConf`): memory of each rank (local sites, halo, edges) for the phases; the energy
  through the four leaves of C43. Induction over the history of requests and over paths. Found: `putonedges` without `putonbords` treats the first elements of the halo
  instead of the edges†; the number of sites is kept in an `int`.
* **C48** link smearing (`Verif/Smearing/LinkSmear.lean`, `PropsLinkSmear.lean`, `PropsStout.lean`, `Nissa.LSm`): one step of the gradient flow, stout on full and
  even/odd fields, APE, through the memory of each rank. Specification: `staplePair` (two three-link paths), `stapleSum`, `algPart` (traceless anti-Hermitian part),
  `luscher` (the three stages), `stoutSpec`. Covariance through `aexp_conj` (the closed form of the exponential commutes with unitary conjugation in all its branches,
  the truncated ones included); unitarity and exactness of the exponential only where C38 gives them (hypothesis `Regular`, or zero exponent). Found: the smearing
  called spatial uses all the staples†; full-field stout does not write the non-selected directions, at any level†.
- C49 (`Stencil/Staples`, `PropsStaples`, `PropsStaples2`): `squared_staples.cpp`, `rectangular_staples.cpp` and `find_bulk_sites` are modelled as sequences of memory writes
  (`wr`) with explicit junk in halos, buffers and outputs, an arbitrary schedule of the sites (`SchedOk`: every selected site visited, none added), and the exchange of C10.
  Specification: `pathProd` of the global configuration along explicitly written paths (`fwPath`, `bwPath`, `fwRects`, `bwRects`). The proof follows each component of each
  staple through the parts (non-forward surface before the communications, forward surface after, backward staples written in the halo of the neighbour, sent, collected).
- **C50** (`Hmc/GaugeForce`, `Hmc/PathCalc`, `Hmc/PropsGaugeAction`, `Hmc/EoSum`, `Hmc/PropsGaugeForce{,2,3}`): gauge action, force, momenta and the elementary steps of the evolution, function by function (full and even/odd fields, distributed over ranks; the staples are those of C49, with all their schedules and junk buffers). The action is proved equal to the sum over the lattice of the traces of squares and rectangles; the derivative of the trace of *any* closed path with respect to all the links is computed by induction on the path (`loop_deriv`), which gives the force as gradient of the action, and with `momenta_action` the conservation of the energy at first order in the step, for the very functions of the program (the derivative in 0 of the exponential routine is that of its truncated branch). Exact real arithmetic; `theory_pars_t` is reduced to action name and `beta`. Preservation of SU(3) and reversibility of the drift are proved where the exponential is not in its truncated branches (C38).
- **C51** (`Hmc/Omelyan`, `Hmc/PropsOmelyan{,2}`): the integrator, its two nested loops and the even/odd wrapper; the quark force is a parameter (an arbitrary function of the configuration). Specification: a list of elementary steps (`gauge a`, `quark a`, `links b`) on the global lattice, built by `om`, `gaugeTraj`, `fullTraj`. The program joins the last kick of a step with the first one of the next: proved equivalent by induction on the number of steps (`om_fold`). Reversibility follows from the list being a palindrome. Not covered: `ngauge_substeps=0` (division by zero), preservation of the measure, order of the energy violation beyond the first (C50). The final projection makes the program reversible only up to it.

- **C52** (`Hmc/QuarkForce`, `Hmc/QuarkCalc`, `Hmc/QuarkGrad`, `Hmc/QuarkSpec`, `Hmc/PropsQuark{,2}`, `Hmc/QuarkEnergy`): action and force of the rooted staggered pseudofermions, without stout levels: addition and removal of the background field, rational approximation, odd part of the solutions, outer products, final projection. Specification: the (unique, proved) solution of the shifted systems on the global lattice, the quadratic form of the approximation, its derivative. The gradient is proved from the derivative of the inverse of the kernel in finite dimension and of the hops with respect to the links. Exact real arithmetic; the solver is a parameter which may crash: `Exact` solvers for the identities (one is exhibited), and for the one of the program (C29) the bound on the action from the residue. Background fields of modulus 1 are assumed (their removal divides by the phase only then). Not covered: stout levels, clover and overlap discretizations (they crash), accuracy of the force in terms of the residue.
- **C53** (`NewTypes/Metadynamics`): the history-dependent potential, method by method (`draw_force` and `read_pars` excluded), reals for `double`, conversions to `int` as in C++ (towards zero), accesses to the vector checked. Specification: hats and sums over the history. Printing is a parameter (the number as printed). Proved by induction on the history. Findings: odd number of intervals (deposit displaced by half a width), jump at the upper end when the barrier is not half-integer multiple of the width, use before `init`.
- **C54** (`FreeTheory/Quark`, `FreeTheory/PropsQuark{,2,3,4}`): free twisted quarks in momentum space, function by function, exact reals (tolerance `1e-14` of the zero mode kept). Specification: the textbook Wilson operator `wilsonD`, rotated by a quarter of turn in the physical basis; singularity (`IsUnit`) for poles and energies; plane waves and the operator of C40 with the boundary conditions of C47 for the link with position space. Proved in the Clifford algebra (products `cl*cl~` are scalars). Findings: normalisation of wave functions in the Wilson basis (`C54_violated_wilson_norm`); position-space routines end in a crash (not modelled); the even/odd free kernel `tmDkern_eoprec_eos` reads the neighbours of the wrong parity in the first hop, its inverters are stubs (not modelled).
- **C55** (`FreeTheory/Photon`, `FreeTheory/PropsPhoton{,2,…,7}`): tree-level Symanzik gauge propagator, exact reals (thresholds `1e-14` kept), and the Fourier passes of `spin1field` on top of the transform of C36. Specification: the quadratic form `kernel` of the action (plaquettes and planar rectangles, field strengths), the gauge condition (`FixedProp`), positivity (`Matrix.PosSemidef`), plane waves in the middle of the links, lattice Laplacian and divergence. The eigensolver of Eigen is a parameter with a contract (orthonormal vectors rebuilding the matrix), shown to be satisfiable. Partial: what passes by the transform needs the remapping conditions of C25/C36 (`DirOk`, as on one rank or slabs). Findings: the passes ignore `dirs` in the transform (all the directions are always transformed); the square root of the volume is taken in single precision (`sqrtf`); `ONLY_100` keeps one sign of the momenta only, so the photon is complex; Coulomb gauge drops all the spatial zero modes also with PECIONA; all the routines for the propagator in position space crash.
- **C56** (`Rational/{Remez,Finder,HighPrec,Expansions}`, `Rational/Props*`): rational approximations. Linear system with the pivoting of the code over an ordered field; Remez loop with fuel (`Res.running` when the fuel ends), its result characterised by a `Certificate` (nodes, extrema, interpolation); Newton root finder with deflation, partial fractions; power by iteration; `set_expansions` on all the ranks with `gen` a parameter. Specification: `RatApprox.eval`, `Approximates`. Simplified: exact arithmetic; `max_eigenval` enters as a number; the name of the approximation is dropped. Findings: `if(ferm_discretiz::ROOT_TM_CLOV and not is_really_rooted)` tests an enumerator constant, so unrooted staggered quarks get `[m²,1.1 m²]` (`C56_unrooted_range`); `rat_approx_t::master_fprintf_expr` prints the constant twice; `generate_approx_of_maxerr` never ends for `maxerr≤0`; the root finder gives up on the root 0.
- **C57** (`Hmc/Rhmc`, `Hmc/PropsRhmc*`): the RHMC step. Modelled: `max_eigenval`, `set_expansions` (through C56), shift of the poles, generation of the pseudofermions, `full_theory_action`, the integrator (C51, C52), `metro_test`, the choice of the new configuration. The noises and the momenta are arguments (their law is C58), the solvers are any which return exact solutions (`Exact`, met by `exactSolve`), `gen` is any generator. Specification: `ratFun`/`ratApply`/`Eig` (function of the operator and its spectrum), `noise2`, `quarkAction`, `actionSpec`, `kinSpec`, `runs`, `accProb` (Lebesgue measure of the tosses accepted). Hypotheses met by `exStep` (two flavours, three pseudofermions). Not modelled: smearing levels, topological potential, clover quarks (crash in the code). Findings: `Field::normalize(oth)` takes the square root twice, so that the estimate of `max_eigenval` is the square root of `|A v|` and `v` is not normalized (`C57_violated_normalize`): it converges to the eigenvalue only as `lambda^(1-2^-k)`, from above when the largest eigenvalue is below 1; `external_quark_action>=0` is used as the flag "given"; `smeConf` is allocated if `nLevels>0` but filled if `nlevels!=0`.
- **C58** (Random/Gauss.lean; PropsBoxMuller, PropsGauss, PropsGauss2, PropsGauss3). Model: the gaussian, Z_N, momentum and link generators as
  functions of the uniform numbers drawn (reals), and their composition with the ran2 generators of the sites. Proof: the Box-Muller transform
  of two uniform laws is the product of two normal laws (change of variable in polar coordinates, Mathlib's measure theory); the laws of the
  complex numbers, of the eight coordinates and of the roots of unity follow; the independence of the grid is proved with the machinery
  of C19. Findings: the constants 1/sqrt 3 and 2/sqrt 3 written with 15 digits make the momenta not exactly traceless (`C58_violated_traceless`, about
  2e-15 of the eighth coordinate); ran2 never exceeds 1-1.2e-7, so the tails are cut at 4 sigma (`C58_tail`); `su3_put_to_rnd` draws u0 uniformly in
  [-1,1] instead of with density sqrt(1-u0^2) so the links do not follow the Haar measure (`C58_violated_haar`). `C58_hot` (Random/Hot.lean, PropsGauss4): `generate_hot_eo_conf` with the actual
  generator gives SU(3) links which depend on seed and lattice only, for every grid, order of visit and previous content. Not modelled: rounding of `double`.
- **C59** (`Smearing/Gaussian.lean`, `PropsGaussian*.lean`, `PropsShift.lean`): the three `gaussian_smearing` and the two shifts, on any grid of ranks with the
  halo of C05; a field of `su3spinspin`, `colorspinspin`, ... is a matrix colour x (other indices). Specification: the covariant average `avg` on the global
  lattice. The in-place shift is followed line by line (do-while cut by fuel, proved never reached). Findings: the polynomial version multiplies its running
  buffer by each coefficient, so the term i gets the product of the coefficients 0..i (`C59_polynomial`, `C59_violated_polynomial`), it returns the input
  for zero terms, and its calls pass references where pointers are expected (it does not compile when instantiated: modelled with the evident meaning);
  `quad_su3_vec_single_shift` wants sign 0/1 whereas `su3_vec_single_shift` wants -1/+1: sign=-1 reads beyond the table (`none` in the model).
- **C37, addition** (`Color/PropsSu3Polar.lean`): `su3_unitarize_explicitly_inverting` ends on every invertible matrix, number of turns logarithmic, and gives the SU(3)
  matrix of the polar factor within 50 tol^2 (`C37_inverting_converges`), by following the singular values. Remark: the scale factor of the code is the ratio of the norms and
  not its square root, so that far matrices approach by a factor 4 per turn and not quadratically.
- **C56, addition** (`Rational/PropsNewton.lean`): with real roots on the right of the starting point Newton's method does find the leftmost one (`C56_newton_finds`), added after
  a wrong sign in the iteration was not noticed by the other theorems.
- **C60** (gauge fixing; `Operations/GaugeFix.lean`, `PropsGaugeFix*.lean`).  Modelled: functional, derivative, quality, both methods, Fourier acceleration, generalised conjugate
  gradient, search of alpha, unitarisation and the two nested loops of `Landau_or_Coulomb_gauge_fix`; the exponential, the Fourier transform, the numbers drawn and the memory never
  written are parameters (`Env`).  `C60_functional`, `C60_quality` (grid and schedule independence), `C60_gauge_equivalent`, `C60_su3`, `C60_stops`, `C60_returns`, `C60_stationary`
  (derivative of the functional along `exp(tH)`), `C60_descent`, `C60_descent_fourier` (the hypothesis on the transform is discharged by `C60_fft_ok` from C36), `C60_adapt_*`.
  Violated, with witnesses: `C60_violated_report` (the final `CRASH` is unreachable), `C60_violated_unitarize_each` (the condition on `unitarizeEach` is inverted; with 0 it divides by
  zero), `C60_violated_overrelax` (the sweep writes `g U_mu(x) g^+` in the link `mu` of the lower neighbour: the links move by a site, the plaquette changes; the configuration given
  back is right, because it is computed again from the input and the transformation, but the transformation is searched on the wrong configuration).  Other remarks: at least one
  iteration is always made, also on a configuration already fixed; with `useGeneralizedCg` off a reference to a null pointer is bound; `find_temporal_gauge_fixing_matr` and
  `gauge_transform_color` are only a `CRASH`.  Simplification: in the overrelaxation the exchange of the links of the border through the buffers is direct.
- **C61** (floating point). `Floats/Format.lean` defines binary formats (digits `p`, least exponent) as sets of reals, and rounding to nearest as *any*
  function giving a nearest number (no assumption on ties); `double` is `p=53`, `emin=-1074`. Overflow, infinities and NaN are not modelled and the compiler is
  supposed to keep the order of the operations. On it: Float128 (`Floats/Float128.lean`), the elementary transformations of float_256, `Field::reduce`,
  `Field::preciseReduce` with `MPI_Allreduce` combining the ranks in any order and association, the startup check. Proofs: Sterbenz/Dekker/Knuth/Veltkamp on
  multiples of powers of two, then error propagation by induction on the tree of sums. `roundDown` calls `nextafter` towards `-1e-300` and so moves negative
  numbers up: stated as a violation (the effect is an error of at most 4 units of precision, proved). Not modelled: division, `renormalize` and the products of
  float_256.
- **C62** (Measures/Stag.lean, SpinTaste.lean, StagCorr.lean, PropsStag*.lean, PropsStagCorr*.lean, PropsMeson.lean). Model of the staggered spin-taste
  operators (`measures/fermions/stag.{cpp,hpp}`) and of `compute_meson_corr` (`mesons.cpp`) on all the ranks: covariant shifts with halos, the loop on
  `std::next_permutation` (modelled by its standard specification), the phases, the inversion with background, the slicing reduction `glb_reduce` over
  ranks and threads. Proof: every operator is shown equal, at each global site, to one written with torus shifts only; the loop is shown to visit each
  permutation once; the slices are a sum over the fibres of the time coordinate. Spin-taste content: trace identity of products of gamma matrices.
  Simplifications: exact arithmetic; the buffers declared with `PROVIDE_COMPLEX_VECTOR` (mesons.cpp:191,228, stag.cpp:315) are modelled as the intended
  arrays: as written, `complex.hpp:20-22` takes the address of the `std::vector` object, not of its content, and any access past the first complex falls
  outside it (`C62_violated_complex_vector`). `summ_the_trace` assigns and does not accumulate (`C62_violated_trace_not_accumulated`, used with several
  hits by `ellesettete.cpp:192,195`). Not modelled: the sources drawn (C33/C34 cover the generator), the printing, `summ_dens` (loops the parity index
  over the whole local volume), `compute_fw_bw_der_mel` (indexes a field of even sites by the full index), and the stubs `insert_vector_vertex`,
  `two_links_laplacian`.
- **C64** (Ib/Hit.lean, PropsHit1..7.lean). Model of `HitLooper` (`projects/ib/hit.hpp`) as a state machine in `Except`: maps of dependencies, status,
  storage with addresses (so that a stale pointer is seen), files on disk, the library of contracted propagators, the first (dry) run listing the future
  dependencies and the second one evicting the propagator needed latest. The generation of a propagator is an arbitrary function of the content of its
  sources. Proof: the two runs are shown to execute the same list of operations; an invariant relates the state after each operation with the operations
  still to come (what is needed is in memory or on disk with the right content; the list of the future dependencies is the suffix of the operations);
  the content is characterised as the only solution of the recursion. Errors (`crash`, `freed`) are values, so absence of crash and of use after free is
  part of the theorem. Simplifications: the sequence of names in `std::map`/`std::set` is that of a linear order; a disk write never fails; the
  contractions of the photon with the sides, the file of partial data and the printing are left out (see C65 if present). Conditions shown necessary by
  `C64_violated_*`.
- **C63** (Ib/Contr.lean, PropsContr1..6.lean). Both implementations of the meson contractions are modelled: the generic one site by site, and the one
  on the processor with its transposed real buffer, its list of contributions grouped by pair of components, its 32-bit base indices and its sums. Proof: the
  index of the buffer is a mixed radix numeral (injective), the grouped sum of contributions is regrouped to the trace; the bound on the size of the
  buffer is the condition under which the 32-bit index does not wrap, and `C63_violated_cpu_overflow` is the read out of bounds otherwise. Currents: the
  matrix elements are rewritten with the operators of C40/C43, and the Ward identity is proved from the action of the operator itself (C40: `apply_tmQ`
  and `apply_tmclovQ` on distributed fields), the hermiticity of the clover term (C43) and the rotations (C30). The current in the code has no weight for the
  fermionic anisotropy, so the identity is stated for `anis=none`. Propagators: `get_qprop` with any solver, and with the model of the preconditioned
  solver of C41. Not modelled: the branch of the free theory (C54 covers the momentum space propagator), the external solvers, the baryon contractions (stubs or
  CRASH), the product of the sides of handcuffs with the photon.
- **C65** (`Ib/Resume.lean`, `Ib/PropsResume1..4.lean`): the main loop of `ib.cpp`, partial data, printing, stream of random numbers. A job is the list of its
  elementary changes to the disk, one byte at a time; an interruption leaves the effect of a prefix; `After (Job P)` is any history. Proved by an invariant of the disk kept
  by every prefix. The contraction of a hit is an arbitrary function of the numbers drawn and of the old bytes (its value is C63/C64). Violations found: `writePartialData`
  truncates the file before writing, and a job killed in between makes all the later ones stop (`C65_violated_cut`); without averaging, a hit is printed twice if the job is
  killed between printing and writing of partial data (`C65_violated_duplicate`); with fewer hits asked after the interruption the sum of more hits is divided by the new number
  (`C65_violated_fewer_hits`); with `rnd_gauge_transform`, configurations skipped do not draw the numbers of the transformation, so results depend on the
  interruptions (`C65_violated_gauge_transform`; `Plan.Ok` excludes it). Not modelled: ranks other than the master, sources read from file, handcuffs (the program stops if there are).
- **C66** (`Ib/Lock.lean`, `Ib/PropsLock.lean`): the running file as a timed protocol among any number of jobs (it is of the kind of Fischer's): an inductive relation of steps, proved by an
  invariant. The delays are parameters; outside of `Times.Good` two jobs may own the configuration for *every* choice of times (`C66_violated_slow_write`, `C66_violated_slow_load`,
  which include `RUNNING_UPDATE_TIME=0`; with the default of 60 s it is enough that the configuration takes a minute to load). Finding a configuration finished after taking its
  lock ends the whole job and leaves the running file (`ib.cpp:583`; step `leave`). Assumed: common clocks, atomic write of the tag, different tags.
- **C67 (photon vertices).** `Ib/Vertex.lean` models the shifts, covariant derivative, Laplace operators and all the vertex insertions of `covariant_derivative.cpp` (spincolor instances, through the rank-local fields with halos), the template version used by `bwFwInsertCurr`, the local insertion, `add/rem_photon_field_to_conf`, and the state machine of `get_updated_conf`. `PropsVertex1` proves the formula of each insertion on any grid of ranks; `PropsVertex2` differentiates the operator applied by `mult_by_Dop` (C63) on the configuration with the photon, with a field that may depend on the charge, by linearity and the derivative of the phase; the equation of the first-order propagator follows by uniqueness of the derivative; `PropsVertex3` sums over the lattice with a shift, and proves the cache by induction on the sequence of operations. Not covered, because the code does not do it: the derivative of the clover term and the weights of the fermionic anisotropy are not included in the insertions, so with clover or anisotropy the insertion is not the full derivative. Findings: `CVECBW` inserts the forward transport and `CVECFW` the backward one; the temporal conserved current at a given time is not the charge of one time (`C67_sum_temporal`).
- **C68 HEX smearing** (`Smearing/Hex.lean`, `PropsHex.lean`): `sme`, the index lambdas `links0..3` and the loops filling the four lists of decorated links are modelled as written. Proved: the formula computed on any grid of ranks (`C68_smeared`), covariance, SU(3), pure gauge fixed, `a1=0` trivial. **Finding**: at the second and third level `sme` is called with zeros to fill the list of directions, and these zeros are taken as directions to be excluded, and as labels of the link transported: the staples along direction 0 never enter (`C68_violated_time_staples`), and the result is not the HEX smearing (`C68_violated_hex`, an SU(3) configuration on a split lattice). What is true of the definition is `C68_hex_partial`.
- **C69 topology** (`Measures/Topology.lean`, `PropsTopology{,2}.lean`): `compute_topo_corr` is a relation on top of the Fourier transform of C36; the convolution theorem is proved with the orthogonality of three phases on the box of the sites. The numbering of the points is proved one-to-one by disjointness of the intervals of the 16 subcubes and by counting. The file is a function from eight-byte words, written by the ranks in any order. The loop is an inductive relation, with the smoothing step left abstract (the steps themselves: C45, C48). **Findings**: the square of the transform is taken without conjugation, so the field stored is the average of q(y) q(x-y), not of q(y) q(y+x) (`C69_corr_convolution`, `C69_violated_corr`; they agree for even densities, `C69_corr_partial`); with more than one rank each rank owns `locVol` points of the new order but writes `locSextinantVolume` of them, so that everything not written by the master rank is the value of another point (`C69_violated_ranks`; right on one rank, `C69_file_partial`); odd sides make points collide (`C69_violated_odd`); a null or negative `MeasEachNSmooth` never ends (`C69_violated_each`). Not modelled: the stubs reached by the Cooling and HYP methods, the byte order of big endian machines.
- **C70 gauge sweeper** (`Stencil/Sweeper.lean`, `PropsSweeper{,2}.lean`): the boxes, the loops filling `ivol_of_box_dir_par` and its counters, the check that everything is hit once, the lists of links asked for the staples, the gathering of links, and the computation of the staples with products of which only two rows are computed. `C70_each_once` by characterising each set by half lattices and parity; the independence of the links of a set by showing that a displacement of at most 1 (2) sites that stays in the same box of some rank cannot leave the rank nor wrap. **Findings**: `add_conf_link_for_paths` exchanges rank and local site, so that on one rank the initialisation always stops the program (`C70_violated_init`); the two-row version of `b^+ c` drops a term, so the Symanzik staples are wrong for general SU(3) links (`C70_violated_symanzik`; right under a condition, `C70_symanzik_partial`); `get_sweeper` for the tree-level Symanzik action falls through to the Iwasaki coefficient (`C70_violated_tlsym`). Not modelled: the sweep itself (`sweep_conf` and the packing only stop the program), `check_hit_in_the_exact_order` (its content is `C70_*_independent`).
- **C71 (input files)**: `Io/Input.lean` models the C stream (rest of the text, end-of-file indicator), the scanner of words, comments, the typed
  readers with the previous content of the variable, lists, nested files and read_nissa_config_file, with the bytes read out of the token and the
  uninitialised strings as free parameters. The specification is on texts: `words` (split at blanks), `outside` (drop the comments), `ParsOk`,
  `configSpec`/`lastAssigned`. The scanner is related to it by an invariant on what is left of the text. Partial: words shorter than 1024 (100 in
  nissa_config), no isolated slash in comments if the byte before the token is a star, enough words in the file; each restriction has a
  C71_violated_* theorem. The conversion "%lg" is a parameter.
- **C72 (tool ildg_to_eo)**: `Tools/IldgToEo.lean` models `index_from_lx_to_Neo` and the bytes written by `conf_convert`; the remapping is that of
  C24 (`Comm/Remap.lean`). `Tools/PropsIldgToEo.lean` shows that the index function is a one-to-one correspondence between the links of the ranks and
  the slots of the file, that the file contains at each place the link of the specification (`place`) for every grid and order of writing
  (`C72_file_partial`, under the condition that the local copy of the all-to-all reads the right count, which holds on one or two ranks,
  `C72_two_ranks`), that the places fill the file (`C72_filled`, `C72_order`), and that with the time divided among three ranks 56 of the 64 links of a
  rank are uninitialised memory (`C72_violated_three_ranks`). Not modelled: the bytes of a number, the reading of the configuration (C35), the plaquette (C32).

- **C73** (Io/FieldIo.lean, Io/FieldIoLemmas.lean, Io/PropsFieldIo.lean): write_real_vector, write_ildg_gauge_conf, read_real_vector, read_ildg_gauge_conf end to end, composed from the record layer (C22, C23), the checksum (C21), the endianness (C20) and the layouts (C35). Memory of a rank is a function from offsets to bytes; the remapping moves chunks of bytes; the ranks write their pieces in any order; relations (`WritesVector`, `ReadsVector`…) quantify over everything the program leaves undetermined. Specification: `fileData` (list of bytes of the lattice in the order of the file), `InMemory`. Proof: the fold of the writes in any order gives the concatenation of the pieces (invariant on processed ranks); pieces computed from C35; the reading is reduced to the remapping by `reads_iff`. Not modelled: GPU layouts, the unitarity check and the plaquette printed. Findings: sizes in reverse order in the format record; single-precision records accepted and misread; misplaced padding.
- **C74** (Ib/Source.lean, Ib/PropsSource1..6.lean): generate_original_source, the draw of the origin of the hit, and the insertions of prop.cpp acting site by site. Specification: `specSource` (value of the source from the coordinates and the drawn numbers), `onSlice`, `dist`, `response` (linear propagator given by its kernel). Random numbers are independent and uniform on `2M` values (`Draws`, `E` the plain average), any `M>0`. Proof: sign-reflection of one number kills the average of products of different components (`E_sgn`), hence the completeness relation `C74_complete`, then linearity gives the average of the program's contraction (C63). Findings: the `DilutedSpace` parameter is read and never used; noises Unif, Z3, Gauss crash; theta/time insertions do not reduce times out of `-1..T-1`. Idealisation: exact arithmetic; the generator is replaced by uniform independent numbers only in the theorems on averages.
- **C75, C76** (`Nice/`, namespace `Nissa.Nice`): the evaluator of the scripts of the `nice` program (`projects/nice/nASTy.hpp`), node by node, with explicit memory: values in numbered cells, environments with parent pointers, `errorEmitter` and undefined behaviour as outcomes, recursion bounded by a fuel which is proved not to matter (`C75_deterministic`). `double` operations are arbitrary. Not modelled: the parser (external library), host objects, `rand`/`srand`/`to_string`, the format of the output. C75: memory safety and isolation by a triple for closed regions (`Inv`, `Rel`, `Tr`), stated with reachability; lexical scoping; references, reference parameters and variadic functions can never work. C76: equivalence of the core of the language with a relational semantics on a stack of scopes (`Run`), both directions; binding of the arguments; `seq`; violations with concrete scripts.
- **C77** (`Generate/Run.lean`, `Generate/PropsRun1..8.lean`, namespace `Nissa.Gen`): a session of `generate.cpp` as a list of atomic actions on the disk (truncate, append a line, begin and end of the write of a configuration, create `stop`, delete `seed_new`); what happens outside (files `stop`/`restart`, clock) is a list of environments, a crash is a prefix of the actions. Update and measurements are parameters, so the theorems hold for all of them. `Result` (PropsRun4) states what is on the disk after a session in terms of a chain of configurations; `Hist` (PropsRun5) glues the sessions; C77_crash/C77_lost quantify on every prefix; C77_fermion says when fermionic measurements are done (two different conditions are both required by the code); C77_walltime bounds the time. Violations, general or with a toy run which also shows that the hypotheses are met: C77_violated_*. Left out: the topological potential with memory, which stops the program; the second file of the topological charge; the content of the messages (C21–C23, C73).
- **C78** (`Verif/Tune`): a launch is the list of its threads in any order, with 32-bit unsigned index arithmetic; the tuner is a
  function on the whole state (memory, table of the kernels, lists of the actions, clock, versions of the file), with the copies of
  the fields made by nested parallel loops which can be tuned in their turn. What a kernel does is a parameter. `C78_once`,
  `C78_serial`, `C78_tuning`, `C78_optimal`; violations: `C78_violated_huge`, `_unregistered`/`_hot`, `_bad_size`, `_killed`, `_dangling`, `_twice`.
  Not modelled: statistics of the times, `Field` layouts on the device, the CPU versions of `PAR` (plain loop).
- C79 (`Verif/Quda/Layout.lean`, `PropsLayout1-2.lean`): the tables `quda_of_loclx`/`loclx_of_quda`, the six `remap_*` routines as write loops
  (`none` = never written), sizes and grid told to QUDA, `get_rank_of_quda_coords`. The specification (`qudaSite`, `dirOf`, `ofQuda`) is the
  numbering documented by QUDA (directions x,y,z,t; even sites first; x fastest). `C79_bijection`, `C79_conf`, `C79_vectors`, `C79_round_trip`,
  for all geometries with even local sizes (enforced by `set_eo_geometry`). Trusted: `MPI_Cart_create` is called with `reorder=1`, and is taken not to reorder.
  Matrices, spins and colors are copied element by element as they are (gamma basis not modelled).
- C80 (`Verif/Quda/Solve.lean`, `PropsSolve1-2.lean`): state machine of `solve_tmD`: `confTagOld`, `setup_valid`, stored parameters of the multigrid, and
  what QUDA holds (gauge, clover, preconditioner; behaviour of the calls as documented by QUDA: trusted). `C80_history` (invariant by induction on the list of
  solves), `C80_forced`, `C80_no_tag`, `C80_ib` (composition with `get_updated_conf` of C67), `C80_residue`; violations `C80_violated_same_tag` (general), `_photon`,
  `_kappa`, `_path`, `_negative`, `_clover`, `_nan`. Not modelled: deflation, smoothers, precision of the solver, 16 digits of the printed tag (injectivity of the tag is a hypothesis).
- C81 (`Verif/Quda/Blocks.lean`): the loop which chooses `geo_block_size`, one direction. `C81_auto_partial`, `C81_given_partial`, `C81_one_rank_partial`, `C81_accepts`;
  violations `C81_violated_local`, `C81_violated_given`. Missing for the full statement: the code looks at the whole lattice, not at that of the rank.
- **C82** (gathered symmetrizers): Operations/Symmetrize.lean models the in-place averages of vector_gather.cpp on a memory of field elements. Proved: the outcome at every site is the mean of the *original* values over the orbit of the site (sums over `Fin 3 → Bool` and `Equiv.Perm (Fin 3)` in the specification), sites outside of the visited region unchanged, odd sizes refused. Partial: the code never mirrors the last direction and visits only the first octant in the cubic average (`C82_violated_last_direction`, `C82_violated_other_octants`, on every lattice with L>=4).
- **C83** (momentum filter): Ib/MomFilter.lean models the loops over ranges, points and mirrors, the set, the scattering list of each rank and the printed file. Specification: `Wanted` (divisibility of 2q+bc ± (2k+bc) by 2L, cut on sines). Proved: list without repetitions, membership iff `Wanted`, scattering list of each rank, order of the file, round trip through the file, closure under signs; `C83_violated_duplicates` for files with repeated momenta. Not modelled: the transform itself (CRASH in the code). Sines are exact reals (in floating point sin(pi*k) is not exactly zero, which matters only when all components are multiples of pi and not all zero).
- **C84** (heat bath): Color/HeatBath.lean models su3_find_heatbath with the generator as a list of numbers of the unit interval. Proved: SU(3) kept, product tied to the link, trace after the step (`C84_step`, `C84_link`); the accepted numbers are those below sqrt(1-a0^2) (`C84_acceptance`) and the law of a0 by change of variables in the integral (`C84_density`, Mathlib interval integrals); the weight is beta/3 times the module (`C84_weight_partial`), except for a vanishing part, where the code uses beta/3 (`C84_violated_zero`). `C84_direction` (Archimedes): for uniform random numbers the component of the direction along any vector has the uniform law, for every continuous test function (moments by recursion of the integrals, then Weierstrass); `C84_law`: the two laws together (Haar measure of SU(2) times the weight); `C84_loop_ends_iff`: the rejection loop ends exactly when a pair is accepted, and `C84_acceptance_positive`: the probability of it is not null. Outside of the model: for a null beta the code computes `1/0*log(1)`, not a number, which is accepted by the comparison, and the link is lost; the theorems on the law ask for a nonzero weight.
- **C85, C86** (Tools/FindPart.lean, PropsFindPart1-5.lean): the tool that chooses the rank grid for a five dimensional torus of nodes. The whole main after the input is modelled (lister, torus assignement, comparison of the borders, mapping file, virtual direction); integers are unbounded, the prompt and the printed report are not modelled. C85: the snake is injective digit by digit; reversing the initial sign mirrors it, hence the end of a row and the start of the next one agree (induction on the list of torus directions); surjectivity by counting; the truncating division in the fit is exact because the numbers of nodes and ranks agree. C86: failing digits depend only on the higher digits, and the combinations reached are aligned to the jump taken from them, so no valid one is jumped over; prime factors of factorize give every factorization in four factors; the champion is a lexicographic minimum by induction on the list. Violations proved: the last way is discarded even when it fits; a single node; open directions.
- **C87** (partial) `Input/Scan.lean` models the input file of the configuration generator as a list of tokens: the grammar of
  parser.ypp as a machine with the stack of the open blocks (a keyword goes to the innermost open block that takes it), the tables of
  settings and defaults of every block, and the `get_str`/`is_nonstandard` functions that print them. The machine keeps an invariant
  (`PropsScan7`: every value is the default or was accepted for its setting, the blocks not used are as constructed), every printed
  block is eaten by the machine and adds exactly its parameters (`PropsScan2`–`PropsScan6`). Proved: the printed input gives back the
  parameters if the reals have six digits and the parameters are among those kept (`Kept`, one documented clause per loss). The full
  property is false of the code: seventeen theorems `C87_violated_*` give inputs whose printed form is rejected or gives other
  parameters. Not modelled: arithmetic in values, comments, `#Print`, the measurements not listed in `Scan.lean`, ties of the rounding.
- **C88** same model; permutation of the settings of a block by induction on the permutation, `PropsOrder.lean`.
- **C89** (Input/PropsFrame.lean). Same scanner model as C87/C88. `Driver.get` reads the block at an address (`Slot`), `Driver.last` gives the address of the last opened block of a context; the theorem is a frame statement over all addresses and all keywords, proved from an invariant (`Inv2`: a context is open only if its block exists) that is kept by every token. `L`, which assigns the three sides, and `Method`, which selects and opens a sub-block, are not covered by the frame statement.
- **C90** (Tools/Cluster.lean, PropsCluster.lean). tools/clusterize.cpp: count of titles, search of files with skipping, reading, sums of the clusters, jackknives, order of the output. Doubles are rationals, with `none` for a division by zero; files are lists of classified lines (title, two numbers, blank, other). The reader is proved to give the numbers after the k-th title (specification by `dropWhile`), the fold over the clusters is turned into `Finset` sums. Not modelled: rounding, endianness, lengths of the buffers, negative arguments, two numbers split over two lines.
- **C91** (Tools/Cluster2.lean, PropsCluster2.lean). tools/clusterize2.cpp: the same with copies and the flat array `data`; the additions are a list of (place, value), the places are shown distinct by mixed radix, the sums by exchange of finite sums. `count_corr` and the names of the files are not modelled; `confs_each` is positive; the sums within threads are exact so their order has no effect.
- **C92** (Tools/Ave.lean, PropsAve.lean). tools/ave.cpp: text of the input as characters (fgets with 1024 places, words), files as lists of rationals with the number of trailing bytes, data not yet visible in the files never closed (a function gives how much is), number of open files. Induction over the lines. Not modelled: endianness, rounding, failures of writing, names longer than a line, two outputs with the same path (excluded by hypothesis).
- **C93** (Quda/MgPars.lean, Quda/PropsMgPars.lean): the parameter file of the multigrid solvers as a list of words (names of parameters, numbers, others), without comments (these are in Io/Input.lean), in the build with QUDA. The state gives the value of each parameter at each place; induction over the settings, with the number of levels in course as part of the hypothesis on the following ones. Numbers are rational; a decimal number for an integer parameter is truncated. Partial: setup_refresh_tol is excluded, as the code reads it twice (C93_violated_*).
- **C94** (Io/ReadIldg.lean, Io/PropsReadIldg.lean): the tool read_ildg on top of the model of the ILDG files (C20, C22): loop on the records with the text printed and the files written as functions of their names. Records have any flags and any bytes as padding, written by any machine. Induction over the records. One rank; opening for writing is a predicate on names; the file read is not one of those written.
- C95 (`Tools/CreateU1.lean`, `Tools/PropsCreateU1.lean`): the pattern is read by a model of snprintf with `%%` and `%[0][w]d` (a missing argument or another conversion is undefined); theorems: different names (`C95_names_distinct`), the check refuses exactly the texts without `%` if the name fits (`C95_refused_iff`), each file has its field at the end (`C95_files_partial`); links, unitarity, squares, plaquette of the phase for any grid, gauge of the photon. The full statement is false of the code: a pattern with `%%` only, or a text of 128 characters or more, is accepted and all the configurations go to one file (`C95_violated_percent`, `C95_violated_long`); with no charge the U(3) configuration is not written (`C95_violated_no_charge`); with a charge and no configuration an unwritten field is used (`C95_violated_no_field`). Taken as given: the values of the photon field (C33, C55), the text record.
- **C96** (tool landau; `Tools/Landau`, `Tools/PropsLandau`): the whole `inMain` of tools/conf_transform/gaugefix/landau.cpp after the reading of the input: choice of the gauge, preliminary random transformation, the fixing modelled for C60, the two plaquettes printed, the loop lengthening the straight lines of the profile with the neighbours taken from the halo. Proved: the configuration written is an SU(3) gauge transform of the one read, the plaquettes are equal, the profile is the average of the straight lines (the specification is `pathProd` of C32), termination and precision. The coefficients of the random matrices are any numbers in [0,1] (C34, C58); the hypotheses on the exponential and on the Fourier transform are those of C60, proved there for the functions used.
- **C97** (`Cpn/Model`, `Cpn/PropsCpn`): energy, forces, update of momenta and positions, integrator and geometric charge of projects/cpn/cpn.cpp over the reals, for any N, any finite set of sites and any bijective neighbours. Forces: derivative along the very moves of `update_positions`, the links regrouped by site. Charge: the product of the phases of the triangles is one, each edge appearing with its conjugate in a neighbouring triangle (the two shifts commute). Reversibility of the whole trajectory: the sequence of updates is a palindrome and each update is undone by the reversed one on constrained states. Energy: total derivative zero along the joint flow. Violated: `dt=tl/nhmc_steps/2`, so the "unitary length" is one half (the Monte Carlo remains correct). Momentum exactly zero: the code divides zero by zero (the model gives the limit). Not modelled: reading and writing of the configuration, generator (C57, C58), acceptance (same `metro_test` as elsewhere).

## Findings in code read but not modelled

Seen while reading /repo; no theorem depends on them. They are listed so that nobody takes the absence of a theorem for a check.

- Wilson flow of fermions: `fermion_flower_t::flow_fermion` and its adjoint end with `CRASH("reimplement")` after the first step; `generate_intermediate_steps` uses `arg` before it is set.
- `pure_gauge_evol_pars_t::def_traj_length` returns an `int`; `float_256_print` prints nothing.
- ib: `mes_contr_t::alloc` does not reset; `maybeLoadPartialData` stops if there is any handcuff; `run()` calls `computeHandcuffsContr(true)` with a null sum when `computeHitSummedHandcuffs=0`; `orderedDep` grows at each hit; `flow_prop` makes one turn more than the flows; `put_fft_source_phase` ignores the half momentum of antiperiodic conditions.
- tools: smear/hex checks an argument beyond those given; smear/stout, edit/unitarize, convert/*Claudio*, convert/ildg_to_gpu, conf_measure/topo, unitarity_check and the tools of spinors only call `CRASH`; in parallel, the ranks other than the first write to a null file in read_ildg; clusterize writes past `line_to_find[20]`; clusterize2 may overflow the `int` with the size of the data.
- `TopMeasPars::is_nonstandard` forgets `measCorr`; in the grammar of generate_confs `text '+' text` is unreachable and `Minute?` only matches Minut and Minute; `chir_zumba` has `max_order` never initialised.
- `gauge_fixing.hpp`: `get_str` prints the number of iterations and the iterations between unitarizations with the name `TargetPrecision`.
- `count_file_lines` counts the lines of the standard input; `get_file_size` never closes the file; `cd()` has no effect.
- free theory: `tmDkern_eoprec_eos` applies twice the table of the neighbours of the same parity (the solver which would call it is a call to `CRASH`).
- the force of the topological potential is a call to `CRASH` while its action is computed.
- nice: `seq` with a negative step overflows; QUDA bridge: `stored_preserve_deflation` is not initialised for a single level, and `usedDeflation` uses `inv_param.mu` before it is set.
