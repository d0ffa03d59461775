{
 "claims": [
  {
   "property": "C01",
   "status": "partial",
   "theorems": [
    "Nissa.Lx.C01_coordOfLx_lxOfCoord",
    "Nissa.Lx.C01_lxOfCoord_coordOfLx",
    "Nissa.Lx.C01_volOfLx",
    "Nissa.Lx.C01_order",
    "Nissa.Lx.C01_glbCoordOfGlblx_partial",
    "Nissa.Lx.C01_glbCoordOfGlblx_violated"
   ],
   "note": "lexicographic maps of any box proved inverse and ordered; the global-index variant truncates to 32 bits: proved below 2^31 and shown wrong beyond"
  },
  {
   "property": "C02",
   "status": "proved",
   "theorems": [
    "Nissa.Lx.C02_rank_and_loclx",
    "Nissa.Lx.C02_bijective"
   ],
   "note": ""
  },
  {
   "property": "C03",
   "status": "proved",
   "theorems": [
    "Nissa.Lx.C03_neighbours_of_local",
    "Nissa.Lx.C03_back_and_forth",
    "Nissa.Lx.C03_neighbours_of_border",
    "Nissa.Lx.C03_edge_sites_violated"
   ],
   "note": "stepping outward from an edge site is outside the property and shown to give a wrong index"
  },
  {
   "property": "C04",
   "status": "proved",
   "theorems": [
    "Nissa.Lx.C04_index_ranges",
    "Nissa.Lx.C04_index_injective",
    "Nissa.Lx.C04_index_surjective",
    "Nissa.Lx.C04_volumes"
   ],
   "note": ""
  },
  {
   "property": "C05",
   "status": "proved",
   "theorems": [
    "Nissa.Lx.C05_eo_halo_update",
    "Nissa.Lx.C05_halo_update",
    "Nissa.Lx.C05_selective_exchange"
   ],
   "note": ""
  },
  {
   "property": "C06",
   "status": "proved",
   "theorems": [
    "Nissa.Lx.C06_eo_edges_update",
    "Nissa.Lx.C06_edges_update"
   ],
   "note": ""
  },
  {
   "property": "C07",
   "status": "proved",
   "theorems": [
    "Nissa.Lx.C07_eo_of_lx",
    "Nissa.Lx.C07_lx_of_eo",
    "Nissa.Lx.C07_neighbours",
    "Nissa.Lx.C07_neighbours_of_border"
   ],
   "note": ""
  },
  {
   "property": "C08",
   "status": "proved",
   "theorems": [
    "Nissa.Lx.C08_paste_split",
    "Nissa.Lx.C08_split_paste",
    "Nissa.Lx.C08_get_part"
   ],
   "note": ""
  },
  {
   "property": "C09",
   "status": "proved",
   "theorems": [
    "Nissa.Field.C09_cpu_bijective",
    "Nissa.Field.C09_gpu_bijective",
    "Nissa.Field.C09_gpu32_exact",
    "Nissa.Field.C09_gpu32_violated",
    "Nissa.Field.C09_subscript_rowmajor",
    "Nissa.Field.C09_subscribed_selfop_violated",
    "Nissa.Field.C09_subscribed_selfop_flat"
   ],
   "note": "also: compiled 32-bit index of the SoA layout wrong for more than 2^31 elements; += of a subscribed SoA field touches wrong degrees"
  },
  {
   "property": "C10",
   "status": "proved",
   "theorems": [
    "Nissa.HaloState.C10_flag_sound",
    "Nissa.HaloState.C10_update_halo_fresh",
    "Nissa.HaloState.C10_update_edges_fresh",
    "Nissa.HaloState.C10_read_then_write_violated",
    "Nissa.HaloState.C10_assign_across_violated",
    "Nissa.HaloState.C10_write_in_async_violated",
    "Nissa.HaloState.C10_edges_comm_violated",
    "Nissa.HaloState.C10_overlapping_comms_violated"
   ],
   "note": "soundness of the flags under the usage rules, and one violation for each rule dropped"
  },
  {
   "property": "C11",
   "status": "proved",
   "theorems": [
    "Nissa.Reduce.C11_locReduce_sum",
    "Nissa.Reduce.C11_locReduce_crash",
    "Nissa.Reduce.C11_field_reduce",
    "Nissa.Reduce.C11_schedule_independent",
    "Nissa.Reduce.C11_max"
   ],
   "note": ""
  },
  {
   "property": "C12",
   "status": "proved",
   "theorems": [
    "Nissa.Mem.C12_live_disjoint",
    "Nissa.Mem.C12_provide",
    "Nissa.Mem.C12_release"
   ],
   "note": ""
  },
  {
   "property": "C13",
   "status": "proved",
   "theorems": [
    "Nissa.Mem.C13_sizes",
    "Nissa.Mem.C13_max"
   ],
   "note": ""
  },
  {
   "property": "C14",
   "status": "proved",
   "theorems": [
    "Nissa.Mem.C14_clear",
    "Nissa.Mem.C14_destroy",
    "Nissa.Mem.C14_small_alignment_violated"
   ],
   "note": ""
  },
  {
   "property": "C15",
   "status": "proved",
   "theorems": [
    "Nissa.Vect.C15_registry",
    "Nissa.Vect.C15_required_memory",
    "Nissa.Vect.C15_no_crash"
   ],
   "note": ""
  },
  {
   "property": "C16",
   "status": "proved",
   "theorems": [
    "Nissa.Grid.C16_grid_optimal",
    "Nissa.Grid.C16_none_found",
    "Nissa.Grid.C16_no_spurious_crash",
    "Nissa.Grid.C16_trivial_grids",
    "Nissa.Grid.C16_fix_ignored_violated",
    "Nissa.Grid.C16_odd_sides_violated"
   ],
   "note": ""
  },
  {
   "property": "C17",
   "status": "proved",
   "theorems": [
    "Nissa.Ran2.C17_start",
    "Nissa.Ran2.C17_largest_seed_violated",
    "Nissa.Ran2.C17_draw",
    "Nissa.Ran2.C17_unif_range",
    "Nissa.Ran2.C17_any_number_of_draws",
    "Nissa.Ran2.C17_never_stuck",
    "Nissa.Ran2.C17_stuck_seed_violated",
    "Nissa.Ran2.C17_random_coord"
   ],
   "note": ""
  },
  {
   "property": "C18",
   "status": "proved",
   "theorems": [
    "Nissa.Ran2.C18_text_round_trip",
    "Nissa.Ran2.C18_saved_generator_resumes",
    "Nissa.Ran2.C18_small_buffer_violated"
   ],
   "note": ""
  },
  {
   "property": "C19",
   "status": "proved",
   "theorems": [
    "Nissa.Ran2.C19_seeding_independent_of_grid",
    "Nissa.Ran2.C19_sites_differ",
    "Nissa.Ran2.C19_sources_independent_of_grid",
    "Nissa.Ran2.C19_Z4_total",
    "Nissa.Ran2.C19_wall_source",
    "Nissa.Ran2.C19_any_source",
    "Nissa.Ran2.C19_Z2_total",
    "Nissa.Ran2.C19_diluted_source_Z2",
    "Nissa.Ran2.C19_diluted_source_Z4",
    "Nissa.Ran2.C19_source_reset"
   ],
   "note": ""
  },
  {
   "property": "C20",
   "status": "proved",
   "theorems": [
    "Nissa.Endian.C20_byteSwap",
    "Nissa.Endian.C20_involution",
    "Nissa.Endian.C20_roundtrip",
    "Nissa.Endian.C20_value",
    "Nissa.Endian.C20_mask",
    "Nissa.Endian.C20_bytesOf",
    "Nissa.Endian.C20_between_machines"
   ],
   "note": ""
  },
  {
   "property": "C21",
   "status": "proved",
   "theorems": [
    "Nissa.Checksum.C21_checksum_spec",
    "Nissa.Checksum.C21_independent_of_grid",
    "Nissa.Checksum.C21_single_site",
    "Nissa.Checksum.C21_burst",
    "Nissa.Checksum.C21_corruption_detected",
    "Nissa.Checksum.C21_undefined_shift"
   ],
   "note": ""
  },
  {
   "property": "C22",
   "status": "proved",
   "theorems": [
    "Nissa.Ildg.C22_header",
    "Nissa.Ildg.C22_flags",
    "Nissa.Ildg.C22_flags_violated",
    "Nissa.Ildg.C22_write",
    "Nissa.Ildg.C22_search_found",
    "Nissa.Ildg.C22_search_missing",
    "Nissa.Ildg.C22_padding"
   ],
   "note": ""
  },
  {
   "property": "C23",
   "status": "proved",
   "theorems": [
    "Nissa.Ildg.C23_text",
    "Nissa.Ildg.C23_buffer",
    "Nissa.Ildg.C23_write",
    "Nissa.Ildg.C23_read",
    "Nissa.Ildg.C23_missing"
   ],
   "note": ""
  },
  {
   "property": "C24",
   "status": "partial",
   "theorems": [
    "Nissa.A2A.C24_violated_unbalanced",
    "Nissa.A2A.C24_violated_local_copy",
    "Nissa.A2A.C24_violated_out_of_bounds",
    "Nissa.A2A.C24_violated_offsets",
    "Nissa.A2A.C24_setup",
    "Nissa.A2A.C24_duplicates_refused",
    "Nissa.A2A.C24_deliver_partial",
    "Nissa.A2A.C24_symmetric_ok",
    "Nissa.A2A.C24_inverse_partial",
    "Nissa.A2A.C24_gather_partial"
   ],
   "note": "delivery, inverse and gathering proved for balanced lists without duplicated destinations for which the local copy reads the right count; the code does not deliver otherwise (C24_violated_*)"
  },
  {
   "property": "C25",
   "status": "partial",
   "theorems": [
    "Nissa.Layouts.C25_violated_not_divisible",
    "Nissa.Layouts.C25_violated_negative_size",
    "Nissa.Layouts.C25_lx_to_locd_partial",
    "Nissa.Layouts.C25_roundtrip_partial",
    "Nissa.Layouts.C25_slabs"
   ],
   "note": "proved when the ranks divide the number of orthogonal sites and the local copy reads the right count (always true for slabs, C25_slabs); the code loses elements otherwise (C25_violated_*)"
  },
  {
   "property": "C26",
   "status": "proved",
   "theorems": [
    "Nissa.Ints.C26_factorize",
    "Nissa.Ints.C26_factorize_unique",
    "Nissa.Ints.C26_bitrev",
    "Nissa.Ints.C26_bitrev_involution",
    "Nissa.Ints.C26_find_max_pow2",
    "Nissa.Ints.C26_find_max_pow2_zero_violated",
    "Nissa.Ints.C26_log2N_value",
    "Nissa.Ints.C26_log2N_violated",
    "Nissa.Ints.C26_get_bit"
   ],
   "note": ""
  },
  {
   "property": "C27",
   "status": "proved",
   "theorems": [
    "Nissa.Det.C27_determinant",
    "Nissa.Det.C27_determinant_mul",
    "Nissa.Det.C27_size_zero_violated"
   ],
   "note": ""
  },
  {
   "property": "C28",
   "status": "partial",
   "theorems": [
    "Nissa.Cg.C28_true_residue",
    "Nissa.Cg.C28_returns_converged",
    "Nissa.Cg.C28_orthogonal",
    "Nissa.Cg.C28_terminates",
    "Nissa.Cg.C28_violated_last_iteration",
    "Nissa.Cg.C28_violated_exact_guess",
    "Nissa.Cg.C28_violated_no_iterations"
   ],
   "note": "exact arithmetic over a real inner product space, non-finite values counted as abort; on return the true residue is below the threshold, except when no iteration is allowed (C28_violated_no_iterations); aborts at an exact guess or when converging on the last iteration are shown"
  },
  {
   "property": "C29",
   "status": "proved",
   "theorems": [
    "Nissa.Cgm.C29_tracked_residue",
    "Nissa.Cgm.C29_returns_converged",
    "Nissa.Cgm.C29_terminates",
    "Nissa.Cgm.C29_violated_async"
   ],
   "note": "exact arithmetic, synchronous communications; the default asynchronous branch always aborts (C29_violated_async)"
  },
  {
   "property": "C30",
   "status": "proved",
   "theorems": [
    "Nissa.Gamma.C30_clifford",
    "Nissa.Gamma.C30_hermitian",
    "Nissa.Gamma.C30_gamma5",
    "Nissa.Gamma.C30_products",
    "Nissa.Gamma.C30_closed",
    "Nissa.Gamma.C30_orthogonal",
    "Nissa.Gamma.C30_basis",
    "Nissa.Gamma.C30_sparse_ops",
    "Nissa.Gamma.C30_herm",
    "Nissa.Gamma.C30_dense_ops",
    "Nissa.Gamma.C30_right_product",
    "Nissa.Gamma.C30_violated_right_product",
    "Nissa.Gamma.C30_projectors",
    "Nissa.Gamma.C30_rotators",
    "Nissa.Gamma.C30_rotate",
    "Nissa.Gamma.C30_smunu"
   ],
   "note": "exact arithmetic (Gaussian integers / complex numbers); unsafe_spinspin_prod_dirac is correct only for matrices with one entry per row and column (C30_violated_right_product)"
  },
  {
   "property": "C31",
   "status": "proved",
   "theorems": [
    "Nissa.Cplx.C31_complex_one_input",
    "Nissa.Cplx.C31_complex_any_alias",
    "Nissa.Cplx.C31_complex_no_alias",
    "Nissa.Cplx.C31_complex_isummassign",
    "Nissa.Cplx.C31_violated_alias",
    "Nissa.Cplx.C31_violated_conj1_prod_i",
    "Nissa.Cplx.C31_complex_sqrt",
    "Nissa.Cplx.C31_complex_reals",
    "Nissa.Su3f.C31_real_det",
    "Nissa.Su3f.C31_explicit_inverse",
    "Nissa.Su3f.C31_ildg_reord",
    "Nissa.Su3.C31_su3_products",
    "Nissa.Su3.C31_su3_safe_products",
    "Nissa.Su3.C31_su3_prodassign",
    "Nissa.Su3.C31_su3_linear",
    "Nissa.Su3.C31_su3_hermitian",
    "Nissa.Su3.C31_su3_hermitian_in_place",
    "Nissa.Su3.C31_su3_trace",
    "Nissa.Su3.C31_su3_trace_of_product",
    "Nissa.Su3.C31_su3_det",
    "Nissa.Su3.C31_violated_su3_alias",
    "Nissa.Su3.C31_violated_dag_prod_rows",
    "Nissa.Su3.C31_complex_put",
    "Nissa.Su3.C31_su3_put",
    "Nissa.Su3.C31_su3_hermitian_prod_double",
    "Nissa.Su3.C31_violated_hermitian_prod_double_in_place",
    "Nissa.Su3.C31_su3_vector_products",
    "Nissa.Su3.C31_su3_safe_vector_products"
   ],
   "note": "exact real arithmetic in a flat memory, with aliasing; violated: aliased *_prod_i kernels, conj1_prod_i missing i, complex_sqrt(0), su3 unsafe/summ kernels aliased, dag product with fewer rows (C31_violated_*)"
  },
  {
   "property": "C32",
   "status": "proved",
   "theorems": [
    "Nissa.Paths.C32_open_path",
    "Nissa.Paths.C32_closed_path",
    "Nissa.Gauge.C32_point_plaquette",
    "Nissa.Gauge.C32_point_plaquette_eo",
    "Nissa.Gauge.C32_global_plaquette",
    "Nissa.Gauge.C32_global_plaquette_eo",
    "Nissa.Gauge.C32_gauge_transform",
    "Nissa.Gauge.C32_gauge_transform_eo",
    "Nissa.Gauge.C32_plaquette_invariant",
    "Nissa.Gauge.C32_eo_equals_lx",
    "Nissa.Gauge.C32_unit_configuration",
    "Nissa.Gauge.C32_transform_group",
    "Nissa.Paths.C32_paths",
    "Nissa.Paths.C32_paths_out_of_bounds"
   ],
   "note": ""
  },
  {
   "property": "C33",
   "status": "proved",
   "theorems": [
    "Nissa.Sitmo.C33_encrypt_injective",
    "Nissa.Sitmo.C33_seed_injective",
    "Nissa.Sitmo.C33_state_addition",
    "Nissa.Sitmo.C33_zero_shift_violated",
    "Nissa.Sitmo.C33_blocks_distinct",
    "Nissa.Sitmo.C33_uniform_range"
   ],
   "note": ""
  },
  {
   "property": "C34",
   "status": "proved",
   "theorems": [
    "Nissa.Sitmo.C34_no_reuse",
    "Nissa.Sitmo.C34_large_lattice_violated",
    "Nissa.Sitmo.C34_independent_of_grid",
    "Nissa.Sitmo.C34_sign"
   ],
   "note": ""
  },
  {
   "property": "C35",
   "status": "partial",
   "theorems": [
    "Nissa.Layouts.C35_violated_read",
    "Nissa.Layouts.C35_violated_write",
    "Nissa.Layouts.C35_write_partial",
    "Nissa.Layouts.C35_read_partial",
    "Nissa.Layouts.C35_roundtrip_partial",
    "Nissa.Layouts.C35_time_slabs"
   ],
   "note": "proved under the condition for which the local copy of the communicator reads the right count (always true dividing the time only, C35_time_slabs); the code fails otherwise (C35_violated_*)"
  },
  {
   "property": "C36",
   "status": "partial",
   "theorems": [
    "Nissa.Fft.C36_fft4d_partial",
    "Nissa.Fft.C36_all_directions",
    "Nissa.Fft.C36_inverse_partial",
    "Nissa.Fft.C36_one_rank",
    "Nissa.Fft.C36_time_slabs"
   ],
   "note": "exact arithmetic, 1D transform of the library taken by definition; proved under the conditions of C25 for each transformed direction, which are always met on one rank (C36_one_rank) and for the spatial directions when only the time is divided (C36_time_slabs)"
  },
  {
   "property": "C37",
   "status": "proved",
   "theorems": [
    "Nissa.Su3f.C37_overrelax_power",
    "Nissa.Su3f.C37_explicitly_inverting",
    "Nissa.Su3f.C37_third_row",
    "Nissa.Su3f.C37_orthonormalizing",
    "Nissa.Su3f.C37_non_unitariness",
    "Nissa.Su3f.C37_inverting_converges",
    "Nissa.Su3f.C37_max_trace_iteration",
    "Nissa.Su3f.C37_overrelaxed",
    "Nissa.Su3f.C37_max_trace",
    "Nissa.Su3f.C37_max_trace_gain"
   ],
   "note": "exact arithmetic; termination of the iterative projections not proved"
  },
  {
   "property": "C38",
   "status": "proved",
   "theorems": [
    "Nissa.Su3f.C38_exponential",
    "Nissa.Su3f.C38_algebra_parts",
    "Nissa.Su3f.C38_algebra",
    "Nissa.Su3f.C38_gell_mann",
    "Nissa.Su3f.C38_anti_exponential",
    "Nissa.Su3f.C38_xi_series",
    "Nissa.Su3f.C38_taylor",
    "Nissa.Su3f.C38_violated_taylor_order_zero",
    "Nissa.Su3f.C38_sqrt"
   ],
   "note": "exact arithmetic; branches of the exponential using truncated series are covered only for xi0 (C38_xi_series); C38_violated_taylor_order_zero"
  },
  {
   "property": "C39",
   "status": "proved",
   "theorems": [
    "Nissa.StD.C39_st2Doe",
    "Nissa.StD.C39_stDoe",
    "Nissa.StD.C39_stDeo_half",
    "Nissa.StD.C39_stD2ee",
    "Nissa.StD.C39_stD",
    "Nissa.StD.C39_hop_antihermitian",
    "Nissa.StD.C39_stD_adjoint",
    "Nissa.StD.C39_stD2ee_form",
    "Nissa.StD.C39_stD2ee_positive",
    "Nissa.StD.C39_stD_square",
    "Nissa.StD.C39_hop_covariant"
   ],
   "note": ""
  },
  {
   "property": "C40",
   "status": "proved",
   "theorems": [
    "Nissa.Wilson.C40_tmQ",
    "Nissa.Wilson.C40_tmclovQ",
    "Nissa.Wilson.C40_tmQ_adjoint",
    "Nissa.Wilson.C40_tmclovQ_adjoint",
    "Nissa.Wilson.C40_tmclovQ2_form",
    "Nissa.Wilson.C40_tmclovQ2_positive",
    "Nissa.Wilson.C40_tmclovQ2_m2",
    "Nissa.Wilson.C40_doublet",
    "Nissa.Wilson.C40_wilson_covariant"
   ],
   "note": ""
  },
  {
   "property": "C41",
   "status": "proved",
   "theorems": [
    "Nissa.EoP.C41_inv_tmDee",
    "Nissa.EoP.C41_hopping",
    "Nissa.EoP.C41_tmDkern",
    "Nissa.EoP.C41_tmclovDkern",
    "Nissa.EoP.C41_tmDkern_adjoint",
    "Nissa.EoP.C41_tmclovDkern_adjoint",
    "Nissa.EoP.C41_tmDkern_square_form",
    "Nissa.EoP.C41_tmclovDkern_square_form",
    "Nissa.EoP.C41_inv_tmD_residue",
    "Nissa.EoP.C41_inv_tmclovD_residue",
    "Nissa.EoP.C41_D_is_Q",
    "Nissa.EoP.C41_inv_tmD_converged",
    "Nissa.EoP.C41_inv_tmD_returns",
    "Nissa.EoP.C41_inv_tmclovD_converged",
    "Nissa.EoP.C41_inv_tmclovD_returns"
   ],
   "note": ""
  },
  {
   "property": "C42",
   "status": "proved",
   "theorems": [
    "Nissa.Inv.C42_inv_stD2ee_converged",
    "Nissa.Inv.C42_inv_stD2ee_returns",
    "Nissa.Inv.C42_inv_stD_converged",
    "Nissa.Inv.C42_inv_stD_returns",
    "Nissa.Inv.C42_inv_tmclovQ_converged",
    "Nissa.Inv.C42_inv_tmclovQ_returns"
   ],
   "note": ""
  },
  {
   "property": "C43",
   "status": "proved",
   "theorems": [
    "Nissa.Clv.C43_leaves",
    "Nissa.Clv.C43_chromo",
    "Nissa.Clv.C43_hermitian",
    "Nissa.Clv.C43_clover_term",
    "Nissa.Clv.C43_remove_include",
    "Nissa.Clv.C43_covariant",
    "Nissa.Clv.C43_charge_density",
    "Nissa.Clv.C43_total_charge",
    "Nissa.Clv.C43_charge_invariant",
    "Nissa.Clv.C43_flat",
    "Nissa.Clv.C43_tmclovQ_covariant",
    "Nissa.Clv.C43_violated_eo_charge"
   ],
   "note": "exact arithmetic; the even-odd wrapper of the total charge always aborts for missing edges (C43_violated_eo_charge)"
  },
  {
   "property": "C44",
   "status": "proved",
   "theorems": [
    "Nissa.InvCl.C44_column_residue",
    "Nissa.InvCl.C44_returns",
    "Nissa.InvCl.C44_mass_invertible",
    "Nissa.InvCl.C44_inverse",
    "Nissa.InvCl.C44_adjoint_inverse",
    "Nissa.InvCl.C44_fill",
    "Nissa.InvCl.C44_violated_singular"
   ],
   "note": "exact arithmetic; a singular block (no mass) silently gives not-a-number (C44_violated_singular)"
  },
  {
   "property": "C45",
   "status": "proved",
   "theorems": [
    "Nissa.RecFlow.C45_flow",
    "Nissa.RecFlow.C45_cost",
    "Nissa.RecFlow.C45_violated_no_recursion",
    "Nissa.RecFlow.C45_violated_no_recursion_aborts"
   ],
   "note": "Holds with at least one recursion level; with none, one flow per object never flows and two or more abort (C45_violated_*). The integration step is an arbitrary function."
  },
  {
   "property": "C46",
   "status": "proved",
   "theorems": [
    "Nissa.Back.C46_uniform_field",
    "Nissa.Back.C46_defect",
    "Nissa.Back.C46_abort_iff",
    "Nissa.Back.C46_half_half",
    "Nissa.Back.C46_unit_modulus",
    "Nissa.Back.C46_time_line",
    "Nissa.Back.C46_stagphase",
    "Nissa.Back.C46_insert_eo",
    "Nissa.Back.C46_add_then_remove",
    "Nissa.Back.C46_stagphases_twice",
    "Nissa.Back.C46_plaquette",
    "Nissa.Back.C46_insert_lx",
    "Nissa.Back.C46_violated_fractional"
   ],
   "note": "Uniformity needs charge*strength integer, which the code does not check: C46_violated_fractional, C46_defect give the wrong plaquette. Strengths up to 1e-10 count as zero."
  },
  {
   "property": "C47",
   "status": "proved",
   "theorems": [
    "Nissa.GConf.C47_put",
    "Nissa.GConf.C47_rem_put",
    "Nissa.GConf.C47_history",
    "Nissa.GConf.C47_paths",
    "Nissa.GConf.C47_winding",
    "Nissa.GConf.C47_halo_agrees",
    "Nissa.GConf.C47_violated_edges_only",
    "Nissa.GConf.C47_energy",
    "Nissa.GConf.C47_energy_nonneg",
    "Nissa.GConf.C47_energy_invariant",
    "Nissa.GConf.C47_energy_boundaries",
    "Nissa.GConf.C47_cold"
   ],
   "note": "Putting on the edges without the halo treats the wrong sites (C47_violated_edges_only). int truncation of the number of sites not modelled."
  },
  {
   "property": "C48",
   "status": "proved",
   "theorems": [
    "Nissa.LSm.C48_flow",
    "Nissa.LSm.C48_flow_other_dirs",
    "Nissa.LSm.C48_flow_covariant",
    "Nissa.LSm.C48_flow_stationary",
    "Nissa.LSm.C48_flow_null_step",
    "Nissa.LSm.C48_flow_pure_gauge",
    "Nissa.LSm.C48_exponents",
    "Nissa.LSm.C48_flow_su3",
    "Nissa.LSm.C48_flow_exact",
    "Nissa.LSm.C48_stout_level",
    "Nissa.LSm.C48_stout",
    "Nissa.LSm.C48_stout_covariant",
    "Nissa.LSm.C48_stout_trivial",
    "Nissa.LSm.C48_violated_stout_dirs",
    "Nissa.LSm.C48_stout_level_eo",
    "Nissa.LSm.C48_stout_eo",
    "Nissa.LSm.C48_stout_agree",
    "Nissa.LSm.C48_ape_step",
    "Nissa.LSm.C48_ape",
    "Nissa.LSm.C48_ape_trace",
    "Nissa.LSm.C48_ape_proj_hermitian",
    "Nissa.LSm.C48_ape_cold",
    "Nissa.LSm.C48_violated_ape_spatial"
   ],
   "note": ""
  },
  {
   "property": "C49",
   "status": "proved",
   "theorems": [
    "Nissa.Stap.C49_squared_staples",
    "Nissa.Stap.C49_rectangular_staples",
    "Nissa.Stap.C49_summed_squared",
    "Nissa.Stap.C49_summed_rectangular",
    "Nissa.Stap.C49_surface_tables"
   ],
   "note": ""
  },
  {
   "property": "C50",
   "status": "proved",
   "theorems": [
    "Nissa.GForce.C50_gluonic_action",
    "Nissa.GForce.C50_gluonic_action_eo",
    "Nissa.GForce.C50_action_invariant",
    "Nissa.GForce.C50_action_bounds",
    "Nissa.GForce.C50_action_cold",
    "Nissa.GForce.C50_action_layout",
    "Nissa.GForce.C50_action_derivative",
    "Nissa.GForce.C50_force",
    "Nissa.GForce.C50_force_unspecified",
    "Nissa.GForce.C50_force_algebra",
    "Nissa.GForce.C50_force_covariant",
    "Nissa.GForce.C50_force_is_gradient",
    "Nissa.GForce.C50_momenta_action",
    "Nissa.GForce.C50_energy_conserved",
    "Nissa.GForce.C50_step_energy",
    "Nissa.GForce.C50_kick_keeps_algebra",
    "Nissa.GForce.C50_drift",
    "Nissa.GForce.C50_names"
   ],
   "note": ""
  },
  {
   "property": "C51",
   "status": "proved",
   "theorems": [
    "Nissa.Omel.C51_gauge_evolver",
    "Nissa.Omel.C51_full_trajectory",
    "Nissa.Omel.C51_special_cases",
    "Nissa.Omel.C51_unspecified",
    "Nissa.Omel.C51_integrator",
    "Nissa.Omel.C51_times",
    "Nissa.Omel.C51_reversible",
    "Nissa.Omel.C51_gauge_reversible",
    "Nissa.Omel.C51_stays_in_group",
    "Nissa.Omel.C51_covariant"
   ],
   "note": ""
  },
  {
   "property": "C52",
   "status": "proved",
   "theorems": [
    "Nissa.QForce.C52_quark_force",
    "Nissa.QForce.C52_quark_action",
    "Nissa.QForce.C52_reversible",
    "Nissa.QForce.C52_trajectory_energy",
    "Nissa.QForce.C52_trajectory_covariant",
    "Nissa.QForce.C52_cgm_residue",
    "Nissa.QForce.C52_action_accuracy",
    "Nissa.QForce.C52_other_discretizations",
    "Nissa.QForce.C52_violated_async",
    "Nissa.QForce.C52_force_is_gradient",
    "Nissa.QForce.C52_energy_conserved",
    "Nissa.QForce.C52_force_covariant",
    "Nissa.QForce.C52_action_invariant"
   ],
   "note": ""
  },
  {
   "property": "C53",
   "status": "proved",
   "theorems": [
    "Nissa.Meta.C53_history",
    "Nissa.Meta.C53_interpolates",
    "Nissa.Meta.C53_force_is_derivative",
    "Nissa.Meta.C53_potential",
    "Nissa.Meta.C53_deposit",
    "Nissa.Meta.C53_violated_jump",
    "Nissa.Meta.C53_violated_odd",
    "Nissa.Meta.C53_violated_uninitialized",
    "Nissa.Meta.C53_save_load",
    "Nissa.Meta.C53_load_checks"
   ],
   "note": ""
  },
  {
   "property": "C54",
   "status": "proved",
   "theorems": [
    "Nissa.Free.C54_operator",
    "Nissa.Free.C54_propagator",
    "Nissa.Free.C54_poles",
    "Nissa.Free.C54_zero_mode",
    "Nissa.Free.C54_kappa",
    "Nissa.Free.C54_fields",
    "Nissa.Free.C54_energy",
    "Nissa.Free.C54_on_shell",
    "Nissa.Free.C54_wavefunctions",
    "Nissa.Free.C54_violated_wilson_norm",
    "Nissa.Free.C54_naive",
    "Nissa.Free.C54_plane_wave",
    "Nissa.Free.C54_free_inverse"
   ],
   "note": "Normalisation holds in the physical basis; in the Wilson basis it is violated (C54_violated_wilson_norm). Position-space routines of the free theory are crash stubs, not modelled."
  },
  {
   "property": "C55",
   "status": "partial",
   "theorems": [
    "Nissa.Phot.C55_kernel_action",
    "Nissa.Phot.C55_landau",
    "Nissa.Phot.C55_feynman",
    "Nissa.Phot.C55_coulomb",
    "Nissa.Phot.C55_zero_mode",
    "Nissa.Phot.C55_unique",
    "Nissa.Phot.C55_positive",
    "Nissa.Phot.C55_gauge_independent",
    "Nissa.Phot.C55_energy",
    "Nissa.Phot.C55_sqrt",
    "Nissa.Phot.C55_sqrt_noeigen",
    "Nissa.Phot.C55_to_momentum_partial",
    "Nissa.Phot.C55_to_position_partial",
    "Nissa.Phot.C55_passes_inverse_partial",
    "Nissa.Phot.C55_multiply_partial",
    "Nissa.Phot.C55_sqrt_twice_partial",
    "Nissa.Phot.C55_landau_position_partial",
    "Nissa.Phot.C55_coulomb_position_partial",
    "Nissa.Phot.C55_no_zero_modes_partial",
    "Nissa.Phot.C55_feynman_position_partial"
   ],
   "note": "Momentum-space statements are unconditional; those through the Fourier transform (suffix _partial) need the remapping conditions DirOk of C25/C36. Exact arithmetic; eigensolver as a parameter with its contract; spin1prop passes and position-space propagator are crash stubs, not modelled."
  },
  {
   "property": "C56",
   "status": "proved",
   "theorems": [
    "Nissa.Remez.C56_power",
    "Nissa.Remez.C56_cheb",
    "Nissa.Remez.C56_generate",
    "Nissa.Remez.C56_generate_exact",
    "Nissa.Remez.C56_rescale",
    "Nissa.Remez.C56_reuse",
    "Nissa.Remez.C56_ranks",
    "Nissa.Remez.C56_set_expansions",
    "Nissa.Remez.C56_accurate",
    "Nissa.Remez.C56_unrooted_range",
    "Nissa.Remez.C56_interpolates",
    "Nissa.Remez.C56_fraction_expansion",
    "Nissa.Remez.C56_linear_system",
    "Nissa.Remez.C56_newton_finds",
    "Nissa.Remez.C56_roots",
    "Nissa.Remez.C56_newton"
   ],
   "note": "Exact arithmetic (ordered field / reals) instead of GMP/double-double; loops which the code leaves unbounded carry fuel and the theorems speak of completed runs; the approximation error between the nodes (equioscillation) is certified only at nodes and extrema, as in the code; largest eigenvalue a parameter."
  },
  {
   "property": "C57",
   "status": "proved",
   "theorems": [
    "Nissa.Rhmc.C57_heat_bath",
    "Nissa.Rhmc.C57_poles_restored",
    "Nissa.Rhmc.C57_pseudofermions",
    "Nissa.Rhmc.C57_violated_normalize",
    "Nissa.Rhmc.C57_normalize",
    "Nissa.Rhmc.C57_max_eigenval",
    "Nissa.Rhmc.C57_spectrum",
    "Nissa.Rhmc.C57_ranges",
    "Nissa.Rhmc.C57_full_action",
    "Nissa.Rhmc.C57_step",
    "Nissa.Rhmc.C57_step_returns",
    "Nissa.Rhmc.C57_initial_action",
    "Nissa.Rhmc.C57_accuracy",
    "Nissa.Rhmc.C57_metropolis",
    "Nissa.Rhmc.C57_new_conf",
    "Nissa.Rhmc.C57_detailed_balance"
   ],
   "note": "Full RHMC step with exact solvers, arbitrary ranks/lattice/flavours; heat bath, energy difference, poles restored, power method bounds, acceptance probability and detailed balance. Findings: double square root in Field::normalize(oth)."
  },
  {
   "property": "C58",
   "status": "proved",
   "theorems": [
    "Nissa.Gauss.C58_complex_law",
    "Nissa.Gauss.C58_double_law",
    "Nissa.Gauss.C58_momentum_law",
    "Nissa.Gauss.C58_momentum_matrix",
    "Nissa.Gauss.C58_violated_traceless",
    "Nissa.Gauss.C58_tail",
    "Nissa.Gauss.C58_momenta",
    "Nissa.Gauss.C58_color",
    "Nissa.Gauss.C58_roots",
    "Nissa.Gauss.C58_link_su3",
    "Nissa.Gauss.C58_violated_haar",
    "Nissa.Gauss.C58_hot"
   ],
   "note": "Laws for ideal uniform draws; failure-freedom, tails and independence of the grid for the actual generator. Violated parts stated as C58_violated_*."
  },
  {
   "property": "C59",
   "status": "proved",
   "theorems": [
    "Nissa.Gsm.C59_smearing",
    "Nissa.Gsm.C59_compose",
    "Nissa.Gsm.C59_timeslice",
    "Nissa.Gsm.C59_covariant",
    "Nissa.Gsm.C59_hermitian",
    "Nissa.Gsm.C59_contraction",
    "Nissa.Gsm.C59_normalisation",
    "Nissa.Gsm.C59_isotropic",
    "Nissa.Gsm.C59_polynomial",
    "Nissa.Gsm.C59_violated_polynomial",
    "Nissa.Gsm.C59_shift",
    "Nissa.Gsm.C59_quad_shift"
   ],
   "note": "Exact arithmetic; violated part (polynomial version) stated as C59_violated_polynomial with the actual result in C59_polynomial."
  },
  {
   "property": "C60",
   "status": "proved",
   "theorems": [
    "Nissa.GFix.C60_functional",
    "Nissa.GFix.C60_quality",
    "Nissa.GFix.C60_stops",
    "Nissa.GFix.C60_gauge_equivalent",
    "Nissa.GFix.C60_stationary",
    "Nissa.GFix.C60_descent",
    "Nissa.GFix.C60_descent_fourier",
    "Nissa.GFix.C60_fft_ok",
    "Nissa.GFix.C60_su3",
    "Nissa.GFix.C60_returns",
    "Nissa.GFix.C60_violated_report",
    "Nissa.GFix.C60_violated_unitarize_each",
    "Nissa.GFix.C60_adapt_parabola",
    "Nissa.GFix.C60_adapt_lowers",
    "Nissa.GFix.C60_trial_points",
    "Nissa.GFix.C60_violated_overrelax"
   ],
   "note": "Exact arithmetic. The exponential and Fourier transform are parameters with stated hypotheses (met by C37/C36); convergence to the precision is not claimed (not true in general), termination is. Violated parts stated as C60_violated_*."
  },
  {
   "property": "C61",
   "status": "proved",
   "theorems": [
    "Nissa.Flt.C61_quick_two_summ",
    "Nissa.Flt.C61_two_summ",
    "Nissa.Flt.C61_sum_of_doubles",
    "Nissa.Flt.C61_two_prod",
    "Nissa.Flt.C61_prod_of_doubles",
    "Nissa.Flt.C61_three_summ",
    "Nissa.Flt.C61_three_summ2",
    "Nissa.Flt.C61_three_accum",
    "Nissa.Flt.C61_summ_double_parts",
    "Nissa.Flt.C61_product",
    "Nissa.Flt.C61_round_down",
    "Nissa.Flt.C61_round_accuracy",
    "Nissa.Flt.C61_violated_round_down",
    "Nissa.Flt.C61_reduce",
    "Nissa.Flt.C61_precise_reduce",
    "Nissa.Flt.C61_check_128",
    "Nissa.Flt.C61_sum",
    "Nissa.Flt.C61_difference",
    "Nissa.Flt.C61_comparisons"
   ],
   "note": "Binary floating point with any rounding to nearest, gradual underflow, no overflow; the compiler is supposed not to reorder. Float128 sums/differences/products/comparisons/conversion and reductions; of float_256 the elementary transformations only (renormalisation and products not modelled). roundDown is wrong for negative numbers: C61_violated_round_down."
  },
  {
   "property": "C62",
   "status": "proved",
   "theorems": [
    "Nissa.Stag.C62_icombo_injective",
    "Nissa.Stag.C62_icombo_bound",
    "Nissa.Stag.C62_smear",
    "Nissa.Stag.C62_meson_hit",
    "Nissa.Stag.C62_meson_contract",
    "Nissa.Stag.C62_meson_corr",
    "Nissa.Stag.C62_covariant_shift",
    "Nissa.Stag.C62_shift_op",
    "Nissa.Stag.C62_phases",
    "Nissa.Stag.C62_shift_hermitian",
    "Nissa.Stag.C62_phase_shift",
    "Nissa.Stag.C62_stag_op",
    "Nissa.Stag.C62_op_adjoint",
    "Nissa.Stag.C62_identity",
    "Nissa.Stag.C62_g5g5",
    "Nissa.Stag.C62_meson_mask",
    "Nissa.Stag.C62_free_shift",
    "Nissa.Stag.C62_covariant",
    "Nissa.Stag.C62_slices",
    "Nissa.Stag.C62_trace",
    "Nissa.Stag.C62_violated_trace_not_accumulated",
    "Nissa.Stag.C62_time_trace",
    "Nissa.Stag.C62_time_trace_hits",
    "Nissa.Stag.C62_violated_complex_vector",
    "Nissa.Stag.C62_dMdmu",
    "Nissa.Stag.C62_Minv",
    "Nissa.Stag.C62_spin_taste"
   ],
   "note": "operators, traces, derivative, inversion and meson correlators proved for all grids; summ_the_trace does not accumulate over hits and PROVIDE_COMPLEX_VECTOR yields a wrong address: both shown as violations"
  },
  {
   "property": "C64",
   "status": "proved",
   "theorems": [
    "Nissa.Hit.C64_hit",
    "Nissa.Hit.C64_dependencies",
    "Nissa.Hit.C64_hits",
    "Nissa.Hit.C64_content",
    "Nissa.Hit.C64_violated_sources_offloaded",
    "Nissa.Hit.C64_violated_source_contracted",
    "Nissa.Hit.C64_violated_source_unused",
    "Nissa.Hit.C64_violated_name_clash",
    "Nissa.Hit.C64_names"
   ],
   "note": "whole scheduler proved under the stated conditions on the plan; each condition on limited memory and names shown necessary by C64_violated_*; photon contractions of the sides and partial data not in this model"
  },
  {
   "property": "C63",
   "status": "proved",
   "theorems": [
    "Nissa.Contr.C63_mes2pt_classic",
    "Nissa.Contr.C63_prop_scalprod",
    "Nissa.Contr.C63_mes2pt_cpu",
    "Nissa.Contr.C63_violated_cpu_overflow",
    "Nissa.Contr.C63_vector_current",
    "Nissa.Contr.C63_conserved_current",
    "Nissa.Contr.C63_ward",
    "Nissa.Contr.C63_ward_norevert",
    "Nissa.Contr.C63_prop_inverts",
    "Nissa.Contr.C63_prop_converged",
    "Nissa.Contr.C63_violated_source_gamma",
    "Nissa.Contr.C63_violated_untwisted_sink"
   ],
   "note": "Contractions = traces (both implementations), currents, Ward identity of the operator applied by the program, propagators invert it. Violations: 32-bit index of the processor version, sink rotation without twisted mass, transposed source matrix of the conserved current."
  },
  {
   "property": "C65",
   "status": "partial",
   "theorems": [
    "Nissa.Resume.C65_partial_data",
    "Nissa.Resume.C65_resume",
    "Nissa.Resume.C65_completes",
    "Nissa.Resume.C65_resume_hits",
    "Nissa.Resume.C65_violated_cut",
    "Nissa.Resume.C65_violated_duplicate",
    "Nissa.Resume.C65_violated_fewer_hits",
    "Nissa.Resume.C65_violated_gauge_transform"
   ],
   "note": "Any history of jobs interrupted at any byte. Holds when averaging hits without random gauge transformation; not averaging, if interrupted between hits. Violations: truncated partial data, duplicated sections, reduced nHits, random gauge transformation."
  },
  {
   "property": "C66",
   "status": "proved",
   "theorems": [
    "Nissa.Lock.C66_exclusive",
    "Nissa.Lock.C66_once",
    "Nissa.Lock.C66_recovers",
    "Nissa.Lock.C66_violated_slow_write",
    "Nissa.Lock.C66_violated_slow_load"
   ],
   "note": "Timed protocol of the running file, any number of jobs; the separation of delays is needed (violations proved for every choice of times outside of it)."
  },
  {
   "property": "C67",
   "status": "proved",
   "theorems": [
    "Nissa.Vertex.C67_photon",
    "Nissa.Vertex.C67_tadpole",
    "Nissa.Vertex.C67_conserved",
    "Nissa.Vertex.C67_bwFw",
    "Nissa.Vertex.C67_unit_charge",
    "Nissa.Vertex.C67_derivative",
    "Nissa.Vertex.C67_propagator",
    "Nissa.Vertex.C67_second",
    "Nissa.Vertex.C67_sum_photon",
    "Nissa.Vertex.C67_sum_conserved",
    "Nissa.Vertex.C67_sum_spatial",
    "Nissa.Vertex.C67_sum_temporal",
    "Nissa.Vertex.C67_local",
    "Nissa.Vertex.C67_nabla",
    "Nissa.Vertex.C67_laplace",
    "Nissa.Vertex.C67_laplace2",
    "Nissa.Vertex.C67_nabla_antiherm",
    "Nissa.Vertex.C67_laplace_herm",
    "Nissa.Vertex.C67_laplace_neg",
    "Nissa.Vertex.C67_remove",
    "Nissa.Vertex.C67_charges_add",
    "Nissa.Vertex.C67_unitary",
    "Nissa.Vertex.C67_updated_conf"
   ],
   "note": "Exact arithmetic. Derivative theorems for the operator without clover and isotropic: the insertions of the code include neither the derivative of the clover term nor the anisotropy weights. Real photon field (the code uses the real part only in the configuration)."
  },
  {
   "property": "C68",
   "status": "partial",
   "theorems": [
    "Nissa.Hex.C68_smeared",
    "Nissa.Hex.C68_covariant",
    "Nissa.Hex.C68_su3",
    "Nissa.Hex.C68_null",
    "Nissa.Hex.C68_pure_gauge",
    "Nissa.Hex.C68_hex_partial",
    "Nissa.Hex.C68_violated_time_staples",
    "Nissa.Hex.C68_violated_hex"
   ],
   "note": "Formula, covariance, SU(3), trivial cases proved; the result is not HEX because the padding zeros exclude the staples along direction 0 (C68_violated_*); C68_hex_partial is what is left of the definition."
  },
  {
   "property": "C69",
   "status": "partial",
   "theorems": [
    "Nissa.Topo.C69_corr_convolution",
    "Nissa.Topo.C69_corr_time_momentum",
    "Nissa.Topo.C69_corr_sum",
    "Nissa.Topo.C69_corr_partial",
    "Nissa.Topo.C69_violated_corr",
    "Nissa.Topo.C69_point_order",
    "Nissa.Topo.C69_violated_odd",
    "Nissa.Topo.C69_file",
    "Nissa.Topo.C69_file_partial",
    "Nissa.Topo.C69_violated_ranks",
    "Nissa.Topo.C69_violated_ranks_instance",
    "Nissa.Topo.C69_loop",
    "Nissa.Topo.C69_violated_each",
    "Nissa.Topo.C69_lines",
    "Nissa.Topo.C69_all_records",
    "Nissa.Topo.C69_corr_due"
   ],
   "note": "Loop, file and numbering proved in full for the code as written; the two partial theorems give the full statement under an evenness of the density, and on one rank; the violated theorems show the statement false otherwise."
  },
  {
   "property": "C70",
   "status": "partial",
   "theorems": [
    "Nissa.Sweep.C70_each_once",
    "Nissa.Sweep.C70_wilson_independent",
    "Nissa.Sweep.C70_symanzik_independent",
    "Nissa.Sweep.C70_wilson_staples",
    "Nissa.Sweep.C70_symanzik_partial",
    "Nissa.Sweep.C70_violated_symanzik",
    "Nissa.Sweep.C70_violated_init",
    "Nissa.Sweep.C70_violated_tlsym"
   ],
   "note": "Sets of the sweeper: each link once, links of a set independent (any rank grid). Wilson staples exact; Symanzik staples exact only if one link per plane has last row (0,0,*), because the code drops a term (C70_violated_symanzik). Violations: initialisation on one rank, coefficient of tree-level Symanzik. The sweep itself is a stub in the code."
  },
  {
   "property": "C71",
   "status": "partial",
   "theorems": [
    "Nissa.Inp.C71_words",
    "Nissa.Inp.C71_layout",
    "Nissa.Inp.C71_tags_partial",
    "Nissa.Inp.C71_violated_missing_value",
    "Nissa.Inp.C71_missing_value_crash",
    "Nissa.Inp.C71_int",
    "Nissa.Inp.C71_violated_int_tail",
    "Nissa.Inp.C71_read_ints",
    "Nissa.Inp.C71_list",
    "Nissa.Inp.C71_config_partial",
    "Nissa.Inp.C71_violated_config_end",
    "Nissa.Inp.C71_config_unknown",
    "Nissa.Inp.C71_nested",
    "Nissa.Inp.C71_violated_slash",
    "Nissa.Inp.C71_violated_long",
    "Nissa.Inp.C71_violated_file_lock",
    "Nissa.Inp.C71_case"
   ],
   "note": "Words, comments, tags, lists, nissa_config and nested files for every text. Partial since a missing last value is not noticed when the file ends with a blank, nissa_config must end with a blank, and words are limited in length; violations proved beside."
  },
  {
   "property": "C72",
   "status": "partial",
   "theorems": [
    "Nissa.ToEo.C72_order",
    "Nissa.ToEo.C72_file_partial",
    "Nissa.ToEo.C72_filled",
    "Nissa.ToEo.C72_two_ranks",
    "Nissa.ToEo.C72_violated_three_ranks"
   ],
   "note": "Full statement false with three ranks (C72_violated_three_ranks): proved whenever the local copy of the all-to-all reads the right count, which holds on one or two ranks (C72_two_ranks)."
  },
  {
   "property": "C73",
   "status": "partial",
   "theorems": [
    "Nissa.FieldIo.C73_write_partial",
    "Nissa.FieldIo.C73_read_partial",
    "Nissa.FieldIo.C73_conf_write_partial",
    "Nissa.FieldIo.C73_format_buffer",
    "Nissa.FieldIo.C73_conf_roundtrip_partial",
    "Nissa.FieldIo.C73_corruption_partial",
    "Nissa.FieldIo.C73_violated_sizes",
    "Nissa.FieldIo.C73_violated_single_precision",
    "Nissa.FieldIo.C73_violated_padding"
   ],
   "note": "Partial: needs the condition of C24/C35 on the all-to-all (CopyOk; holds e.g. when only the time is divided among ranks) and data records multiple of 8 bytes (always for doubles). Disagreements proved: C73_violated_sizes (the ildg-format record gives lx, ly, lz in reverse order), C73_violated_single_precision (a single-precision record is accepted and half of the field is whatever was in memory), C73_violated_padding (padding written after the padded position, following records misplaced)."
  },
  {
   "property": "C74",
   "status": "proved",
   "theorems": [
    "Nissa.Src.C74_source",
    "Nissa.Src.C74_points",
    "Nissa.Src.C74_stops",
    "Nissa.Src.C74_point",
    "Nissa.Src.C74_origin",
    "Nissa.Src.C74_insertions",
    "Nissa.Src.C74_noise_average",
    "Nissa.Src.C74_complete",
    "Nissa.Src.C74_estimator"
   ],
   "note": "Exact arithmetic. Averages are over independent uniform numbers (the quality of the generator itself is not a theorem). C74_estimator composes the generated sources, any two linear propagators, and the contraction of the program."
  },
  {
   "property": "C75",
   "status": "proved",
   "theorems": [
    "Nissa.Nice.C75_deterministic",
    "Nissa.Nice.C75_memory_safe",
    "Nissa.Nice.C75_isolation",
    "Nissa.Nice.C75_block",
    "Nissa.Nice.C75_call",
    "Nissa.Nice.C75_lexical",
    "Nissa.Nice.C75_violated_reference",
    "Nissa.Nice.C75_violated_reference_parameter",
    "Nissa.Nice.C75_violated_variadic"
   ],
   "note": "Whole evaluator, any script; C75_violated_* record that references and variadic functions never work."
  },
  {
   "property": "C76",
   "status": "partial",
   "theorems": [
    "Nissa.Nice.C76_seq",
    "Nissa.Nice.C76_violated_if",
    "Nissa.Nice.C76_violated_compound",
    "Nissa.Nice.C76_violated_no_return",
    "Nissa.Nice.C76_violated_return",
    "Nissa.Nice.C76_violated_order",
    "Nissa.Nice.C76_violated_copy",
    "Nissa.Nice.C76_violated_forEachEl",
    "Nissa.Nice.C76_violated_shortcut",
    "Nissa.Nice.C76_violated_default",
    "Nissa.Nice.C76_core_partial",
    "Nissa.Nice.C76_core_initial",
    "Nissa.Nice.C76_integers",
    "Nissa.Nice.C76_arguments"
   ],
   "note": "Core fragment (C76_core_partial) equivalent to the stack semantics in both directions; arguments, integer operators and seq in full; outside the core the code departs (C76_violated_*)."
  },
  {
   "property": "C77",
   "status": "proved",
   "theorems": [
    "Nissa.Gen.C77_session",
    "Nissa.Gen.C77_stop",
    "Nissa.Gen.C77_history",
    "Nissa.Gen.C77_history_scratch",
    "Nissa.Gen.C77_crash",
    "Nissa.Gen.C77_lost",
    "Nissa.Gen.C77_fermion",
    "Nissa.Gen.C77_violated_after",
    "Nissa.Gen.C77_walltime",
    "Nissa.Gen.C77_violated_ntraj_zero",
    "Nissa.Gen.C77_analysis",
    "Nissa.Gen.Toy.C77_violated_last_stored",
    "Nissa.Gen.Toy.C77_violated_last_stored_twice",
    "Nissa.Gen.Toy.C77_violated_torn",
    "Nissa.Gen.Toy.C77_violated_torn_reachable",
    "Nissa.Gen.Toy.C77_violated_twice",
    "Nissa.Gen.Toy.C77_violated_same_path",
    "Nissa.Gen.Toy.C77_violated_reproducible",
    "Nissa.Gen.Toy.C77_violated_analysis_id",
    "Nissa.Gen.Toy.C77_violated_analysis_walltime",
    "Nissa.Gen.C77_sources"
   ],
   "note": "Proved for every update, measurement, environment, history and crash point. Departures of the code are theorems C77_violated_*: StoreRunning 0 with the session ending at a multiple of StoreEach, torn running configuration, repeated measurements after a crash, shared files, restart not reproducible, after not multiple of each, ntraj_tot 0, analysis mode (number of the previous configuration, wall time ignored)."
  },
  {
   "property": "C78",
   "status": "proved",
   "theorems": [
    "Nissa.Tune.C78_once",
    "Nissa.Tune.C78_serial",
    "Nissa.Tune.C78_violated_huge",
    "Nissa.Tune.C78_tuning",
    "Nissa.Tune.C78_optimal",
    "Nissa.Tune.C78_violated_unregistered",
    "Nissa.Tune.C78_tuned_already",
    "Nissa.Tune.C78_violated_bad_size",
    "Nissa.Tune.C78_violated_hot",
    "Nissa.Tune.C78_violated_killed",
    "Nissa.Tune.C78_violated_dangling",
    "Nissa.Tune.C78_violated_twice"
   ],
   "note": "proved for kernels that register what they write, indices within 32 bits and usable stored block sizes; outside of it the code violates the statement (C78_violated_*)"
  },
  {
   "property": "C79",
   "status": "proved",
   "theorems": [
    "Nissa.Quda.C79_bijection",
    "Nissa.Quda.C79_conf",
    "Nissa.Quda.C79_vectors",
    "Nissa.Quda.C79_round_trip"
   ],
   "note": "tables and remapping loops of the QUDA bridge; MPI_Cart_create assumed not to reorder; elements abstract"
  },
  {
   "property": "C80",
   "status": "proved",
   "theorems": [
    "Nissa.Quda.C80_history",
    "Nissa.Quda.C80_forced",
    "Nissa.Quda.C80_no_tag",
    "Nissa.Quda.C80_violated_same_tag",
    "Nissa.Quda.C80_ib",
    "Nissa.Quda.C80_violated_photon",
    "Nissa.Quda.C80_violated_kappa",
    "Nissa.Quda.C80_violated_path",
    "Nissa.Quda.C80_violated_negative",
    "Nissa.Quda.C80_violated_clover",
    "Nissa.Quda.C80_residue",
    "Nissa.Quda.C80_violated_nan"
   ],
   "note": "state kept between solves by nissa and QUDA; QUDA calls as documented (trusted); violations in C80_violated_*"
  },
  {
   "property": "C81",
   "status": "partial",
   "theorems": [
    "Nissa.Quda.C81_auto_partial",
    "Nissa.Quda.C81_given_partial",
    "Nissa.Quda.C81_accepts",
    "Nissa.Quda.C81_violated_local",
    "Nissa.Quda.C81_violated_given",
    "Nissa.Quda.C81_one_rank_partial"
   ],
   "note": "full statement false of the code (C81_violated_local, C81_violated_given); proved on the whole lattice / unsplit direction"
  },
  {
   "property": "C82",
   "status": "partial",
   "theorems": [
    "Nissa.Symm.C82_average",
    "Nissa.Symm.C82_mirrorize_partial",
    "Nissa.Symm.C82_mirrorize_even",
    "Nissa.Symm.C82_violated_last_direction",
    "Nissa.Symm.C82_cubic_partial",
    "Nissa.Symm.C82_violated_other_octants",
    "Nissa.Symm.C82_odd_refused"
   ],
   "note": "the mean over the three first reflections on half of the sites, and over the permutations in the first octant, proved exactly; the missing reflections of the last direction and the other octants are violations of the code"
  },
  {
   "property": "C83",
   "status": "proved",
   "theorems": [
    "Nissa.MomF.C83_from_range",
    "Nissa.MomF.C83_slots",
    "Nissa.MomF.C83_closed",
    "Nissa.MomF.C83_from_file",
    "Nissa.MomF.C83_round_trip",
    "Nissa.MomF.C83_violated_duplicates"
   ],
   "note": "the filter from ranges and from files of distinct momenta proved in full; a file repeating a momentum violates the uniqueness of positions (C83_violated_duplicates)"
  },
  {
   "property": "C84",
   "status": "partial",
   "theorems": [
    "Nissa.Su3f.C84_step",
    "Nissa.Su3f.C84_link",
    "Nissa.Su3f.C84_acceptance",
    "Nissa.Su3f.C84_density",
    "Nissa.Su3f.C84_weight_partial",
    "Nissa.Su3f.C84_violated_zero",
    "Nissa.Su3f.C84_direction",
    "Nissa.Su3f.C84_law",
    "Nissa.Su3f.C84_loop_ends_iff",
    "Nissa.Su3f.C84_acceptance_positive"
   ],
   "note": "algebra of the step, law of a0 (all continuous test functions), uniform law of the direction on the sphere (component along any vector, all continuous test functions), end of the rejection loop; partial because for a vanishing projection the code uses a wrong weight (C84_violated_zero)"
  },
  {
   "property": "C85",
   "status": "proved",
   "theorems": [
    "Nissa.Part.C85_each_rank_has_its_own_node",
    "Nissa.Part.C85_consecutive_ranks_on_consecutive_nodes",
    "Nissa.Part.C85_first_and_last_rank_are_linked",
    "Nissa.Part.C85_builtin_neighbours_are_linked",
    "Nissa.Part.C85_violated_on_open_torus"
   ],
   "note": "Bijection and step adjacency hold for every machine; the closure for every machine with directions of size one or even, closed when longer than two, hence for all the built-in blocks. Violated for a described machine with open directions: is_torus asks for a closed direction only when it serves a lattice direction alone (C85_violated_on_open_torus)."
  },
  {
   "property": "C86",
   "status": "partial",
   "theorems": [
    "Nissa.Part.C86_no_better_grid_partial",
    "Nissa.Part.C86_every_grid_is_listed_once",
    "Nissa.Part.C86_virtual_direction",
    "Nissa.Part.C86_violated_all_directions_to_the_last",
    "Nissa.Part.C86_violated_single_node"
   ],
   "note": "Partial because the program discards a fit found with the last of the 1024 distributions, the one giving every torus direction to the last lattice direction: for 64 nodes and a lattice of 2x2x2x256 it divides by zero although the grid 1x1x1x64 is admissible (C86_violated_all_directions_to_the_last); with a single node it reads out of an empty list (C86_violated_single_node). Listing once of all admissible grids, minimality over the others and the virtual direction are proved in full."
  },
  {
   "property": "C87",
   "status": "partial",
   "theorems": [
    "Nissa.Scan.C87_printed_input_rereads_partial",
    "Nissa.Scan.C87_violated_full_without_pseudofermions",
    "Nissa.Scan.C87_violated_full_without_operators",
    "Nissa.Scan.C87_violated_only_pseudofermions",
    "Nissa.Scan.C87_violated_cooling_steps",
    "Nissa.Scan.C87_violated_cooling_each",
    "Nissa.Scan.C87_violated_smooth_stout",
    "Nissa.Scan.C87_violated_default_theory",
    "Nissa.Scan.C87_violated_stout_to_potential",
    "Nissa.Scan.C87_violated_full_em",
    "Nissa.Scan.C87_violated_elle_method",
    "Nissa.Scan.C87_violated_elle_taste",
    "Nissa.Scan.C87_violated_luppoli",
    "Nissa.Scan.C87_violated_max_order",
    "Nissa.Scan.C87_violated_tiny_em",
    "Nissa.Scan.C87_violated_unused_theta",
    "Nissa.Scan.C87_violated_analysis_conf",
    "Nissa.Scan.C87_violated_digits"
   ],
   "note": "partial because the code violates the full property (17 C87_violated_* theorems); proved for every scanned input in the kept class, both ways of printing"
  },
  {
   "property": "C88",
   "status": "proved",
   "theorems": [
    "Nissa.Scan.C88_settings_order_irrelevant",
    "Nissa.Scan.C88_last_setting_wins",
    "Nissa.Scan.C88_order_of_L_matters"
   ],
   "note": "for every block, every prefix and suffix of the input; L excluded (C88_order_of_L_matters)"
  },
  {
   "property": "C89",
   "status": "proved",
   "theorems": [
    "Nissa.Scan.C89_setting_sets_only_its_parameter",
    "Nissa.Scan.C89_values_are_kept"
   ],
   "note": "frame statement over all blocks and parameters after any accepted prefix; L and Method are excluded (L sets three sides, Method opens a sub-block)"
  },
  {
   "property": "C90",
   "status": "partial",
   "theorems": [
    "Nissa.Clust.C90_jackknife_is_mean_outside_cluster",
    "Nissa.Clust.C90_average_follows_jackknives",
    "Nissa.Clust.C90_mean_of_jackknives",
    "Nissa.Clust.C90_output_partial",
    "Nissa.Clust.C90_enough_complete_files_are_read",
    "Nissa.Clust.C90_violated_past_the_end",
    "Nissa.Clust.C90_violated_too_many_jackknives"
   ],
   "note": "whole tool from files to output; the full statement is false of the code: C90_violated_past_the_end, C90_violated_too_many_jackknives"
  },
  {
   "property": "C91",
   "status": "partial",
   "theorems": [
    "Nissa.Clust.C91_places_are_distinct",
    "Nissa.Clust.C91_places_are_allocated",
    "Nissa.Clust.C91_output_partial",
    "Nissa.Clust.C91_violated_new_layout_overruns",
    "Nissa.Clust.C91_violated_new_layout_junk",
    "Nissa.Clust.C91_violated_copies_in_different_clusters"
   ],
   "note": "old layout proved; the full statement is false of the code: new layout (C91_violated_new_layout_*), copies with different missing files (C91_violated_copies_in_different_clusters)"
  },
  {
   "property": "C92",
   "status": "partial",
   "theorems": [
    "Nissa.Ave.C92_outputs_are_means_partial",
    "Nissa.Ave.C92_bad_inputs_are_refused",
    "Nissa.Ave.C92_stops_at_a_bad_line",
    "Nissa.Ave.C92_empty_lines_are_ignored",
    "Nissa.Ave.C92_violated_long_line",
    "Nissa.Ave.C92_violated_reading_a_previous_output",
    "Nissa.Ave.C92_violated_too_many_open_files"
   ],
   "note": "the full statement is false of the code: C92_violated_long_line, C92_violated_reading_a_previous_output, C92_violated_too_many_open_files"
  },
  {
   "property": "C93",
   "status": "partial",
   "theorems": [
    "Nissa.MgPars.C93_settings_are_stored_partial",
    "Nissa.MgPars.C93_no_file_no_change",
    "Nissa.MgPars.C93_other_parameters_kept",
    "Nissa.MgPars.C93_missing_numbers_are_refused",
    "Nissa.MgPars.C93_violated_setup_refresh_tol",
    "Nissa.MgPars.C93_violated_no_final_new_line",
    "Nissa.MgPars.C93_violated_unknown_names_ignored",
    "Nissa.MgPars.C93_violated_order_of_levels",
    "Nissa.MgPars.C93_violated_too_many_levels",
    "Nissa.MgPars.C93_violated_defaults_of_levels"
   ],
   "note": "Partial as the code reads setup_refresh_tol twice and refuses files without final new line, ignores unknown names, and does not check the number of levels: C93_violated_* show it. Model is of the words of the file without comments, build with QUDA."
  },
  {
   "property": "C94",
   "status": "partial",
   "theorems": [
    "Nissa.ReadIldg.C94_each_record_has_its_file_partial",
    "Nissa.ReadIldg.C94_records_are_printed",
    "Nissa.ReadIldg.C94_names_differ",
    "Nissa.ReadIldg.C94_truncated_is_refused",
    "Nissa.ReadIldg.C94_rest_is_refused",
    "Nissa.ReadIldg.C94_violated_truncated_skip",
    "Nissa.ReadIldg.C94_violated_long_pattern",
    "Nissa.ReadIldg.C94_violated_zeros_cut_the_text"
   ],
   "note": "Partial as cut files are not noticed within records over the limit and long patterns are cut: C94_violated_*. One rank; the file being read is not one of those written; names that cannot be opened are excluded by hypothesis."
  },
  {
   "property": "C95",
   "status": "partial",
   "theorems": [
    "Nissa.CrU1.C95_names_distinct",
    "Nissa.CrU1.C95_refused_iff",
    "Nissa.CrU1.C95_files_partial",
    "Nissa.CrU1.C95_name",
    "Nissa.CrU1.C95_violated_percent",
    "Nissa.CrU1.C95_violated_long",
    "Nissa.CrU1.C95_written_directions",
    "Nissa.CrU1.C95_u3_link",
    "Nissa.CrU1.C95_u3_unitary",
    "Nissa.CrU1.C95_u3_square",
    "Nissa.CrU1.C95_plaquette_of_phase",
    "Nissa.CrU1.C95_gauge_of_photon",
    "Nissa.CrU1.C95_second_partial",
    "Nissa.CrU1.C95_violated_no_charge",
    "Nissa.CrU1.C95_violated_no_field"
   ],
   "note": "Proved for patterns with an integer conversion and names that fit in 127 characters; violated by the patterns with %% only, by texts of 128 characters or more, by a null charge and by no configuration."
  },
  {
   "property": "C96",
   "status": "proved",
   "theorems": [
    "Nissa.LandauTool.C96_profile",
    "Nissa.LandauTool.C96_profile_range",
    "Nissa.LandauTool.C96_written",
    "Nissa.LandauTool.C96_random_transformation",
    "Nissa.LandauTool.C96_ends"
   ],
   "note": "The configuration written is a gauge transform of the one read; plaquettes equal; profile = average of the straight lines; termination and precision."
  },
  {
   "property": "C97",
   "status": "proved",
   "theorems": [
    "Nissa.Cpn.C97_constraints",
    "Nissa.Cpn.C97_tangent",
    "Nissa.Cpn.C97_topology_integer",
    "Nissa.Cpn.C97_violated_length",
    "Nissa.Cpn.C97_lambda_force",
    "Nissa.Cpn.C97_zeta_force",
    "Nissa.Cpn.C97_gauge",
    "Nissa.Cpn.C97_topology_gauge",
    "Nissa.Cpn.C97_cold",
    "Nissa.Cpn.C97_reversible",
    "Nissa.Cpn.C97_violated_half_turn",
    "Nissa.Cpn.C97_reversible_trajectory",
    "Nissa.Cpn.C97_normalized",
    "Nissa.Cpn.C97_reversible_integrate",
    "Nissa.Cpn.C97_scheme",
    "Nissa.Cpn.C97_energy"
   ],
   "note": "Constraints, reversibility of the whole trajectory, forces = -dS, stationary energy, gauge invariance, integer charge proved; length of the trajectory violated (half of the one asked)."
  }
 ]
}