{
 "claims": [
  {
   "property": "C01",
   "status": "proved",
   "theorems": [
    "Verif.Sort.C01_sort_rearranges"
   ],
   "note": "SlepcSortEigenvalues(Special), real and complex scalars; hypotheses: complex pairs adjacent (otherwise sort_unpaired_is_undefined)."
  },
  {
   "property": "C02",
   "status": "proved",
   "theorems": [
    "Verif.Sort.C02_sorted",
    "Verif.Sort.C02_stable"
   ],
   "note": "for any consistent comparison; criteria consistent by C04_*_consistent."
  },
  {
   "property": "C03",
   "status": "proved",
   "theorems": [
    "Verif.Sort.C03_pairs_stay_together",
    "Verif.Sort.complex_groups"
   ],
   "note": ""
  },
  {
   "property": "C04",
   "status": "proved",
   "theorems": [
    "Verif.Sort.C04_real_documented",
    "Verif.Sort.C04_complex_documented",
    "Verif.Sort.C04_real_consistent",
    "Verif.Sort.C04_complex_consistent",
    "Verif.Sort.C04_codes",
    "Verif.Sort.slepcAbs_eq"
   ],
   "note": "exact arithmetic"
  },
  {
   "property": "C05",
   "status": "proved",
   "theorems": [
    "Verif.Sort.C05_inside_first",
    "Verif.Sort.scCompare_consistent"
   ],
   "note": ""
  },
  {
   "property": "C06",
   "status": "proved",
   "theorems": [
    "Verif.VecPool.C06_pool_safe",
    "Verif.VecPool.C06_get_returns"
   ],
   "note": ""
  },
  {
   "property": "C07",
   "status": "proved",
   "theorems": [
    "Verif.ST.C07_eigenpairs",
    "Verif.ST.C07_values"
   ],
   "note": "exact arithmetic, exact solver"
  },
  {
   "property": "C08",
   "status": "partial",
   "theorems": [
    "Verif.ST.C08_backPair_partial",
    "Verif.ST.C08_cayley_complex_false",
    "Verif.ST.cayley_intended"
   ],
   "note": "Cayley with complex pairs is false of the code (cayley.c:98-102); negation proved."
  },
  {
   "property": "C09",
   "status": "partial",
   "theorems": [
    "Verif.ST.State.C09_operator_current_partial",
    "Verif.ST.State.C09_getoperator_false",
    "Verif.ST.State.C09_split_false",
    "Verif.ST.State.C09_antishift_false",
    "Verif.ST.State.C09_notransform_false",
    "Verif.ST.State.C09_scaleshift_false"
   ],
   "note": "holds for all histories outside five families of calls for which the code is wrong; each family has a proved counterexample."
  },
  {
   "property": "C10",
   "status": "partial",
   "theorems": [
    "Verif.ST.Poly.C10_shift",
    "Verif.ST.Poly.C10_sinvert",
    "Verif.ST.Poly.coeffsMonomial_spec",
    "Verif.ST.Poly.C10_matsetup_partial",
    "Verif.ST.Poly.C10_matsetup_leadingzero_false",
    "Verif.ST.Poly.C10_matsetup_unscaled_false",
    "Verif.ST.Poly.C10_matsetup_zero_undefined"
   ],
   "note": "shift and shift-and-invert fully proved; STMatSetUp with arbitrary coefficients only for nonzero first coefficient, negations proved otherwise."
  },
  {
   "property": "C11",
   "status": "partial",
   "theorems": [
    "Verif.ST.Inplace.C11_restored_partial",
    "Verif.ST.Inplace.C11_reset_false",
    "Verif.ST.Inplace.C11_twice_false"
   ],
   "note": "histories in which no other setter interrupts a busy period and STPostSolve is called once per period; negations proved otherwise."
  },
  {
   "property": "C12",
   "status": "partial",
   "theorems": [
    "Verif.ST.Poly.C12_mult",
    "Verif.ST.Poly.C12_multTranspose",
    "Verif.ST.Poly.C12_multHermitian",
    "Verif.ST.Poly.C12_shell_eq_copy",
    "Verif.ST.Poly.C12_diag_partial",
    "Verif.ST.Poly.C12_diag_false"
   ],
   "note": "products, transposes proved; the diagonal of a combination of matrices is false of the code."
  },
  {
   "property": "C13",
   "status": "partial",
   "theorems": [
    "Verif.RG.C13_interval",
    "Verif.RG.setEndpoints_accepts",
    "Verif.RG.C13_ellipse",
    "Verif.RG.C13_ring_partial",
    "Verif.RG.C13_ring_false",
    "Verif.RG.C13_ring_ray_false",
    "Verif.RG.C13_polygon_partial",
    "Verif.RG.C13_polygon_zero",
    "Verif.RG.C13_polygon_convex",
    "Verif.RG.C13_polygon_false",
    "Verif.RG.C13_complement"
   ],
   "note": "interval and ellipse: full topological statement; ring: exact description of the answers, which differ from the documented ones (two negations proved); polygon: crossing parity for all polygons, interior/exterior of the hull for strictly convex ones, answers on the contour false of the code. Exact arithmetic."
  },
  {
   "property": "C14",
   "status": "proved",
   "theorems": [
    "Verif.RG.C14_scale_point",
    "Verif.RG.C14_scaled_region",
    "Verif.RG.C14_push_pop",
    "Verif.RG.C14_nesting",
    "Verif.RG.C14_bounding_box",
    "Verif.RG.C15_scaled"
   ],
   "note": ""
  },
  {
   "property": "C15",
   "status": "partial",
   "theorems": [
    "Verif.RG.C15_ellipse",
    "Verif.RG.C15_ellipse_angles",
    "Verif.RG.C15_interval_partial",
    "Verif.RG.C15_segment",
    "Verif.RG.C15_interval_odd_false",
    "Verif.RG.C15_interval_real_false",
    "Verif.RG.C15_ring_partial",
    "Verif.RG.C15_ring_odd_false",
    "Verif.RG.C15_scaled"
   ],
   "note": "false for odd numbers of points (interval, ring) and for the interval in real scalars; negations proved."
  },
  {
   "property": "C16",
   "status": "proved",
   "theorems": [
    "Verif.RG.C16_bounding_box"
   ],
   "note": "all four types, points representable."
  },
  {
   "property": "C17",
   "status": "partial",
   "theorems": [
    "Verif.RG.C17_axisymmetric_partial",
    "Verif.RG.C17_ring_false",
    "Verif.RG.C17_conjugates"
   ],
   "note": "sound except for the vertical axis of rings spanning angles 1/2 to 1; negation proved."
  },
  {
   "property": "C18",
   "status": "proved",
   "theorems": [
    "Verif.FN.C18_real",
    "Verif.FN.C18_complex"
   ],
   "note": "exact arithmetic; complex build off the branch cuts of log and sqrt."
  },
  {
   "property": "C19",
   "status": "proved",
   "theorems": [
    "Verif.FN.C19_rational"
   ],
   "note": "exact arithmetic."
  },
  {
   "property": "C20",
   "status": "proved",
   "theorems": [
    "Verif.FN.C20_real",
    "Verif.FN.C20_complex",
    "Verif.FN.phi_table"
   ],
   "note": "exact arithmetic (cancellation near 0 in floating point is not covered)."
  },
  {
   "property": "C21",
   "status": "proved",
   "theorems": [
    "Verif.FN.C21_equal",
    "Verif.FN.C21_eval",
    "Verif.FN.C21_independent",
    "Verif.FN.C21_total"
   ],
   "note": ""
  },
  {
   "property": "C22",
   "status": "proved",
   "theorems": [
    "Verif.Contour.C22_partition"
   ],
   "note": ""
  },
  {
   "property": "C23",
   "status": "proved",
   "theorems": [
    "Verif.MatTile.C23_seq",
    "Verif.MatTile.C23_mpi",
    "Verif.MatTile.C23_renumbering",
    "Verif.MatTile.C23_checks"
   ],
   "note": "assembly applies the writes in any order; preallocation not modelled."
  },
  {
   "property": "C24",
   "status": "partial",
   "theorems": [
    "Verif.VecComp.C24_dot_local",
    "Verif.VecComp.C24_dot",
    "Verif.VecComp.C24_mdot",
    "Verif.VecComp.C24_mdot_false",
    "Verif.VecComp.C24_dotnorm2",
    "Verif.VecComp.C24_norm1_local",
    "Verif.VecComp.C24_normInf_local",
    "Verif.VecComp.C24_norm1_inf",
    "Verif.VecComp.C24_norm2_local",
    "Verif.VecComp.C24_norm2_partial",
    "Verif.VecComp.C24_norm2_defined",
    "Verif.VecComp.C24_norm2_false",
    "Verif.VecComp.C24_norm2_false_nonzero",
    "Verif.VecComp.C24_norm2_nolocal_seq",
    "Verif.VecComp.C24_norm2_nolocal_false"
   ],
   "note": "the parallel 2-norm is 0/0 when two zero local parts meet in the reduction, and components without local norms lack the final correction (negations proved). Rounding not modelled."
  },
  {
   "property": "C25",
   "status": "proved",
   "theorems": [
    "Verif.DS.C25_columns",
    "Verif.DS.C25_rows",
    "Verif.DS.C25_both",
    "Verif.DS.C25_not_permutation_undefined"
   ],
   "note": "for index arrays that are permutations; for others the search runs out of bounds (shown)."
  },
  {
   "property": "C26",
   "status": "proved",
   "theorems": [
    "Verif.DS.C26_pairs",
    "Verif.DS.C26_sorted",
    "Verif.DS.C26_stable",
    "Verif.DS.C26_empty",
    "Verif.DS.C26_all_locked_undefined",
    "Verif.DS.C26_real",
    "Verif.DS.C26_real_stable"
   ],
   "note": "with every value locked the code reads one entry past the array (shown)."
  },
  {
   "property": "C27",
   "status": "partial",
   "theorems": [
    "Verif.DS.C27_dimensions_partial",
    "Verif.DS.C27_l_false",
    "Verif.DS.C27_k_false",
    "Verif.DS.C27_k_never_checked",
    "Verif.DS.C27_gsvd_false",
    "Verif.DS.C27_svd_false",
    "Verif.DS.C27_t_stale"
   ],
   "note": "0<=n<=ld proved over all histories; l<=n, k<=n and t<=ld are false of the code (witnesses)."
  },
  {
   "property": "C28",
   "status": "partial",
   "theorems": [
    "Verif.DS.C28_solve_noop",
    "Verif.DS.C28_recompute_partial",
    "Verif.DS.C28_modify_false",
    "Verif.DS.C28_sort_states",
    "Verif.DS.C28_sort_optimized_false",
    "Verif.DS.C28_sort_truncated",
    "Verif.DS.C28_vectors_false"
   ],
   "note": "modifying the matrices does not reset the state, and some checks are missing (witnesses)."
  },
  {
   "property": "C29",
   "status": "partial",
   "theorems": [
    "Verif.BV.C29_get_partial",
    "Verif.BV.C29_restore_partial",
    "Verif.BV.C29_two_partial",
    "Verif.BV.C29_resize_false"
   ],
   "note": "histories without BVResize while columns are outstanding; BVResize does not check for outstanding columns (witness)."
  },
  {
   "property": "C30",
   "status": "partial",
   "theorems": [
    "Verif.BV.C30_range_partial",
    "Verif.BV.C30_create",
    "Verif.BV.C30_current_false"
   ],
   "note": "BVSetActiveColumns(bv,PETSC_CURRENT,k) with k<l leaves l>k (witness)."
  },
  {
   "property": "C31",
   "status": "partial",
   "theorems": [
    "Verif.BV.C31_column",
    "Verif.BV.C31_orthonormalize",
    "Verif.BV.C31_block",
    "Verif.BV.C31_breakdown",
    "Verif.BV.C31_indefinite",
    "Verif.BV.C31_sign",
    "Verif.BV.C31_H_entries",
    "Verif.BV.C31_buffer_norm",
    "Verif.BV.C31_H_norm_false",
    "Verif.BV.C31_some_false",
    "Verif.BV.C31_block_indefinite_false"
   ],
   "note": "exact arithmetic, eta at most 1; rounding is not modelled. The norm is never written to the user array H, BVOrthogonalizeSomeColumn reports stale coefficients, and R is wrong for indefinite inner products (witnesses)."
  },
  {
   "property": "C32",
   "status": "partial",
   "theorems": [
    "Verif.BV.C32_set_get",
    "Verif.BV.C32_default",
    "Verif.BV.C32_copyColumn_partial",
    "Verif.BV.C32_copyColumn_false",
    "Verif.BV.C32_more_constraints",
    "Verif.BV.C32_less_constraints_partial",
    "Verif.BV.C32_less_constraints_false",
    "Verif.BV.C32_resize",
    "Verif.BV.C32_resize_new_false",
    "Verif.BV.C32_copy_partial",
    "Verif.BV.C32_copy_no_signature_false",
    "Verif.BV.C32_copy_no_rows_false"
   ],
   "note": "false of BVCopyColumn with constraints, of reducing the number of constraints, of new columns after BVResize, and of BVCopy without signature array or local rows (witnesses)."
  },
  {
   "property": "C33",
   "status": "partial",
   "theorems": [
    "Verif.EPS.C33_set",
    "Verif.EPS.C33_set_values",
    "Verif.EPS.C33_eps",
    "Verif.EPS.C33_eps_kept",
    "Verif.EPS.C33_eps_accepts",
    "Verif.EPS.C33_svd_partial",
    "Verif.EPS.C33_svd_false",
    "Verif.EPS.C33_again_false",
    "Verif.EPS.C33_again_partial"
   ],
   "note": "false for a generalized SVD whose second matrix has no rows, and for defaults after a second set-up (witnesses)."
  },
  {
   "property": "C34",
   "status": "partial",
   "theorems": [
    "Verif.EPS.C34_pm",
    "Verif.EPS.C34_hamilt_partial",
    "Verif.EPS.C34_hamilt_false"
   ],
   "note": "Hamiltonian problems with a quadruple immediately repeated return some members twice and miss others (witness)."
  },
  {
   "property": "C35",
   "status": "partial",
   "theorems": [
    "Verif.EPS.C35_basic",
    "Verif.EPS.C35_svd_basic",
    "Verif.EPS.C35_threshold_tol",
    "Verif.EPS.C35_threshold_stops",
    "Verif.EPS.C35_threshold_diverged",
    "Verif.EPS.C35_threshold_limit_partial",
    "Verif.EPS.C35_threshold_limit_false",
    "Verif.EPS.C35_all_converged_false",
    "Verif.EPS.C35_svd_threshold"
   ],
   "note": "the threshold test can do one iteration more than allowed and stops when all available approximations have converged (witnesses)."
  },
  {
   "property": "C36",
   "status": "partial",
   "theorems": [
    "Verif.EPS.C36_partial",
    "Verif.EPS.C36_errest_false"
   ],
   "note": "the error estimates are not moved together with the eigenpairs (witness)."
  },
  {
   "property": "C37",
   "status": "partial",
   "theorems": [
    "Verif.EPS.C37_pair",
    "Verif.EPS.C37_real",
    "Verif.EPS.C37_tiny_partial",
    "Verif.EPS.C37_complex",
    "Verif.EPS.C37_false"
   ],
   "note": "exact arithmetic; values smaller than machine precision up to a bound; false when a nonzero imaginary part is negligible (witness)."
  },
  {
   "property": "C38",
   "status": "partial",
   "theorems": [
    "Verif.PEP.C38_evaluation",
    "Verif.PEP.C38_derivatives",
    "Verif.PEP.C38_classical_partial",
    "Verif.PEP.C38_complex_argument_partial",
    "Verif.PEP.C38_legendre_false",
    "Verif.PEP.C38_laguerre_false",
    "Verif.PEP.C38_hermite_false",
    "Verif.PEP.C38_hermite_rotated",
    "Verif.PEP.C38_solvers_partial",
    "Verif.PEP.C38_ciss_false",
    "Verif.PEP.C38_scaled_evaluation",
    "Verif.PEP.C38_scaling_restored"
   ],
   "note": "the coefficients for the Legendre, Laguerre and Hermite bases are not those of the classical polynomials, and PEPCISS ignores the basis (witnesses)."
  },
  {
   "property": "C39",
   "status": "partial",
   "theorems": [
    "Verif.PEP.C39_forward",
    "Verif.PEP.C39_converse_partial",
    "Verif.PEP.C39_converse_false",
    "Verif.PEP.C39_general_default",
    "Verif.PEP.C39_general",
    "Verif.PEP.C39_parameters"
   ],
   "note": "the converse fails for some parameters, and for singular K with the Hermitian and gyroscopic ones (witnesses)."
  },
  {
   "property": "C40",
   "status": "proved",
   "theorems": [
    "Verif.SVD.C40_index",
    "Verif.SVD.C40_order_largest",
    "Verif.SVD.C40_order_smallest",
    "Verif.SVD.C40_complete",
    "Verif.SVD.C40_sides",
    "Verif.SVD.C40_work_shape"
   ],
   "note": "PETSc's sort is given by its contract; the internal triplets are assumed to be triplets of the working matrix."
  },
  {
   "property": "C41",
   "status": "proved",
   "theorems": [
    "Verif.Spaces.C41_no_use_after_free",
    "Verif.Spaces.C41_balanced",
    "Verif.Spaces.C41_released"
   ],
   "note": "EPS; the other classes use the same two functions."
  },
  {
   "property": "C42",
   "status": "partial",
   "theorems": [
    "Verif.ST.Tr.C42_apply",
    "Verif.ST.Tr.C42_transpose",
    "Verif.ST.Tr.C42_hermitian",
    "Verif.ST.Tr.C42_hermitian_fallback",
    "Verif.ST.Tr.C42_balance",
    "Verif.ST.Tr.C42_cayley_mult",
    "Verif.ST.Tr.C42_cayley_transpose_partial",
    "Verif.ST.Tr.C42_cayley_transpose_false"
   ],
   "note": "all types and modes except the transposed in-place Cayley numerator with complex shifts, false of the code."
  },
  {
   "property": "C43",
   "status": "proved",
   "theorems": [
    "Verif.FN.C43_eigenpairs",
    "Verif.FN.C43_rational"
   ],
   "note": "dense kernels of exp/log/sqrt/invsqrt and LAPACK syev are assumed correct (hypotheses of the theorem)."
  },
  {
   "property": "C44",
   "status": "proved",
   "theorems": [
    "Verif.FN.C44_first_column"
   ],
   "note": "first-column variants of the dense kernels assumed to agree with the full ones."
  },
  {
   "property": "C45",
   "status": "proved",
   "theorems": [
    "Verif.FN.C45_phi_vec"
   ],
   "note": "the exponential of the auxiliary matrix is assumed exact."
  },
  {
   "property": "C46",
   "status": "partial",
   "theorems": [
    "Verif.FN.C46_parallel_partial",
    "Verif.FN.C46_parallel_false"
   ],
   "note": "false when a nested function is synchronized inside a redundant one; negation proved."
  },
  {
   "property": "C47",
   "status": "partial",
   "theorems": [
    "Verif.DS.C47_ds_partial",
    "Verif.DS.C47_ds_false",
    "Verif.DS.C47_ds_rejected",
    "Verif.FN.setMethod_partial",
    "Verif.FN.setMethod_false"
   ],
   "note": "the value one past the table is accepted (witness)."
  },
  {
   "property": "C48",
   "status": "partial",
   "theorems": [
    "Verif.Contour.C48_sum_partial",
    "Verif.Contour.C48_sum_stale",
    "Verif.Contour.C48_sum_false",
    "Verif.Contour.C48_dot",
    "Verif.Contour.C48_trace_partial",
    "Verif.Contour.C48_trace_false",
    "Verif.Contour.C48_scatter"
   ],
   "note": "BVDotQuadrature proved in full; BVSumQuadrature with several partitions adds to the previous content and BVTraceQuadrature does not clear its work vector (negations proved)."
  },
  {
   "property": "C49",
   "status": "partial",
   "theorems": [
    "Verif.Contour.C49_region_partial",
    "Verif.Contour.C49_never_detected",
    "Verif.Contour.C49_region_false"
   ],
   "note": "false of the code: the region id is never stored; proved for an unchanged region."
  },
  {
   "property": "C50",
   "status": "partial",
   "theorems": [
    "Verif.Contour.C50_sizes_partial",
    "Verif.Contour.C50_sizes_false"
   ],
   "note": "false of the code for 2 integration points (moment size 0); proved with the hypothesis excluding it."
  },
  {
   "property": "C51",
   "status": "proved",
   "theorems": [
    "Verif.Contour.C51_hankel",
    "Verif.Contour.C51_resize"
   ],
   "note": ""
  },
  {
   "property": "C52",
   "status": "proved",
   "theorems": [
    "Verif.Contour.C52_ellipse",
    "Verif.Contour.C52_chebyshev",
    "Verif.Contour.C52_trapezoidal",
    "Verif.Contour.C52_normalized",
    "Verif.Contour.C52_filter"
   ],
   "note": "exact arithmetic; barycentric rule for pairwise distinct points."
  },
  {
   "property": "C53",
   "status": "partial",
   "theorems": [
    "Verif.Contour.C53_ellipse",
    "Verif.Contour.C53_interval_chebyshev",
    "Verif.Contour.C53_interval_trapezoidal_partial",
    "Verif.Contour.C53_interval_false",
    "Verif.Contour.C53_ring"
   ],
   "note": "false of the code for an interval with the trapezoidal rule off the real axis (negation proved)."
  },
  {
   "property": "C54",
   "status": "partial",
   "theorems": [
    "Verif.VecComp.C54_elementwise",
    "Verif.VecComp.C54_max_partial",
    "Verif.VecComp.C54_max_false"
   ],
   "note": "VecMax does not return the index if the maximum is in the first component (negation proved); VecMin is the mirror image and not modelled separately."
  },
  {
   "property": "C55",
   "status": "proved",
   "theorems": [
    "Verif.DS.C55_sort_hep"
   ],
   "note": "without auxiliary values rr, ri."
  },
  {
   "property": "C56",
   "status": "partial",
   "theorems": [
    "Verif.DS.C56_truncate_size",
    "Verif.DS.C56_full_size_false",
    "Verif.DS.C56_refused",
    "Verif.DS.C56_nhepts_false"
   ],
   "note": "false when the requested size is the full one and an extra row is present, and the check of the two-sided variant misses some cases (witnesses)."
  },
  {
   "property": "C57",
   "status": "partial",
   "theorems": [
    "Verif.DS.C57_truncate_partial",
    "Verif.DS.C57_truncate_false",
    "Verif.DS.C57_update",
    "Verif.DS.C57_update_compact"
   ],
   "note": "truncating at the current size clears the extra row (witness)."
  },
  {
   "property": "C58",
   "status": "proved",
   "theorems": [
    "Verif.DS.C58_sort"
   ],
   "note": "LAPACK trexc assumed to move one diagonal block."
  },
  {
   "property": "C59",
   "status": "partial",
   "theorems": [
    "Verif.DS.C59_permutation_partial",
    "Verif.DS.C59_reversed_pair_false",
    "Verif.DS.C59_split_pair_rejected"
   ],
   "note": "a pair given in decreasing order passes the check but is not moved (witness)."
  },
  {
   "property": "C60",
   "status": "partial",
   "theorems": [
    "Verif.BV.C60_views_partial",
    "Verif.BV.C60_resize_false",
    "Verif.BV.C60_available_partial",
    "Verif.BV.C60_available_false",
    "Verif.BV.C60_restore_partial",
    "Verif.BV.C60_again",
    "Verif.BV.C60_restore_false"
   ],
   "note": "false after BVResize, after removing constraints, and for the restore check with constraints (witnesses)."
  },
  {
   "property": "C61",
   "status": "partial",
   "theorems": [
    "Verif.BV.C61_partial",
    "Verif.BV.C61_false"
   ],
   "note": "the cached product survives BVSetMatrix (witness)."
  },
  {
   "property": "C62",
   "status": "partial",
   "theorems": [
    "Verif.EPS.C62_pep",
    "Verif.EPS.C62_nep_partial",
    "Verif.EPS.C62_nep_false"
   ],
   "note": "false for NEP with nev larger than the matrix size (witness)."
  },
  {
   "property": "C63",
   "status": "partial",
   "theorems": [
    "Verif.EPS.C63_hamilt_partial",
    "Verif.EPS.C63_hamilt_false",
    "Verif.EPS.C63_bse",
    "Verif.EPS.C63_bse_real",
    "Verif.EPS.C63_lrep",
    "Verif.EPS.C63_lrep_reduced"
   ],
   "note": "false for Hamiltonian problems when the criterion is not a magnitude one (witness)."
  },
  {
   "property": "C64",
   "status": "partial",
   "theorems": [
    "Verif.EPS.C64_bse",
    "Verif.EPS.C64_lrep",
    "Verif.EPS.C64_hep_false",
    "Verif.EPS.C64_hep_error"
   ],
   "note": "false for Hermitian problems: error, or sign change if the matrix is nested (witness)."
  },
  {
   "property": "C65",
   "status": "partial",
   "theorems": [
    "Verif.EPS.C65_partial",
    "Verif.EPS.C65_errest",
    "Verif.EPS.C65_nan_false"
   ],
   "note": "an estimate that is not a number counts as converged (witness)."
  },
  {
   "property": "C66",
   "status": "partial",
   "theorems": [
    "Verif.EPS.C66_abs_rel",
    "Verif.EPS.C66_norm_partial",
    "Verif.EPS.C66_standard_false",
    "Verif.EPS.C66_history_false",
    "Verif.EPS.C66_late_false"
   ],
   "note": "false of the norm criterion for standard problems and when selected after set-up (witnesses)."
  },
  {
   "property": "C67",
   "status": "partial",
   "theorems": [
    "Verif.EPS.C67_bv",
    "Verif.EPS.C67_bse",
    "Verif.EPS.C67_hamilt_false",
    "Verif.EPS.C67_lrep_false"
   ],
   "note": "false for Hamiltonian and reduced linear response problems (witnesses)."
  },
  {
   "property": "C68",
   "status": "partial",
   "theorems": [
    "Verif.EPS.C68",
    "Verif.EPS.C68_hamilt",
    "Verif.EPS.C68_vectors",
    "Verif.EPS.LeftPairs.C68_left_partial",
    "Verif.EPS.LeftPairs.C68_left_false"
   ],
   "note": "Values: all problems. Right vectors: all but Hamiltonian problems (there only the order of the values). Left vectors computed in the loop at the end of EPSSolve: right if at most one pair is exchanged (C68_left_partial); from the second exchanged pair on the left vector belongs to the conjugate value (C68_left_false, disagreement 159). C68_vectors covers left vectors only if they are already final when the loop starts."
  },
  {
   "property": "C69",
   "status": "partial",
   "theorems": [
    "Verif.PEP.C69_extraction_partial",
    "Verif.PEP.C69_gyroscopic_false",
    "Verif.PEP.C69_residual_rule"
   ],
   "note": "gyroscopic problems with eigenvalue 0 give a zero vector (witness)."
  },
  {
   "property": "C70",
   "status": "partial",
   "theorems": [
    "Verif.PEP.C70_companion",
    "Verif.PEP.C70_shift",
    "Verif.PEP.C70_sinvert_partial",
    "Verif.PEP.C70_eigenvalues",
    "Verif.PEP.C70_sinvert_false"
   ],
   "note": "shift-and-invert is wrong for degree at least 3 with a non-monomial basis (witness). Linear solves are assumed exact."
  },
  {
   "property": "C71",
   "status": "partial",
   "theorems": [
    "Verif.PEP.C71_toar_step_partial",
    "Verif.PEP.C71_stale_false"
   ],
   "note": "conditions on the previous content of the coefficient array; one of them shown necessary (witness). Exact arithmetic."
  },
  {
   "property": "C72",
   "status": "partial",
   "theorems": [
    "Verif.PEP.C72_pair",
    "Verif.PEP.C72_real",
    "Verif.PEP.C72_complex",
    "Verif.PEP.C72_tiny_false",
    "Verif.PEP.C72_errors",
    "Verif.PEP.C72_inplace_false"
   ],
   "note": "false when a nonzero imaginary part is negligible, and after in-place changes of the matrices (witnesses). Exact arithmetic."
  },
  {
   "property": "C73",
   "status": "partial",
   "theorems": [
    "Verif.SVD.C73_bound",
    "Verif.SVD.C73_relative",
    "Verif.SVD.C73_norm",
    "Verif.SVD.C73_exact_standard",
    "Verif.SVD.C73_exact_generalized",
    "Verif.SVD.C73_exact_hyperbolic",
    "Verif.SVD.C73_zero_standard",
    "Verif.SVD.C73_generalized_zero_false",
    "Verif.SVD.C73_norms_current",
    "Verif.SVD.C73_criterion_partial",
    "Verif.SVD.C73_criterion_values",
    "Verif.SVD.C73_criterion_late_false"
   ],
   "note": "the norm criterion selected after set-up divides by a zero norm, and a zero error of a generalized triplet does not make it one (witnesses). Exact arithmetic."
  },
  {
   "property": "C74",
   "status": "partial",
   "theorems": [
    "Verif.Spaces.C74_right_partial",
    "Verif.Spaces.C74_deflation_partial",
    "Verif.Spaces.C74_left_first_partial",
    "Verif.Spaces.C74_left_persists",
    "Verif.Spaces.C74_right_lost_resize",
    "Verif.Spaces.C74_right_lost_deflation",
    "Verif.Spaces.C74_deflation_not_withdrawn",
    "Verif.Spaces.C74_deflation_second_setup"
   ],
   "note": "false for the left space in later solves and for several call orders with a separate set-up (witnesses)."
  },
  {
   "property": "C75",
   "status": "proved",
   "theorems": [
    "Verif.SVD.C75_adjoint",
    "Verif.SVD.C75_scaled",
    "Verif.SVD.C75_swapped",
    "Verif.SVD.C75_monitor"
   ],
   "note": "exact arithmetic; the Lanczos recurrence itself is not part of this statement."
  },
  {
   "property": "C76",
   "status": "partial",
   "theorems": [
    "Verif.SVD.C76_cross_operator",
    "Verif.SVD.C76_cross_explicit",
    "Verif.SVD.C76_diagonal_partial",
    "Verif.SVD.C76_diagonal_false",
    "Verif.SVD.C76_cross_standard",
    "Verif.SVD.C76_cross_complete",
    "Verif.SVD.C76_left_vectors",
    "Verif.SVD.C76_left_sign_false",
    "Verif.SVD.C76_cross_generalized",
    "Verif.SVD.C76_generalized_zero_false",
    "Verif.SVD.C76_columns_orthogonal",
    "Verif.SVD.C76_cross_hyperbolic",
    "Verif.SVD.C76_cross_swapped_partial",
    "Verif.SVD.C76_cross_swapped_false",
    "Verif.SVD.C76_cyclic_operators",
    "Verif.SVD.C76_cyclic_diagonal_partial",
    "Verif.SVD.C76_cyclic_standard",
    "Verif.SVD.C76_cyclic_complete",
    "Verif.SVD.C76_cyclic_largest",
    "Verif.SVD.C76_cyclic_smallest",
    "Verif.SVD.C76_cyclic_hyperbolic_complex",
    "Verif.SVD.C76_cyclic_hyperbolic_real"
   ],
   "note": "false for the diagonal in complex arithmetic, for value 0 of generalized problems, for the sign of left vectors when the orthogonalization returns a negative diagonal, and for hyperbolic problems with fewer rows than columns (witnesses). Eigenpairs are assumed exact."
  },
  {
   "property": "C77",
   "status": "partial",
   "theorems": [
    "Verif.SVD.C77_aligned_partial",
    "Verif.SVD.C77_values",
    "Verif.SVD.C77_vectors",
    "Verif.SVD.C77_false"
   ],
   "note": "values and vectors get out of step exactly when a zero eigenvalue precedes a positive one (witness)."
  },
  {
   "property": "C78",
   "status": "partial",
   "theorems": [
    "Verif.SVD.C78_equal_partial",
    "Verif.SVD.C78_counts",
    "Verif.SVD.C78_right_only_false",
    "Verif.SVD.C78_left_only_false"
   ],
   "note": "only with equal numbers of left and right vectors; otherwise invalid memory accesses (witnesses)."
  },
  {
   "property": "C79",
   "status": "partial",
   "theorems": [
    "Verif.SVD.C79_cross_end_partial",
    "Verif.SVD.C79_cross_end_false",
    "Verif.SVD.C79_cross_accepted_partial",
    "Verif.SVD.C79_cross_type_false",
    "Verif.SVD.C79_cross_values",
    "Verif.SVD.C79_cross_tolerance_false",
    "Verif.SVD.C79_cyclic_end",
    "Verif.SVD.C79_cyclic_dims_partial",
    "Verif.SVD.C79_cyclic_more_false",
    "Verif.SVD.C79_cyclic_tolerance_false",
    "Verif.SVD.C79_cyclic_ncv_false"
   ],
   "note": "several settings persist in the internal eigensolver (witnesses)."
  },
  {
   "property": "C80",
   "status": "proved",
   "theorems": [
    "Verif.BV.C80_arnoldi",
    "Verif.BV.C80_invariant",
    "Verif.BV.C80_unreduced"
   ],
   "note": "exact arithmetic; refinement with eta at most 1."
  },
  {
   "property": "C81",
   "status": "proved",
   "theorems": [
    "Verif.BV.C81_lanczos"
   ],
   "note": "exact arithmetic; refinement with eta at most 1."
  },
  {
   "property": "C82",
   "status": "proved",
   "theorems": [
    "Verif.MFN.C82_exact",
    "Verif.MFN.C82_polynomial"
   ],
   "note": "exact arithmetic; the evaluation of the function on dense matrices is a parameter."
  },
  {
   "property": "C83",
   "status": "partial",
   "theorems": [
    "Verif.MFN.C83_reason_partial",
    "Verif.MFN.C83_update",
    "Verif.MFN.C83_single_false",
    "Verif.MFN.C83_singular_false"
   ],
   "note": "false with a single restart, and a singular matrix is passed to the function after an early invariant subspace (both proved for all operators)."
  },
  {
   "property": "C84",
   "status": "partial",
   "theorems": [
    "Verif.MFN.Expokit.C84_retry",
    "Verif.MFN.Expokit.C84_steps_partial",
    "Verif.MFN.Expokit.C84_exponential",
    "Verif.MFN.Expokit.C84_exhausted_false",
    "Verif.MFN.Expokit.C84_last_false",
    "Verif.MFN.Expokit.C84_zero_false"
   ],
   "note": "false when rejections are exhausted, in the last permitted iteration and for time zero (witnesses). Steps, breakdowns and error estimates are parameters."
  },
  {
   "property": "C85",
   "status": "partial",
   "theorems": [
    "Verif.MFN.State.C85_solve",
    "Verif.MFN.State.C85_transpose_partial",
    "Verif.MFN.State.C85_restricted_partial",
    "Verif.MFN.State.C85_transpose_false",
    "Verif.MFN.State.C85_function_false",
    "Verif.MFN.State.C85_size_false"
   ],
   "note": "MFNSolve is right; the transposed solve and the check of the exponential solver are not (witnesses)."
  },
  {
   "property": "C86",
   "status": "partial",
   "theorems": [
    "Verif.LME.C86_residual_partial",
    "Verif.LME.C86_frobenius",
    "Verif.LME.C86_false_restart"
   ],
   "note": "true for a single cycle (spectral norm, attained); false after restarts (witness); the Frobenius norm is larger by sqrt 2. Exact arithmetic, dense solver assumed (C87)."
  },
  {
   "property": "C87",
   "status": "partial",
   "theorems": [
    "Verif.LME.C87_lyapunov_partial",
    "Verif.LME.C87_hessLyapunovChol_partial",
    "Verif.LME.C87_false_leading_dimension"
   ],
   "note": "LAPACK kernels assumed to do what they document; false if the leading dimension of the result is not the size (witness). Library SLICOT not modelled."
  },
  {
   "property": "C88",
   "status": "partial",
   "theorems": [
    "Verif.LME.C88_solution_partial",
    "Verif.LME.C88_false_fixed_rank",
    "Verif.LME.C88_false_short_cycle"
   ],
   "note": "true with full numerical rank and cycles of equal length; false with a fixed rank and when the last cycle is shorter (witnesses). Numerical rank truncation not covered."
  },
  {
   "property": "C89",
   "status": "partial",
   "theorems": [
    "Verif.TestSel.C89_applied",
    "Verif.TestSel.C89_applied_partial",
    "Verif.TestSel.C89_applied_false",
    "Verif.TestSel.C89_svd_null_false",
    "Verif.TestSel.C89_svd_partial",
    "Verif.TestSel.C89_power_false",
    "Verif.TestSel.C89_getter",
    "Verif.TestSel.C89_contexts"
   ],
   "note": "proved for the stopping tests of EPS and SVD; false for predefined functions in the others (witnesses)."
  },
  {
   "property": "C90",
   "status": "partial",
   "theorems": [
    "Verif.LME.C90_solution_partial",
    "Verif.LME.C90_residual_partial",
    "Verif.LME.C90_false_second_solve"
   ],
   "note": "true for the first call without a given matrix; a second call adds the solution to the previous one (witness)."
  },
  {
   "property": "C91",
   "status": "partial",
   "theorems": [
    "Verif.LME.C91_diverged_partial",
    "Verif.LME.C91_iterations",
    "Verif.LME.C91_false_first_column"
   ],
   "note": "the reason is right from the second column on; failure of the first column is an error, and the iteration number is always too large by at least one."
  },
  {
   "property": "C92",
   "status": "partial",
   "theorems": [
    "Verif.EPS.KS.C92_decomposition_partial",
    "Verif.EPS.KS.C92_false_spike",
    "Verif.EPS.KS.C92_false_breakdown"
   ],
   "note": "complex scalars, locking variant, exact arithmetic, dense solver assumed to do what it documents. False when all values but one converge and when a breakdown leaves values not accepted (witnesses). Harmonic extraction, Hermitian and two-sided variants not covered."
  },
  {
   "property": "C93",
   "status": "partial",
   "theorems": [
    "Verif.EPS.KS.C93_residual_partial",
    "Verif.EPS.KS.C93_exact_partial",
    "Verif.EPS.KS.C92_false_spike"
   ],
   "note": "as C92; exact while nothing is locked, later up to the residuals dropped with the locked columns; false without room for new vectors (witness)."
  },
  {
   "property": "C94",
   "status": "partial",
   "theorems": [
    "Verif.EPS.KS.C94_room_partial",
    "Verif.EPS.KS.C94_false"
   ],
   "note": "mpd at least 2; false for mpd=1 (witness)."
  },
  {
   "property": "C95",
   "status": "partial",
   "theorems": [
    "Verif.EPS.KS.C95_locked_partial",
    "Verif.EPS.KS.C95_false"
   ],
   "note": "complex scalars; false for real scalars (witness)."
  },
  {
   "property": "C96",
   "status": "partial",
   "theorems": [
    "Verif.NEP.Interpol.C96_nodes_partial",
    "Verif.NEP.Interpol.C96_exact_partial",
    "Verif.NEP.Interpol.C96_false",
    "Verif.NEP.Interpol.C96_false_default"
   ],
   "note": "true when the degree is not reduced; the reduction stops at a single small coefficient, wrong for x^4 with every maximum degree from 4 on; PETSC_DETERMINE as degree gives a constant polynomial."
  },
  {
   "property": "C97",
   "status": "partial",
   "theorems": [
    "Verif.NEP.Interpol.C97_complex",
    "Verif.NEP.Interpol.C97_region",
    "Verif.NEP.Interpol.C97_real_partial",
    "Verif.NEP.Interpol.C97_false"
   ],
   "note": "proved for complex scalars; with real scalars the second member of each pair keeps old values (witness for all intervals)."
  },
  {
   "property": "C98",
   "status": "partial",
   "theorems": [
    "Verif.NEP.Apply.C98_function",
    "Verif.NEP.Apply.C98_adjoint_partial",
    "Verif.NEP.Apply.C98_false_callback",
    "Verif.NEP.Apply.C98_false_split"
   ],
   "note": "the adjoint is right exactly for real matrices."
  },
  {
   "property": "C99",
   "status": "partial",
   "theorems": [
    "Verif.NEP.Resolv.C99_sum",
    "Verif.NEP.Resolv.C99_inverse",
    "Verif.NEP.Resolv.C99_false_real"
   ],
   "note": "sum proved for all histories; inverse for linear problems with different eigenvalues; false for real scalars with complex pairs (witness)."
  },
  {
   "property": "C100",
   "status": "partial",
   "theorems": [
    "Verif.NEP.Apply.C100_right_partial",
    "Verif.NEP.Apply.C100_twosided_partial",
    "Verif.NEP.Apply.C100_false_zero",
    "Verif.NEP.Apply.C100_false_adjoint",
    "Verif.NEP.Apply.C100_false_left"
   ],
   "note": "one-sided errors proved for all histories when the divisor is not zero; two-sided only for real matrices and vectors of equal norm (witnesses)."
  },
  {
   "property": "C101",
   "status": "partial",
   "theorems": [
    "Verif.NEP.C101_split_partial",
    "Verif.NEP.C101_callback_partial",
    "Verif.NEP.C101_exact_partial",
    "Verif.NEP.C101_exact_split_partial",
    "Verif.NEP.C101_false",
    "Verif.NEP.C101_ksp_partial"
   ],
   "note": "interpolation proved; the truncation test stops at a single small difference (proved for all nodes)."
  },
  {
   "property": "C102",
   "status": "partial",
   "theorems": [
    "Verif.NEP.C102_bounded_partial",
    "Verif.NEP.C102_false",
    "Verif.NEP.C102_ok_partial"
   ],
   "note": "true while the selection finds new points; more terms than points never succeed."
  },
  {
   "property": "C103",
   "status": "partial",
   "theorems": [
    "Verif.NEP.C103_forward_partial",
    "Verif.NEP.C103_backward_partial",
    "Verif.NEP.C103_compact_partial",
    "Verif.NEP.C103_false"
   ],
   "note": "exact inner solves; true when the last pole is at infinity, false for a finite last pole."
  },
  {
   "property": "C104",
   "status": "partial",
   "theorems": [
    "Verif.NEP.C104_transpose_partial",
    "Verif.NEP.C104_left_partial",
    "Verif.NEP.C104_false"
   ],
   "note": "true in callback form and for symmetric matrices; false in split form for every nonsymmetric matrix (one term)."
  },
  {
   "property": "C105",
   "status": "partial",
   "theorems": [
    "Verif.NEP.Sing.C105_partial",
    "Verif.NEP.Sing.C105_false_other",
    "Verif.NEP.Sing.C105_false_poly",
    "Verif.NEP.Sing.C105_false_scale"
   ],
   "note": "true for unscaled rational functions and their sums and products with some pole; otherwise uninitialized data is read, and scaling of the argument is ignored."
  },
  {
   "property": "C106",
   "status": "partial",
   "theorems": [
    "Verif.Slice.slice_exact_partial",
    "Verif.Slice.slice_detect_partial"
   ],
   "note": "exact arithmetic, the Lanczos process at each shift is assumed to deliver only eigenvalues not deflated (not that it delivers all); without detection of zeros no shift may be an eigenvalue, with detection nothing is assumed on the shifts. Termination is not claimed."
  },
  {
   "property": "C107",
   "status": "partial",
   "theorems": [
    "Verif.Slice.slice_ordered_partial",
    "Verif.Slice.slice_detect_partial"
   ],
   "note": "same assumptions as C106."
  },
  {
   "property": "C108",
   "status": "partial",
   "theorems": [
    "Verif.Slice.slice_inertias_partial",
    "Verif.Slice.parts_inertias_partial"
   ],
   "note": "same assumptions as C106; one and several partitions."
  },
  {
   "property": "C109",
   "status": "partial",
   "theorems": [
    "Verif.Slice.moved_between_partial",
    "Verif.Slice.bisected_wide",
    "Verif.Slice.moved_passes_neighbour",
    "Verif.Slice.slice_null_dereference"
   ],
   "note": "true between two neighbours at sufficient distance (which holds in runs); without right neighbour a null pointer is dereferenced (witness run)."
  },
  {
   "property": "C110",
   "status": "partial",
   "theorems": [
    "Verif.Slice.extract_scheduled_partial",
    "Verif.Slice.extract_null_only_place",
    "Verif.Slice.narrow_searched_again",
    "Verif.Slice.slice_stale_entry"
   ],
   "note": "true for every state reached by pushing new shifts; a second push of a narrow interval in the same iteration uses a stale entry of the stack (witness run)."
  },
  {
   "property": "C111",
   "status": "partial",
   "theorems": [
    "Verif.Slice.parts_union_partial",
    "Verif.Slice.uniform_cover",
    "Verif.Slice.moved_bound_outside",
    "Verif.Slice.race_free",
    "Verif.Slice.race_double_count"
   ],
   "note": "proved when buffers are unchanged until received and no bound is moved past its neighbour; both can fail (witnesses)."
  },
  {
   "property": "C112",
   "status": "partial",
   "theorems": [
    "Verif.BVB.Block.chol_partial",
    "Verif.BVB.Block.tsqr_partial",
    "Verif.BVB.Block.tsqr_stale",
    "Verif.BVB.Block.tsqrchol_partial",
    "Verif.BVB.Block.svqb_partial",
    "Verif.BVB.Block.svqb_complex_false",
    "Verif.BVB.Block.chol_lda_false"
   ],
   "note": "exact arithmetic, kernels of LAPACK by contract; proved for CHOL, TSQR, TSQRCHOL, and SVQB in real arithmetic; R of the user is right only for LDA equal to the number of rows, TSQR leaves old entries below the diagonal of the user R, and SVQB is wrong in complex arithmetic (witnesses). The Gram-Schmidt method is C31."
  },
  {
   "property": "C113",
   "status": "proved",
   "theorems": [
    "Verif.BVB.Tsqr.tsqr_correct",
    "Verif.BVB.Tsqr.qr1_ok"
   ],
   "note": "exact arithmetic; local QR kernels by contract, which is satisfiable."
  },
  {
   "property": "C114",
   "status": "proved",
   "theorems": [
    "Verif.BVB.tsqr_onlyR",
    "Verif.BVB.tsqr_onlyR_unique",
    "Verif.BVB.tree_gram",
    "Verif.BVB.lartgReal_ok"
   ],
   "note": "exact arithmetic; rotations by contract, which is satisfiable."
  },
  {
   "property": "C115",
   "status": "partial",
   "theorems": [
    "Verif.BVB.multInPlace_partial",
    "Verif.BVB.multInPlace_types",
    "Verif.BVB.multInPlaceH_partial",
    "Verif.BVB.memory_version_inactive",
    "Verif.BVB.trans_not_conjugated",
    "Verif.BVB.trans_all_columns"
   ],
   "note": "true for active columns; the memory-efficient version of BVVECS is wrong for e beyond the active columns, and the transposed version neither conjugates nor keeps to the active columns (witnesses)."
  },
  {
   "property": "C116",
   "status": "proved",
   "theorems": [
    "Verif.BVB.Biorth.biorthogonalizeColumn",
    "Verif.BVB.Biorth.biorthonormalizeColumn",
    "Verif.BVB.Biorth.biorthonormalize_all",
    "Verif.BVB.Biorth.delta_zero_iff",
    "Verif.BVB.Biorth.breakdown"
   ],
   "note": "exact arithmetic; previous columns biorthonormal; a vanishing product is visible as delta=0 but is no error."
  },
  {
   "property": "C117",
   "status": "proved",
   "theorems": [
    "Verif.BVB.Insert.insertVecs_orth",
    "Verif.BVB.Insert.insertVecs_copy",
    "Verif.BVB.Insert.insertConstraints_ok",
    "Verif.BVB.Insert.constraints_respected"
   ],
   "note": "exact arithmetic, definite inner product, eta at most 1."
  },
  {
   "property": "C118",
   "status": "partial",
   "theorems": [
    "Verif.BVB.Random.reproducible",
    "Verif.BVB.Random.entries",
    "Verif.BVB.Random.same_seed_partial",
    "Verif.BVB.Random.late_option",
    "Verif.BVB.Random.option_needed"
   ],
   "note": "real scalars; proved when all processes have the same stream, which holds if the option is read before the generator is created and fails otherwise (witness)."
  },
  {
   "property": "C119",
   "status": "partial",
   "theorems": [
    "Verif.BVB.bvdot_partial",
    "Verif.BVB.bvdot_distribution_partial",
    "Verif.BVB.empty_untouched",
    "Verif.BVB.colwise_lda"
   ],
   "note": "false for zero local rows in one process runs and, for the product by columns, for a leading dimension different from the number of rows (witnesses)."
  },
  {
   "property": "C120",
   "status": "partial",
   "theorems": [
    "Verif.BVB.matproject_partial",
    "Verif.BVB.matproject_blocks",
    "Verif.BVB.second_wrong",
    "Verif.BVB.second_oob",
    "Verif.BVB.second_err",
    "Verif.BVB.vec_overflow"
   ],
   "note": "true except for the variant with X different from Y by blocks without leading columns of one of them, where an entry is written in the wrong place (witnesses)."
  },
  {
   "property": "C121",
   "status": "partial",
   "theorems": [
    "Verif.BVB.Norm.norm_frobenius",
    "Verif.BVB.Norm.norm_one",
    "Verif.BVB.Norm.norm_infinity",
    "Verif.BVB.Norm.norm_independent",
    "Verif.BVB.Norm.normalize_ok",
    "Verif.BVB.Norm.blocks_single",
    "Verif.BVB.Norm.truncated_pair"
   ],
   "note": "exact arithmetic; proved for all norms and for BVNormalize unless a pair is cut by the end of the active columns (witness)."
  },
  {
   "property": "C122",
   "status": "partial",
   "theorems": [
    "Verif.BVB.Cond.fixed_cond_partial",
    "Verif.BVB.Cond.code_cond_squared",
    "Verif.BVB.Cond.code_out_of_bounds"
   ],
   "note": "false: the code multiplies in the wrong order (condition number squared in the simplest case) and writes out of bounds when not all columns are active; proved only for the order the comment tells."
  },
  {
   "property": "C123",
   "status": "proved",
   "theorems": [
    "Verif.GKL.twoSide_ok",
    "Verif.GKL.twoSide_injective"
   ],
   "note": "exact arithmetic, real or complex; all Gram-Schmidt variants with eta at most 1."
  },
  {
   "property": "C124",
   "status": "partial",
   "theorems": [
    "Verif.GKL.C124_partial",
    "Verif.GKL.C124_start",
    "Verif.GKL.C124_ends",
    "Verif.GKL.Def.C124_rank_deficient",
    "Verif.GKL.trCycle_left_breakdown",
    "Verif.GKL.C124_null",
    "Verif.GKL.exactDense_ok"
   ],
   "note": "proved for matrices with full column rank, two-sided variant, locking, keep<1, nsv<ncv, mpd>=2, exact arithmetic, dense solver by a contract that is shown satisfiable; false for matrices without full column rank and for start vectors in the null space (witnesses). Missing: non-locking variant, one-sided variants, threshold stopping."
  },
  {
   "property": "C125",
   "status": "partial",
   "theorems": [
    "Verif.GKL.C125_residual",
    "Verif.GKL.C124_partial",
    "Verif.GKL.C128_partial"
   ],
   "note": "exact arithmetic; the state of the converged triplets (Locked) is an invariant of both solvers (two-sided), with full column rank for SVDTRLANCZOS. Missing: non-locking and one-sided variants."
  },
  {
   "property": "C126",
   "status": "partial",
   "theorems": [
    "Verif.GKL.C126_tr_partial",
    "Verif.GKL.C126_l_partial"
   ],
   "note": "all matrices and all dense solvers; two-sided variants. Missing: one-sided variants, threshold stopping."
  },
  {
   "property": "C127",
   "status": "partial",
   "theorems": [
    "Verif.GKL.C127_mgs",
    "Verif.GKL.C127_cgs",
    "Verif.GKL.C127_l",
    "Verif.GKL.C127_mgs_silent",
    "Verif.GKL.C127_last_silent"
   ],
   "note": "exact arithmetic, locked triplets exact; the same bases and arrays for all variants. That a breakdown is reported is false for modified Gram-Schmidt and in the last step (witnesses)."
  },
  {
   "property": "C128",
   "status": "partial",
   "theorems": [
    "Verif.GKL.C128_partial",
    "Verif.GKL.C128_start",
    "Verif.GKL.C128_which",
    "Verif.GKL.C128_null"
   ],
   "note": "matrices of any rank, exact arithmetic, two-sided variant, random vectors independent of the converged ones; false if the first start vector is in the null space (witness). Missing: one-sided variant, threshold stopping."
  },
  {
   "property": "C129",
   "status": "proved",
   "theorems": [
    "Verif.Filt.C129"
   ],
   "note": "exact arithmetic."
  },
  {
   "property": "C130",
   "status": "proved",
   "theorems": [
    "Verif.Filt.C130_eval",
    "Verif.Filt.C130_mulX",
    "Verif.Filt.C130_inner"
   ],
   "note": "exact arithmetic, intervals of positive length (evaluation and multiplication are stated for each interval of positive length)."
  },
  {
   "property": "C131",
   "status": "proved",
   "theorems": [
    "Verif.Filt.seq_best",
    "Verif.Filt.dist2_eq",
    "Verif.Filt.C131"
   ],
   "note": "exact arithmetic; partition of a range that starts at a number not negative (the code shifts the matrix) with at least one interval of positive length."
  },
  {
   "property": "C132",
   "status": "proved",
   "theorems": [
    "Verif.Filt.C132",
    "Verif.Filt.C132_eigen",
    "Verif.Filt.seq_best",
    "Verif.Filt.C133_frame"
   ],
   "note": "exact arithmetic."
  },
  {
   "property": "C133",
   "status": "partial",
   "theorems": [
    "Verif.Filt.C133_partial",
    "Verif.Filt.C133_errors",
    "Verif.Filt.C133_frame",
    "Verif.Filt.C133_stale",
    "Verif.Filt.C133_grid",
    "Verif.Filt.C133_onesided_false",
    "Verif.Filt.C133_range_partial",
    "Verif.Filt.C133_range_false",
    "Verif.Filt.C133_type_forgets_range",
    "Verif.Filt.C133_all_filtlan",
    "Verif.Filt.C133_all_cheb_false"
   ],
   "note": "proved for all histories without STGetOperator between and with the number of grid points of a new object; the rest of the claim is false (witnesses): operator of the old type kept, grid points kept, one-sided interval always rejected, user range overwritten after an estimate, interval equal to the range accepted by the Chebyshev filter."
  },
  {
   "property": "C134",
   "status": "partial",
   "theorems": [
    "Verif.Filt.C134_partial",
    "Verif.Filt.C134_filter",
    "Verif.Filt.C134_ripple_false"
   ],
   "note": "exact arithmetic, grid points by index; that no grid point beyond the first local minimum exceeds the allowed fraction is false (witness), proved for the points the code looks at."
  },
  {
   "property": "C135",
   "status": "proved",
   "theorems": [
    "Verif.Filt.C135",
    "Verif.Filt.C135_eigen"
   ],
   "note": "exact arithmetic."
  },
  {
   "property": "C136",
   "status": "partial",
   "theorems": [
    "Verif.Filt.C136_partial",
    "Verif.Filt.C136_degree_one",
    "Verif.Filt.C136_odd_false",
    "Verif.Filt.left_values"
   ],
   "note": "exact arithmetic; the value at the lower end is proved for even degree and false for odd degree (witness); the values at the two ends can differ (left_values)."
  },
  {
   "property": "C137",
   "status": "partial",
   "theorems": [
    "Verif.Filt.C137_partial",
    "Verif.Filt.C137_left_false"
   ],
   "note": "exact arithmetic; series proved; the threshold exceeds the value at the other end for intervals at the left end of the range (witness)."
  },
  {
   "property": "C138",
   "status": "proved",
   "theorems": [
    "Verif.Filt.C138"
   ],
   "note": "exact arithmetic."
  },
  {
   "property": "C139",
   "status": "partial",
   "theorems": [
    "Verif.NDef.C139_partial",
    "Verif.NDef.C139_independent",
    "Verif.NDef.C139_count",
    "Verif.NDef.C139_orthogonal",
    "Verif.NDef.C139_false"
   ],
   "note": "exact arithmetic; invariant pair for all accepted sequences; independence and bounds for minimality index one, the constant MAX_MINIDX of the code; eigenvalues with dependent eigenvectors can never be found (witness)."
  },
  {
   "property": "C140",
   "status": "partial",
   "theorems": [
    "Verif.NDef.C140_partial",
    "Verif.NDef.C140_kept",
    "Verif.NDef.C140_no_new",
    "Verif.NDef.C140_removed",
    "Verif.NDef.C140_refine_false"
   ],
   "note": "exact arithmetic; during refinement the locked eigenvalues are eigenvalues of the operator again (witness)."
  },
  {
   "property": "C141",
   "status": "proved",
   "theorems": [
    "Verif.NDef.C141_apply",
    "Verif.NDef.C141_solve",
    "Verif.NDef.C141_roundtrip",
    "Verif.NDef.C141_refine",
    "Verif.NDef.C141_random",
    "Verif.NDef.C141_norm",
    "Verif.NDef.C141_false"
   ],
   "note": "exact arithmetic and exact linear solves, minimality index at most one (the constant MAX_MINIDX of the code); with a larger constant it would fail on several processes (C141_false)."
  },
  {
   "property": "C142",
   "status": "partial",
   "theorems": [
    "Verif.NDef.Cache.C142_operators",
    "Verif.NDef.Cache.C142_mode",
    "Verif.NDef.Cache.C142_solver_partial",
    "Verif.NDef.Cache.C142_shared_partial",
    "Verif.NDef.Cache.C142_shared_false",
    "Verif.NDef.Cache.C142_refine_false"
   ],
   "note": "proved for function and Jacobian for all histories; for the solver without leaving refinement mode before the set-up; false if the solver shares the matrix of the function and after leaving refinement without a new set-up (witnesses)."
  },
  {
   "property": "C143",
   "status": "partial",
   "theorems": [
    "Verif.NDef.C143_partial",
    "Verif.NDef.C143_processes",
    "Verif.NDef.C143_plain",
    "Verif.NDef.C143_false",
    "Verif.NDef.C143_initial_false"
   ],
   "note": "exact arithmetic; proved for one process; false for several processes (all data with a coupling block), and for two or more initial vectors (witnesses)."
  },
  {
   "property": "C144",
   "status": "proved",
   "theorems": [
    "Verif.NDef.C144",
    "Verif.NDef.C144_formulas"
   ],
   "note": "exact arithmetic; matrix functions given by intertwining families."
  },
  {
   "property": "C145",
   "status": "partial",
   "theorems": [
    "Verif.NDef.C145_returned",
    "Verif.NDef.C145_values",
    "Verif.NDef.C145_extracted_partial",
    "Verif.NDef.C145_norm"
   ],
   "note": "exact arithmetic; the extracted vector is not normalized (its norm is computed in C145_norm), so the error estimate is not that of a unit vector."
  },
  {
   "property": "C146",
   "status": "partial",
   "theorems": [
    "Verif.NDef.NE.C146_det",
    "Verif.NDef.NE.C146_solve",
    "Verif.NDef.NE.C146_solve_transpose",
    "Verif.NDef.NE.C146_recover",
    "Verif.NDef.NE.C146_jacobian_partial",
    "Verif.NDef.NE.C146_jacobian_false",
    "Verif.NDef.NE.C146_transpose",
    "Verif.NDef.NE.C146_sides_false"
   ],
   "note": "exact arithmetic, exact linear solves, biorthogonal bases; false: Jacobian at an eigenvalue found plus one (division by zero), transposed products belong to another operator so that the inner eigenvalues of the two sides differ (witnesses)."
  },
  {
   "property": "C147",
   "status": "partial",
   "theorems": [
    "Verif.NDef.Stop.C147_partial",
    "Verif.NDef.Stop.C147_false"
   ],
   "note": "basic stopping test; NEPSolve returns normally exactly if all requested eigenpairs have converged, otherwise it ends with an error (all executions)."
  },
  {
   "property": "C148",
   "status": "partial",
   "theorems": [
    "Verif.NDef.Stop.C148_count",
    "Verif.NDef.Stop.C148_rii_partial",
    "Verif.NDef.Stop.C148_rii_false"
   ],
   "note": "proved for NEPSLP and NEPNARNOLDI; NEPRII ends too but counts iterations twice when a pair is accepted (witness for all even limits)."
  },
  {
   "property": "C149",
   "status": "partial",
   "theorems": [
    "Verif.Iter.C149_schur",
    "Verif.Iter.C149_hermitian",
    "Verif.Iter.C149_locked",
    "Verif.Iter.C149_vectors_partial",
    "Verif.Iter.C149_phase",
    "Verif.Iter.C149_vectors_false",
    "Verif.Iter.C149_estimate_false"
   ],
   "note": "Exact arithmetic. Proved for all operators and executions: orthonormal accepted vectors, partial Schur decomposition with the tolerance times the norm of the operator, Hermitian case, locking. False: vectors computed from T (its columns are multiplied by a phase) and the estimate belongs to the previous vector."
  },
  {
   "property": "C150",
   "status": "partial",
   "theorems": [
    "Verif.Iter.C150_quotient",
    "Verif.Iter.C150_estimate",
    "Verif.Iter.C150_estimate_hermitian",
    "Verif.Iter.C150_wilkinson",
    "Verif.Iter.C150_wilkinson_false",
    "Verif.Iter.C150_vectors_false"
   ],
   "note": "Exact arithmetic. The shift is the Rayleigh quotient, the estimate is the residual; Wilkinson shift is an eigenvalue of the 2x2 block except for a division 0/0; eigenvectors computed from T are wrong with varying shifts."
  },
  {
   "property": "C151",
   "status": "partial",
   "theorems": [
    "Verif.Iter.C151_biorth",
    "Verif.Iter.C151_residual_partial",
    "Verif.Iter.C151_start_unused",
    "Verif.Iter.C151_start_false",
    "Verif.Iter.C151_rqi_estimate",
    "Verif.Iter.C151_quotient_partial",
    "Verif.Iter.C151_quotient_false"
   ],
   "note": "Biorthonormality in all executions. False: start vectors of the second and later pairs are not used, which ends with a breakdown error after exact convergence; the two-sided Rayleigh quotient has the wrong phase unless theta is real and alpha positive."
  },
  {
   "property": "C152",
   "status": "partial",
   "theorems": [
    "Verif.Iter.C152_residual",
    "Verif.Iter.C152_projection",
    "Verif.Iter.C152_locked",
    "Verif.Iter.C152_orthonormal_partial",
    "Verif.Iter.C152_schur_partial",
    "Verif.Iter.C152_orthonormal_false"
   ],
   "note": "Complex scalars, exact arithmetic, DS by its contract. Orthonormality proved if mpd is at least ncv, false otherwise."
  },
  {
   "property": "C153",
   "status": "partial",
   "theorems": [
    "Verif.Iter.C153_group",
    "Verif.Iter.C153_accept",
    "Verif.Iter.C153_member_partial",
    "Verif.Iter.C153_accept_partial",
    "Verif.Iter.C153_false",
    "Verif.Iter.C153_uninitialised_false"
   ],
   "note": "Complex scalars. The criterion is a root mean square over the group, hence a single residual may exceed the tolerance by the square root of the size of the group."
  },
  {
   "property": "C154",
   "status": "partial",
   "theorems": [
    "Verif.Iter.C154_step",
    "Verif.Iter.C154_accepted",
    "Verif.Iter.C154_order",
    "Verif.Iter.C154_coupling",
    "Verif.Iter.C154_rank_false"
   ],
   "note": "Exact arithmetic, Gram-Schmidt modelled, DS by its contract. False for matrices whose rank is smaller than ncv: error in BVOrthogonalize."
  },
  {
   "property": "C155",
   "status": "proved",
   "theorems": [
    "Verif.Lan.C155_first",
    "Verif.Lan.C155_spurious",
    "Verif.Lan.C155_accepted",
    "Verif.Lan.C155_restart"
   ],
   "note": "For all sizes and mark patterns. Arrays that the code swaps together are one array of records; the sorting criterion of the restart vector is the comparison of a key."
  },
  {
   "property": "C156",
   "status": "partial",
   "theorems": [
    "Verif.Lan.C156_lanczos",
    "Verif.Lan.C156_residual"
   ],
   "note": "Proved in exact arithmetic, with breakdown as an exactly zero vector; loss of orthogonality in floating point is not modelled."
  },
  {
   "property": "C157",
   "status": "partial",
   "theorems": [
    "Verif.Lan.C157_partial",
    "Verif.Lan.C157_adjacent",
    "Verif.Lan.C157_false"
   ],
   "note": "False of the code: a converged value is discarded when its neighbour is equal but has not converged, and equal values that are not adjacent (order by magnitude) are accepted twice. Proved: what is discarded, and that consecutive accepted values differ."
  },
  {
   "property": "C158",
   "status": "partial",
   "theorems": [
    "Verif.Lan.C158_row_partial",
    "Verif.Lan.C158_old_lost",
    "Verif.Lan.C158_false",
    "Verif.Lan.C158_locked_false",
    "Verif.Lan.C158_maxpos",
    "Verif.Lan.C158_intervals_partial",
    "Verif.Lan.C158_left_false"
   ],
   "note": "Each new row satisfies the recurrence in terms of the arrays, but the old row is overwritten, locked columns shift the indices, and intervals are extended to the right only. Exact real arithmetic."
  },
  {
   "property": "C159",
   "status": "partial",
   "theorems": [
    "Verif.Lan.C159_delayed_partial",
    "Verif.Lan.C159_single_false",
    "Verif.Lan.C159_delayed1_partial",
    "Verif.Lan.C159_beta_false"
   ],
   "note": "Exact arithmetic. With at least two new columns EPSDelayedArnoldi gives an Arnoldi factorization or divides by zero when the Krylov space is exhausted; with one column it uses an unassigned vector; the variant without reorthogonalization returns the wrong residual norm."
  },
  {
   "property": "C160",
   "status": "partial",
   "theorems": [
    "Verif.Lan.C160_local_partial",
    "Verif.Lan.C160_partial_partial",
    "Verif.Lan.C160_fro_false",
    "Verif.Lan.C160_selective_false",
    "Verif.Lan.C160_selective_partial"
   ],
   "note": "Norms returned by the orthogonalizations are inputs. False after a breakdown in full reorthogonalization mode of partial/periodic, and for selective reorthogonalization."
  },
  {
   "property": "C161",
   "status": "proved",
   "theorems": [
    "Verif.Cg.C161_min",
    "Verif.Cg.C161_decrease",
    "Verif.Cg.C161_iter"
   ],
   "note": "Exact arithmetic, A Hermitian, B positive definite, complex scalars; if the quotient has no minimum on the line the iterate is kept. C161_iter: whole iteration for the first active vector (standard problem)."
  },
  {
   "property": "C162",
   "status": "partial",
   "theorems": [
    "Verif.Cg.C162_entries",
    "Verif.Cg.C162_stale",
    "Verif.Cg.C162_partial",
    "Verif.Cg.C162_false"
   ],
   "note": "False of the code whenever two consecutive active vectors are coupled by A: the dense solver sees zeros next to the diagonal. Proved: the vectors stay orthonormal; Rayleigh-Ritz holds when there is no such coupling. Standard problem, dense solver by specification."
  },
  {
   "property": "C163",
   "status": "partial",
   "theorems": [
    "Verif.Cg.C163_last_partial",
    "Verif.Cg.C163_locked",
    "Verif.Cg.C163_run_locked",
    "Verif.Cg.C163_false"
   ],
   "note": "Holds for pairs accepted in the last iteration; false for pairs accepted earlier, which are moved after the test (witness for every tolerance). Exact arithmetic, standard problem."
  },
  {
   "property": "C164",
   "status": "partial",
   "theorems": [
    "Verif.Cg.C164_position",
    "Verif.Cg.C164_partial",
    "Verif.Cg.C164_shift",
    "Verif.Cg.C164_false"
   ],
   "note": "Holds while nothing converges; after d vectors have converged each vector uses the data of the vector d places before it."
  },
  {
   "property": "C165",
   "status": "proved",
   "theorems": [
    "Verif.Cg.C165_step",
    "Verif.Cg.C165"
   ],
   "note": "Exact arithmetic; dense solver by specification; preconditioned residuals and directions are arbitrary."
  },
  {
   "property": "C166",
   "status": "partial",
   "theorems": [
    "Verif.Cg.C166_partial",
    "Verif.Cg.C166_false"
   ],
   "note": "Bounds proved for every history with the default stopping test; false near the problem dimension, where the columns taken cannot be orthonormal. User-defined stopping tests not modelled."
  },
  {
   "property": "C167",
   "status": "partial",
   "theorems": [
    "Verif.Cg.C167_partial",
    "Verif.Cg.C167_single",
    "Verif.Cg.C167_false"
   ],
   "note": "Termination proved for every history; the iteration count misses one expansion per locked block, can be -1, and the limit can be exceeded."
  },
  {
   "property": "C168",
   "status": "partial",
   "theorems": [
    "Verif.Ts.C168_partial",
    "Verif.Ts.C168_locked",
    "Verif.Ts.C168_full_false"
   ],
   "note": "Exact arithmetic; dense solver by specification. Proved for any number of restarts without breakdown that keep fewer columns than computed; newly locked columns lose the entry of the extra row. False when all columns are kept (k+l equal to the current size), where the extra row is cleared."
  },
  {
   "property": "C169",
   "status": "partial",
   "theorems": [
    "Verif.Ts.C169_orth",
    "Verif.Ts.C169_residual",
    "Verif.Ts.C169_similar",
    "Verif.Ts.C169_eigen_partial"
   ],
   "note": "Exact arithmetic, both factorizations of equal length; equality of eigenvalues proved without locked columns (always the case in the non-locking variant) and nonsingular matrix of inner products."
  },
  {
   "property": "C170",
   "status": "partial",
   "theorems": [
    "Verif.Ts.C170_partial",
    "Verif.Ts.C170_false"
   ],
   "note": "Proved for factorizations of equal length without locked columns, absolute convergence test, exact arithmetic. False when the left factorization finishes earlier: error estimate 0 with residual norm 1."
  },
  {
   "property": "C171",
   "status": "partial",
   "theorems": [
    "Verif.Ts.C171_perm",
    "Verif.Ts.C171_match_partial",
    "Verif.Ts.C171_false"
   ],
   "note": "Always a permutation; values matched when right eigenvalues are separated by more than the tolerances; false without separation. Distances as real numbers; the exchange itself is C59."
  },
  {
   "property": "C172",
   "status": "partial",
   "theorems": [
    "Verif.Bse.C172_partial",
    "Verif.Bse.C172_cycle"
   ],
   "note": "Exact arithmetic, definite problem, dense solver by specification; any number of restarts without locked columns (locked columns lose the entry of the extra row). No root of a negative number; without residual after a breakdown."
  },
  {
   "property": "C173",
   "status": "partial",
   "theorems": [
    "Verif.Bse.C173_partial",
    "Verif.Bse.C173_cycle"
   ],
   "note": "Exact arithmetic, definite problem, dense solver by specification, any number of restarts without locked columns; beta1 never vanishes; no residual if beta2 vanishes."
  },
  {
   "property": "C174",
   "status": "partial",
   "theorems": [
    "Verif.Bse.C174_partial",
    "Verif.Bse.C174_false"
   ],
   "note": "Exact formula of the residual; the error estimate leaves out the norms of the residual vector and of the assembled eigenvector, so it is not a bound: relative estimate below any tolerance with relative residual above 2/5."
  },
  {
   "property": "C175",
   "status": "proved",
   "theorems": [
    "Verif.Bse.C175_shao",
    "Verif.Bse.C175_gruning",
    "Verif.Bse.C175_projected"
   ],
   "note": "Exact arithmetic; for all blocks with the Bethe-Salpeter structure."
  },
  {
   "property": "C176",
   "status": "partial",
   "theorems": [
    "Verif.Bse.C176_partial",
    "Verif.Bse.C176_false"
   ],
   "note": "Proved for target 0; false for other targets, which are accepted: the shifted inverse has no Bethe-Salpeter structure (witness)."
  },
  {
   "property": "C177",
   "status": "partial",
   "theorems": [
    "Verif.Bse.C177_partial",
    "Verif.Bse.C177_false"
   ],
   "note": "At a breakdown all pairs are exact and accepted; with too few pairs an error is raised, always the case for R = I, C = 0 and nev at least 3."
  },
  {
   "property": "C178",
   "status": "partial",
   "theorems": [
    "Verif.Lrep.C178_partial",
    "Verif.Lrep.C178_cycle",
    "Verif.Lrep.C178_reorth"
   ],
   "note": "Exact arithmetic, real scalars, dense solver by specification; any number of restarts without locked columns. No root of a negative number; without residual after a breakdown."
  },
  {
   "property": "C179",
   "status": "partial",
   "theorems": [
    "Verif.Lrep.C179_partial",
    "Verif.Lrep.C179_cycle"
   ],
   "note": "Exact arithmetic, real scalars, dense solver by specification, any number of restarts without locked columns; alpha never vanishes; no residual if beta vanishes."
  },
  {
   "property": "C180",
   "status": "proved",
   "theorems": [
    "Verif.Lrep.C180_teng",
    "Verif.Lrep.C180_zhong",
    "Verif.Lrep.C180_unred",
    "Verif.Lrep.C180_exact"
   ],
   "note": "Exact arithmetic; both variants, reduced and original form of the matrix.."
  },
  {
   "property": "C181",
   "status": "partial",
   "theorems": [
    "Verif.Lrep.C181_partial",
    "Verif.Lrep.C181_false"
   ],
   "note": "Exact formula of the residual; the estimate leaves out the norms of the residual vector and of the assembled eigenvector: relative estimate below any tolerance with relative residual above 2/5."
  },
  {
   "property": "C182",
   "status": "partial",
   "theorems": [
    "Verif.Lrep.C182_partial",
    "Verif.Lrep.C182_false"
   ],
   "note": "Proved for shift zero and exact pairs, both signs; false for every positive shift, which the solver accepts: the shift is added to values of the unshifted matrix."
  },
  {
   "property": "C183",
   "status": "partial",
   "theorems": [
    "Verif.Lrep.C183_partial",
    "Verif.Lrep.C183_false"
   ],
   "note": "At a breakdown all pairs are exact and accepted; with too few pairs an error is raised, always the case for K = M = I and nev at least 3."
  },
  {
   "property": "C184",
   "status": "partial",
   "theorems": [
    "Verif.Harm.C184_partial",
    "Verif.Harm.C184_active",
    "Verif.Harm.C184_real"
   ],
   "note": "Exact arithmetic; all operators, targets and sizes. With locked columns for vectors without components in them."
  },
  {
   "property": "C185",
   "status": "partial",
   "theorems": [
    "Verif.Harm.C185_partial",
    "Verif.Harm.C185_cycle",
    "Verif.Harm.C185_locked"
   ],
   "note": "Exact arithmetic; dense solver and continued Arnoldi factorization (C80) by specification; any number of restarts without breakdown, with locked columns."
  },
  {
   "property": "C186",
   "status": "partial",
   "theorems": [
    "Verif.Harm.C186_partial",
    "Verif.Harm.C186_ritz",
    "Verif.Harm.C186_refined",
    "Verif.Harm.C186_false"
   ],
   "note": "Estimates are residual norms for Ritz, harmonic and refined extraction (vectors without components in locked columns, absolute convergence test, exact arithmetic); false for refined harmonic, by any factor."
  },
  {
   "property": "C187",
   "status": "partial",
   "theorems": [
    "Verif.Harm.C187_partial",
    "Verif.Harm.C187_false"
   ],
   "note": "Standard problem. With shift sigma the effective target is target+sigma: right for zero shift, false otherwise."
  },
  {
   "property": "C188",
   "status": "partial",
   "theorems": [
    "Verif.Harm.C188_partial",
    "Verif.Harm.C188_update",
    "Verif.Harm.C188_hermitian",
    "Verif.Harm.C188_single",
    "Verif.Harm.C188_all_false",
    "Verif.Harm.C188_false"
   ],
   "note": "Minimality proved without locked columns, singular value decomposition by specification. False: error if all values converge; vectors of non-Hermitian problems with more than one pair are multiplied by Q again. The second witness is for the last phase with given locked vectors and Q."
  },
  {
   "property": "C189",
   "status": "partial",
   "theorems": [
    "Verif.Harm.C189_partial",
    "Verif.Harm.C189_false"
   ],
   "note": "The translation fails exactly if the target is a Ritz value; always for real skew-symmetric operators, target 0 and odd size."
  },
  {
   "property": "C190",
   "status": "partial",
   "theorems": [
    "Verif.Pscl.C190_partial",
    "Verif.Pscl.C190_complete",
    "Verif.Pscl.C190_history_partial",
    "Verif.Pscl.C190_false"
   ],
   "note": "Exact arithmetic, monomial basis, zero shift, first block extracted; every degree. Right exactly if the solver works with the diagonal iff the vectors are corrected; false for STOAR and LINEAR with diagonal scaling, and for TOAR and QARNOLDI after switching it off (witness with the diagonal computed by the solver)."
  },
  {
   "property": "C191",
   "status": "partial",
   "theorems": [
    "Verif.Pscl.C191_partial",
    "Verif.Pscl.C191_singular"
   ],
   "note": "Exact arithmetic (real logarithm). All regular polynomials and any number of iterations; undefined conversion for a zero column."
  },
  {
   "property": "C192",
   "status": "partial",
   "theorems": [
    "Verif.Pscl.C192_partial",
    "Verif.Pscl.C192_false"
   ],
   "note": "Right without scalar scaling; false for every factor other than one, in both readings of the estimate."
  },
  {
   "property": "C193",
   "status": "partial",
   "theorems": [
    "Verif.Pscl.C193_partial",
    "Verif.Pscl.C193_false"
   ],
   "note": "False whenever diagonal scaling is selected: always recomputed, the vectors of the user are overwritten."
  },
  {
   "property": "C194",
   "status": "partial",
   "theorems": [
    "Verif.Pscl.C194_partial",
    "Verif.Pscl.C194_cols_partial",
    "Verif.Pscl.C194_same_false",
    "Verif.Pscl.C194_same_live_false",
    "Verif.Pscl.C194_cols_false"
   ],
   "note": "False for sequential matrices with SAME_NONZERO_PATTERN (matrix never created) and for stored zeros in parallel (array overflow); otherwise proved."
  },
  {
   "property": "C195",
   "status": "partial",
   "theorems": [
    "Verif.Pscl.C195_partial",
    "Verif.Pscl.C195_user",
    "Verif.Pscl.C195_false"
   ],
   "note": "Exact arithmetic. Proved for nonzero first and last coefficients; the factor is zero if the constant coefficient is zero."
  },
  {
   "property": "C196",
   "status": "partial",
   "theorems": [
    "Verif.Pscl.C196_partial",
    "Verif.Pscl.C196_false",
    "Verif.Pscl.C196_dropped_false"
   ],
   "note": "Proved for both strategies with a factor set by the user other than one; false after a request to compute the factor (error), for factor one (replaced), and for parameters of a strategy not selected (dropped)."
  },
  {
   "property": "C197",
   "status": "partial",
   "theorems": [
    "Verif.Ebal.C197_partial",
    "Verif.Ebal.C197_reuse",
    "Verif.Ebal.C197_user_false",
    "Verif.Ebal.C197_late_false"
   ],
   "note": "Exact arithmetic, standard problem, solvers using Schur vectors; all call sequences. False for a matrix given by the user: applied in the operator, but the vectors are not corrected."
  },
  {
   "property": "C198",
   "status": "partial",
   "theorems": [
    "Verif.Ebal.C198_partial",
    "Verif.Ebal.C198_false"
   ],
   "note": "Exact arithmetic, orthogonalization by specification. False for a Hermitian solve after a balanced non-Hermitian one with the same object: the stale diagonal is applied."
  },
  {
   "property": "C199",
   "status": "partial",
   "theorems": [
    "Verif.Ebal.C199_partial",
    "Verif.Ebal.C199_oneside",
    "Verif.Ebal.C199_twoside"
   ],
   "note": "Exact arithmetic (no overflow or underflow of the diagonal); all operators, sign vectors, iterations and cutoffs."
  },
  {
   "property": "C200",
   "status": "partial",
   "theorems": [
    "Verif.Ebal.C200_partial",
    "Verif.Ebal.C200_fail_partial",
    "Verif.Ebal.C200_false",
    "Verif.Ebal.C200_fail_false"
   ],
   "note": "False if the method is unchanged and the object is already set up or solved, and for failing calls that change the method."
  },
  {
   "property": "C201",
   "status": "partial",
   "theorems": [
    "Verif.Ebal.Ritz.C201_partial",
    "Verif.Ebal.Ritz.C201_pair_partial",
    "Verif.Ebal.Ritz.C201_pair_false"
   ],
   "note": "Exact real arithmetic, operator applied by the ST as a matrix, consistent balancing (C197). Proved for real eigenvalues and for complex pairs without purification; false for complex pairs with positive definite second matrix."
  },
  {
   "property": "C202",
   "status": "partial",
   "theorems": [
    "Verif.Ebal.Left.C202_partial"
   ],
   "note": "Exact complex arithmetic, finite eigenvalues, nonsingular matrix of the linear systems, all balancing diagonals that are positive (C199). The sign convention of conjugate pairs in real arithmetic is not covered."
  },
  {
   "property": "C203",
   "status": "partial",
   "theorems": [
    "Verif.Text.C203_multiple_partial",
    "Verif.Text.C203_exact_partial",
    "Verif.Text.C203_norm_partial",
    "Verif.Text.C203_norm_false",
    "Verif.Text.C203_structured_partial",
    "Verif.Text.C203_structured_false",
    "Verif.Text.C203_value_false",
    "Verif.Text.C203_structured_value_needed",
    "Verif.Text.C203_pair_partial",
    "Verif.Text.C203_pair_false"
   ],
   "note": "Exact eigenvectors of the linearization; complex arithmetic, and real arithmetic for structured extraction of pairs (C203_pair_partial; false for the pair exchanged before the vectors are computed, C203_pair_false, disagreement 162). False for extraction by norm: the selected block is carried over from the values before, so a zero vector can result (C203_norm_false, disagreement 160). False for structured extraction with a nonzero shift: the basis is evaluated at the wrong value (C203_value_false, C203_structured_false, disagreement 161); right without shift (C203_structured_partial). C203_norm_partial assumes the right value. For extraction by residual only that the vector is a multiple, maybe zero. The value used is modelled for STSetTransform true and no scaling only."
  }
 ]
}