{
 "claims": [
  {
   "property": "C01",
   "status": "proved",
   "theorems": [
    "Verif.Props.osa_index_bijective",
    "Verif.Props.osa_index_order"
   ],
   "note": ""
  },
  {
   "property": "C02",
   "status": "proved",
   "theorems": [
    "Verif.Props.noll_index_bijective",
    "Verif.Props.noll_index_parity",
    "Verif.Props.noll_index_order"
   ],
   "note": ""
  },
  {
   "property": "C03",
   "status": "proved",
   "theorems": [
    "Verif.Props.fringe_index_bijective",
    "Verif.Props.fringe_index_order"
   ],
   "note": ""
  },
  {
   "property": "C04",
   "status": "proved",
   "theorems": [
    "Verif.Props.index2orders_osa",
    "Verif.Props.index2orders_osa_range",
    "Verif.Props.index2orders_noll",
    "Verif.Props.index2orders_noll_range",
    "Verif.Props.index2orders_fringe",
    "Verif.Props.index2orders_fringe_range",
    "Verif.Props.index2orders_none"
   ],
   "note": ""
  },
  {
   "property": "C05",
   "status": "partial",
   "theorems": [
    "Verif.Props.osa2noll_same_polynomial_partial",
    "Verif.Props.noll2osa_same_polynomial_partial",
    "Verif.Props.fringe2osa_same_polynomial_partial",
    "Verif.Props.osa_noll_round_trip_partial",
    "Verif.Props.noll_osa_round_trip_partial",
    "Verif.Props.osa_fringe_round_trip_partial",
    "Verif.Props.conversions_not_inverse",
    "Verif.Props.osa_fringe_direct_round_trip_raises"
   ],
   "note": "The unbounded property is false of the code (bounded search; numpy.int64 result rejected by fringe2osa): negations conversions_not_inverse and osa_fringe_direct_round_trip_raises; proved on the exact supported ranges."
  },
  {
   "property": "C06",
   "status": "proved",
   "theorems": [
    "Verif.Props.conversions_reject"
   ],
   "note": ""
  },
  {
   "property": "C07",
   "status": "partial",
   "theorems": [
    "Verif.Props.ctor_orders_exact",
    "Verif.Props.ctor_orders_accepts_valid",
    "Verif.Props.ctor_orders_accepts_only_valid_partial",
    "Verif.Props.ctor_accepts_invalid_orders"
   ],
   "note": "False of the code: |m| <= n is not checked (negation ctor_accepts_invalid_orders). The exact acceptance condition is proved."
  },
  {
   "property": "C08",
   "status": "proved",
   "theorems": [
    "Verif.Props.ctor_osa_exact",
    "Verif.Props.ctor_noll_exact",
    "Verif.Props.ctor_fringe_exact"
   ],
   "note": ""
  },
  {
   "property": "C09",
   "status": "proved",
   "theorems": [
    "Verif.Props.ctor_consistent",
    "Verif.Props.ctor_index_cases",
    "Verif.Props.get_indices_exact"
   ],
   "note": ""
  },
  {
   "property": "C10",
   "status": "proved",
   "theorems": [
    "Verif.Props.constructions_agree"
   ],
   "note": ""
  },
  {
   "property": "C11",
   "status": "proved",
   "theorems": [
    "Verif.Props.ctor_keyword_order",
    "Verif.Props.ctor_order_aliases",
    "Verif.Props.ctor_index_aliases",
    "Verif.Props.ctor_rejects_other_keywords"
   ],
   "note": ""
  },
  {
   "property": "C12",
   "status": "partial",
   "theorems": [
    "Verif.Props.eq_iff_orders",
    "Verif.Props.comparison_with_other_type",
    "Verif.Props.comparison_trichotomy_partial",
    "Verif.Props.comparison_trichotomy_fails"
   ],
   "note": "Trichotomy is false for the invalid orders accepted by the constructor (negation proved); proved for valid orders."
  },
  {
   "property": "C13",
   "status": "proved",
   "theorems": [
    "Verif.Props.generate_polynomials_enumerates",
    "Verif.Props.generate_polynomials_rejects",
    "Verif.Props.generate_any_returns_iff",
    "Verif.Props.generate_any_enumerates",
    "Verif.Props.generate_float_accepted_iff",
    "Verif.Props.generate_any_raises",
    "Verif.Props.generate_any_warnings"
   ],
   "note": ""
  },
  {
   "property": "C14",
   "status": "proved",
   "theorems": [
    "Verif.Props.name_exists_iff",
    "Verif.Props.name_injective",
    "Verif.Props.str_named"
   ],
   "note": ""
  },
  {
   "property": "C15",
   "status": "proved",
   "theorems": [
    "Verif.Props.radial_is_zernike",
    "Verif.Props.coefficients_are_zernike"
   ],
   "note": ""
  },
  {
   "property": "C16",
   "status": "proved",
   "theorems": [
    "Verif.Props.exact_agrees",
    "Verif.Props.exact_not_silent",
    "Verif.Props.exact_unwarned_is_right"
   ],
   "note": ""
  },
  {
   "property": "C17",
   "status": "proved",
   "theorems": [
    "Verif.Props.history_irrelevant",
    "Verif.Props.coefficients_are_zernike"
   ],
   "note": ""
  },
  {
   "property": "C18",
   "status": "partial",
   "theorems": [
    "Verif.Props.radial_dr_is_derivative_partial",
    "Verif.Props.radial_dr_is_derivative_of_radial_partial",
    "Verif.Props.coefficients_dr_are_derivative",
    "Verif.Props.radial_dr_wrong"
   ],
   "note": "False of the code for n - |m| >= 40 (negation radial_dr_wrong, for every such polynomial); proved for all others."
  },
  {
   "property": "C19",
   "status": "proved",
   "theorems": [
    "Verif.Props.radial_at_rim",
    "Verif.Props.radial_bounded",
    "Verif.Props.value_bounded"
   ],
   "note": ""
  },
  {
   "property": "C20",
   "status": "proved",
   "theorems": [
    "Verif.Props.triangular_is_angular",
    "Verif.Props.triangular_dtheta_is_derivative"
   ],
   "note": ""
  },
  {
   "property": "C21",
   "status": "proved",
   "theorems": [
    "Verif.Props.value_is_zernike",
    "Verif.Props.orthonormal",
    "Verif.Props.normf_exact"
   ],
   "note": ""
  },
  {
   "property": "C22",
   "status": "partial",
   "theorems": [
    "Verif.Props.bad_radii_raise",
    "Verif.Props.radial_succeeds_iff",
    "Verif.Props.value_succeeds_iff",
    "Verif.Props.shape_mismatch_raises",
    "Verif.Props.value_elementwise",
    "Verif.Props.radial_is_zernike",
    "Verif.Props.angle_periodic",
    "Verif.Props.set_raises_type_error",
    "Verif.Props.exact_high_order_shape"
   ],
   "note": "False of the code for a set or None (TypeError: set_raises_type_error) and for the exact path above order 40 (shape of r only: exact_high_order_shape); everything else proved. NaN is not modelled (real numbers)."
  },
  {
   "property": "C23",
   "status": "proved",
   "theorems": [
    "Verif.Props.sum_at_point",
    "Verif.Props.sum_at_points",
    "Verif.Props.sum_surface",
    "Verif.Props.sum_meshgrid_surface",
    "Verif.Props.sum_bad_lists",
    "Verif.Props.sum_not_polynomial",
    "Verif.Props.gen_surface"
   ],
   "note": ""
  },
  {
   "property": "C24",
   "status": "partial",
   "theorems": [
    "Verif.Props.gen_polar_covers",
    "Verif.Props.gen_polar_on_disk",
    "Verif.Props.gen_equal_mesh_covers",
    "Verif.Props.gen_polar_bad_steps",
    "Verif.Props.gen_polar_never_valueError"
   ],
   "note": "The clause 'steps out of range raise ValueError' is false of the code (negation gen_polar_never_valueError); all else proved."
  },
  {
   "property": "C25",
   "status": "proved",
   "theorems": [
    "Verif.Props.crop_correct",
    "Verif.Props.crop_range",
    "Verif.Props.crop_rejects"
   ],
   "note": ""
  },
  {
   "property": "C26",
   "status": "proved",
   "theorems": [
    "Verif.Props.fit_vectors_least_squares",
    "Verif.Props.fit_vectors_recovers",
    "Verif.Props.fit_image_least_squares",
    "Verif.Props.fit_image_recovers",
    "Verif.Props.fit_rejects"
   ],
   "note": "numpy.linalg.lstsq is a parameter with the contract LstsqContract (shown satisfiable by lstsq_exists)."
  },
  {
   "property": "C27",
   "status": "proved",
   "theorems": [
    "Verif.Props.phases_image_correct",
    "Verif.Props.phases_image_default_raises"
   ],
   "note": ""
  },
  {
   "property": "C28",
   "status": "partial",
   "theorems": [
    "Verif.Props.random_amplitudes",
    "Verif.Props.random_phases",
    "Verif.Props.random_amplitudes_round_zero"
   ],
   "note": "The amplitude bound is false for round_digits=0 (1.5 is rounded to 2: negation proved); proved for round_digits >= 1."
  },
  {
   "property": "C29",
   "status": "partial",
   "theorems": [
    "Verif.Props.psf_init_exact_partial",
    "Verif.Props.acceptable_iff_different_orders",
    "Verif.Props.psf_init_accepts_non_polynomial",
    "Verif.Props.psf_init_attribute_error"
   ],
   "note": "False of the code for an argument that is neither a ZernPol nor a sequence (the ValueError is built but not raised: negation) and for a sequence of one other object (AttributeError: negation); everything else proved."
  },
  {
   "property": "C30",
   "status": "partial",
   "theorems": [
    "Verif.Props.set_physical_props_exact_partial",
    "Verif.Props.new_object_consistent",
    "Verif.Props.rejected_call_atomic_partial",
    "Verif.Props.wave_number_stale",
    "Verif.Props.rejected_call_changes_object"
   ],
   "note": "False of the code for the wave number (computed from the previous wavelength: negation, with the exact condition) and for the atomicity of calls rejected because of the pixel size or the coefficients (negation); acceptance and all stored values proved for every history."
  },
  {
   "property": "C31",
   "status": "partial",
   "theorems": [
    "Verif.Props.kernel_size_odd",
    "Verif.Props.calculated_size_partial",
    "Verif.Props.calculated_size_after_set",
    "Verif.Props.kernel_size_mismatch"
   ],
   "note": "Odd sizes and squares proved for every history; that the calculated kernel has the size of the object is false for a new object with suppressed warnings (negation, for every polynomial), proved in all other cases."
  },
  {
   "property": "C32",
   "status": "proved",
   "theorems": [
    "Verif.Props.kernel_values_bounded",
    "Verif.Props.kernel_sum_values_bounded",
    "Verif.Props.airy_kernel_bounded",
    "Verif.Props.moderate_aberration_positive"
   ],
   "note": "Normalisation of a kernel whose values are all 0 (0/0 = NaN in numpy) is excluded by a hypothesis. J_1 is Bessel's integral."
  },
  {
   "property": "C33",
   "status": "partial",
   "theorems": [
    "Verif.Props.center_value_partial",
    "Verif.Props.center_value_not_one",
    "Verif.Props.center_value_default",
    "Verif.Props.angular_rule_misses_two_nodes"
   ],
   "note": "False of the code: the angular sum misses the last two nodes of Simpson's rule, the centre is (1-2/N)^2 for even N (negation for every N)."
  },
  {
   "property": "C34",
   "status": "proved",
   "theorems": [
    "Verif.Props.piston_ignored"
   ],
   "note": ""
  },
  {
   "property": "C35",
   "status": "partial",
   "theorems": [
    "Verif.Props.accelerated_agrees_partial",
    "Verif.Props.accelerated_needs_numba",
    "Verif.Props.accelerated_agrees_sum_partial",
    "Verif.Props.accelerated_rejects",
    "Verif.Props.accelerated_phase_wrong",
    "Verif.Props.accelerated_differs",
    "Verif.Props.accelerated_piston_differs"
   ],
   "note": "False of the code for |m| = n = 8, 9, 10 (normalisation and angular part missing: negation) and for the piston (negation); proved for all other supported polynomials; unsupported ones raise ValueError."
  },
  {
   "property": "C36",
   "status": "proved",
   "theorems": [
    "Verif.Props.crop_kernel_exact",
    "Verif.Props.crop_kernel_rejects"
   ],
   "note": ""
  },
  {
   "property": "C37",
   "status": "partial",
   "theorems": [
    "Verif.Props.convolution_value",
    "Verif.Props.border_reflects",
    "Verif.Props.convolution_range",
    "Verif.Props.convolution_constant",
    "Verif.Props.convolution_linear",
    "Verif.Props.convolution_identity",
    "Verif.Props.convolution_scaled",
    "Verif.Props.object_convolution",
    "Verif.Props.convolution_black_not_finite",
    "Verif.Props.convolution_scale_inverts"
   ],
   "note": "scipy.ndimage.convolve is modelled by its definition. False of the code with scale2original (the default of convolute_img) for a black image (0/0: negation) and for images with negative pixels (negation); everything else proved."
  },
  {
   "property": "C38",
   "status": "partial",
   "theorems": [
    "Verif.Props.save_exact",
    "Verif.Props.save_file_name",
    "Verif.Props.save_folder",
    "Verif.Props.read_restores_partial",
    "Verif.Props.save_read_restores_partial",
    "Verif.Props.read_restores_size",
    "Verif.Props.restored_calculates_same",
    "Verif.Props.read_missing",
    "Verif.Props.save_str_path",
    "Verif.Props.save_without_coefficients",
    "Verif.Props.read_loses_kernel_size",
    "Verif.Props.read_keeps_airy_flag",
    "Verif.Props.read_rejected"
   ],
   "note": "Kernel, physical properties, polynomials and coefficients are restored for every reachable object and every target; false of the code for the kernel size (re-estimated) and the Airy flag (not updated), for str paths, and for objects whose properties are not accepted together (negations)."
  },
  {
   "property": "C39",
   "status": "partial",
   "theorems": [
    "Verif.Props.compute_correct",
    "Verif.Props.compute_terminates",
    "Verif.Props.manager_session",
    "Verif.Props.raising_never_returns",
    "Verif.Props.manager_init_exact",
    "Verif.Props.one_processor_never_returns",
    "Verif.Props.second_manager_never_returns",
    "Verif.Props.second_manager_wrong_function",
    "Verif.Props.too_many_workers"
   ],
   "note": "Order, each parameter once, termination under fair schedules: proved for every history of one manager. Several managers one after another: false (shared class-level lists: negations); a raising function, or one processor: compute never returns (negations)."
  },
  {
   "property": "C40",
   "status": "proved",
   "theorems": [
    "Verif.Props.slow_warning_once"
   ],
   "note": ""
  },
  {
   "property": "C41",
   "status": "proved",
   "theorems": [
    "Verif.Props.bumped_circle_exact",
    "Verif.Props.bumped_circle_symmetric",
    "Verif.Props.bumped_circle_negative"
   ],
   "note": "For intensities up to 65535, the range of the image type."
  },
  {
   "property": "C42",
   "status": "proved",
   "theorems": [
    "Verif.Props.radial_abs_m"
   ],
   "note": ""
  },
  {
   "property": "C43",
   "status": "proved",
   "theorems": [
    "Verif.Props.negated_amplitudes_rotate"
   ],
   "note": ""
  },
  {
   "property": "C44",
   "status": "proved",
   "theorems": [
    "Verif.Props.kernel_samples_psf",
    "Verif.Props.kernel_samples_psf_auto",
    "Verif.Props.kernel_samples_psf_sum"
   ],
   "note": ""
  },
  {
   "property": "C45",
   "status": "proved",
   "theorems": [
    "Verif.Props.strehl_le_one"
   ],
   "note": ""
  },
  {
   "property": "C46",
   "status": "proved",
   "theorems": [
    "Verif.Props.polynomial_order_irrelevant",
    "Verif.Props.single_as_list"
   ],
   "note": ""
  },
  {
   "property": "C47",
   "status": "proved",
   "theorems": [
    "Verif.Props.set_then_calculate_single",
    "Verif.Props.set_then_calculate_several",
    "Verif.Props.calculated_kernel_single",
    "Verif.Props.calculated_kernel_several"
   ],
   "note": "The piston alone is calculated by the Airy formula and excluded here (see C32)."
  },
  {
   "property": "C48",
   "status": "proved",
   "theorems": [
    "Verif.Props.surface_rms",
    "Verif.Props.surface_mean"
   ],
   "note": ""
  },
  {
   "property": "C49",
   "status": "proved",
   "theorems": [
    "Verif.Props.surface_projection",
    "Verif.Props.amplitudes_unique"
   ],
   "note": ""
  },
  {
   "property": "C50",
   "status": "proved",
   "theorems": [
    "Verif.Props.value_opposite_point",
    "Verif.Props.value_mirrored",
    "Verif.Props.value_rotated"
   ],
   "note": ""
  },
  {
   "property": "C51",
   "status": "proved",
   "theorems": [
    "Verif.Props.kernel_converges",
    "Verif.Props.sum_kernel_converges"
   ],
   "note": "In exact real arithmetic. Normalised kernels: if the exact kernel is not zero in every pixel."
  },
  {
   "property": "C52",
   "status": "proved",
   "theorems": [
    "Verif.Props.exact_psf_airy",
    "Verif.Props.airy_kernel_exact",
    "Verif.Props.piston_kernel_converges_airy"
   ],
   "note": "scipy.special.jv(1, x) is modelled as the exact J1 (its integral)."
  },
  {
   "property": "C53",
   "status": "partial",
   "theorems": [
    "Verif.Props.parallel_kernel_exact",
    "Verif.Props.parallel_after_deinitialize",
    "Verif.Props.parallel_agrees_partial",
    "Verif.Props.parallel_agrees_after_two_calls",
    "Verif.Props.workers_terminate",
    "Verif.Props.workersReturned_exists",
    "Verif.Props.initialize_workers_exact",
    "Verif.Props.parallel_kernel_stale",
    "Verif.Props.parallel_without_workers",
    "Verif.Props.parallel_released_workers",
    "Verif.Props.parallel_small_size",
    "Verif.Props.parallel_several_zeros",
    "Verif.Props.parallel_second_object_never_returns"
   ],
   "note": "Exact for the stored wave number under every schedule. The agreement with calculate_psf_kernel is false of the code after a change of the wavelength (parallel_kernel_stale: for every object) and in the other cases named; it holds after two calls of set_physical_props with the same wavelength."
  },
  {
   "property": "C54",
   "status": "proved",
   "theorems": [
    "Verif.Props.tilt_moves_kernel"
   ],
   "note": "The psfs of both lists are compared pixel by pixel; pixels coming from outside are not claimed."
  },
  {
   "property": "C55",
   "status": "proved",
   "theorems": [
    "Verif.Props.phaseVariance_is_variance",
    "Verif.Props.strehl_exact",
    "Verif.Props.strehl_kernel"
   ],
   "note": "Lower bound of Marechal for the exact PSF; limit for the computed kernel."
  },
  {
   "property": "C56",
   "status": "proved",
   "theorems": [
    "Verif.Props.exact_mirror_rows",
    "Verif.Props.exact_mirror_cols",
    "Verif.Props.exact_rotation",
    "Verif.Props.exact_radial",
    "Verif.Props.kernel_symmetries",
    "Verif.Props.computed_mirror_not_exact"
   ],
   "note": "The exact PSF; for the computed kernels in the limit, with a counterexample to exact equality."
  },
  {
   "property": "C57",
   "status": "partial",
   "theorems": [
    "Verif.Props.roundtrip_own_coordinates",
    "Verif.Props.roundtrip_piston_partial",
    "Verif.Props.roundtrip_tilt",
    "Verif.Props.roundtrip_tilt_wrong",
    "Verif.Props.roundtrip_piston_wrong"
   ],
   "note": "False of the code (roundtrip_tilt for all sizes up to 1801, roundtrip_tilt_wrong: never 1 for an amplitude 1; roundtrip_piston_wrong: on images of at least 6201 pixels not even the piston comes back with crop radius 1). Proved for own coordinates, and for the piston: every size for crop radii up to 0.9989, up to 1819 pixels otherwise."
  },
  {
   "property": "C58",
   "status": "proved",
   "theorems": [
    "Verif.Props.convolution_conserves",
    "Verif.Props.convolution_conserves_margin",
    "Verif.Props.airy_conserves",
    "Verif.Props.convolution_not_conserving"
   ],
   "note": "The last theorem shows that one of the two conditions is needed: an asymmetric kernel loses a bright border pixel."
  },
  {
   "property": "C59",
   "status": "proved",
   "theorems": [
    "Verif.Props.radial_float_error",
    "Verif.Props.polynomial_float_error",
    "Verif.Props.radial_double_error",
    "Verif.Props.polynomial_double_error",
    "Verif.Props.paths_agree_float",
    "Verif.Props.radial_double_bounded",
    "Verif.Proofs.doubles_accurate"
   ],
   "note": "For every arithmetic satisfying Accurate; doubles is shown to satisfy it with u = 2^-53 and correctly rounded functions. Overflow does not occur (values are bounded); numpy's pow, sin and cos are assumed accurate to (1+u)^p - 1."
  },
  {
   "property": "C60",
   "status": "proved",
   "theorems": [
    "Verif.Props.radial_exact_ends",
    "Verif.Props.radial_double_ends",
    "Verif.Proofs.doubles_exact"
   ],
   "note": ""
  },
  {
   "property": "C61",
   "status": "proved",
   "theorems": [
    "Verif.Props.radial_dr_float_error",
    "Verif.Props.radial_dr_double_error"
   ],
   "note": ""
  },
  {
   "property": "C62",
   "status": "partial",
   "theorems": [
    "Verif.Props.nonfinite_radii_rejected_iff",
    "Verif.Props.nan_disables_the_check",
    "Verif.Props.radial_elementwise",
    "Verif.Props.radial_dr_nonfinite",
    "Verif.Props.polynomial_nonfinite",
    "Verif.Props.sum_nan_coefficients",
    "Verif.Props.sum_infinite_coefficient",
    "Verif.Props.physical_props_nonfinite_iff",
    "Verif.Props.physical_props_agree"
   ],
   "note": "False of the code: one NaN in an array disables the range check for all other elements (negation proved), a NaN coefficient that is not the first one is skipped like 0 (proved), NaN is accepted as coefficient, and as NA for every polynomial but the piston (exact acceptance condition proved), the piston is 1 at NaN. Proved: a NaN radius gives NaN for n >= 1, radial_dr gives NaN for n >= 2 (all orders), infinities let through by a NaN never give a number, finite elements give the polynomial."
  },
  {
   "property": "C63",
   "status": "partial",
   "theorems": [
    "Verif.Props.radial_new_array",
    "Verif.Props.radial_returns_argument",
    "Verif.Props.radial_result_changes",
    "Verif.Props.radial_dr_polynomial_new_array",
    "Verif.Props.method_uses_current_contents",
    "Verif.Props.methods_change_nothing",
    "Verif.Props.returned_kernel_kept",
    "Verif.Props.calculated_kernel_new_but_stored",
    "Verif.Props.calculate_ignores_written_coefficients",
    "Verif.Props.coefficients_follow_caller",
    "Verif.Props.coefficients_of_list_kept",
    "Verif.Props.polynomials_follow_caller",
    "Verif.Props.appended_polynomial_breaks",
    "Verif.Props.new_objects_share_kernel"
   ],
   "note": "The parts that hold are proved for every history of method calls and writes. 'radial returns a new array' is false for (1,1) and (-1,1), and 'the object is independent of the caller' is false for arrays of coefficients, lists of polynomials, the returned kernel and the class kernel; each of these is proved as a theorem."
  },
  {
   "property": "C64",
   "status": "proved",
   "theorems": [
    "Verif.Props.life_refines",
    "Verif.Props.life_outcomes",
    "Verif.Props.life_returns",
    "Verif.Props.life_never_returns",
    "Verif.Props.life_no_calls_after_close",
    "Verif.Props.life_few_calls_after_close",
    "Verif.Props.life_close_ends_all",
    "Verif.Props.life_interrupted_compute_wrong",
    "Verif.Props.life_interrupted_constructor_leaks"
   ],
   "note": "one manager per process (the lists shared by the class are C39); the waiting times and the time limit of join are not modelled"
  },
  {
   "property": "C65",
   "status": "proved",
   "theorems": [
    "Verif.Props.plot_profile_shows",
    "Verif.Props.plot_profile_own_coordinates",
    "Verif.Props.plot_profile_off_disk",
    "Verif.Props.plot_profile_rejections",
    "Verif.Props.plot_sum_shows",
    "Verif.Props.plot_sum_bad_lists",
    "Verif.Props.plot_sum_given_surface",
    "Verif.Props.plot_generated_surface",
    "Verif.Props.half_pyramid_shows",
    "Verif.Props.sum_surface_off_disk",
    "Verif.Props.convolution_scaled_integers",
    "Verif.Props.visualize_convolution_shows"
   ],
   "note": "what is handed over to matplotlib; a plain tuple of two arrays as coordinates is an AttributeError (plot_profile_rejections)"
  },
  {
   "property": "C66",
   "status": "proved",
   "theorems": [
    "Verif.Props.units_set_result",
    "Verif.Props.units_do_not_matter",
    "Verif.Props.units_do_not_matter_twice",
    "Verif.Props.units_matter_for_parallel"
   ],
   "note": "calls of get_kernel_parallel that store NaN are left out of the histories"
  },
  {
   "property": "C67",
   "status": "partial",
   "theorems": [
    "Verif.Props.estimated_size_monotone_partial",
    "Verif.Props.estimated_size_drops",
    "Verif.Props.estimated_size_several"
   ],
   "note": "Monotone in the coefficient only on each side of half of the wavelength: across it the size drops (estimated_size_drops: for pixels up to a tenth of the wavelength the size for 0.5 wavelength is smaller than for 0.49 wavelength). All other parts are proved in full."
  },
  {
   "property": "C68",
   "status": "partial",
   "theorems": [
    "Verif.Props.radial_nodes_partial",
    "Verif.Props.radial_nodes_power_of_two",
    "Verif.Props.radial_nodes_default",
    "Verif.Props.radial_nodes_extra",
    "Verif.Props.psf_double_bounded",
    "Verif.Props.psf_double_exceeds_one",
    "Verif.Props.exact_nodes"
   ],
   "note": "False for some n: n = 24 (accepted by set_calculation_props) gives 24 nodes, the last one at 1 - 2^-53 (radial_nodes_extra), and the unaberrated PSF exceeds 1.15 in the centre (psf_double_exceeds_one). Proved: n-1 or n nodes, increasing, in (0, 1], within 2^-51 of i/n; right for the default 320 and for powers of 2; PSF values at most 1 + 2^-46 when the number is right. The waves, the sums and the angular integration are exact in this model."
  },
  {
   "property": "C69",
   "status": "partial",
   "theorems": [
    "Verif.Props.radii_double_partial",
    "Verif.Props.radii_repeat",
    "Verif.Props.radii_end_below_one"
   ],
   "note": "Proved for every step: start 0, all radii in [0, 1], not decreasing, neighbours at most step + 2^-52 apart, last one at least 1 - 2^-51. False: strictly increasing (step 1/6 gives the radius 1 twice, radii_repeat) and ending exactly at 1 (step 1/98 ends at 1 - 2^-53, radii_end_below_one). The angles in double precision: C95."
  },
  {
   "property": "C70",
   "status": "proved",
   "theorems": [
    "Verif.Props.kernel_float_error",
    "Verif.Props.kernel_sum_float_error",
    "Verif.Props.kernel_normalized_float_error",
    "Verif.Props.kernel_double_error",
    "Verif.Props.kernel_sum_double_error",
    "Verif.Props.kernel_sum_normalized_float_error",
    "Verif.Props.sumFromLeft_sums"
   ],
   "note": "The reference is the exact value of the discretised PSF (C44), not of the diffraction integral (C43). numpy functions are assumed accurate to about p units; overflow is not modelled (unbounded exponents upwards), underflow to subnormal numbers is."
  },
  {
   "property": "C71",
   "status": "partial",
   "theorems": [
    "Verif.Props.slope_greatest_at_rim_partial",
    "Verif.Props.rim_slope_wrong",
    "Verif.Props.radial_sensitivity",
    "Verif.Props.radial_sensitivity_sharp",
    "Verif.Props.value_sensitivity"
   ],
   "note": "The statements on radial and polynomial_value hold for all orders. That on radial_dr is false of the code for n - |m| >= 40 (rim_slope_wrong, the defect of C18), and proved up to n - |m| = 38, which is all of the remaining range."
  },
  {
   "property": "C72",
   "status": "proved",
   "theorems": [
    "Verif.Props.kernel_quadrature_error",
    "Verif.Props.sum_kernel_quadrature_error",
    "Verif.Props.kernel_double_vs_exact",
    "Verif.Props.sum_kernel_double_vs_exact",
    "Verif.Props.quadratureError_tendsto"
   ],
   "note": "The constants are not the best ones: for even n_phi the true error of the angular integration, apart from the omitted nodes, is much smaller."
  },
  {
   "property": "C73",
   "status": "proved",
   "theorems": [
    "Verif.Props.tables_bounded"
   ],
   "note": "The other methods that evaluate polynomials (sum_zernikes, fit_polynomials, plots) reach the tables only through the calls that are steps here."
  },
  {
   "property": "C74",
   "status": "partial",
   "theorems": [
    "Verif.Props.force_compilation_partial",
    "Verif.Props.accelerated_keeps_tables",
    "Verif.Props.version_check_partial",
    "Verif.Props.old_version_not_warned",
    "Verif.Props.short_version_raises",
    "Verif.Props.unparsed_version"
   ],
   "note": "False of the code in two points, proved: 0.56.4 is older than 0.57.1 and gets no recommendation (only versions with the last part 0 do), and a version of two parts such as 0.57 raises an IndexError. Missing: the time and the output of the compilation itself."
  },
  {
   "property": "C75",
   "status": "partial",
   "theorems": [
    "Verif.Props.calculate_warnings_exact",
    "Verif.Props.no_pixel_warning_after_set",
    "Verif.Props.suppress_only_silences_partial",
    "Verif.Props.suppress_changes_kernel",
    "Verif.Props.coefficient_warning_exact",
    "Verif.Props.calculation_props_warnings_exact",
    "Verif.Props.polynomial_warnings_exact"
   ],
   "note": "False of the code in one point, proved: if no properties were set, suppress_warnings=True changes the kernel size from 19 to the initial 1 (suppress_changes_kernel). Not modelled: the texts of the warnings; the filter 'error' is C109."
  },
  {
   "property": "C76",
   "status": "proved",
   "theorems": [
    "Verif.Props.threads_results",
    "Verif.Props.threads_finish",
    "Verif.Props.after_threads",
    "Verif.Props.threads_refine"
   ],
   "note": "Trusted: the atomicity of single dictionary operations and of the lookups and insertions of functools.lru_cache under the interpreter lock. Not modelled: the flag of the slow-calculation warning and the warnings."
  },
  {
   "property": "C77",
   "status": "partial",
   "theorems": [
    "Verif.Props.saved_text_restores_partial",
    "Verif.Props.stopped_save_no_wrong_data",
    "Verif.Props.save_again_repairs",
    "Verif.Props.overwrite_not_atomic",
    "Verif.Props.save_again_default_keeps_broken",
    "Verif.Props.doubles_writable"
   ],
   "note": "The last sentence is false of the code: the old calibration is lost by an interrupted overwriting (overwrite_not_atomic), and saving again repairs the file only with overwrite=True (save_again_repairs); with the default overwrite=False the call returns the path, but the file stays unreadable (save_again_default_keeps_broken). The kernel size and the Airy flag after reading are as in C38. How floats are written and read is a parameter with the assumption that float(repr(x)) = x and repr(x) is a JSON number (doubles_writable: it can be met for all binary64 numbers); NaN and infinite values are excluded."
  },
  {
   "property": "C78",
   "status": "proved",
   "theorems": [
    "Verif.Props.radial_reproducible",
    "Verif.Props.radial_dr_reproducible",
    "Verif.Props.value_reproducible",
    "Verif.Props.kernel_reproducible",
    "Verif.Props.kernel_sum_reproducible",
    "Verif.Props.recursion_limit_matters"
   ],
   "note": "The recursion limit has to allow n + 2 nested calls: recursion_limit_matters shows that a call with less room can fail or succeed depending on the history. Arrays are evaluated element by element; numpy's choice of a vectorised routine by array length or alignment is part of the arithmetic and not modelled."
  },
  {
   "property": "C79",
   "status": "proved",
   "theorems": [
    "Verif.Props.sum_float_error",
    "Verif.Props.sum_double_error",
    "Verif.Props.surface_is_points",
    "Verif.Props.zero_coefficients_ignored",
    "Verif.Props.order_of_sum"
   ],
   "note": "Arrays are evaluated element by element. -0.0 and 0.0 are one number in the model. The bit equalities are for correctly rounded additions and multiplications (binary64 without upper exponent limit)."
  },
  {
   "property": "C80",
   "status": "partial",
   "theorems": [
    "Verif.Props.evaluation_cost_partial",
    "Verif.Props.evaluation_cost_nonneg",
    "Verif.Props.evaluation_cost_none",
    "Verif.Props.evaluation_cost_again",
    "Verif.Props.thread_finishes_within_partial",
    "Verif.Props.evaluation_cost_exponential",
    "Verif.Props.derivative_cost_exponential",
    "Verif.Props.evaluation_cost_not_polynomial"
   ],
   "note": "Partial because the property is false of the code above the order 40 (38 for derivatives), where the recursion is not cached: evaluation_cost_not_polynomial, with explicit lower bounds. The cost counts accesses to the tables and caches, not the arithmetic."
  },
  {
   "property": "C81",
   "status": "proved",
   "theorems": [
    "Verif.Props.kernel_sensitivity",
    "Verif.Props.single_kernel_sensitivity",
    "Verif.Props.normalized_kernel_sensitivity"
   ],
   "note": "Exact arithmetic; the deviation of double precision is bounded in C70."
  },
  {
   "property": "C82",
   "status": "proved",
   "theorems": [
    "Verif.Props.convolution_flip_ud",
    "Verif.Props.convolution_flip_lr",
    "Verif.Props.convolution_transpose",
    "Verif.Props.convolution_local",
    "Verif.Props.convolution_shift",
    "Verif.Props.convolution_mono",
    "Verif.Props.convolution_kernel_error",
    "Verif.Props.convolution_amplitude_error",
    "Verif.Props.crop_changes_image_little",
    "Verif.Props.scaled_convolution_not_local"
   ],
   "note": "scipy.ndimage.convolve is modelled by its definition in exact arithmetic."
  },
  {
   "property": "C83",
   "status": "proved",
   "theorems": [
    "Verif.Props.convolution_float_error",
    "Verif.Props.convolution_double_error",
    "Verif.Props.convolution_integer_error",
    "Verif.Props.convolution_bytes_double",
    "Verif.Props.scaled_convolution_float_error",
    "Verif.Props.constant_image_darkens",
    "Verif.Props.scaled_maximum_lost"
   ],
   "note": "scipy.ndimage.convolve is modelled by its documented definition and the loop of its C source (weights up to DBL_EPSILON are skipped)."
  },
  {
   "property": "C84",
   "status": "partial",
   "theorems": [
    "Verif.Props.read_order_irrelevant",
    "Verif.Props.read_ignores_unknown",
    "Verif.Props.missing_keys_warning",
    "Verif.Props.silent_read_complete_partial",
    "Verif.Props.saved_file_complete",
    "Verif.Props.reordered_file_restores",
    "Verif.Props.save_warns",
    "Verif.Props.read_missing_warns",
    "Verif.Props.missing_polynomial_unnoticed",
    "Verif.Props.incomplete_file_mixes",
    "Verif.Props.doubled_coefficient_hides_kernel",
    "Verif.Props.stale_polynomials_after_read",
    "Verif.Props.uncalculated_kernel_saved"
   ],
   "note": "Order, unknown keys, completeness for the eight counted quantities: proved. Missing: the polynomial (a file without it is not noticed), objects unchanged by incomplete files (false), a coefficient given under both keys hides a missing kernel, stale polynomials remain, a kernel never calculated is saved without a warning after set_physical_props (negations proved)."
  },
  {
   "property": "C85",
   "status": "partial",
   "theorems": [
    "Verif.Props.objects_stay_sound",
    "Verif.Props.other_objects_untouched",
    "Verif.Props.files_kept",
    "Verif.Props.failed_save_changes_nothing",
    "Verif.Props.stored_path_kept",
    "Verif.Props.saved_calibration_survives",
    "Verif.Props.saved_path_of_other_object",
    "Verif.Props.second_default_save_elsewhere",
    "Verif.Props.recalculated_kernel_is_airy"
   ],
   "note": "Soundness, independence, survival of files: proved. The rest is false (negations proved): the file name tells only polynomial and coefficient, so that an object can store the path of another calibration; the second default save goes to another folder; the Airy flag of the reading object decides about its next kernel."
  },
  {
   "property": "C86",
   "status": "proved",
   "theorems": [
    "Verif.Props.image_error",
    "Verif.Props.image_double_error"
   ],
   "note": "The bound adds the errors of all pixels of the kernel, so it is useful only if the kernel is not much larger than the PSF. Images of integers: C83 gives at most 1 more than in exact arithmetic."
  },
  {
   "property": "C87",
   "status": "proved",
   "theorems": [
    "Verif.Props.fit_linear",
    "Verif.Props.fit_add_combination",
    "Verif.Props.fit_residual_zero",
    "Verif.Props.fit_noise",
    "Verif.Props.fit_recovers_with_noise",
    "Verif.Props.fit_noise_constant",
    "Verif.Props.fit_order_of_points",
    "Verif.Props.fit_order_of_polynomials",
    "Verif.Props.fit_image_response"
   ],
   "note": "numpy.linalg.lstsq is a parameter with the contract LstsqContract of C26; LinAlgError is not modelled. Linearly dependent samples are not covered (the fit is then not unique)."
  },
  {
   "property": "C88",
   "status": "proved",
   "theorems": [
    "Verif.Props.mesh_independent",
    "Verif.Props.surface_fit_roundtrip",
    "Verif.Props.surface_fit_default_steps",
    "Verif.Props.surface_fit_equal_mesh",
    "Verif.Props.image_independent",
    "Verif.Props.fit_image_solver_irrelevant",
    "Verif.Props.fit_image_exact",
    "Verif.Props.generated_independent",
    "Verif.Props.roundtrip_all_pixels"
   ],
   "note": "Exact arithmetic. numpy.linalg.lstsq is a parameter with the contract LstsqContract of C26. For orders above 36 the image is limited to 9000 pixels, because the radii are rounded to 4 decimals. Surfaces with as many radii as angles are excluded: surface_fit_equal_mesh proves that the fit then raises ValueError."
  },
  {
   "property": "C89",
   "status": "proved",
   "theorems": [
    "Verif.Props.float_threads_refine",
    "Verif.Props.float_threads_results",
    "Verif.Props.float_threads_finish",
    "Verif.Props.after_float_threads"
   ],
   "note": "Atomic actions as in C76 (interpreter lock of CPython). Arrays are evaluated element by element (more switching points than in the code). The arithmetic F is arbitrary but a function: an operation on given numbers always gives the same number. Warnings and the slow-calculation flag are left out."
  },
  {
   "property": "C90",
   "status": "proved",
   "theorems": [
    "Verif.Props.polynomial_surface_unique_sum",
    "Verif.Props.sum_surface_is_polynomial",
    "Verif.Props.left_out_not_reached",
    "Verif.Props.generated_sums_are_polynomials",
    "Verif.Props.fit_polynomial_surface",
    "Verif.Props.fit_image_polynomial_surface"
   ],
   "note": "The degree is the total degree. The phases given to the fits are exact values of the polynomial at the sample points."
  },
  {
   "property": "C91",
   "status": "proved",
   "theorems": [
    "Verif.Props.continuous_surface_approximated",
    "Verif.Props.amplitudes_best",
    "Verif.Props.amplitudes_converge",
    "Verif.Props.amplitudes_determine"
   ],
   "note": "The surface is any continuous function of the Cartesian coordinates; the amplitudes are exact integrals, not the results of a fit of samples."
  },
  {
   "property": "C92",
   "status": "partial",
   "theorems": [
    "Verif.Props.same_saves_no_wrong_data",
    "Verif.Props.same_saves_restore",
    "Verif.Props.undisturbed_save",
    "Verif.Props.different_saves_destroy",
    "Verif.Props.different_saves_mix",
    "Verif.Props.overwrite_flag_race"
   ],
   "note": "The part for the same calibration is proved completely. The desired part for different calibrations and for overwrite=False is false of the code: different_saves_destroy (unreadable file), different_saves_mix (a calibration nobody saved is read without an error), overwrite_flag_race (an existing file is emptied in spite of overwrite=False). Reading is one action; nobody deletes the file; characters are written one by one (buffers write several at once, which gives fewer interleavings)."
  },
  {
   "property": "C93",
   "status": "proved",
   "theorems": [
    "Verif.Props.accelerated_float_error",
    "Verif.Props.accelerated_sum_float_error",
    "Verif.Props.accelerated_normalized_float_error",
    "Verif.Props.accelerated_close_to_plain",
    "Verif.Props.accelerated_sum_close_to_plain",
    "Verif.Props.accelerated_double_error",
    "Verif.Props.accelerated_sum_double_error",
    "Verif.Props.accelerated_float_rejects"
   ],
   "note": "Compiled code is read as the operations of the text (njit without fastmath does not contract or reorder); no overflow; the accuracy of the arithmetic is the hypothesis PsfAccurate, met by correctly rounded binary64 with any order of the sums. The orders |m| = n = 8, 9, 10 are excluded: C35 proves that their accelerated kernels are wrong."
  },
  {
   "property": "C94",
   "status": "proved",
   "theorems": [
    "Verif.Props.fit_float_error",
    "Verif.Props.fit_double_error",
    "Verif.Props.roundtrip_doubles",
    "Verif.Props.roundtrip_surface_doubles",
    "Verif.Props.fit_float_rejects"
   ],
   "note": "The solver is a parameter with the contract BackwardStable (LAPACK's error bound; an exact solver meets it with eta = 0, so the contract is satisfiable). Independence of the polynomials on the points is a hypothesis (Conditioned), met by the examples; C87 proves that a positive constant exists for independent polynomials. Powers of 10 up to 10^22 are exact doubles. Radii and angles in the accepted range; no overflow."
  },
  {
   "property": "C95",
   "status": "proved",
   "theorems": [
    "Verif.Props.gen_polar_double",
    "Verif.Props.gen_polar_double_near",
    "Verif.Props.gen_polar_default",
    "Verif.Props.angles_end_below",
    "Verif.Props.angles_repeat"
   ],
   "note": "The exact properties of C24 do not survive: the last angle may be below 2*np.pi (angles_end_below) and the last two may coincide (angles_repeat), so the statement is the one up to rounding. Steps below 2^-50 (2^-48) are not covered. numpy.arange for floats is modelled (count by ceil, products with the rounded difference)."
  },
  {
   "property": "C96",
   "status": "proved",
   "theorems": [
    "Verif.Props.gen_equal_mesh_double",
    "Verif.Props.gen_equal_mesh_double_on_disk"
   ],
   "note": "Unlike gen_polar_coordinates (C69, C95) the equal mesh keeps the exact properties of C24 in double precision: strict order and exact ends."
  },
  {
   "property": "C97",
   "status": "proved",
   "theorems": [
    "Verif.Props.gen_surface_double",
    "Verif.Props.gen_surface_default_shape"
   ],
   "note": "A coefficient below 2^-1022 counts as 2^-1022. Correctly rounded elementary functions, no overflow; arrays are evaluated element by element."
  },
  {
   "property": "C98",
   "status": "proved",
   "theorems": [
    "Verif.Props.parallel_kernel_same_bits",
    "Verif.Props.parallel_workers_terminate"
   ],
   "note": "The condition on the wave number and the amplitude is that of C53 (false after a change of the wavelength: parallel_kernel_stale)."
  },
  {
   "property": "C99",
   "status": "proved",
   "theorems": [
    "Verif.Props.phases_image_double",
    "Verif.Props.phases_image_double_vs_exact"
   ],
   "note": "Integers of the pixels and their squares are exact doubles; 0 counts as the smallest normal number in the sum of the amplitudes. Height 0 gives an image without rows."
  },
  {
   "property": "C100",
   "status": "proved",
   "theorems": [
    "Verif.Props.crop_double",
    "Verif.Props.crop_double_rejects",
    "Verif.Props.fit_image_double"
   ],
   "note": "Independence: the mean square of a combination at the points is at least 1/100 of the sum of its squared coefficients. lstsq is a parameter (BackwardStable), as in C94."
  },
  {
   "property": "C101",
   "status": "proved",
   "theorems": [
    "Verif.Props.recover_doubles",
    "Verif.Props.roundtrip_image_doubles",
    "Verif.Props.own_nearGenerator"
   ],
   "note": "Independence: the mean square of a combination at the points is at least 1/100 of the sum of its squared coefficients. lstsq is a parameter (BackwardStable), as in C94. own_nearGenerator: the coordinates computed by the generator itself qualify."
  },
  {
   "property": "C102",
   "status": "proved",
   "theorems": [
    "Verif.Props.set_physical_props_double_stores",
    "Verif.Props.estimated_size_double",
    "Verif.Props.estimated_size_double_near",
    "Verif.Props.estimated_size_monotone_double",
    "Verif.Props.estimated_size_several_double",
    "Verif.Props.size_double_differs",
    "Verif.Props.crop_kernel_double"
   ],
   "note": "size_double_differs: an accepted input where the double precision size is 83 and the exact one 85, so the bound 2 is reached. Overflow is not modelled."
  },
  {
   "property": "C103",
   "status": "partial",
   "theorems": [
    "Verif.Props.undisturbed_read",
    "Verif.Props.read_during_same_saves_partial",
    "Verif.Props.read_after_same_saves",
    "Verif.Props.replaced_while_read_mixes",
    "Verif.Props.resaved_while_read_fails"
   ],
   "note": "The desired part is false of the code: replaced_while_read_mixes (a single process replaces a complete calibration by another complete one; the reader gets, without an error, the old kernel and NA with the new wavelength and pixel size), resaved_while_read_fails (ValueError although the file is complete before and after). Nobody deletes the file."
  },
  {
   "property": "C104",
   "status": "proved",
   "theorems": [
    "Verif.Props.bumped_circle_double",
    "Verif.Props.bumped_circle_double_near",
    "Verif.Props.bumped_circle_double_integer",
    "Verif.Props.bumped_circle_double_decreases",
    "Verif.Props.bumped_circle_double_negative",
    "Verif.Props.bumped_circle_double_edge"
   ],
   "note": "bumped_circle_double_edge: the condition on the edge is needed (a pixel of at least 100 in the exact image is 0 in double precision). roundedBump_ok: correctly rounded functions meet the contract."
  },
  {
   "property": "C105",
   "status": "proved",
   "theorems": [
    "Verif.Props.value_mirrored_exactly",
    "Verif.Props.value_of_revolution",
    "Verif.Props.sum_mirrored",
    "Verif.Props.sum_negated",
    "Verif.Props.surface_negated",
    "Verif.Props.image_negated",
    "Verif.Props.image_of_revolution"
   ],
   "note": "doubles_symmetric: double precision meets the hypothesis. rounding_down_not_symmetric: an arithmetic that rounds down does not have the mirror symmetry."
  },
  {
   "property": "C106",
   "status": "proved",
   "theorems": [
    "Verif.Props.psf_total",
    "Verif.Props.exact_total_le",
    "Verif.Props.exact_total_tendsto",
    "Verif.Props.kernel_total_le",
    "Verif.Props.sum_kernel_total_le",
    "Verif.Props.kernel_total",
    "Verif.Props.sum_kernel_total",
    "Verif.Props.kernel_total_double",
    "Verif.Props.sum_kernel_total_double"
   ],
   "note": "physical_fine_enough: what set_physical_props accepts is fine enough. coarse_pixels_gain: with pixels of wavelength / NA the property fails."
  },
  {
   "property": "C107",
   "status": "proved",
   "theorems": [
    "Verif.Props.derived_operators",
    "Verif.Props.operators_raise",
    "Verif.Props.sorted_in_order",
    "Verif.Props.sorted_stable",
    "Verif.Props.sorted_determined",
    "Verif.Props.sorted_restores_generated",
    "Verif.Props.extremes",
    "Verif.Props.extremes_of_nothing",
    "Verif.Props.membership",
    "Verif.Props.membership_mixed"
   ],
   "note": "sorted is the stable sort by < (documented behaviour of Python). For the invalid orders which the constructor accepts (C07) the sorted list is not determined: sorted_not_determined."
  },
  {
   "property": "C108",
   "status": "proved",
   "theorems": [
    "Verif.Props.surface_of_vectors",
    "Verif.Props.surface_of_radius_matrix",
    "Verif.Props.surface_of_angle_matrix",
    "Verif.Props.surface_shapes_exact",
    "Verif.Props.surface_all_zero",
    "Verif.Props.surface_no_dimension",
    "Verif.Props.surface_foreign_object"
   ],
   "note": "Arrays with a dimension of length 0 are left out of surface_shapes_exact."
  },
  {
   "property": "C109",
   "status": "proved",
   "theorems": [
    "Verif.Props.shown_set_physical_props",
    "Verif.Props.shown_set_calculation_props",
    "Verif.Props.shown_calculate",
    "Verif.Props.strict_set_physical_props",
    "Verif.Props.strict_set_calculation_props",
    "Verif.Props.strict_calculate",
    "Verif.Props.raisesFirst_calculate",
    "Verif.Props.raising_calculate_keeps_kernel",
    "Verif.Props.pending_blocks_calculate",
    "Verif.Props.pending_shown_again",
    "Verif.Props.calculation_props_keep_pending",
    "Verif.Props.physical_props_clear_pending",
    "Verif.Props.polynomial_warning_raised",
    "Verif.Props.zero_aperture_no_warning"
   ],
   "note": "shown_calculate and strict_calculate speak about calculations that return; raisesFirst_calculate about all. The RuntimeWarnings of numpy are not modelled; the warnings of the polynomials are modelled beside the others (PolyWarn), not interleaved with them."
  },
  {
   "property": "C110",
   "status": "proved",
   "theorems": [
    "Verif.Props.workflow_error",
    "Verif.Props.workflow_converges",
    "Verif.Props.workflow_light",
    "Verif.Props.workflow_piston"
   ],
   "note": "Real-number arithmetic (in double precision: C70, C72 for the kernel functions). For the piston scipy's jv(1, .) is assumed to be the Bessel function."
  },
  {
   "property": "C111",
   "status": "proved",
   "theorems": [
    "Verif.Props.set_physical_props_double",
    "Verif.Props.airy_kernel_double",
    "Verif.Props.workflow_double",
    "Verif.Props.workflow_light_double",
    "Verif.Props.made_for"
   ],
   "note": "Assumed of the libraries: elementary functions correctly rounded (plain) or accurate to about 8 units (compiled); jv(1, x) has an error of at most |x| 2^-40 for |x| <= 2000."
  },
  {
   "property": "C112",
   "status": "proved",
   "theorems": [
    "Verif.Props.workflow_image_double",
    "Verif.Props.calculate_nonneg"
   ],
   "note": "Assumptions on the libraries as in C111; scipy.ndimage.convolve as in C83."
  },
  {
   "property": "C113",
   "status": "proved",
   "theorems": [
    "Verif.Props.shared_compute_values",
    "Verif.Props.shared_compute_returns",
    "Verif.Props.shared_second_compute_overwrites",
    "Verif.Props.shared_results_kept_after_update",
    "Verif.Props.shared_compute_never_returns",
    "Verif.Props.shared_append_hangs",
    "Verif.Props.shared_history_values",
    "Verif.Props.shared_history_returns"
   ],
   "note": "Not modelled: compute after the caller removed elements from a list returned by it (shorter than its list of parameters); exceptions and interruptions are in C39 and C64."
  },
  {
   "property": "C114",
   "status": "proved",
   "theorems": [
    "Verif.Props.check_point_r_is_library",
    "Verif.Props.check_point_r_value",
    "Verif.Props.check_point_ang_value",
    "Verif.Props.check_point_ang_bound",
    "Verif.Props.check_references_disagree",
    "Verif.Props.check_kernel_size",
    "Verif.Props.check_kernel_size_mono",
    "Verif.Props.check_kernel_samples_psf",
    "Verif.Props.check_kernel_is_library",
    "Verif.Props.check_kernel_refused"
   ],
   "note": "Real arithmetic; called with a ZernPol object, not a tuple. The Nijboer and Bessel approximations, plots and scripts of the module are not modelled."
  },
  {
   "property": "C115",
   "status": "proved",
   "theorems": [
    "Verif.Props.turned_sum",
    "Verif.Props.mirrored_sum",
    "Verif.Props.turned_squares",
    "Verif.Props.turned_exact_psf",
    "Verif.Props.mirrored_exact_psf",
    "Verif.Props.turned_kernel"
   ],
   "note": "Kernels in real arithmetic (rounding: C70). The kernels agree only up to the integration error because the angular rule omits nodes (C33)."
  },
  {
   "property": "C116",
   "status": "proved",
   "theorems": [
    "Verif.Props.compared_orders",
    "Verif.Props.compared_once",
    "Verif.Props.comparisons_pass",
    "Verif.Props.comparisons_float",
    "Verif.Props.coefficient_comparisons_pass",
    "Verif.Props.high_orders_pass",
    "Verif.Props.after_self_checks",
    "Verif.Props.equal_coeffs_true",
    "Verif.Props.equal_coeffs_total",
    "Verif.Props.equal_coeffs_dicts"
   ],
   "note": "Exact arithmetic: the differences are exactly zero, in doubles they are rounding errors below the asserted bounds (C35 and C93 bound them). Printing is not modelled."
  },
  {
   "property": "C117",
   "status": "partial",
   "theorems": [
    "Verif.Props.max_order_not_tested_partial",
    "Verif.Props.equal_coeffs_keys_partial"
   ],
   "note": "The property is false of the code as it stands; the theorems are the counterexamples (for every N, and one pair of dictionaries). What holds instead is C116."
  },
  {
   "property": "C118",
   "status": "proved",
   "theorems": [
    "Verif.Props.coefficients_same",
    "Verif.Props.coefficients_dr_same",
    "Verif.Props.test_mode_agrees",
    "Verif.Props.test_mode_dr_low",
    "Verif.Props.test_coeffs_calc_passes"
   ],
   "note": "Each mode has its own cache in the model (in the code they share the 128 places, with different keys); evictions between calls are arbitrary."
  },
  {
   "property": "C119",
   "status": "partial",
   "theorems": [
    "Verif.Props.performance_reported",
    "Verif.Props.performance_rejected",
    "Verif.Props.performance_count_wrong_partial"
   ],
   "note": "False of the code: the reported number is the last index (N - 1), or 250 for an empty range (performance_reported, performance_count_wrong_partial: never the number of polynomials). The rest is proved. The measured times are not modelled."
  },
  {
   "property": "C120",
   "status": "proved",
   "theorems": [
    "Verif.Props.json_text_loaded",
    "Verif.Props.json_text_unique",
    "Verif.Props.layout_irrelevant",
    "Verif.Props.broken_text_refused",
    "Verif.Props.reformatted_restores",
    "Verif.Props.surroundings_of_saved"
   ],
   "note": "The limits of the Python scanner (very deep nesting, integers of more than 4300 digits) are not modelled, and escaped surrogates are all read as U+FFFD."
  },
  {
   "property": "C121",
   "status": "proved",
   "theorems": [
    "Verif.Props.conformity_passes",
    "Verif.Props.conformity_leaves_values"
   ],
   "note": "In exact arithmetic. Measured times and printing are not modelled."
  },
  {
   "property": "C122",
   "status": "proved",
   "theorems": [
    "Verif.Props.edited_file_restores",
    "Verif.Props.repeated_key_last_wins"
   ],
   "note": "Values of other types than save_json writes under the calibration names are not modelled."
  }
 ]
}
