#!/usr/bin/env python3
"""Write /verif/MANIFEST.json (property -> theorems). Run after editing the table below."""
import json, pathlib
root = pathlib.Path(__file__).resolve().parent.parent
P = "Verif.Props."
C = {}
def c(prop, status, theorems, note=""):
    C[prop] = dict(property=prop, status=status, theorems=[t if t.startswith("Verif.") else P + t for t in theorems], note=note)

c("C01", "proved", ["osa_index_bijective", "osa_index_order"])
c("C02", "proved", ["noll_index_bijective", "noll_index_parity", "noll_index_order"])
c("C03", "proved", ["fringe_index_bijective", "fringe_index_order"])
c("C04", "proved", ["index2orders_osa", "index2orders_osa_range", "index2orders_noll", "index2orders_noll_range",
                    "index2orders_fringe", "index2orders_fringe_range", "index2orders_none"])
c("C05", "partial", ["osa2noll_same_polynomial_partial", "noll2osa_same_polynomial_partial",
                     "fringe2osa_same_polynomial_partial", "osa_noll_round_trip_partial", "noll_osa_round_trip_partial",
                     "osa_fringe_round_trip_partial", "conversions_not_inverse", "osa_fringe_direct_round_trip_raises"],
  "The unbounded property is false of the code (bounded search; numpy.int64 result rejected by fringe2osa): negations "
  "conversions_not_inverse and osa_fringe_direct_round_trip_raises; proved on the exact supported ranges.")
c("C06", "proved", ["conversions_reject"])
c("C07", "partial", ["ctor_orders_exact", "ctor_orders_accepts_valid", "ctor_orders_accepts_only_valid_partial",
                     "ctor_accepts_invalid_orders"],
  "False of the code: |m| <= n is not checked (negation ctor_accepts_invalid_orders). The exact acceptance condition is proved.")
c("C08", "proved", ["ctor_osa_exact", "ctor_noll_exact", "ctor_fringe_exact"])
c("C09", "proved", ["ctor_consistent", "ctor_index_cases", "get_indices_exact"])
c("C10", "proved", ["constructions_agree"])
c("C11", "proved", ["ctor_keyword_order", "ctor_order_aliases", "ctor_index_aliases", "ctor_rejects_other_keywords"])
c("C12", "partial", ["eq_iff_orders", "comparison_with_other_type", "comparison_trichotomy_partial",
                     "comparison_trichotomy_fails"],
  "Trichotomy is false for the invalid orders accepted by the constructor (negation proved); proved for valid orders.")
c("C13", "proved", ["generate_polynomials_enumerates", "generate_polynomials_rejects", "Verif.Props.generate_any_returns_iff", "Verif.Props.generate_any_enumerates", "Verif.Props.generate_float_accepted_iff", "Verif.Props.generate_any_raises", "Verif.Props.generate_any_warnings"])
c("C14", "proved", ["name_exists_iff", "name_injective", "str_named"])
c("C15", "proved", ["radial_is_zernike", "coefficients_are_zernike"])
c("C16", "proved", ["exact_agrees", "exact_not_silent", "exact_unwarned_is_right"])
c("C17", "proved", ["history_irrelevant", "coefficients_are_zernike"])
c("C18", "partial", ["radial_dr_is_derivative_partial", "radial_dr_is_derivative_of_radial_partial",
                     "coefficients_dr_are_derivative", "radial_dr_wrong"],
  "False of the code for n - |m| >= 40 (negation radial_dr_wrong, for every such polynomial); proved for all others.")
c("C19", "proved", ["radial_at_rim", "radial_bounded", "value_bounded"])
c("C20", "proved", ["triangular_is_angular", "triangular_dtheta_is_derivative"])
c("C21", "proved", ["value_is_zernike", "orthonormal", "normf_exact"])
c("C22", "partial", ["bad_radii_raise", "radial_succeeds_iff", "value_succeeds_iff", "shape_mismatch_raises",
                     "value_elementwise", "radial_is_zernike", "angle_periodic", "set_raises_type_error",
                     "exact_high_order_shape"],
  "False of the code for a set or None (TypeError: set_raises_type_error) and for the exact path above order 40 "
  "(shape of r only: exact_high_order_shape); everything else proved. NaN is not modelled (real numbers).")
c("C40", "proved", ["slow_warning_once"])
c("C42", "proved", ["radial_abs_m"])
c("C23", "proved", ["sum_at_point", "sum_at_points", "sum_surface", "sum_meshgrid_surface", "sum_bad_lists", "sum_not_polynomial",
                    "gen_surface"])
c("C24", "partial", ["gen_polar_covers", "gen_polar_on_disk", "gen_equal_mesh_covers", "gen_polar_bad_steps",
                     "gen_polar_never_valueError"],
  "The clause 'steps out of range raise ValueError' is false of the code (negation gen_polar_never_valueError); all else proved.")
c("C25", "proved", ["crop_correct", "crop_range", "crop_rejects"])
c("C26", "proved", ["fit_vectors_least_squares", "fit_vectors_recovers", "fit_image_least_squares", "fit_image_recovers", "fit_rejects"],
  "numpy.linalg.lstsq is a parameter with the contract LstsqContract (shown satisfiable by lstsq_exists).")
c("C27", "proved", ["phases_image_correct", "phases_image_default_raises"])
c("C28", "partial", ["random_amplitudes", "random_phases", "random_amplitudes_round_zero"],
  "The amplitude bound is false for round_digits=0 (1.5 is rounded to 2: negation proved); proved for round_digits >= 1.")
c("C32", "proved", ["kernel_values_bounded", "kernel_sum_values_bounded", "airy_kernel_bounded", "moderate_aberration_positive"],
  "Normalisation of a kernel whose values are all 0 (0/0 = NaN in numpy) is excluded by a hypothesis. J_1 is Bessel's integral.")
c("C33", "partial", ["center_value_partial", "center_value_not_one", "center_value_default", "angular_rule_misses_two_nodes"],
  "False of the code: the angular sum misses the last two nodes of Simpson's rule, the centre is (1-2/N)^2 for even N (negation for every N).")
c("C34", "proved", ["piston_ignored"])
c("C35", "partial", ["accelerated_agrees_partial", "accelerated_needs_numba", "accelerated_agrees_sum_partial", "accelerated_rejects", "accelerated_phase_wrong",
                     "accelerated_differs", "accelerated_piston_differs"],
  "False of the code for |m| = n = 8, 9, 10 (normalisation and angular part missing: negation) and for the piston (negation); proved for all "
  "other supported polynomials; unsupported ones raise ValueError.")
c("C43", "proved", ["negated_amplitudes_rotate"])
c("C44", "proved", ["kernel_samples_psf", "kernel_samples_psf_auto", "kernel_samples_psf_sum"])
c("C45", "proved", ["strehl_le_one"])
c("C46", "proved", ["polynomial_order_irrelevant", "single_as_list"])
c("C29", "partial", ["psf_init_exact_partial", "acceptable_iff_different_orders", "psf_init_accepts_non_polynomial", "psf_init_attribute_error"],
  "False of the code for an argument that is neither a ZernPol nor a sequence (the ValueError is built but not raised: negation) and for a "
  "sequence of one other object (AttributeError: negation); everything else proved.")
c("C30", "partial", ["set_physical_props_exact_partial", "new_object_consistent", "rejected_call_atomic_partial", "wave_number_stale", "rejected_call_changes_object"],
  "False of the code for the wave number (computed from the previous wavelength: negation, with the exact condition) and for the atomicity of "
  "calls rejected because of the pixel size or the coefficients (negation); acceptance and all stored values proved for every history.")
c("C31", "partial", ["kernel_size_odd", "calculated_size_partial", "calculated_size_after_set", "kernel_size_mismatch"],
  "Odd sizes and squares proved for every history; that the calculated kernel has the size of the object is false for a new object with "
  "suppressed warnings (negation, for every polynomial), proved in all other cases.")
c("C36", "proved", ["crop_kernel_exact", "crop_kernel_rejects"])
c("C47", "proved", ["set_then_calculate_single", "set_then_calculate_several", "calculated_kernel_single", "calculated_kernel_several"],
  "The piston alone is calculated by the Airy formula and excluded here (see C32).")
c("C37", "partial", ["convolution_value", "border_reflects", "convolution_range", "convolution_constant", "convolution_linear", "convolution_identity",
                     "convolution_scaled", "object_convolution", "convolution_black_not_finite", "convolution_scale_inverts"],
  "scipy.ndimage.convolve is modelled by its definition. False of the code with scale2original (the default of convolute_img) for a black image "
  "(0/0: negation) and for images with negative pixels (negation); everything else proved.")
c("C41", "proved", ["bumped_circle_exact", "bumped_circle_symmetric", "bumped_circle_negative"],
  "For intensities up to 65535, the range of the image type.")
c("C38", "partial", ["save_exact", "save_file_name", "save_folder", "read_restores_partial", "save_read_restores_partial", "read_restores_size", "restored_calculates_same", "read_missing",
                     "save_str_path", "save_without_coefficients", "read_loses_kernel_size", "read_keeps_airy_flag", "read_rejected"],
  "Kernel, physical properties, polynomials and coefficients are restored for every reachable object and every target; false of the code for the "
  "kernel size (re-estimated) and the Airy flag (not updated), for str paths, and for objects whose properties are not accepted together (negations).")
c("C39", "partial", ["compute_correct", "compute_terminates", "manager_session", "raising_never_returns", "manager_init_exact", "one_processor_never_returns",
                     "second_manager_never_returns", "second_manager_wrong_function", "too_many_workers"],
  "Order, each parameter once, termination under fair schedules: proved for every history of one manager. Several managers one after another: "
  "false (shared class-level lists: negations); a raising function, or one processor: compute never returns (negations).")
c("C48", "proved", ["surface_rms", "surface_mean"])
c("C49", "proved", ["surface_projection", "amplitudes_unique"])
c("C50", "proved", ["value_opposite_point", "value_mirrored", "value_rotated"])
c("C51", "proved", ["kernel_converges", "sum_kernel_converges"],
  "In exact real arithmetic. Normalised kernels: if the exact kernel is not zero in every pixel.")
c("C52", "proved", ["exact_psf_airy", "airy_kernel_exact", "piston_kernel_converges_airy"],
  "scipy.special.jv(1, x) is modelled as the exact J1 (its integral).")
c("C53", "partial", ["parallel_kernel_exact", "parallel_after_deinitialize", "parallel_agrees_partial", "parallel_agrees_after_two_calls", "workers_terminate",
  "workersReturned_exists", "initialize_workers_exact", "parallel_kernel_stale", "parallel_without_workers", "parallel_released_workers",
  "parallel_small_size", "parallel_several_zeros", "parallel_second_object_never_returns"],
  "Exact for the stored wave number under every schedule. The agreement with calculate_psf_kernel is false of the code after a change of the wavelength (parallel_kernel_stale: for every object) and in the other cases named; it holds after two calls of set_physical_props with the same wavelength.")
c("C54", "proved", ["tilt_moves_kernel"],
  "The psfs of both lists are compared pixel by pixel; pixels coming from outside are not claimed.")
c("C55", "proved", ["phaseVariance_is_variance", "strehl_exact", "strehl_kernel"],
  "Lower bound of Marechal for the exact PSF; limit for the computed kernel.")
c("C56", "proved", ["exact_mirror_rows", "exact_mirror_cols", "exact_rotation", "exact_radial", "kernel_symmetries", "computed_mirror_not_exact"],
  "The exact PSF; for the computed kernels in the limit, with a counterexample to exact equality.")
c("C57", "partial", ["roundtrip_own_coordinates", "roundtrip_piston_partial", "roundtrip_tilt", "roundtrip_tilt_wrong", "roundtrip_piston_wrong"],
  "False of the code (roundtrip_tilt for all sizes up to 1801, roundtrip_tilt_wrong: never 1 for an amplitude 1; roundtrip_piston_wrong: on images of at least 6201 pixels not even the piston comes back with crop radius 1). Proved for own coordinates, and for the piston: every size for crop radii up to 0.9989, up to 1819 pixels otherwise.")
c("C58", "proved", ["convolution_conserves", "convolution_conserves_margin", "airy_conserves", "convolution_not_conserving"],
  "The last theorem shows that one of the two conditions is needed: an asymmetric kernel loses a bright border pixel.")
c("C59", "proved", ["Verif.Props.radial_float_error", "Verif.Props.polynomial_float_error", "Verif.Props.radial_double_error", "Verif.Props.polynomial_double_error", "Verif.Props.paths_agree_float", "Verif.Props.radial_double_bounded", "Verif.Proofs.doubles_accurate"],
  "For every arithmetic satisfying Accurate; doubles is shown to satisfy it with u = 2^-53 and correctly rounded functions. Overflow does not occur (values are bounded); numpy's pow, sin and cos are assumed accurate to (1+u)^p - 1.")
c("C60", "proved", ["Verif.Props.radial_exact_ends", "Verif.Props.radial_double_ends", "Verif.Proofs.doubles_exact"],
  "")
c("C61", "proved", ["Verif.Props.radial_dr_float_error", "Verif.Props.radial_dr_double_error"],
  "")
c("C62", "partial", ["nonfinite_radii_rejected_iff", "nan_disables_the_check", "radial_elementwise", "radial_dr_nonfinite", "polynomial_nonfinite", "sum_nan_coefficients", "sum_infinite_coefficient", "physical_props_nonfinite_iff", "physical_props_agree"],
  "False of the code: one NaN in an array disables the range check for all other elements (negation proved), a NaN coefficient that is not the first one is skipped like 0 (proved), NaN is accepted as coefficient, and as NA for every polynomial but the piston (exact acceptance condition proved), the piston is 1 at NaN. Proved: a NaN radius gives NaN for n >= 1, radial_dr gives NaN for n >= 2 (all orders), infinities let through by a NaN never give a number, finite elements give the polynomial.")
c("C63", "partial", ["Verif.Props.radial_new_array", "Verif.Props.radial_returns_argument", "Verif.Props.radial_result_changes", "Verif.Props.radial_dr_polynomial_new_array", "Verif.Props.method_uses_current_contents", "Verif.Props.methods_change_nothing", "Verif.Props.returned_kernel_kept", "Verif.Props.calculated_kernel_new_but_stored", "Verif.Props.calculate_ignores_written_coefficients", "Verif.Props.coefficients_follow_caller", "Verif.Props.coefficients_of_list_kept", "Verif.Props.polynomials_follow_caller", "Verif.Props.appended_polynomial_breaks", "Verif.Props.new_objects_share_kernel"],
  "The parts that hold are proved for every history of method calls and writes. 'radial returns a new array' is false for (1,1) and (-1,1), and 'the object is independent of the caller' is false for arrays of coefficients, lists of polynomials, the returned kernel and the class kernel; each of these is proved as a theorem.")
c("C64", "proved", ["Verif.Props.life_refines", "Verif.Props.life_outcomes", "Verif.Props.life_returns", "Verif.Props.life_never_returns", "Verif.Props.life_no_calls_after_close", "Verif.Props.life_few_calls_after_close", "Verif.Props.life_close_ends_all", "Verif.Props.life_interrupted_compute_wrong", "Verif.Props.life_interrupted_constructor_leaks"],
  "one manager per process (the lists shared by the class are C39); the waiting times and the time limit of join are not modelled")
c("C65", "proved", ["Verif.Props.plot_profile_shows", "Verif.Props.plot_profile_own_coordinates", "Verif.Props.plot_profile_off_disk", "Verif.Props.plot_profile_rejections", "Verif.Props.plot_sum_shows", "Verif.Props.plot_sum_bad_lists", "Verif.Props.plot_sum_given_surface", "Verif.Props.plot_generated_surface", "Verif.Props.half_pyramid_shows", "Verif.Props.sum_surface_off_disk", "Verif.Props.convolution_scaled_integers", "Verif.Props.visualize_convolution_shows"],
  "what is handed over to matplotlib; a plain tuple of two arrays as coordinates is an AttributeError (plot_profile_rejections)")
c("C66", "proved", ["Verif.Props.units_set_result", "Verif.Props.units_do_not_matter", "Verif.Props.units_do_not_matter_twice", "Verif.Props.units_matter_for_parallel"],
  "calls of get_kernel_parallel that store NaN are left out of the histories")
c("C67", "partial", ["Verif.Props.estimated_size_monotone_partial", "Verif.Props.estimated_size_drops", "Verif.Props.estimated_size_several"],
  "Monotone in the coefficient only on each side of half of the wavelength: across it the size drops (estimated_size_drops: for pixels up to a tenth of the wavelength the size for 0.5 wavelength is smaller than for 0.49 wavelength). All other parts are proved in full.")
c("C68", "partial", ["Verif.Props.radial_nodes_partial", "Verif.Props.radial_nodes_power_of_two", "Verif.Props.radial_nodes_default", "Verif.Props.radial_nodes_extra", "Verif.Props.psf_double_bounded", "Verif.Props.psf_double_exceeds_one", "Verif.Props.exact_nodes"],
  "False for some n: n = 24 (accepted by set_calculation_props) gives 24 nodes, the last one at 1 - 2^-53 (radial_nodes_extra), and the unaberrated PSF exceeds 1.15 in the centre (psf_double_exceeds_one). Proved: n-1 or n nodes, increasing, in (0, 1], within 2^-51 of i/n; right for the default 320 and for powers of 2; PSF values at most 1 + 2^-46 when the number is right. The waves, the sums and the angular integration are exact in this model.")
c("C69", "partial", ["Verif.Props.radii_double_partial", "Verif.Props.radii_repeat", "Verif.Props.radii_end_below_one"],
  "Proved for every step: start 0, all radii in [0, 1], not decreasing, neighbours at most step + 2^-52 apart, last one at least 1 - 2^-51. False: strictly increasing (step 1/6 gives the radius 1 twice, radii_repeat) and ending exactly at 1 (step 1/98 ends at 1 - 2^-53, radii_end_below_one). The angles in double precision: C95.")
c("C70", "proved", ["Verif.Props.kernel_float_error", "Verif.Props.kernel_sum_float_error", "Verif.Props.kernel_normalized_float_error", "Verif.Props.kernel_double_error", "Verif.Props.kernel_sum_double_error", "Verif.Props.kernel_sum_normalized_float_error", "Verif.Props.sumFromLeft_sums"],
  "The reference is the exact value of the discretised PSF (C44), not of the diffraction integral (C43). numpy functions are assumed accurate to about p units; overflow is not modelled (unbounded exponents upwards), underflow to subnormal numbers is.")
c("C71", "partial", ["Verif.Props.slope_greatest_at_rim_partial", "Verif.Props.rim_slope_wrong", "Verif.Props.radial_sensitivity", "Verif.Props.radial_sensitivity_sharp", "Verif.Props.value_sensitivity"],
  "The statements on radial and polynomial_value hold for all orders. That on radial_dr is false of the code for n - |m| >= 40 (rim_slope_wrong, the defect of C18), and proved up to n - |m| = 38, which is all of the remaining range.")
c("C72", "proved", ["Verif.Props.kernel_quadrature_error", "Verif.Props.sum_kernel_quadrature_error", "Verif.Props.kernel_double_vs_exact", "Verif.Props.sum_kernel_double_vs_exact", "Verif.Props.quadratureError_tendsto"],
  "The constants are not the best ones: for even n_phi the true error of the angular integration, apart from the omitted nodes, is much smaller.")
c("C73", "proved", ["Verif.Props.tables_bounded"],
  "The other methods that evaluate polynomials (sum_zernikes, fit_polynomials, plots) reach the tables only through the calls that are steps here.")
c("C74", "partial", ["Verif.Props.force_compilation_partial", "Verif.Props.accelerated_keeps_tables", "Verif.Props.version_check_partial", "Verif.Props.old_version_not_warned", "Verif.Props.short_version_raises", "Verif.Props.unparsed_version"],
  "False of the code in two points, proved: 0.56.4 is older than 0.57.1 and gets no recommendation (only versions with the last part 0 do), and a version of two parts such as 0.57 raises an IndexError. Missing: the time and the output of the compilation itself.")
c("C75", "partial", ["Verif.Props.calculate_warnings_exact", "Verif.Props.no_pixel_warning_after_set", "Verif.Props.suppress_only_silences_partial", "Verif.Props.suppress_changes_kernel", "Verif.Props.coefficient_warning_exact", "Verif.Props.calculation_props_warnings_exact", "Verif.Props.polynomial_warnings_exact"],
  "False of the code in one point, proved: if no properties were set, suppress_warnings=True changes the kernel size from 19 to the initial 1 (suppress_changes_kernel). Not modelled: the texts of the warnings; the filter 'error' is C109.")
c("C76", "proved", ["Verif.Props.threads_results", "Verif.Props.threads_finish", "Verif.Props.after_threads", "Verif.Props.threads_refine"],
  "Trusted: the atomicity of single dictionary operations and of the lookups and insertions of functools.lru_cache under the interpreter lock. Not modelled: the flag of the slow-calculation warning and the warnings.")
c("C77", "partial", ["Verif.Props.saved_text_restores_partial", "Verif.Props.stopped_save_no_wrong_data", "Verif.Props.save_again_repairs", "Verif.Props.overwrite_not_atomic", "Verif.Props.save_again_default_keeps_broken", "Verif.Props.doubles_writable"],
  "The last sentence is false of the code: the old calibration is lost by an interrupted overwriting (overwrite_not_atomic), and saving again repairs the file only with overwrite=True (save_again_repairs); with the default overwrite=False the call returns the path, but the file stays unreadable (save_again_default_keeps_broken). The kernel size and the Airy flag after reading are as in C38. How floats are written and read is a parameter with the assumption that float(repr(x)) = x and repr(x) is a JSON number (doubles_writable: it can be met for all binary64 numbers); NaN and infinite values are excluded.")
c("C78", "proved", ["Verif.Props.radial_reproducible", "Verif.Props.radial_dr_reproducible", "Verif.Props.value_reproducible", "Verif.Props.kernel_reproducible", "Verif.Props.kernel_sum_reproducible", "Verif.Props.recursion_limit_matters"],
  "The recursion limit has to allow n + 2 nested calls: recursion_limit_matters shows that a call with less room can fail or succeed depending on the history. Arrays are evaluated element by element; numpy's choice of a vectorised routine by array length or alignment is part of the arithmetic and not modelled.")
c("C79", "proved", ["Verif.Props.sum_float_error", "Verif.Props.sum_double_error", "Verif.Props.surface_is_points", "Verif.Props.zero_coefficients_ignored", "Verif.Props.order_of_sum"],
  "Arrays are evaluated element by element. -0.0 and 0.0 are one number in the model. The bit equalities are for correctly rounded additions and multiplications (binary64 without upper exponent limit).")
c("C80", "partial", ["Verif.Props.evaluation_cost_partial", "Verif.Props.evaluation_cost_nonneg", "Verif.Props.evaluation_cost_none", "Verif.Props.evaluation_cost_again", "Verif.Props.thread_finishes_within_partial", "Verif.Props.evaluation_cost_exponential", "Verif.Props.derivative_cost_exponential", "Verif.Props.evaluation_cost_not_polynomial"],
  "Partial because the property is false of the code above the order 40 (38 for derivatives), where the recursion is not cached: evaluation_cost_not_polynomial, with explicit lower bounds. The cost counts accesses to the tables and caches, not the arithmetic.")
c("C81", "proved", ["Verif.Props.kernel_sensitivity", "Verif.Props.single_kernel_sensitivity", "Verif.Props.normalized_kernel_sensitivity"],
  "Exact arithmetic; the deviation of double precision is bounded in C70.")
c("C82", "proved", ["Verif.Props.convolution_flip_ud", "Verif.Props.convolution_flip_lr", "Verif.Props.convolution_transpose", "Verif.Props.convolution_local", "Verif.Props.convolution_shift", "Verif.Props.convolution_mono", "Verif.Props.convolution_kernel_error", "Verif.Props.convolution_amplitude_error", "Verif.Props.crop_changes_image_little", "Verif.Props.scaled_convolution_not_local"],
  "scipy.ndimage.convolve is modelled by its definition in exact arithmetic.")
c("C83", "proved", ["Verif.Props.convolution_float_error", "Verif.Props.convolution_double_error", "Verif.Props.convolution_integer_error", "Verif.Props.convolution_bytes_double", "Verif.Props.scaled_convolution_float_error", "Verif.Props.constant_image_darkens", "Verif.Props.scaled_maximum_lost"],
  "scipy.ndimage.convolve is modelled by its documented definition and the loop of its C source (weights up to DBL_EPSILON are skipped).")
c("C84", "partial", ["Verif.Props.read_order_irrelevant", "Verif.Props.read_ignores_unknown", "Verif.Props.missing_keys_warning", "Verif.Props.silent_read_complete_partial", "Verif.Props.saved_file_complete", "Verif.Props.reordered_file_restores", "Verif.Props.save_warns", "Verif.Props.read_missing_warns", "Verif.Props.missing_polynomial_unnoticed", "Verif.Props.incomplete_file_mixes", "Verif.Props.doubled_coefficient_hides_kernel", "Verif.Props.stale_polynomials_after_read", "Verif.Props.uncalculated_kernel_saved"],
  "Order, unknown keys, completeness for the eight counted quantities: proved. Missing: the polynomial (a file without it is not noticed), objects unchanged by incomplete files (false), a coefficient given under both keys hides a missing kernel, stale polynomials remain, a kernel never calculated is saved without a warning after set_physical_props (negations proved).")
c("C85", "partial", ["Verif.Props.objects_stay_sound", "Verif.Props.other_objects_untouched", "Verif.Props.files_kept", "Verif.Props.failed_save_changes_nothing", "Verif.Props.stored_path_kept", "Verif.Props.saved_calibration_survives", "Verif.Props.saved_path_of_other_object", "Verif.Props.second_default_save_elsewhere", "Verif.Props.recalculated_kernel_is_airy"],
  "Soundness, independence, survival of files: proved. The rest is false (negations proved): the file name tells only polynomial and coefficient, so that an object can store the path of another calibration; the second default save goes to another folder; the Airy flag of the reading object decides about its next kernel.")
c("C86", "proved", ["Verif.Props.image_error", "Verif.Props.image_double_error"],
  "The bound adds the errors of all pixels of the kernel, so it is useful only if the kernel is not much larger than the PSF. Images of integers: C83 gives at most 1 more than in exact arithmetic.")
c("C87", "proved", ["Verif.Props.fit_linear", "Verif.Props.fit_add_combination", "Verif.Props.fit_residual_zero", "Verif.Props.fit_noise", "Verif.Props.fit_recovers_with_noise", "Verif.Props.fit_noise_constant", "Verif.Props.fit_order_of_points", "Verif.Props.fit_order_of_polynomials", "Verif.Props.fit_image_response"],
  "numpy.linalg.lstsq is a parameter with the contract LstsqContract of C26; LinAlgError is not modelled. Linearly dependent samples are not covered (the fit is then not unique).")
c("C88", "proved", ["Verif.Props.mesh_independent", "Verif.Props.surface_fit_roundtrip", "Verif.Props.surface_fit_default_steps", "Verif.Props.surface_fit_equal_mesh", "Verif.Props.image_independent", "Verif.Props.fit_image_solver_irrelevant", "Verif.Props.fit_image_exact", "Verif.Props.generated_independent", "Verif.Props.roundtrip_all_pixels"],
  "Exact arithmetic. numpy.linalg.lstsq is a parameter with the contract LstsqContract of C26. For orders above 36 the image is limited to 9000 pixels, because the radii are rounded to 4 decimals. Surfaces with as many radii as angles are excluded: surface_fit_equal_mesh proves that the fit then raises ValueError.")
c("C89", "proved", ["Verif.Props.float_threads_refine", "Verif.Props.float_threads_results", "Verif.Props.float_threads_finish", "Verif.Props.after_float_threads"],
  "Atomic actions as in C76 (interpreter lock of CPython). Arrays are evaluated element by element (more switching points than in the code). The arithmetic F is arbitrary but a function: an operation on given numbers always gives the same number. Warnings and the slow-calculation flag are left out.")
c("C90", "proved", ["Verif.Props.polynomial_surface_unique_sum", "Verif.Props.sum_surface_is_polynomial", "Verif.Props.left_out_not_reached", "Verif.Props.generated_sums_are_polynomials", "Verif.Props.fit_polynomial_surface", "Verif.Props.fit_image_polynomial_surface"],
  "The degree is the total degree. The phases given to the fits are exact values of the polynomial at the sample points.")
c("C91", "proved", ["Verif.Props.continuous_surface_approximated", "Verif.Props.amplitudes_best", "Verif.Props.amplitudes_converge", "Verif.Props.amplitudes_determine"],
  "The surface is any continuous function of the Cartesian coordinates; the amplitudes are exact integrals, not the results of a fit of samples.")
c("C92", "partial", ["Verif.Props.same_saves_no_wrong_data", "Verif.Props.same_saves_restore", "Verif.Props.undisturbed_save", "Verif.Props.different_saves_destroy", "Verif.Props.different_saves_mix", "Verif.Props.overwrite_flag_race"],
  "The part for the same calibration is proved completely. The desired part for different calibrations and for overwrite=False is false of the code: different_saves_destroy (unreadable file), different_saves_mix (a calibration nobody saved is read without an error), overwrite_flag_race (an existing file is emptied in spite of overwrite=False). Reading is one action; nobody deletes the file; characters are written one by one (buffers write several at once, which gives fewer interleavings).")
c("C93", "proved", ["Verif.Props.accelerated_float_error", "Verif.Props.accelerated_sum_float_error", "Verif.Props.accelerated_normalized_float_error", "Verif.Props.accelerated_close_to_plain", "Verif.Props.accelerated_sum_close_to_plain", "Verif.Props.accelerated_double_error", "Verif.Props.accelerated_sum_double_error", "Verif.Props.accelerated_float_rejects"],
  "Compiled code is read as the operations of the text (njit without fastmath does not contract or reorder); no overflow; the accuracy of the arithmetic is the hypothesis PsfAccurate, met by correctly rounded binary64 with any order of the sums. The orders |m| = n = 8, 9, 10 are excluded: C35 proves that their accelerated kernels are wrong.")
c("C94", "proved", ["Verif.Props.fit_float_error", "Verif.Props.fit_double_error", "Verif.Props.roundtrip_doubles", "Verif.Props.roundtrip_surface_doubles", "Verif.Props.fit_float_rejects"],
  "The solver is a parameter with the contract BackwardStable (LAPACK's error bound; an exact solver meets it with eta = 0, so the contract is satisfiable). Independence of the polynomials on the points is a hypothesis (Conditioned), met by the examples; C87 proves that a positive constant exists for independent polynomials. Powers of 10 up to 10^22 are exact doubles. Radii and angles in the accepted range; no overflow.")
c("C95", "proved", ["Verif.Props.gen_polar_double", "Verif.Props.gen_polar_double_near", "Verif.Props.gen_polar_default", "Verif.Props.angles_end_below", "Verif.Props.angles_repeat"],
  "The exact properties of C24 do not survive: the last angle may be below 2*np.pi (angles_end_below) and the last two may coincide (angles_repeat), so the statement is the one up to rounding. Steps below 2^-50 (2^-48) are not covered. numpy.arange for floats is modelled (count by ceil, products with the rounded difference).")
c("C96", "proved", ["Verif.Props.gen_equal_mesh_double", "Verif.Props.gen_equal_mesh_double_on_disk"],
  "Unlike gen_polar_coordinates (C69, C95) the equal mesh keeps the exact properties of C24 in double precision: strict order and exact ends.")
c("C97", "proved", ["Verif.Props.gen_surface_double", "Verif.Props.gen_surface_default_shape"],
  "A coefficient below 2^-1022 counts as 2^-1022. Correctly rounded elementary functions, no overflow; arrays are evaluated element by element.")
c("C98", "proved", ["Verif.Props.parallel_kernel_same_bits", "Verif.Props.parallel_workers_terminate"],
  "The condition on the wave number and the amplitude is that of C53 (false after a change of the wavelength: parallel_kernel_stale).")
c("C99", "proved", ["Verif.Props.phases_image_double", "Verif.Props.phases_image_double_vs_exact"],
  "Integers of the pixels and their squares are exact doubles; 0 counts as the smallest normal number in the sum of the amplitudes. Height 0 gives an image without rows.")
c("C100", "proved", ["Verif.Props.crop_double", "Verif.Props.crop_double_rejects", "Verif.Props.fit_image_double"],
  "Independence: the mean square of a combination at the points is at least 1/100 of the sum of its squared coefficients. lstsq is a parameter (BackwardStable), as in C94.")
c("C101", "proved", ["Verif.Props.recover_doubles", "Verif.Props.roundtrip_image_doubles", "Verif.Props.own_nearGenerator"],
  "Independence: the mean square of a combination at the points is at least 1/100 of the sum of its squared coefficients. lstsq is a parameter (BackwardStable), as in C94. own_nearGenerator: the coordinates computed by the generator itself qualify.")
c("C102", "proved", ["Verif.Props.set_physical_props_double_stores", "Verif.Props.estimated_size_double", "Verif.Props.estimated_size_double_near", "Verif.Props.estimated_size_monotone_double", "Verif.Props.estimated_size_several_double", "Verif.Props.size_double_differs", "Verif.Props.crop_kernel_double"],
  "size_double_differs: an accepted input where the double precision size is 83 and the exact one 85, so the bound 2 is reached. Overflow is not modelled.")
c("C103", "partial", ["Verif.Props.undisturbed_read", "Verif.Props.read_during_same_saves_partial", "Verif.Props.read_after_same_saves", "Verif.Props.replaced_while_read_mixes", "Verif.Props.resaved_while_read_fails"],
  "The desired part is false of the code: replaced_while_read_mixes (a single process replaces a complete calibration by another complete one; the reader gets, without an error, the old kernel and NA with the new wavelength and pixel size), resaved_while_read_fails (ValueError although the file is complete before and after). Nobody deletes the file.")
c("C104", "proved", ["Verif.Props.bumped_circle_double", "Verif.Props.bumped_circle_double_near", "Verif.Props.bumped_circle_double_integer", "Verif.Props.bumped_circle_double_decreases", "Verif.Props.bumped_circle_double_negative", "Verif.Props.bumped_circle_double_edge"],
  "bumped_circle_double_edge: the condition on the edge is needed (a pixel of at least 100 in the exact image is 0 in double precision). roundedBump_ok: correctly rounded functions meet the contract.")
c("C105", "proved", ["Verif.Props.value_mirrored_exactly", "Verif.Props.value_of_revolution", "Verif.Props.sum_mirrored", "Verif.Props.sum_negated", "Verif.Props.surface_negated", "Verif.Props.image_negated", "Verif.Props.image_of_revolution"],
  "doubles_symmetric: double precision meets the hypothesis. rounding_down_not_symmetric: an arithmetic that rounds down does not have the mirror symmetry.")
c("C106", "proved", ["Verif.Props.psf_total", "Verif.Props.exact_total_le", "Verif.Props.exact_total_tendsto", "Verif.Props.kernel_total_le", "Verif.Props.sum_kernel_total_le", "Verif.Props.kernel_total", "Verif.Props.sum_kernel_total", "Verif.Props.kernel_total_double", "Verif.Props.sum_kernel_total_double"],
  "physical_fine_enough: what set_physical_props accepts is fine enough. coarse_pixels_gain: with pixels of wavelength / NA the property fails.")
c("C107", "proved", ["Verif.Props.derived_operators", "Verif.Props.operators_raise", "Verif.Props.sorted_in_order", "Verif.Props.sorted_stable", "Verif.Props.sorted_determined", "Verif.Props.sorted_restores_generated", "Verif.Props.extremes", "Verif.Props.extremes_of_nothing", "Verif.Props.membership", "Verif.Props.membership_mixed"],
  "sorted is the stable sort by < (documented behaviour of Python). For the invalid orders which the constructor accepts (C07) the sorted list is not determined: sorted_not_determined.")
c("C108", "proved", ["Verif.Props.surface_of_vectors", "Verif.Props.surface_of_radius_matrix", "Verif.Props.surface_of_angle_matrix", "Verif.Props.surface_shapes_exact", "Verif.Props.surface_all_zero", "Verif.Props.surface_no_dimension", "Verif.Props.surface_foreign_object"],
  "Arrays with a dimension of length 0 are left out of surface_shapes_exact.")
c("C109", "proved", ["Verif.Props.shown_set_physical_props", "Verif.Props.shown_set_calculation_props", "Verif.Props.shown_calculate", "Verif.Props.strict_set_physical_props", "Verif.Props.strict_set_calculation_props", "Verif.Props.strict_calculate", "Verif.Props.raisesFirst_calculate", "Verif.Props.raising_calculate_keeps_kernel", "Verif.Props.pending_blocks_calculate", "Verif.Props.pending_shown_again", "Verif.Props.calculation_props_keep_pending", "Verif.Props.physical_props_clear_pending", "Verif.Props.polynomial_warning_raised", "Verif.Props.zero_aperture_no_warning"],
  "shown_calculate and strict_calculate speak about calculations that return; raisesFirst_calculate about all. The RuntimeWarnings of numpy are not modelled; the warnings of the polynomials are modelled beside the others (PolyWarn), not interleaved with them.")
c("C110", "proved", ["Verif.Props.workflow_error", "Verif.Props.workflow_converges", "Verif.Props.workflow_light", "Verif.Props.workflow_piston"],
  "Real-number arithmetic (in double precision: C70, C72 for the kernel functions). For the piston scipy's jv(1, .) is assumed to be the Bessel function.")
c("C111", "proved", ["Verif.Props.set_physical_props_double", "Verif.Props.airy_kernel_double", "Verif.Props.workflow_double", "Verif.Props.workflow_light_double", "Verif.Props.made_for"],
  "Assumed of the libraries: elementary functions correctly rounded (plain) or accurate to about 8 units (compiled); jv(1, x) has an error of at most |x| 2^-40 for |x| <= 2000.")
c("C112", "proved", ["Verif.Props.workflow_image_double", "Verif.Props.calculate_nonneg"],
  "Assumptions on the libraries as in C111; scipy.ndimage.convolve as in C83.")
c("C113", "proved", ["Verif.Props.shared_compute_values", "Verif.Props.shared_compute_returns", "Verif.Props.shared_second_compute_overwrites", "Verif.Props.shared_results_kept_after_update", "Verif.Props.shared_compute_never_returns", "Verif.Props.shared_append_hangs", "Verif.Props.shared_history_values", "Verif.Props.shared_history_returns"],
  "Not modelled: compute after the caller removed elements from a list returned by it (shorter than its list of parameters); exceptions and interruptions are in C39 and C64.")
c("C114", "proved", ["Verif.Props.check_point_r_is_library", "Verif.Props.check_point_r_value", "Verif.Props.check_point_ang_value", "Verif.Props.check_point_ang_bound", "Verif.Props.check_references_disagree", "Verif.Props.check_kernel_size", "Verif.Props.check_kernel_size_mono", "Verif.Props.check_kernel_samples_psf", "Verif.Props.check_kernel_is_library", "Verif.Props.check_kernel_refused"],
  "Real arithmetic; called with a ZernPol object, not a tuple. The Nijboer and Bessel approximations, plots and scripts of the module are not modelled.")
c("C115", "proved", ["Verif.Props.turned_sum", "Verif.Props.mirrored_sum", "Verif.Props.turned_squares", "Verif.Props.turned_exact_psf", "Verif.Props.mirrored_exact_psf", "Verif.Props.turned_kernel"],
  "Kernels in real arithmetic (rounding: C70). The kernels agree only up to the integration error because the angular rule omits nodes (C33).")
c("C116", "proved", ["Verif.Props.compared_orders", "Verif.Props.compared_once", "Verif.Props.comparisons_pass", "Verif.Props.comparisons_float", "Verif.Props.coefficient_comparisons_pass", "Verif.Props.high_orders_pass", "Verif.Props.after_self_checks", "Verif.Props.equal_coeffs_true", "Verif.Props.equal_coeffs_total", "Verif.Props.equal_coeffs_dicts"],
  "Exact arithmetic: the differences are exactly zero, in doubles they are rounding errors below the asserted bounds (C35 and C93 bound them). Printing is not modelled.")
c("C117", "partial", ["Verif.Props.max_order_not_tested_partial", "Verif.Props.equal_coeffs_keys_partial"],
  "The property is false of the code as it stands; the theorems are the counterexamples (for every N, and one pair of dictionaries). What holds instead is C116.")
c("C118", "proved", ["Verif.Props.coefficients_same", "Verif.Props.coefficients_dr_same", "Verif.Props.test_mode_agrees", "Verif.Props.test_mode_dr_low", "Verif.Props.test_coeffs_calc_passes"],
  "Each mode has its own cache in the model (in the code they share the 128 places, with different keys); evictions between calls are arbitrary.")
c("C119", "partial", ["Verif.Props.performance_reported", "Verif.Props.performance_rejected", "Verif.Props.performance_count_wrong_partial"],
  "False of the code: the reported number is the last index (N - 1), or 250 for an empty range (performance_reported, performance_count_wrong_partial: never the number of polynomials). The rest is proved. The measured times are not modelled.")
c("C120", "proved", ["Verif.Props.json_text_loaded", "Verif.Props.json_text_unique", "Verif.Props.layout_irrelevant", "Verif.Props.broken_text_refused", "Verif.Props.reformatted_restores", "Verif.Props.surroundings_of_saved"],
  "The limits of the Python scanner (very deep nesting, integers of more than 4300 digits) are not modelled, and escaped surrogates are all read as U+FFFD.")
c("C121", "proved", ["Verif.Props.conformity_passes", "Verif.Props.conformity_leaves_values"],
  "In exact arithmetic. Measured times and printing are not modelled.")
c("C122", "proved", ["Verif.Props.edited_file_restores", "Verif.Props.repeated_key_last_wins"],
  "Values of other types than save_json writes under the calibration names are not modelled.")
#@@
ids = [json.loads(l)["id"] for l in open(root / "properties.jsonl") if l.strip()]
out = [C[i] for i in ids if i in C]
(root / "MANIFEST.json").write_text(json.dumps({"claims": out}, indent=1) + "\n")
print(len(out), "claims;", "missing:", [i for i in ids if i not in C])
