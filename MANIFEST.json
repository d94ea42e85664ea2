{
 "claims": [
  {
   "property": "C01",
   "status": "proved",
   "theorems": [
    "Sleplet.Props.C01_chunks_partition"
   ],
   "note": ""
  },
  {
   "property": "C02",
   "status": "proved",
   "theorems": [
    "Sleplet.Props.C02_chunks_balanced"
   ],
   "note": ""
  },
  {
   "property": "C03",
   "status": "proved",
   "theorems": [
    "Sleplet.Props.C03_arbitrary_matrix_schedule_independent",
    "Sleplet.Props.C03_run_exists"
   ],
   "note": "Assumes the external inverse transforms of the harmonics succeed and have Y(l,-m)=(-1)^m conj Y(l,m) on the grid."
  },
  {
   "property": "C04",
   "status": "partial",
   "theorems": [
    "Sleplet.Props.C04_worker_failure_swallowed",
    "Sleplet.Props.C04_columns_of_surviving_workers_partial",
    "Sleplet.Props.C04_worker_failure_swallowed_mesh",
    "Sleplet.Props.C04_mesh_columns_of_surviving_workers_partial"
   ],
   "note": "The code violates the property: negation proved with a witness; the partial theorem bounds the damage."
  },
  {
   "property": "C05",
   "status": "proved",
   "theorems": [
    "Sleplet.Props.C05_mesh_matrix_schedule_independent",
    "Sleplet.Props.C05_run_exists"
   ],
   "note": "Mesh region integrals are the finite sums the code computes; the pool is any interleaving."
  },
  {
   "property": "C06",
   "status": "proved",
   "theorems": [
    "Sleplet.Props.C06_polar_matrix_schedule_independent"
   ],
   "note": "The Legendre table is a parameter (the recursion of scipy is external)."
  },
  {
   "property": "C07",
   "status": "proved",
   "theorems": [
    "Sleplet.Props.C07_polar_gap_parity"
   ],
   "note": "Compares completed runs with and without the gap option."
  },
  {
   "property": "C51",
   "status": "proved",
   "theorems": [
    "Sleplet.Props.C51_wigner_never_raises",
    "Sleplet.Props.C51_selection_rules",
    "Sleplet.Props.C51_symmetries",
    "Sleplet.Props.C51_zero_orders_odd"
   ],
   "note": "Exact reals in place of floats; factorials are exact."
  },
  {
   "property": "C17",
   "status": "proved",
   "theorems": [
    "Sleplet.Props.C17_lat_lon_sorted_and_paired",
    "Sleplet.Props.C17_arbitrary_sorted_and_paired",
    "Sleplet.Props.C17_mesh_sorted_and_paired",
    "Sleplet.Props.C19_polar_all_orders"
   ],
   "note": "The sort order is any argsort (numpy's default sort is not stable); the solver is a parameter."
  },
  {
   "property": "C18",
   "status": "proved",
   "theorems": [
    "Sleplet.Props.C18_lat_lon_orthonormal_eigenvectors",
    "Sleplet.Props.C18_arbitrary_orthonormal_eigenvectors",
    "Sleplet.Props.C18_mesh_orthonormal_eigenvectors",
    "Sleplet.Props.C19_polar_all_orders"
   ],
   "note": "Assumes the external solver returns orthonormal eigenvectors of the matrix."
  },
  {
   "property": "C19",
   "status": "proved",
   "theorems": [
    "Sleplet.Props.C19_polar_all_orders"
   ],
   "note": ""
  },
  {
   "property": "C20",
   "status": "partial",
   "theorems": [
    "Sleplet.Props.C20_lat_lon_first_not_negative",
    "Sleplet.Props.C20_arbitrary_first_not_negative_partial",
    "Sleplet.Props.C20_arbitrary_repeated_violated",
    "Sleplet.Props.C20_polar_sign_rule",
    "Sleplet.Props.C20_polar_leading_coefficient_negative"
   ],
   "note": "Violated for repeated eigenvalues of arbitrary regions and for polar caps of nonzero order: witnesses proved, with the cases where it holds."
  },
  {
   "property": "C21",
   "status": "proved",
   "theorems": [
    "Sleplet.Props.C21_index_bijection",
    "Sleplet.Props.C21_emm_vector"
   ],
   "note": ""
  },
  {
   "property": "C24",
   "status": "proved",
   "theorems": [
    "Sleplet.Props.C24_boost_preserves"
   ],
   "note": ""
  },
  {
   "property": "C32",
   "status": "proved",
   "theorems": [
    "Sleplet.Props.C32_round_trip_projection",
    "Sleplet.Props.C32_mesh_round_trip"
   ],
   "note": "Exact complex arithmetic; the external inverse transform is synthesis with fixed basis fields."
  },
  {
   "property": "C33",
   "status": "proved",
   "theorems": [
    "Sleplet.Props.C33_method_selection",
    "Sleplet.Props.C33_rejections",
    "Sleplet.Props.C33_mesh_method_selection"
   ],
   "note": ""
  },
  {
   "property": "C34",
   "status": "proved",
   "theorems": [
    "Sleplet.Props.C34_three_methods_agree",
    "Sleplet.Props.C34_mesh_three_methods_agree",
    "Sleplet.Props.C34_quadrature_violation"
   ],
   "note": "As stated, for an exact integration rule; on meshes the rule is exact without assumptions. C34_quadrature_violation: the program's weights on the sphere are not exact even on constants."
  },
  {
   "property": "C57",
   "status": "proved",
   "theorems": [
    "Sleplet.Props.C57_hermitian_completion",
    "Sleplet.Props.C57_symmetric_completion"
   ],
   "note": ""
  },
  {
   "property": "C35",
   "status": "proved",
   "theorems": [
    "Sleplet.Props.C35_mesh_round_trip",
    "Sleplet.Props.C35_forward_values"
   ],
   "note": ""
  },
  {
   "property": "C36",
   "status": "proved",
   "theorems": [
    "Sleplet.Props.C36_orthonormalise"
   ],
   "note": "Zero functions (nan in NumPy) are excluded by hypothesis."
  },
  {
   "property": "C50",
   "status": "partial",
   "theorems": [
    "Sleplet.Props.C50_arbitrary_energy_ratio",
    "Sleplet.Props.C50_mesh_energy_ratio",
    "Sleplet.Props.C50_lat_lon_energy_ratio",
    "Sleplet.Props.C50_lat_lon_inverted_violation",
    "Sleplet.Props.C50_polar_energy_ratio",
    "Sleplet.Props.C50_polar_runs_exist",
    "Sleplet.Props.C50_arbitrary_runs_exist",
    "Sleplet.Props.C50_polar_overlapping_gap_violation",
    "Sleplet.Props.C50_polar_overlapping_gap_accepted",
    "Sleplet.Props.C50_arbitrary_bounded_partial",
    "Sleplet.Props.C50_arbitrary_violation"
   ],
   "note": "Arbitrary regions: with an exact quadrature the full claim (hypothesis); with the weights the program uses and the spherical harmonics themselves, the eigenvalues lie in [0, 4/3] for every mask, their sum rounded is the Shannon number, and the bound 1 is violated: for every L >= 2 the mask of the whole sphere has an eigenvalue above one; meshes: no assumption on quadrature; latitude/longitude regions: end to end with the spherical harmonics themselves, no assumption beyond the solver contract and the values of ssht.generate_dl. Violated for longitudes in the wrong order, which Region accepts: some eigenvalue is negative. Polar caps: end to end with the spherical harmonics themselves, no assumption beyond the solver contract and the values of create_ylm; violated for polar gaps with theta_max > pi/2, which are accepted: some eigenvalue is greater than one."
  },
  {
   "property": "C08",
   "status": "partial",
   "theorems": [
    "Sleplet.Props.C08_area_is_masked_area_partial",
    "Sleplet.Props.C08_gap_area_is_half",
    "Sleplet.Props.C08_gap_violation",
    "Sleplet.Props.C08_inverted_violation",
    "Sleplet.Props.C08_shannon_bounds",
    "Sleplet.Props.C08_hemisphere"
   ],
   "note": "Violated for polar gaps (area of one cap) and for inverted latitude/longitude bounds: witnesses proved. The partial theorem covers single caps and ordered bounds."
  },
  {
   "property": "C09",
   "status": "proved",
   "theorems": [
    "Sleplet.Props.C09_classification"
   ],
   "note": ""
  },
  {
   "property": "C10",
   "status": "proved",
   "theorems": [
    "Sleplet.Props.C10_choose_preserves_region"
   ],
   "note": "The mask of the chosen object equals the mask of the region given; a mask name or a gap of other classes is dropped where it has no effect."
  },
  {
   "property": "C11",
   "status": "partial",
   "theorems": [
    "Sleplet.Props.C11_own_solution_partial",
    "Sleplet.Props.C11_collision",
    "Sleplet.Props.C11_violation"
   ],
   "note": "Violated: angles are rounded to degrees in file names, so near-equal polar caps share files (witness at every even L). The partial theorem covers every collection of problems of which no two share their file names (whole-degree ones are such a collection, C12), over all histories of concurrent processes."
  },
  {
   "property": "C12",
   "status": "proved",
   "theorems": [
    "Sleplet.Props.C12_location_parses",
    "Sleplet.Props.C12_locations_identify",
    "Sleplet.Props.C12_mask_collision",
    "Sleplet.Props.C12_file_names"
   ],
   "note": "For whole-degree regions; the exception of a custom mask named like a polar cap is the witness C12_mask_collision."
  },
  {
   "property": "C13",
   "status": "proved",
   "theorems": [
    "Sleplet.Props.C13_reload_agrees",
    "Sleplet.Props.C13_rows_depend_on_history"
   ],
   "note": "For every collection of problems with different file names. Exact arrays; np.save/np.load is assumed to round-trip."
  },
  {
   "property": "C14",
   "status": "partial",
   "theorems": [
    "Sleplet.Props.C14_small_L_partial",
    "Sleplet.Props.C14_large_L_violation",
    "Sleplet.Props.C14_order_validation"
   ],
   "note": "Violated for L > 16: after caching, some order raises IndexError. Holds for L <= 16 in every history without a crash inside a save, of problems with different file names."
  },
  {
   "property": "C15",
   "status": "proved",
   "theorems": [
    "Sleplet.Props.C15_crash_safety",
    "Sleplet.Props.C15_never_wrong",
    "Sleplet.Props.C15_torn_file"
   ],
   "note": "For every collection of problems with different file names. Torn files make np.load raise; a crash is a kill at any point of any process."
  },
  {
   "property": "C16",
   "status": "proved",
   "theorems": [
    "Sleplet.Props.C16_lookup",
    "Sleplet.Props.C16_published_stable"
   ],
   "note": ""
  },
  {
   "property": "C37",
   "status": "proved",
   "theorems": [
    "Sleplet.Props.C37_masks",
    "Sleplet.Props.C37_mesh_region"
   ],
   "note": ""
  },
  {
   "property": "C47",
   "status": "proved",
   "theorems": [
    "Sleplet.Props.C47_default_region",
    "Sleplet.Props.C47_default_region_args",
    "Sleplet.Props.C47_not_an_integer"
   ],
   "note": "Environment strings are parsed by an external function with the stated specification (StrSpec)."
  },
  {
   "property": "C22",
   "status": "proved",
   "theorems": [
    "Sleplet.Props.C22_noise_real",
    "Sleplet.Props.C22_wmap_real",
    "Sleplet.Props.C22_wmap_short",
    "Sleplet.Props.C22_earth_real",
    "Sleplet.Props.C22_earth_short"
   ],
   "note": "Any stream of normal values; ssht.gaussian_smoothing multiplies degree l by exp(-l^2 sigma^2), as documented in _smoothing.py."
  },
  {
   "property": "C23",
   "status": "proved",
   "theorems": [
    "Sleplet.Props.C23_noise_reproducible",
    "Sleplet.Props.C23_mesh_noise_reproducible",
    "Sleplet.Props.C23_slepian_noise_reproducible"
   ],
   "note": "A generator's values are determined by its seed and how many have been drawn."
  },
  {
   "property": "C31",
   "status": "proved",
   "theorems": [
    "Sleplet.Props.C31_requested_snr",
    "Sleplet.Props.C31_obtained_snr",
    "Sleplet.Props.C31_scaling",
    "Sleplet.Props.C31_energy_ratio"
   ],
   "note": "C31_obtained_snr gives the exact SNR of the noise that is generated, including its random deviation."
  },
  {
   "property": "C59",
   "status": "proved",
   "theorems": [
    "Sleplet.Props.C59_smoothing",
    "Sleplet.Props.C59_zero_factor"
   ],
   "note": "ssht.gaussian_smoothing is assumed to multiply degree l by exp(-l^2 sigma^2), as its caller documents."
  },
  {
   "property": "C25",
   "status": "proved",
   "theorems": [
    "Sleplet.Props.C25_value",
    "Sleplet.Props.C25_laws",
    "Sleplet.Props.C25_mismatch"
   ],
   "note": "Vectors of any length, any Shannon number (also negative, as a Python slice)."
  },
  {
   "property": "C26",
   "status": "proved",
   "theorems": [
    "Sleplet.Props.C26_axisymmetric_round_trip"
   ],
   "note": "For any generating functions; pys2let's tiling is the hypothesis sum_j kappa_j(l)^2 = 1."
  },
  {
   "property": "C27",
   "status": "partial",
   "theorems": [
    "Sleplet.Props.C27_round_trip_partial",
    "Sleplet.Props.C27_round_trip_iff",
    "Sleplet.Props.C27_energy",
    "Sleplet.Props.C27_round_trip_formula",
    "Sleplet.Props.C27_short_signals",
    "Sleplet.Props.C27_violation",
    "Sleplet.Props.C27_s2let_violation"
   ],
   "note": "Violated: witness for a signal seen only by the second scale. C27_round_trip_formula says exactly what is computed for every signal; C27_round_trip_iff shows that the claim holds exactly for the signals whose unseen scales are the last ones."
  },
  {
   "property": "C28",
   "status": "partial",
   "theorems": [
    "Sleplet.Props.C28_wavelet_selection",
    "Sleplet.Props.C28_selected_scale_partial",
    "Sleplet.Props.C28_selected_scale_iff",
    "Sleplet.Props.C28_index_error",
    "Sleplet.Props.C28_violation"
   ],
   "note": "Selecting wavelets is right; selecting coefficients is violated after a scale with zero coefficients: witnesses for a wrong scale and for IndexError after validation."
  },
  {
   "property": "C29",
   "status": "proved",
   "theorems": [
    "Sleplet.Props.C29_pixels",
    "Sleplet.Props.C29_laws"
   ],
   "note": ""
  },
  {
   "property": "C30",
   "status": "proved",
   "theorems": [
    "Sleplet.Props.C30_harmonic",
    "Sleplet.Props.C30_slepian",
    "Sleplet.Props.C30_short_sigma",
    "Sleplet.Props.C30_row_length"
   ],
   "note": "Transforms are parameters. With too few thresholds, or rows of the wrong length, the call raises after having changed the first rows of the caller's array."
  },
  {
   "property": "C44",
   "status": "partial",
   "theorems": [
    "Sleplet.Props.C44_names_partial",
    "Sleplet.Props.C44_collisions",
    "Sleplet.Props.C44_violation",
    "Sleplet.Props.C44_wavelet_ending"
   ],
   "note": "Violated: magnitudes of at least one drop the denominator. The partial theorem proves that integers and proper fractions, with their argument names, are told apart. Fraction.limit_denominator is a parameter that fixes fractions with small denominators."
  },
  {
   "property": "C45",
   "status": "proved",
   "theorems": [
    "Sleplet.Props.C45_angles"
   ],
   "note": "Fraction.limit_denominator is a parameter."
  },
  {
   "property": "C46",
   "status": "proved",
   "theorems": [
    "Sleplet.Props.C46_snake_injective",
    "Sleplet.Props.C46_lookup",
    "Sleplet.Props.C46_command_lines"
   ],
   "note": "C46_command_lines instantiates the lookup for the class lists in the repository."
  },
  {
   "property": "C55",
   "status": "partial",
   "theorems": [
    "Sleplet.Props.C55_dirac_delta",
    "Sleplet.Props.C55_gaussian",
    "Sleplet.Props.C55_gaussian_documented_violated",
    "Sleplet.Props.C55_harmonic_gaussian",
    "Sleplet.Props.C55_harmonic_gaussian_not_real",
    "Sleplet.Props.C55_identity",
    "Sleplet.Props.C55_identity_violation",
    "Sleplet.Props.C55_ridgelets"
   ],
   "note": "Violated: Identity is flagged real although it is not; the Gaussian is exp(-l(l+1)/2s^2) where the documentation says exp(-l^2/2s^2). Ridgelets are compared with Rodrigues' formula on the equator."
  },
  {
   "property": "C56",
   "status": "proved",
   "theorems": [
    "Sleplet.Props.C56_spherical_harmonic",
    "Sleplet.Props.C56_extra_args"
   ],
   "note": "For an invalid degree the validator of m reads a missing key, so KeyError is raised instead of a validation error."
  },
  {
   "property": "C48",
   "status": "partial",
   "theorems": [
    "Sleplet.Props.C48_basis_rank",
    "Sleplet.Props.C48_validation_violation",
    "Sleplet.Props.C48_mesh_slepian_rank",
    "Sleplet.Props.C48_mesh_slepian_violation"
   ],
   "note": "Ranks that exist are accepted and others end in an exception, but the check itself is off by one and absent for mesh Slepian functions."
  },
  {
   "property": "C52",
   "status": "partial",
   "theorems": [
    "Sleplet.Props.C52_region_ignored",
    "Sleplet.Props.C52_mesh_region_ignored",
    "Sleplet.Props.C52_violation"
   ],
   "note": "Violated: proved for all functions that the region does not influence the coefficients, with a family of witnesses."
  },
  {
   "property": "C53",
   "status": "partial",
   "theorems": [
    "Sleplet.Props.C53_no_noise",
    "Sleplet.Props.C53_harmonic_noise",
    "Sleplet.Props.C53_slepian_noise_partial",
    "Sleplet.Props.C53_slepian_identity_violation",
    "Sleplet.Props.C53_slepian_identity_broadcast",
    "Sleplet.Props.C53_mesh_noise"
   ],
   "note": "Holds for harmonic and mesh functions and Slepian functions of N coefficients; violated for Slepian functions of L^2 coefficients."
  },
  {
   "property": "C54",
   "status": "proved",
   "theorems": [
    "Sleplet.Props.C54_harmonic_translation",
    "Sleplet.Props.C54_slepian_translation",
    "Sleplet.Props.C54_slepian_needs_shannon",
    "Sleplet.Props.C54_name_collision"
   ],
   "note": "The harmonics at the target point are a parameter. C54_name_collision records that the Dirac delta is recognised by a substring of the name."
  },
  {
   "property": "C61",
   "status": "partial",
   "theorems": [
    "Sleplet.Props.C61_slepian_rank",
    "Sleplet.Props.C61_high_rank_violation",
    "Sleplet.Props.C61_command_line"
   ],
   "note": "Violated for ranks from the Shannon number on."
  },
  {
   "property": "C38",
   "status": "proved",
   "theorems": [
    "Sleplet.Props.C38_sphere_integrals",
    "Sleplet.Props.C38_sphere_energy_monotone",
    "Sleplet.Props.C38_mesh_integrals",
    "Sleplet.Props.C38_two_functions"
   ],
   "note": "Any number of functions; integrating none is a TypeError."
  },
  {
   "property": "C39",
   "status": "proved",
   "theorems": [
    "Sleplet.Props.C39_faces",
    "Sleplet.Props.C39_plot"
   ],
   "note": ""
  },
  {
   "property": "C40",
   "status": "proved",
   "theorems": [
    "Sleplet.Props.C40_plot_resolution",
    "Sleplet.Props.C40_bounds",
    "Sleplet.Props.C40_not_monotone"
   ],
   "note": ""
  },
  {
   "property": "C41",
   "status": "proved",
   "theorems": [
    "Sleplet.Props.C41_nearest_grid_point",
    "Sleplet.Props.C41_error_bound",
    "Sleplet.Props.C41_wraparound_violation"
   ],
   "note": "Per coordinate, as stated; C41_wraparound_violation records that longitudes are not compared around the circle. The sample positions of pyssht are stated in the model."
  },
  {
   "property": "C42",
   "status": "proved",
   "theorems": [
    "Sleplet.Props.C42_normalise",
    "Sleplet.Props.C42_constant_and_nonnegative",
    "Sleplet.Props.C42_small_field_violation"
   ],
   "note": "C42_small_field_violation shows that the exception in the statement is needed: fields small everywhere can leave [0,1] or become non-finite."
  },
  {
   "property": "C43",
   "status": "proved",
   "theorems": [
    "Sleplet.Props.C43_closing",
    "Sleplet.Props.C43_wrong_size",
    "Sleplet.Props.C43_short_rows",
    "Sleplet.Props.C43_masking"
   ],
   "note": ""
  },
  {
   "property": "C58",
   "status": "proved",
   "theorems": [
    "Sleplet.Props.C58_mesh_shannon",
    "Sleplet.Props.C58_transforms_in_range"
   ],
   "note": ""
  },
  {
   "property": "C60",
   "status": "proved",
   "theorems": [
    "Sleplet.Props.C60_sphere_range",
    "Sleplet.Props.C60_sphere_colours",
    "Sleplet.Props.C60_unknown_plot_type",
    "Sleplet.Props.C60_normalised_abs",
    "Sleplet.Props.C60_mesh_range"
   ],
   "note": "Non-finite normalised fields are not followed further; igl.average_onto_faces is the mean of three vertices."
  },
  {
   "property": "C62",
   "status": "proved",
   "theorems": [
    "Sleplet.Props.C62_weights",
    "Sleplet.Props.C62_mask_area",
    "Sleplet.Props.C62_mask_shannon"
   ],
   "note": "The sample positions of pyssht are stated in the model."
  },
  {
   "property": "C63",
   "status": "proved",
   "theorems": [
    "Sleplet.Props.C63_upsampling_keeps_samples",
    "Sleplet.Props.C63_amplitude",
    "Sleplet.Props.C63_own_amplitude_covers"
   ],
   "note": "The inverse transform evaluates fixed functions of position at the sample positions of the bandlimit; the forward transform recovers the coefficients."
  },
  {
   "property": "C64",
   "status": "proved",
   "theorems": [
    "Sleplet.Props.C64_masked_bandlimited",
    "Sleplet.Props.C64_mesh_slepian_functions"
   ],
   "note": ""
  },
  {
   "property": "C49",
   "status": "proved",
   "theorems": [
    "Sleplet.Props.C49_sub_integrals",
    "Sleplet.Props.C49_matrix_is_surface_integral",
    "Sleplet.Props.C49_matrix_of_spherical_harmonics",
    "Sleplet.Props.C49_zero_bandlimit",
    "Sleplet.Props.C49_run_exists"
   ],
   "note": "For any table, in any interleaving of any number of threads; when the table holds Wigner's d at pi/2 (what ssht.generate_dl is documented to return) the entries are integrals of the spherical harmonics of Rodrigues' formula, for every degree."
  },
  {
   "property": "C65",
   "status": "proved",
   "theorems": [
    "Sleplet.Props.C65_legendre_table",
    "Sleplet.Props.C65_polar_matrix_is_surface_integral",
    "Sleplet.Props.C65_orders_decouple",
    "Sleplet.Props.C65_harmonics_orthonormal",
    "Sleplet.Props.C65_table_mismatch"
   ],
   "note": "Assumes create_ylm returns the spherical harmonics at the boundary (order-zero entries only are used). Non-vacuity for every L: C50_polar_runs_exist."
  },
  {
   "property": "C66",
   "status": "proved",
   "theorems": [
    "Sleplet.Props.C66_gaunt"
   ],
   "note": ""
  },
  {
   "property": "C67",
   "status": "proved",
   "theorems": [
    "Sleplet.Props.C67_name",
    "Sleplet.Props.C67_name_determines_bandlimit",
    "Sleplet.Props.C67_name_determines_settings",
    "Sleplet.Props.C67_mesh_name"
   ],
   "note": "Assumes limit_denominator fixes fractions with denominators up to a million (C44)."
  },
  {
   "property": "C68",
   "status": "proved",
   "theorems": [
    "Sleplet.Props.C68_harmonic_args",
    "Sleplet.Props.C68_harmonic_errors",
    "Sleplet.Props.C68_slepian_args",
    "Sleplet.Props.C68_slepian_errors",
    "Sleplet.Props.C68_list_is_keywords",
    "Sleplet.Props.C68_slepian_list_is_keywords"
   ],
   "note": "jMax (s2let.pys2let_j_max) is a parameter."
  },
  {
   "property": "C69",
   "status": "partial",
   "theorems": [
    "Sleplet.Props.C69_name_determines_function_partial",
    "Sleplet.Props.C69_name_determines_object_partial",
    "Sleplet.Props.C69_powers_recorded",
    "Sleplet.Props.C69_tiny_violation",
    "Sleplet.Props.C69_slepian_name",
    "Sleplet.Props.C69_slepian_region"
   ],
   "note": "Holds for parameters recorded by the file name; limit_denominator rounds values below 1/2000000 to zero, so tiny widths share a name. Assumes the specification of limit_denominator."
  },
  {
   "property": "C70",
   "status": "partial",
   "theorems": [
    "Sleplet.Props.C70_reality_partial",
    "Sleplet.Props.C70_identity_violation",
    "Sleplet.Props.C70_length"
   ],
   "note": "Identity violates it. Assumes ssht.forward with Reality=True gives the coefficients of a real signal, Gaussian smoothing as documented, and a topography file whose order-zero coefficients are real."
  },
  {
   "property": "C71",
   "status": "proved",
   "theorems": [
    "Sleplet.Props.C71_axisymmetric_wavelets",
    "Sleplet.Props.C71_wavelet_coefficients",
    "Sleplet.Props.C71_scales"
   ],
   "note": "Assumes s2let returns a value of each generating function for every degree."
  },
  {
   "property": "C72",
   "status": "proved",
   "theorems": [
    "Sleplet.Props.C72_region",
    "Sleplet.Props.C72_wrong_region",
    "Sleplet.Props.C72_wrong_region_derived",
    "Sleplet.Props.C72_land",
    "Sleplet.Props.C72_dirac_delta",
    "Sleplet.Props.C72_counts",
    "Sleplet.Props.C72_default_region_violation",
    "Sleplet.Props.C72_noise_violation"
   ],
   "note": "Assumes enough eigenvectors (C13) and a non-empty grid."
  },
  {
   "property": "C73",
   "status": "proved",
   "theorems": [
    "Sleplet.Props.C73_masks",
    "Sleplet.Props.C73_custom",
    "Sleplet.Props.C73_maps"
   ],
   "note": "The transforms of the sphere are parameters; published masks, if any, are assumed to be the same."
  },
  {
   "property": "C74",
   "status": "partial",
   "theorems": [
    "Sleplet.Props.C74_lookup_partial",
    "Sleplet.Props.C74_failures",
    "Sleplet.Props.C74_registry_violation"
   ],
   "note": "Violated after a failed load of the registry."
  },
  {
   "property": "C75",
   "status": "partial",
   "theorems": [
    "Sleplet.Props.C75_harmonic",
    "Sleplet.Props.C75_slepian",
    "Sleplet.Props.C75_slepian_rotate",
    "Sleplet.Props.C75_filename",
    "Sleplet.Props.C75_filename_determines",
    "Sleplet.Props.C75_convolution_violation",
    "Sleplet.Props.C75_slepian_earth_violation"
   ],
   "note": "The order of the factors and the rotation of Slepian coefficients violate it."
  },
  {
   "property": "C76",
   "status": "partial",
   "theorems": [
    "Sleplet.Props.C76_elongated_gaussian",
    "Sleplet.Props.C76_squashed_gaussian",
    "Sleplet.Props.C76_noise_earth",
    "Sleplet.Props.C76_ridgelets",
    "Sleplet.Props.C76_wmap",
    "Sleplet.Props.C76_slepian_wavelets",
    "Sleplet.Props.C76_slepian_noise",
    "Sleplet.Props.C76_slepian_wavelet_coefficients_partial"
   ],
   "note": "Wavelet coefficients of a continent only where every scale up to the selected one sees the map; elsewhere the code fails (C28)."
  },
  {
   "property": "C77",
   "status": "partial",
   "theorems": [
    "Sleplet.Props.C77_args",
    "Sleplet.Props.C77_errors",
    "Sleplet.Props.C77_list_is_keywords",
    "Sleplet.Props.C77_negative_rank",
    "Sleplet.Props.C77_classes",
    "Sleplet.Props.C77_default_names",
    "Sleplet.Props.C77_name",
    "Sleplet.Props.C77_name_determines_object_partial",
    "Sleplet.Props.C77_slepian_region_violation"
   ],
   "note": "arguments proved in full; the name determines the object for signal-to-noise ratios that names record (integers and small fractions, C44); the region in names of Slepian functions is disproved"
  },
  {
   "property": "C78",
   "status": "partial",
   "theorems": [
    "Sleplet.Props.C78_field",
    "Sleplet.Props.C78_basis",
    "Sleplet.Props.C78_slepian_field",
    "Sleplet.Props.C78_slepian_functions",
    "Sleplet.Props.C78_wavelets",
    "Sleplet.Props.C78_slepian_noise_field",
    "Sleplet.Props.C78_noise",
    "Sleplet.Props.C78_wavelet_noise_violation",
    "Sleplet.Props.C78_noise_field_violation",
    "Sleplet.Props.C78_wavelet_coefficients_partial"
   ],
   "note": "MeshNoiseField and noise on MeshSlepianWavelets are disproved; wavelet coefficients need every scale up to the selected one to see the field"
  },
  {
   "property": "C79",
   "status": "partial",
   "theorems": [
    "Sleplet.Props.C79_file_names",
    "Sleplet.Props.C79_deterministic",
    "Sleplet.Props.C79_sequential_partial",
    "Sleplet.Props.C79_race_violation",
    "Sleplet.Props.C79_race_concentration",
    "Sleplet.Props.C79_deletion_violation"
   ],
   "note": "Proved for a reproducible eigensolver in every history, and for any eigensolver when sessions run one after another without deletions. Violated with concurrent sessions or a deleted basis file."
  },
  {
   "property": "C80",
   "status": "partial",
   "theorems": [
    "Sleplet.Props.C80_released_partial",
    "Sleplet.Props.C80_success",
    "Sleplet.Props.C80_leak_violation",
    "Sleplet.Props.C80_sizes"
   ],
   "note": "Proved for builds that return, with worker handles closed unless the worker raised. Violated when NCPU is not a positive number."
  },
  {
   "property": "C81",
   "status": "proved",
   "theorems": [
    "Sleplet.Props.C81_expected_power",
    "Sleplet.Props.C81_axisymmetric",
    "Sleplet.Props.C81_slepian_expected_power",
    "Sleplet.Props.C81_slepian_wavelets",
    "Sleplet.Props.C81_mesh_wavelets"
   ],
   "note": "Proved for every outcome of the program run on random numbers, integrated over a probability space of independent standard normals (which exists: standardNormals_exist). The axisymmetric case assumes that ssht.inverse sums spherical harmonics; their addition theorem is proved. sigma_j refers to the signal before noise, as in the examples; its docstring says noised signal."
  },
  {
   "property": "C82",
   "status": "partial",
   "theorems": [
    "Sleplet.Props.C82_figure",
    "Sleplet.Props.C82_basis_functions",
    "Sleplet.Props.C82_slepian_functions",
    "Sleplet.Props.C82_fields",
    "Sleplet.Props.C82_noise",
    "Sleplet.Props.C82_zoom",
    "Sleplet.Props.C82_region_violation",
    "Sleplet.Props.C82_arguments",
    "Sleplet.Props.C82_noise_field_violation",
    "Sleplet.Props.C82_mirrored"
   ],
   "note": "Proved for every mesh, method and flag for which the object can be made; normalised colours under C42's condition that the values are not nearly constant. --region does not mask and noise_field always fails (both proved). Distances are kept but the drawing is mirrored."
  },
  {
   "property": "C83",
   "status": "proved",
   "theorems": [
    "Sleplet.Props.C83_random_signal",
    "Sleplet.Props.C83_cmb_spectrum",
    "Sleplet.Props.C83_cmb_field",
    "Sleplet.Props.C83_axisymmetric_covariance",
    "Sleplet.Props.C83_slepian_covariance"
   ],
   "note": "Integrated over a probability space of independent standard normals. The field statements assume that ssht.inverse sums spherical harmonics; the Slepian one assumes an orthonormal set of eigenvectors and speaks about each wavelet before all-zero rows are dropped."
  },
  {
   "property": "C84",
   "status": "partial",
   "theorems": [
    "Sleplet.Props.C84_axisym",
    "Sleplet.Props.C84_axisym_extremes",
    "Sleplet.Props.C84_axisym_error",
    "Sleplet.Props.C84_slepian_formula",
    "Sleplet.Props.C84_slepian_extremes_partial",
    "Sleplet.Props.C84_slepian_violation",
    "Sleplet.Props.C84_slepian_function",
    "Sleplet.Props.C84_sphere",
    "Sleplet.Props.C84_sphere_formula",
    "Sleplet.Props.C84_filtered_field_partial",
    "Sleplet.Props.C84_conjugate_violation"
   ],
   "note": "Axisymmetric wavelets and Slepian functions proved. Slepian wavelets: what is computed is proved in full; the intended statement holds when the scales that do not see the signal are the last ones and the coefficients are real, and is violated otherwise."
  },
  {
   "property": "C85",
   "status": "partial",
   "theorems": [
    "Sleplet.Props.C85_command_line",
    "Sleplet.Props.C85_harmonic",
    "Sleplet.Props.C85_slepian",
    "Sleplet.Props.C85_slepian_function",
    "Sleplet.Props.C85_outline",
    "Sleplet.Props.C85_region_violation",
    "Sleplet.Props.C85_region_violation_slepian",
    "Sleplet.Props.C85_noise_scale_partial",
    "Sleplet.Props.C85_noise_scale_violation"
   ],
   "note": "The identity (flagged as real, C70) and Slepian figures named after the Earth (C75) are excepted. The flag -r masks nothing, and noisy plots keep the clean colour scale only for moduli on the original grid at the pole: both violated by the code."
  },
  {
   "property": "C86",
   "status": "proved",
   "theorems": [
    "Sleplet.Props.C86_translation",
    "Sleplet.Props.C86_sifting",
    "Sleplet.Props.C86_dirac_delta",
    "Sleplet.Props.C86_slepian_sifting"
   ],
   "note": "The spherical harmonics are the true ones, with their orthonormality and addition theorem proved; ssht.create_ylm is assumed to evaluate them."
  },
  {
   "property": "C87",
   "status": "proved",
   "theorems": [
    "Sleplet.Props.C87_wavelets",
    "Sleplet.Props.C87_forward",
    "Sleplet.Props.C87_inverse",
    "Sleplet.Props.C87_energy"
   ],
   "note": "The fields are sums of the true spherical harmonics and the integrals are over the sphere."
  },
  {
   "property": "C88",
   "status": "proved",
   "theorems": [
    "Sleplet.Props.C88_polar",
    "Sleplet.Props.C88_lat_lon",
    "Sleplet.Props.C88_arbitrary",
    "Sleplet.Props.C88_mesh",
    "Sleplet.Props.C88_reconstruction",
    "Sleplet.Props.C88_optimal"
   ],
   "note": "For masks the energy in the region is the sum over the samples with the weights of the program; the energy over the sphere is always the integral."
  },
  {
   "property": "C89",
   "status": "proved",
   "theorems": [
    "Sleplet.Props.C89_exists_unique",
    "Sleplet.Props.C89_isometry",
    "Sleplet.Props.C89_smoothing",
    "Sleplet.Props.C89_wavelets",
    "Sleplet.Props.C89_wavelet_synthesis",
    "Sleplet.Props.C89_group",
    "Sleplet.Props.C89_turn",
    "Sleplet.Props.C89_axisymmetric",
    "Sleplet.Props.C89_dirac_delta",
    "Sleplet.Props.C89_real",
    "Sleplet.Props.C89_views",
    "Sleplet.Props.C89_continents"
   ],
   "note": "Assumes that ssht.rotate_flms moves the field by the rotation with the given Euler angles, which is proved possible in exactly one way."
  },
  {
   "property": "C90",
   "status": "partial",
   "theorems": [
    "Sleplet.Props.C90_fields_shown",
    "Sleplet.Props.C90_progressive_partial",
    "Sleplet.Props.C90_overlap_violation"
   ],
   "note": "Missing: wavelets which overlap, where the code is wrong: C90_overlap_violation gives the field it shows in place of the map."
  },
  {
   "property": "C91",
   "status": "partial",
   "theorems": [
    "Sleplet.Props.C91_axisymmetric_measured",
    "Sleplet.Props.C91_report",
    "Sleplet.Props.C91_slepian_experiment",
    "Sleplet.Props.C91_scaling_violation"
   ],
   "note": "Missing: the scaling function for j_min = 0, where the code takes the variance over the scales of one run: C91_scaling_violation."
  },
  {
   "property": "C92",
   "status": "proved",
   "theorems": [
    "Sleplet.Props.C92_translation",
    "Sleplet.Props.C92_dirac_delta",
    "Sleplet.Props.C92_wavelet_coefficients"
   ],
   "note": "stated for the harmonic synthesis at arbitrary sample points; the Slepian functions are those of C88; the energy identity is for the first N coefficients of the signal"
  },
  {
   "property": "C93",
   "status": "proved",
   "theorems": [
    "Sleplet.Props.C93_panel",
    "Sleplet.Props.C93_label_index",
    "Sleplet.Props.C93_order_marks"
   ],
   "note": "Curves, eigenvalues and indices in the figures of polar-cap eigenfunctions; eigenvalues marked by order."
  },
  {
   "property": "C94",
   "status": "proved",
   "theorems": [
    "Sleplet.Props.C94_tiling",
    "Sleplet.Props.C94_values",
    "Sleplet.Props.C94_smooth",
    "Sleplet.Props.C94_slepian_transform",
    "Sleplet.Props.C94_axisymmetric_transform",
    "Sleplet.Props.C94_selected_scale"
   ],
   "note": "For signals with a zero among the first N coefficients see C27 and C28."
  },
  {
   "property": "C95",
   "status": "partial",
   "theorems": [
    "Sleplet.Props.C95_curves",
    "Sleplet.Props.C95_sparsity_partial",
    "Sleplet.Props.C95_translation_norms",
    "Sleplet.Props.C95_translation_no_angles",
    "Sleplet.Props.C95_translation_mean",
    "Sleplet.Props.C95_sparsity_label_violation"
   ],
   "note": "proved except for the labels of the sparsity figure, which hold when the first N Slepian coefficients are nonzero and are violated when they vanish below B^j_min (witness family proved)"
  },
  {
   "property": "C96",
   "status": "proved",
   "theorems": [
    "Sleplet.Props.C96_sphere_figure",
    "Sleplet.Props.C96_surface_embedded",
    "Sleplet.Props.C96_wrong_size",
    "Sleplet.Props.C96_short_rows",
    "Sleplet.Props.C96_colour_scale",
    "Sleplet.Props.C96_mesh_mirrored",
    "Sleplet.Props.C96_camera"
   ],
   "note": "positions and colours of every sample, closure of the surface, the colour scale and its ticks, mirror image of meshes, camera"
  },
  {
   "property": "C97",
   "status": "partial",
   "theorems": [
    "Sleplet.Props.C97_colour_range_partial",
    "Sleplet.Props.C97_seam_violation",
    "Sleplet.Props.C97_unseen_violation",
    "Sleplet.Props.C97_parametric",
    "Sleplet.Props.C97_parametric_violation",
    "Sleplet.Props.C97_errors"
   ],
   "note": "clipping of the samples and the drawn radius are proved; the seam, the unseen samples and the normalisation of the radius are violated by the code"
  },
  {
   "property": "C98",
   "status": "partial",
   "theorems": [
    "Sleplet.Props.C98_figure",
    "Sleplet.Props.C98_empty",
    "Sleplet.Props.C98_polar_partial",
    "Sleplet.Props.C98_lat_lon",
    "Sleplet.Props.C98_arbitrary",
    "Sleplet.Props.C98_mesh_partial",
    "Sleplet.Props.C98_gap_violation",
    "Sleplet.Props.C98_mesh_basis_dependent"
   ],
   "note": "holds for caps, latitude/longitude boxes and masks; the code violates it for polar gaps (line at half the sum, C98_gap_violation); for meshes it is proved for a full basis, and C98_mesh_basis_dependent shows that orthonormality of the basis functions alone does not give it"
  },
  {
   "property": "C99",
   "status": "partial",
   "theorems": [
    "Sleplet.Props.C99_dots_partial",
    "Sleplet.Props.C99_exact",
    "Sleplet.Props.C99_phase_violation"
   ],
   "note": "The figure compares magnitudes: each dot is at most the relative error, with equality exactly for equal phases; a witness shows a dot at zero for a coefficient of the wrong sign."
  },
  {
   "property": "C100",
   "status": "partial",
   "theorems": [
    "Sleplet.Props.C100_curves",
    "Sleplet.Props.C100_too_small",
    "Sleplet.Props.C100_straight",
    "Sleplet.Props.C100_axis_partial",
    "Sleplet.Props.C100_axis_violation"
   ],
   "note": "All but the end of the axis holds; the ticks widen the axis to the next power of two, with the mesh of 1200 basis functions as witness."
  },
  {
   "property": "C101",
   "status": "proved",
   "theorems": [
    "Sleplet.Props.C101_region",
    "Sleplet.Props.C101_empty"
   ],
   "note": "All branches of the normalisation give the same picture."
  },
  {
   "property": "C102",
   "status": "proved",
   "theorems": [
    "Sleplet.Props.C102_samples",
    "Sleplet.Props.C102_mismatch",
    "Sleplet.Props.C102_shape",
    "Sleplet.Props.C102_figure"
   ],
   "note": "With the program's constants as a corollary; real numbers replace floats."
  },
  {
   "property": "C103",
   "status": "partial",
   "theorems": [
    "Sleplet.Props.C103_harmonic_partial",
    "Sleplet.Props.C103_slepian",
    "Sleplet.Props.C103_empty",
    "Sleplet.Props.C103_spin_violation"
   ],
   "note": "Proved for spin zero and for Slepian functions.  False for functions with a spin: the field is computed without the spin."
  },
  {
   "property": "C104",
   "status": "proved",
   "theorems": [
    "Sleplet.Props.C104_energy",
    "Sleplet.Props.C104_smoothest",
    "Sleplet.Props.C104_constant"
   ],
   "note": "The cotangent matrix is written out; eigsh is assumed to return the orthonormal eigenvectors nearest to the shift in ascending order."
  },
  {
   "property": "C105",
   "status": "proved",
   "theorems": [
    "Sleplet.Props.C105_sampling",
    "Sleplet.Props.C105_boosted",
    "Sleplet.Props.C105_slepian",
    "Sleplet.Props.C105_sharp",
    "Sleplet.Props.C105_transforms"
   ],
   "note": "The external inverse transform is synthesis with spherical harmonics on the grid; spin 0."
  },
  {
   "property": "C106",
   "status": "partial",
   "theorems": [
    "Sleplet.Props.C106_agrees",
    "Sleplet.Props.C106_rejected",
    "Sleplet.Props.C106_fresh_violation",
    "Sleplet.Props.C106_reload",
    "Sleplet.Props.C106_history_violation",
    "Sleplet.Props.C106_whole_array_partial",
    "Sleplet.Props.C106_large_violation"
   ],
   "note": "An array is ignored when nothing is saved and compared element by element once saved; proved which arrays are answered and how, before and after saving, and that up to bandlimit 16 the array of all orders is answered the same both times; above 16 it raises IndexError the second time."
  },
  {
   "property": "C107",
   "status": "partial",
   "theorems": [
    "Sleplet.Props.C107_assign",
    "Sleplet.Props.C107_sequence",
    "Sleplet.Props.C107_same_type_partial",
    "Sleplet.Props.C107_choose_consistent",
    "Sleplet.Props.C107_type_violation",
    "Sleplet.Props.C107_name_violation",
    "Sleplet.Props.C107_constructor_violation"
   ],
   "note": "Type and name of a region are found at its construction only; proved which assignments are accepted, what stays, that the mask and method are right while the type stays the same, and three violations otherwise."
  },
  {
   "property": "C108",
   "status": "proved",
   "theorems": [
    "Sleplet.Props.C108_subdivide",
    "Sleplet.Props.C108_surface",
    "Sleplet.Props.C108_area",
    "Sleplet.Props.C108_region",
    "Sleplet.Props.C108_box",
    "Sleplet.Props.C108_read"
   ],
   "note": "With igl.upsample written out as midpoint subdivision."
  },
  {
   "property": "C109",
   "status": "partial",
   "theorems": [
    "Sleplet.Props.C109_surface_integral",
    "Sleplet.Props.C109_refine_violation",
    "Sleplet.Props.C109_uniform_partial",
    "Sleplet.Props.C109_weights_violation",
    "Sleplet.Props.C109_shannon_violation"
   ],
   "note": "The code sums over vertices without weights; proved to be the surface integral up to a factor when all vertices have the same part of the area, and violated in general."
  },
  {
   "property": "C110",
   "status": "partial",
   "theorems": [
    "Sleplet.Props.C110_results",
    "Sleplet.Props.C110_rotate",
    "Sleplet.Props.C110_unchanged_partial",
    "Sleplet.Props.C110_assign",
    "Sleplet.Props.C110_flag_violation",
    "Sleplet.Props.C110_failure_violation",
    "Sleplet.Props.C110_stale_violation",
    "Sleplet.Props.C110_noise_violation"
   ],
   "note": "Results of calls do not depend on earlier calls and everything but the reality flag is kept; the flag and assigned settings are violated by the code."
  },
  {
   "property": "C111",
   "status": "proved",
   "theorems": [
    "Sleplet.Props.C111_determined",
    "Sleplet.Props.C111_lat_lon_nested",
    "Sleplet.Props.C111_lat_lon_strict",
    "Sleplet.Props.C111_lat_lon_between",
    "Sleplet.Props.C111_polar_strict",
    "Sleplet.Props.C111_polar_between",
    "Sleplet.Props.C111_polar_nested",
    "Sleplet.Props.C111_masks_nested",
    "Sleplet.Props.C111_cap_as_lat_lon",
    "Sleplet.Props.C111_turn",
    "Sleplet.Props.C111_mirror",
    "Sleplet.Props.C111_polar_complement",
    "Sleplet.Props.C111_caps_complement",
    "Sleplet.Props.C111_lune_complement",
    "Sleplet.Props.C111_mesh",
    "Sleplet.Props.C111_runs_exist"
   ],
   "note": "For exact arithmetic and solvers within their contracts. Masks have no complement law, since the quadrature of the whole sphere is not exact (C50)."
  },
  {
   "property": "C112",
   "status": "partial",
   "theorems": [
    "Sleplet.Props.C112_concurrent_partial",
    "Sleplet.Props.C112_after_crash_partial",
    "Sleplet.Props.C112_violation"
   ],
   "note": "Missing: problems that share their file names, where the claim fails (C112_violation). For exact arithmetic, reproducible solvers within their contracts and N below L squared."
  },
  {
   "property": "C113",
   "status": "partial",
   "theorems": [
    "Sleplet.Props.C113_sequential_partial",
    "Sleplet.Props.C113_concurrent_partial",
    "Sleplet.Props.C113_violation"
   ],
   "note": "Missing: sessions at the same time and deleted files when eigsh returns different bases, where the code mixes them (C113_violation); proved for sessions one after another, and for all histories if eigsh always returns the same basis."
  },
  {
   "property": "C114",
   "status": "proved",
   "theorems": [
    "Sleplet.Props.C114_lat_lon",
    "Sleplet.Props.C114_lat_lon_any",
    "Sleplet.Props.C114_polar",
    "Sleplet.Props.C114_masks",
    "Sleplet.Props.C114_mesh",
    "Sleplet.Props.C114_lat_lon_ranks",
    "Sleplet.Props.C114_polar_ranks",
    "Sleplet.Props.C114_shared_files",
    "Sleplet.Props.C114_wrong_file",
    "Sleplet.Props.C114_shared_lat_lon",
    "Sleplet.Props.C114_wrong_lat_lon_file"
   ],
   "note": "Stated for any eigenvalues the modelled solutions give, whatever the workers, solver and sorting; C114_shared_files, C114_wrong_file, C114_shared_lat_lon and C114_wrong_lat_lon_file bound the error that the fault of C11 can cause."
  },
  {
   "property": "C115",
   "status": "partial",
   "theorems": [
    "Sleplet.Props.C115_forward_partial",
    "Sleplet.Props.C115_forward_fails",
    "Sleplet.Props.C115_history_violation",
    "Sleplet.Props.C115_inverse_partial",
    "Sleplet.Props.C115_inverse_violation",
    "Sleplet.Props.C115_mesh_forward",
    "Sleplet.Props.C115_mesh_history_violation",
    "Sleplet.Props.C115_mesh_inverse"
   ],
   "note": "Violated: coefficients beyond N can be had only in the session that computed the Slepian functions, afterwards IndexError (C115_history_violation, C115_mesh_history_violation); a single coefficient is broadcast to all N functions (C115_inverse_violation, also the last part of C115_mesh_inverse). What holds: requests up to the number of eigenvectors at hand, longer vectors, and refusal of all other short ones."
  },
  {
   "property": "C116",
   "status": "partial",
   "theorems": [
    "Sleplet.Props.C116_wavelets_partial",
    "Sleplet.Props.C116_concurrent_partial",
    "Sleplet.Props.C116_violation"
   ],
   "note": "Partial: the way back from the wavelet coefficients holds exactly for signals where no scale without signal comes before one with signal (C27_round_trip_iff), other signals lose what later scales see (C116_violation); everything else for all signals. Problems do not share files."
  },
  {
   "property": "C117",
   "status": "partial",
   "theorems": [
    "Sleplet.Props.C117_wavelets_partial",
    "Sleplet.Props.C117_sequential_partial",
    "Sleplet.Props.C117_violation"
   ],
   "note": "Partial: the way back from the wavelet coefficients holds exactly for fields where no scale without signal comes before one with signal (C27_round_trip_iff), other fields lose what later scales see (C117_violation); everything else for all fields."
  },
  {
   "property": "C118",
   "status": "proved",
   "theorems": [
    "Sleplet.Props.C118_figure_name",
    "Sleplet.Props.C118_annotation_violation"
   ],
   "note": "For figures with the same annotation flag the whole figure is determined; the violation shows that the flag itself leaves no trace in the name. Names of regions are assumed to begin as those of the package do (PlainEnding) and eigenvalues to be printed without underscores. Widths below 10^-6 are not told apart by names (C69_tiny_violation) and are excluded."
  },
  {
   "property": "C119",
   "status": "proved",
   "theorems": [
    "Sleplet.Props.C119_mesh_figure_name"
   ],
   "note": "Eigenvalues are assumed to be printed without underscores."
  },
  {
   "property": "C120",
   "status": "partial",
   "theorems": [
    "Sleplet.Props.C120_noise",
    "Sleplet.Props.C120_function",
    "Sleplet.Props.C120_mesh_function",
    "Sleplet.Props.C120_mesh_slepian_noise",
    "Sleplet.Props.C120_axisym",
    "Sleplet.Props.C120_slepian",
    "Sleplet.Props.C120_mesh",
    "Sleplet.Props.C120_slepian_function",
    "Sleplet.Props.C120_steady",
    "Sleplet.Props.C120_figure_partial",
    "Sleplet.Props.C120_mesh_figure_partial",
    "Sleplet.Props.C120_region_figure",
    "Sleplet.Props.C120_mesh_region_figure",
    "Sleplet.Props.C120_figure_violation"
   ],
   "note": "Everything is proved except for normalised figures of fields that count as constant in one unit only, where the code violates the claim (absolute tolerance in the test for constant fields). Outside a region figures show a number without unit (C123). The transforms of ssht are assumed not to depend on the unit; those of Slepian functions are shown not to."
  },
  {
   "property": "C121",
   "status": "proved",
   "theorems": [
    "Sleplet.Props.C121_axisym",
    "Sleplet.Props.C121_slepian",
    "Sleplet.Props.C121_function",
    "Sleplet.Props.C121_mesh",
    "Sleplet.Props.C121_table"
   ],
   "note": "the harmonic transforms, the Slepian bases and the numbers of the generator are parameters; the formulas hold for every bandlimit; printing and command lines are left out; the Slepian-function theorem is stated for both continents, of which only South America has a demonstration"
  },
  {
   "property": "C122",
   "status": "proved",
   "theorems": [
    "Sleplet.Props.C122_slepian",
    "Sleplet.Props.C122_wavelets_formula",
    "Sleplet.Props.C122_wavelets",
    "Sleplet.Props.C122_progressive",
    "Sleplet.Props.C122_fried_egg"
   ],
   "note": "the transforms of ssht are assumed to evaluate the basis on the grid (GoodTransforms, GoodSlepian); for wavelets the identity needs the squares to add up to one and scales without signal to come last, for the cap orthonormal eigenvectors; the figures scale by scale are described as they are, see C90 for what is wrong with them"
  },
  {
   "property": "C123",
   "status": "partial",
   "theorems": [
    "Sleplet.Props.C123_sphere_partial",
    "Sleplet.Props.C123_mesh_partial",
    "Sleplet.Props.C123_marker_violation"
   ],
   "note": "Proved: the number outside is below the scale exactly if the figure is normalised or the scale ends before 1.56e30 on the sphere, 1e5 on meshes. Violated by the code beyond that. Without normalisation and amplitude the values inside are within the scale; normalised values are treated in C42 and C120."
  },
  {
   "property": "C124",
   "status": "partial",
   "theorems": [
    "Sleplet.Props.C124_mesh",
    "Sleplet.Props.C124_slepian_forward",
    "Sleplet.Props.C124_slepian_inverse",
    "Sleplet.Props.C124_mesh_slepian_forward",
    "Sleplet.Props.C124_mesh_slepian_inverse",
    "Sleplet.Props.C124_axisym",
    "Sleplet.Props.C124_slepian_wavelets_partial",
    "Sleplet.Props.C124_slepian_wavelets_violation"
   ],
   "note": "Exact arithmetic. Violated for Slepian wavelets when a scale does not see one of the signals; proved when the same scales see both signals and their combination. Eigenvalues that are divided by are not zero."
  },
  {
   "property": "C125",
   "status": "proved",
   "theorems": [
    "Sleplet.Props.C125_sphere",
    "Sleplet.Props.C125_mesh"
   ],
   "note": "Fields have finite values (a nan outside the region times zero is nan)."
  },
  {
   "property": "C126",
   "status": "proved",
   "theorems": [
    "Sleplet.Props.C126_slepian_wavelets",
    "Sleplet.Props.C126_slepian_function",
    "Sleplet.Props.C126_axisym",
    "Sleplet.Props.C126_sphere",
    "Sleplet.Props.C126_mesh"
   ],
   "note": "Exact arithmetic. The transforms add no energy: on the sphere and on meshes because the Slepian functions are orthonormal for the quadrature used, which is a hypothesis, as is the same for the axisymmetric transforms of pyssht."
  },
  {
   "property": "C127",
   "status": "partial",
   "theorems": [
    "Sleplet.Props.C127_slepian_wavelets_partial",
    "Sleplet.Props.C127_sphere_partial",
    "Sleplet.Props.C127_mesh_partial",
    "Sleplet.Props.C127_slepian_function",
    "Sleplet.Props.C127_axisym",
    "Sleplet.Props.C127_slepian_wavelets_violation"
   ],
   "note": "Exact arithmetic; transforms as for C126. Violated for Slepian wavelets when a scale that does not see the signal comes before one that does; the partial theorems assume such scales come last."
  },
  {
   "property": "C128",
   "status": "proved",
   "theorems": [
    "Sleplet.Props.C128_region",
    "Sleplet.Props.C128_region_attained",
    "Sleplet.Props.C128_sphere",
    "Sleplet.Props.C128_harmonic",
    "Sleplet.Props.C128_mesh_region",
    "Sleplet.Props.C128_mesh_region_attained",
    "Sleplet.Props.C128_mesh_whole",
    "Sleplet.Props.C128_mesh_harmonic"
   ],
   "note": "Exact arithmetic. On the sphere the harmonics are orthonormal for the quadrature and the eigenvectors solve the concentration problem of the sampled mask, as in C34; on meshes both are proved of what the library builds."
  },
  {
   "property": "C129",
   "status": "proved",
   "theorems": [
    "Sleplet.Props.C129_power",
    "Sleplet.Props.C129_peak",
    "Sleplet.Props.C129_peak_attained",
    "Sleplet.Props.C129_error",
    "Sleplet.Props.C129_deviations",
    "Sleplet.Props.C129_harmonic"
   ],
   "note": "ssht.inverse is assumed to evaluate fields at the points of the samples, and the eigenvectors to be orthonormal (C31)"
  },
  {
   "property": "C130",
   "status": "partial",
   "theorems": [
    "Sleplet.Props.C130_polar",
    "Sleplet.Props.C130_lat_lon",
    "Sleplet.Props.C130_mask",
    "Sleplet.Props.C130_mask_bound",
    "Sleplet.Props.C130_mesh_partial",
    "Sleplet.Props.C130_mesh_violation"
   ],
   "note": "Full for polar caps and gaps, for regions limited in latitude and longitude and for masks (C130_mask: every kept eigenvalue is positive; C130_mask_bound: how large, for the ranks below about three quarters of the number kept). For meshes with fewer basis functions than vertices the code violates the property (C130_mesh_violation)."
  },
  {
   "property": "C131",
   "status": "proved",
   "theorems": [
    "Sleplet.Props.C131_panels",
    "Sleplet.Props.C131_too_few",
    "Sleplet.Props.C131_lines"
   ],
   "note": "The Slepian objects are given with the contracts of C50; a text that seaborn would show as the number 0 when all orders are zero is shown as text."
  },
  {
   "property": "C132",
   "status": "partial",
   "theorems": [
    "Sleplet.Props.C132_keeps",
    "Sleplet.Props.C132_caps",
    "Sleplet.Props.C132_mesh",
    "Sleplet.Props.C132_violation",
    "Sleplet.Props.C132_nothing_left"
   ],
   "note": "Violated by the code for small regions; proved exactly which regions keep a function and what is computed for the others."
  },
  {
   "property": "C133",
   "status": "proved",
   "theorems": [
    "Sleplet.Props.C133_real",
    "Sleplet.Props.C133_moved",
    "Sleplet.Props.C133_same_eigenvalue",
    "Sleplet.Props.C133_squares",
    "Sleplet.Props.C133_kept",
    "Sleplet.Props.C133_round"
   ],
   "note": "for all solutions of the eigenvalue problems within the contracts of the solver"
  },
  {
   "property": "C134",
   "status": "partial",
   "theorems": [
    "Sleplet.Props.C134_real_partial",
    "Sleplet.Props.C134_moved_partial",
    "Sleplet.Props.C134_violation"
   ],
   "note": "the code violates the claim for real signals when the number of coefficients parts equal eigenvalues; it is proved when it does not"
  },
  {
   "property": "C135",
   "status": "proved",
   "theorems": [
    "Sleplet.Props.C135_polar",
    "Sleplet.Props.C135_lat_lon",
    "Sleplet.Props.C135_mesh"
   ],
   "note": "Interlacing of the eigenvalues of two solutions at different bandlimits, from the greatest concentration of C88; masks are left out because their pixels change with the bandlimit."
  },
  {
   "property": "C136",
   "status": "proved",
   "theorems": [
    "Sleplet.Props.C136_masks",
    "Sleplet.Props.C136_mesh"
   ],
   "note": "For any two masks, nested or not, on the grid of one bandlimit; that the weights of pixels are not negative is proved of the model of the quadrature."
  },
  {
   "property": "C137",
   "status": "proved",
   "theorems": [
    "Sleplet.Props.C137_lat_lon",
    "Sleplet.Props.C137_gap",
    "Sleplet.Props.C137_masks",
    "Sleplet.Props.C137_mesh"
   ],
   "note": "From the greatest concentration of C88; the reflected cap has the cap's eigenvalues by C111."
  },
  {
   "property": "C138",
   "status": "proved",
   "theorems": [
    "Sleplet.Props.C138_reconstruction",
    "Sleplet.Props.C138_squares",
    "Sleplet.Props.C138_function",
    "Sleplet.Props.C138_mesh"
   ],
   "note": "Over all pairs of solutions within the contracts of eigh, argsort and the thread pool; when equal eigenvalues are parted nothing is claimed, since the contracts leave open which functions are kept."
  },
  {
   "property": "C139",
   "status": "proved",
   "theorems": [
    "Sleplet.Props.C139_polar",
    "Sleplet.Props.C139_lat_lon",
    "Sleplet.Props.C139_masks",
    "Sleplet.Props.C139_mesh"
   ],
   "note": "The solver is exact for the matrix handed to it; for polar caps every order has its own matrix, and those of opposite orders may differ."
  },
  {
   "property": "C140",
   "status": "proved",
   "theorems": [
    "Sleplet.Props.C140_cap",
    "Sleplet.Props.C140_gap",
    "Sleplet.Props.C140_lat_lon",
    "Sleplet.Props.C140_mesh"
   ],
   "note": "The eigenvalues are those of C50, between zero and one; masks are left out since their eigenvalues may exceed one."
  },
  {
   "property": "C141",
   "status": "proved",
   "theorems": [
    "Sleplet.Props.C141_polar",
    "Sleplet.Props.C141_lat_lon",
    "Sleplet.Props.C141_masks",
    "Sleplet.Props.C141_mesh"
   ],
   "note": "The signal is given by its harmonic coefficients (by its values on a mesh); the transforms themselves are taken without rounding. For polar caps and gaps the entries of all orders are meant."
  },
  {
   "property": "C142",
   "status": "proved",
   "theorems": [
    "Sleplet.Props.C142_polar",
    "Sleplet.Props.C142_lat_lon",
    "Sleplet.Props.C142_masks",
    "Sleplet.Props.C142_mesh"
   ],
   "note": "The signal is given by its harmonic coefficients (by its values on a mesh); the number of functions is the same for both regions, while the code takes it from the area when none is asked for; for meshes this is a hypothesis."
  },
  {
   "property": "C143",
   "status": "proved",
   "theorems": [
    "Sleplet.Props.C143_polar",
    "Sleplet.Props.C143_lat_lon"
   ],
   "note": "A bound on the effect of the violation of C11, for constructions one after another that start in an empty directory; the signal is given by its harmonic coefficients, and the comparison is with all functions as the solver gives them for the region itself."
  },
  {
   "property": "C144",
   "status": "proved",
   "theorems": [
    "Sleplet.Props.C144_own",
    "Sleplet.Props.C144_first_decides",
    "Sleplet.Props.C144_cap_replaces"
   ],
   "note": "Constructions run to their end one after another; concurrent and interrupted ones are in C11 and C15 for regions that share no names. No published files. In C144_first_decides no cap of the name follows when the first that saved is not a cap."
  },
  {
   "property": "C145",
   "status": "proved",
   "theorems": [
    "Sleplet.Props.C145_of_the_name",
    "Sleplet.Props.C145_mixed",
    "Sleplet.Props.C145_polar"
   ],
   "note": "File operations are atomic, as in C11. C145_mixed needs two regions that are not caps and share their names; two boxes at bandlimit two are such. C145_polar assumes the exact solvers of C32 for the caps, and that all regions worked on with the names of the cap are caps (or all are gaps) of the same bandlimit."
  }
 ]
}