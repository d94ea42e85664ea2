import Verif.Props.Amplitude
import Verif.Props.BandlimitChange
import Verif.Props.BestConcentrated
import Verif.Props.Cache
import Verif.Props.CacheOrders
import Verif.Props.ClassArgs
import Verif.Props.ClassCoefficients
import Verif.Props.ClassNames
import Verif.Props.ClassReality
import Verif.Props.CoefficientSizes
import Verif.Props.ConcentratedCount
import Verif.Props.Concentration
import Verif.Props.ConcentrationGrid
import Verif.Props.ConcentrationLatLon
import Verif.Props.ConcentrationPolar
import Verif.Props.Convolution
import Verif.Props.Covariances
import Verif.Props.CoveredRegions
import Verif.Props.DMatrixArbitrary
import Verif.Props.DMatrixReal
import Verif.Props.DataErrors
import Verif.Props.Demos
import Verif.Props.DenoisedEnergy
import Verif.Props.Denoising
import Verif.Props.Earth
import Verif.Props.EigenClean
import Verif.Props.EigenvalueFigure
import Verif.Props.EndToEnd
import Verif.Props.ErrorFigure
import Verif.Props.Figure
import Verif.Props.FigureNames
import Verif.Props.FirstDecides
import Verif.Props.FunctionNames
import Verif.Props.FunctionObjects
import Verif.Props.Functions
import Verif.Props.HarmonicIndex
import Verif.Props.HiddenArea
import Verif.Props.Integration
import Verif.Props.KeptEigenvalues
import Verif.Props.LimitLatLon
import Verif.Props.Masks
import Verif.Props.MatrixErrors
import Verif.Props.MeshArgs
import Verif.Props.MeshCache
import Verif.Props.MeshCoefficients
import Verif.Props.MeshEndToEnd
import Verif.Props.MeshFigureNames
import Verif.Props.MeshIntegrals
import Verif.Props.MeshLaplacian
import Verif.Props.MeshRead
import Verif.Props.MeshScript
import Verif.Props.MeshSizes
import Verif.Props.MeshTransform
import Verif.Props.MeshWavelets
import Verif.Props.MovedRegions
import Verif.Props.NearReconstruction
import Verif.Props.Noise
import Verif.Props.ObjectUses
import Verif.Props.OptimalReconstruction
import Verif.Props.OrderPanels
import Verif.Props.Parallel
import Verif.Props.PeakValues
import Verif.Props.Plot
import Verif.Props.PlotGeometry
import Verif.Props.PolarCap
import Verif.Props.PolarFigures
import Verif.Props.PolarOrders
import Verif.Props.Pooch
import Verif.Props.RandomSignals
import Verif.Props.Ranks
import Verif.Props.Reconstruction
import Verif.Props.ReconstructionFigures
import Verif.Props.Region
import Verif.Props.RegionAssign
import Verif.Props.RegionChanges
import Verif.Props.RegionNames
import Verif.Props.RegionSymmetry
import Verif.Props.RelatedRegions
import Verif.Props.Rotation
import Verif.Props.Sampling
import Verif.Props.Script
import Verif.Props.SharedMemory
import Verif.Props.SharedNames
import Verif.Props.SigmaJ
import Verif.Props.SlepianClasses
import Verif.Props.SlepianFields
import Verif.Props.SlepianTransform
import Verif.Props.SlepianWavelets
import Verif.Props.SmallFigures
import Verif.Props.SmallRegions
import Verif.Props.Snr
import Verif.Props.SolverIndependence
import Verif.Props.Sparsity
import Verif.Props.SphereScript
import Verif.Props.Strings
import Verif.Props.Superposition
import Verif.Props.SymmetricSignals
import Verif.Props.Thresholding
import Verif.Props.Tiling
import Verif.Props.TilingCurves
import Verif.Props.TilingFigure
import Verif.Props.Units
import Verif.Props.Upsampling
import Verif.Props.WaveletEndToEnd
import Verif.Props.Wavelets
import Verif.Props.WrongFunctions

/-! Axioms of every property theorem, printed at build time.  Generated. -/

#print axioms Sleplet.Props.Axisymmetric.zero
#print axioms Sleplet.Props.BuiltMesh.eigen
#print axioms Sleplet.Props.BuiltMesh.row
#print axioms Sleplet.Props.C01_chunks_partition
#print axioms Sleplet.Props.C02_chunks_balanced
#print axioms Sleplet.Props.C03_arbitrary_matrix_schedule_independent
#print axioms Sleplet.Props.C03_run_exists
#print axioms Sleplet.Props.C04_columns_of_surviving_workers_partial
#print axioms Sleplet.Props.C04_mesh_columns_of_surviving_workers_partial
#print axioms Sleplet.Props.C04_worker_failure_swallowed
#print axioms Sleplet.Props.C04_worker_failure_swallowed_mesh
#print axioms Sleplet.Props.C05_mesh_matrix_schedule_independent
#print axioms Sleplet.Props.C05_run_exists
#print axioms Sleplet.Props.C06_polar_matrix_schedule_independent
#print axioms Sleplet.Props.C07_polar_gap_parity
#print axioms Sleplet.Props.C08_area_is_masked_area_partial
#print axioms Sleplet.Props.C08_gap_area_is_half
#print axioms Sleplet.Props.C08_gap_violation
#print axioms Sleplet.Props.C08_hemisphere
#print axioms Sleplet.Props.C08_inverted_violation
#print axioms Sleplet.Props.C08_shannon_bounds
#print axioms Sleplet.Props.C09_classification
#print axioms Sleplet.Props.C100_axis_partial
#print axioms Sleplet.Props.C100_axis_violation
#print axioms Sleplet.Props.C100_curves
#print axioms Sleplet.Props.C100_straight
#print axioms Sleplet.Props.C100_too_small
#print axioms Sleplet.Props.C101_empty
#print axioms Sleplet.Props.C101_region
#print axioms Sleplet.Props.C102_figure
#print axioms Sleplet.Props.C102_mismatch
#print axioms Sleplet.Props.C102_samples
#print axioms Sleplet.Props.C102_shape
#print axioms Sleplet.Props.C103_empty
#print axioms Sleplet.Props.C103_harmonic_partial
#print axioms Sleplet.Props.C103_slepian
#print axioms Sleplet.Props.C103_spin_violation
#print axioms Sleplet.Props.C104_constant
#print axioms Sleplet.Props.C104_energy
#print axioms Sleplet.Props.C104_smoothest
#print axioms Sleplet.Props.C105_boosted
#print axioms Sleplet.Props.C105_sampling
#print axioms Sleplet.Props.C105_sharp
#print axioms Sleplet.Props.C105_slepian
#print axioms Sleplet.Props.C105_transforms
#print axioms Sleplet.Props.C106_agrees
#print axioms Sleplet.Props.C106_fresh_violation
#print axioms Sleplet.Props.C106_history_violation
#print axioms Sleplet.Props.C106_large_violation
#print axioms Sleplet.Props.C106_rejected
#print axioms Sleplet.Props.C106_reload
#print axioms Sleplet.Props.C106_whole_array_partial
#print axioms Sleplet.Props.C107_assign
#print axioms Sleplet.Props.C107_choose_consistent
#print axioms Sleplet.Props.C107_constructor_violation
#print axioms Sleplet.Props.C107_name_violation
#print axioms Sleplet.Props.C107_same_type_partial
#print axioms Sleplet.Props.C107_sequence
#print axioms Sleplet.Props.C107_type_violation
#print axioms Sleplet.Props.C108_area
#print axioms Sleplet.Props.C108_box
#print axioms Sleplet.Props.C108_read
#print axioms Sleplet.Props.C108_region
#print axioms Sleplet.Props.C108_subdivide
#print axioms Sleplet.Props.C108_surface
#print axioms Sleplet.Props.C109_refine_violation
#print axioms Sleplet.Props.C109_shannon_violation
#print axioms Sleplet.Props.C109_surface_integral
#print axioms Sleplet.Props.C109_uniform_partial
#print axioms Sleplet.Props.C109_weights_violation
#print axioms Sleplet.Props.C10_choose_preserves_region
#print axioms Sleplet.Props.C110_assign
#print axioms Sleplet.Props.C110_failure_violation
#print axioms Sleplet.Props.C110_flag_violation
#print axioms Sleplet.Props.C110_noise_violation
#print axioms Sleplet.Props.C110_results
#print axioms Sleplet.Props.C110_rotate
#print axioms Sleplet.Props.C110_stale_violation
#print axioms Sleplet.Props.C110_unchanged_partial
#print axioms Sleplet.Props.C111_cap_as_lat_lon
#print axioms Sleplet.Props.C111_caps_complement
#print axioms Sleplet.Props.C111_determined
#print axioms Sleplet.Props.C111_lat_lon_between
#print axioms Sleplet.Props.C111_lat_lon_nested
#print axioms Sleplet.Props.C111_lat_lon_strict
#print axioms Sleplet.Props.C111_lune_complement
#print axioms Sleplet.Props.C111_masks_nested
#print axioms Sleplet.Props.C111_mesh
#print axioms Sleplet.Props.C111_mirror
#print axioms Sleplet.Props.C111_polar_between
#print axioms Sleplet.Props.C111_polar_complement
#print axioms Sleplet.Props.C111_polar_nested
#print axioms Sleplet.Props.C111_polar_strict
#print axioms Sleplet.Props.C111_runs_exist
#print axioms Sleplet.Props.C111_turn
#print axioms Sleplet.Props.C112_after_crash_partial
#print axioms Sleplet.Props.C112_concurrent_partial
#print axioms Sleplet.Props.C112_violation
#print axioms Sleplet.Props.C113_concurrent_partial
#print axioms Sleplet.Props.C113_sequential_partial
#print axioms Sleplet.Props.C113_violation
#print axioms Sleplet.Props.C114_lat_lon
#print axioms Sleplet.Props.C114_lat_lon_any
#print axioms Sleplet.Props.C114_lat_lon_ranks
#print axioms Sleplet.Props.C114_masks
#print axioms Sleplet.Props.C114_mesh
#print axioms Sleplet.Props.C114_polar
#print axioms Sleplet.Props.C114_polar_ranks
#print axioms Sleplet.Props.C114_shared_files
#print axioms Sleplet.Props.C114_shared_lat_lon
#print axioms Sleplet.Props.C114_wrong_file
#print axioms Sleplet.Props.C114_wrong_lat_lon_file
#print axioms Sleplet.Props.C115_forward_fails
#print axioms Sleplet.Props.C115_forward_partial
#print axioms Sleplet.Props.C115_history_violation
#print axioms Sleplet.Props.C115_inverse_partial
#print axioms Sleplet.Props.C115_inverse_violation
#print axioms Sleplet.Props.C115_mesh_forward
#print axioms Sleplet.Props.C115_mesh_history_violation
#print axioms Sleplet.Props.C115_mesh_inverse
#print axioms Sleplet.Props.C116_concurrent_partial
#print axioms Sleplet.Props.C116_violation
#print axioms Sleplet.Props.C116_wavelets_partial
#print axioms Sleplet.Props.C117_sequential_partial
#print axioms Sleplet.Props.C117_violation
#print axioms Sleplet.Props.C117_wavelets_partial
#print axioms Sleplet.Props.C118_annotation_violation
#print axioms Sleplet.Props.C118_figure_name
#print axioms Sleplet.Props.C119_mesh_figure_name
#print axioms Sleplet.Props.C11_collision
#print axioms Sleplet.Props.C11_own_solution_partial
#print axioms Sleplet.Props.C11_violation
#print axioms Sleplet.Props.C120_axisym
#print axioms Sleplet.Props.C120_figure_partial
#print axioms Sleplet.Props.C120_figure_violation
#print axioms Sleplet.Props.C120_function
#print axioms Sleplet.Props.C120_mesh
#print axioms Sleplet.Props.C120_mesh_figure_partial
#print axioms Sleplet.Props.C120_mesh_function
#print axioms Sleplet.Props.C120_mesh_region_figure
#print axioms Sleplet.Props.C120_mesh_slepian_noise
#print axioms Sleplet.Props.C120_noise
#print axioms Sleplet.Props.C120_region_figure
#print axioms Sleplet.Props.C120_slepian
#print axioms Sleplet.Props.C120_slepian_function
#print axioms Sleplet.Props.C120_steady
#print axioms Sleplet.Props.C121_axisym
#print axioms Sleplet.Props.C121_function
#print axioms Sleplet.Props.C121_mesh
#print axioms Sleplet.Props.C121_slepian
#print axioms Sleplet.Props.C121_table
#print axioms Sleplet.Props.C122_fried_egg
#print axioms Sleplet.Props.C122_progressive
#print axioms Sleplet.Props.C122_slepian
#print axioms Sleplet.Props.C122_wavelets
#print axioms Sleplet.Props.C122_wavelets_formula
#print axioms Sleplet.Props.C123_marker_violation
#print axioms Sleplet.Props.C123_mesh_partial
#print axioms Sleplet.Props.C123_sphere_partial
#print axioms Sleplet.Props.C124_axisym
#print axioms Sleplet.Props.C124_mesh
#print axioms Sleplet.Props.C124_mesh_slepian_forward
#print axioms Sleplet.Props.C124_mesh_slepian_inverse
#print axioms Sleplet.Props.C124_slepian_forward
#print axioms Sleplet.Props.C124_slepian_inverse
#print axioms Sleplet.Props.C124_slepian_wavelets_partial
#print axioms Sleplet.Props.C124_slepian_wavelets_violation
#print axioms Sleplet.Props.C125_mesh
#print axioms Sleplet.Props.C125_sphere
#print axioms Sleplet.Props.C126_axisym
#print axioms Sleplet.Props.C126_mesh
#print axioms Sleplet.Props.C126_slepian_function
#print axioms Sleplet.Props.C126_slepian_wavelets
#print axioms Sleplet.Props.C126_sphere
#print axioms Sleplet.Props.C127_axisym
#print axioms Sleplet.Props.C127_mesh_partial
#print axioms Sleplet.Props.C127_slepian_function
#print axioms Sleplet.Props.C127_slepian_wavelets_partial
#print axioms Sleplet.Props.C127_slepian_wavelets_violation
#print axioms Sleplet.Props.C127_sphere_partial
#print axioms Sleplet.Props.C128_harmonic
#print axioms Sleplet.Props.C128_mesh_harmonic
#print axioms Sleplet.Props.C128_mesh_region
#print axioms Sleplet.Props.C128_mesh_region_attained
#print axioms Sleplet.Props.C128_mesh_whole
#print axioms Sleplet.Props.C128_region
#print axioms Sleplet.Props.C128_region_attained
#print axioms Sleplet.Props.C128_sphere
#print axioms Sleplet.Props.C129_deviations
#print axioms Sleplet.Props.C129_error
#print axioms Sleplet.Props.C129_harmonic
#print axioms Sleplet.Props.C129_peak
#print axioms Sleplet.Props.C129_peak_attained
#print axioms Sleplet.Props.C129_power
#print axioms Sleplet.Props.C12_file_names
#print axioms Sleplet.Props.C12_location_parses
#print axioms Sleplet.Props.C12_locations_identify
#print axioms Sleplet.Props.C12_mask_collision
#print axioms Sleplet.Props.C130_lat_lon
#print axioms Sleplet.Props.C130_mask
#print axioms Sleplet.Props.C130_mask_bound
#print axioms Sleplet.Props.C130_mesh_partial
#print axioms Sleplet.Props.C130_mesh_violation
#print axioms Sleplet.Props.C130_polar
#print axioms Sleplet.Props.C131_lines
#print axioms Sleplet.Props.C131_panels
#print axioms Sleplet.Props.C131_too_few
#print axioms Sleplet.Props.C132_caps
#print axioms Sleplet.Props.C132_keeps
#print axioms Sleplet.Props.C132_mesh
#print axioms Sleplet.Props.C132_nothing_left
#print axioms Sleplet.Props.C132_violation
#print axioms Sleplet.Props.C133_kept
#print axioms Sleplet.Props.C133_moved
#print axioms Sleplet.Props.C133_real
#print axioms Sleplet.Props.C133_round
#print axioms Sleplet.Props.C133_same_eigenvalue
#print axioms Sleplet.Props.C133_squares
#print axioms Sleplet.Props.C134_moved_partial
#print axioms Sleplet.Props.C134_real_partial
#print axioms Sleplet.Props.C134_violation
#print axioms Sleplet.Props.C135_lat_lon
#print axioms Sleplet.Props.C135_mesh
#print axioms Sleplet.Props.C135_polar
#print axioms Sleplet.Props.C136_masks
#print axioms Sleplet.Props.C136_mesh
#print axioms Sleplet.Props.C137_gap
#print axioms Sleplet.Props.C137_lat_lon
#print axioms Sleplet.Props.C137_masks
#print axioms Sleplet.Props.C137_mesh
#print axioms Sleplet.Props.C138_function
#print axioms Sleplet.Props.C138_mesh
#print axioms Sleplet.Props.C138_reconstruction
#print axioms Sleplet.Props.C138_squares
#print axioms Sleplet.Props.C139_lat_lon
#print axioms Sleplet.Props.C139_masks
#print axioms Sleplet.Props.C139_mesh
#print axioms Sleplet.Props.C139_polar
#print axioms Sleplet.Props.C13_reload_agrees
#print axioms Sleplet.Props.C13_rows_depend_on_history
#print axioms Sleplet.Props.C140_cap
#print axioms Sleplet.Props.C140_gap
#print axioms Sleplet.Props.C140_lat_lon
#print axioms Sleplet.Props.C140_mesh
#print axioms Sleplet.Props.C141_lat_lon
#print axioms Sleplet.Props.C141_masks
#print axioms Sleplet.Props.C141_mesh
#print axioms Sleplet.Props.C141_polar
#print axioms Sleplet.Props.C142_lat_lon
#print axioms Sleplet.Props.C142_masks
#print axioms Sleplet.Props.C142_mesh
#print axioms Sleplet.Props.C142_polar
#print axioms Sleplet.Props.C143_lat_lon
#print axioms Sleplet.Props.C143_polar
#print axioms Sleplet.Props.C144_cap_replaces
#print axioms Sleplet.Props.C144_first_decides
#print axioms Sleplet.Props.C144_own
#print axioms Sleplet.Props.C145_mixed
#print axioms Sleplet.Props.C145_of_the_name
#print axioms Sleplet.Props.C145_polar
#print axioms Sleplet.Props.C14_large_L_violation
#print axioms Sleplet.Props.C14_order_validation
#print axioms Sleplet.Props.C14_small_L_partial
#print axioms Sleplet.Props.C15_crash_safety
#print axioms Sleplet.Props.C15_never_wrong
#print axioms Sleplet.Props.C15_torn_file
#print axioms Sleplet.Props.C16_lookup
#print axioms Sleplet.Props.C16_published_stable
#print axioms Sleplet.Props.C17_arbitrary_sorted_and_paired
#print axioms Sleplet.Props.C17_lat_lon_sorted_and_paired
#print axioms Sleplet.Props.C17_mesh_sorted_and_paired
#print axioms Sleplet.Props.C18_arbitrary_orthonormal_eigenvectors
#print axioms Sleplet.Props.C18_lat_lon_orthonormal_eigenvectors
#print axioms Sleplet.Props.C18_mesh_orthonormal_eigenvectors
#print axioms Sleplet.Props.C19_polar_all_orders
#print axioms Sleplet.Props.C20_arbitrary_first_not_negative_partial
#print axioms Sleplet.Props.C20_arbitrary_repeated_violated
#print axioms Sleplet.Props.C20_lat_lon_first_not_negative
#print axioms Sleplet.Props.C20_polar_leading_coefficient_negative
#print axioms Sleplet.Props.C20_polar_sign_rule
#print axioms Sleplet.Props.C21_emm_vector
#print axioms Sleplet.Props.C21_index_bijection
#print axioms Sleplet.Props.C22_earth_real
#print axioms Sleplet.Props.C22_earth_short
#print axioms Sleplet.Props.C22_noise_real
#print axioms Sleplet.Props.C22_wmap_real
#print axioms Sleplet.Props.C22_wmap_short
#print axioms Sleplet.Props.C23_mesh_noise_reproducible
#print axioms Sleplet.Props.C23_noise_reproducible
#print axioms Sleplet.Props.C23_slepian_noise_reproducible
#print axioms Sleplet.Props.C24_boost_preserves
#print axioms Sleplet.Props.C25_laws
#print axioms Sleplet.Props.C25_mismatch
#print axioms Sleplet.Props.C25_value
#print axioms Sleplet.Props.C26_axisymmetric_round_trip
#print axioms Sleplet.Props.C27_energy
#print axioms Sleplet.Props.C27_round_trip_formula
#print axioms Sleplet.Props.C27_round_trip_iff
#print axioms Sleplet.Props.C27_round_trip_partial
#print axioms Sleplet.Props.C27_s2let_violation
#print axioms Sleplet.Props.C27_short_signals
#print axioms Sleplet.Props.C27_violation
#print axioms Sleplet.Props.C28_index_error
#print axioms Sleplet.Props.C28_selected_scale_iff
#print axioms Sleplet.Props.C28_selected_scale_partial
#print axioms Sleplet.Props.C28_violation
#print axioms Sleplet.Props.C28_wavelet_selection
#print axioms Sleplet.Props.C29_laws
#print axioms Sleplet.Props.C29_pixels
#print axioms Sleplet.Props.C30_harmonic
#print axioms Sleplet.Props.C30_row_length
#print axioms Sleplet.Props.C30_short_sigma
#print axioms Sleplet.Props.C30_slepian
#print axioms Sleplet.Props.C31_energy_ratio
#print axioms Sleplet.Props.C31_obtained_snr
#print axioms Sleplet.Props.C31_requested_snr
#print axioms Sleplet.Props.C31_scaling
#print axioms Sleplet.Props.C32_mesh_round_trip
#print axioms Sleplet.Props.C32_round_trip_projection
#print axioms Sleplet.Props.C33_mesh_method_selection
#print axioms Sleplet.Props.C33_method_selection
#print axioms Sleplet.Props.C33_rejections
#print axioms Sleplet.Props.C34_mesh_three_methods_agree
#print axioms Sleplet.Props.C34_quadrature_violation
#print axioms Sleplet.Props.C34_three_methods_agree
#print axioms Sleplet.Props.C35_forward_values
#print axioms Sleplet.Props.C35_mesh_round_trip
#print axioms Sleplet.Props.C36_orthonormalise
#print axioms Sleplet.Props.C37_masks
#print axioms Sleplet.Props.C37_mesh_region
#print axioms Sleplet.Props.C38_mesh_integrals
#print axioms Sleplet.Props.C38_sphere_energy_monotone
#print axioms Sleplet.Props.C38_sphere_integrals
#print axioms Sleplet.Props.C38_two_functions
#print axioms Sleplet.Props.C39_faces
#print axioms Sleplet.Props.C39_plot
#print axioms Sleplet.Props.C40_bounds
#print axioms Sleplet.Props.C40_not_monotone
#print axioms Sleplet.Props.C40_plot_resolution
#print axioms Sleplet.Props.C41_error_bound
#print axioms Sleplet.Props.C41_nearest_grid_point
#print axioms Sleplet.Props.C41_wraparound_violation
#print axioms Sleplet.Props.C42_constant_and_nonnegative
#print axioms Sleplet.Props.C42_normalise
#print axioms Sleplet.Props.C42_small_field_violation
#print axioms Sleplet.Props.C43_closing
#print axioms Sleplet.Props.C43_masking
#print axioms Sleplet.Props.C43_short_rows
#print axioms Sleplet.Props.C43_wrong_size
#print axioms Sleplet.Props.C44_collisions
#print axioms Sleplet.Props.C44_names_partial
#print axioms Sleplet.Props.C44_violation
#print axioms Sleplet.Props.C44_wavelet_ending
#print axioms Sleplet.Props.C45_angles
#print axioms Sleplet.Props.C46_command_lines
#print axioms Sleplet.Props.C46_lookup
#print axioms Sleplet.Props.C46_snake_injective
#print axioms Sleplet.Props.C47_default_region
#print axioms Sleplet.Props.C47_default_region_args
#print axioms Sleplet.Props.C47_not_an_integer
#print axioms Sleplet.Props.C48_basis_rank
#print axioms Sleplet.Props.C48_mesh_slepian_rank
#print axioms Sleplet.Props.C48_mesh_slepian_violation
#print axioms Sleplet.Props.C48_validation_violation
#print axioms Sleplet.Props.C49_matrix_is_surface_integral
#print axioms Sleplet.Props.C49_matrix_of_spherical_harmonics
#print axioms Sleplet.Props.C49_run_exists
#print axioms Sleplet.Props.C49_sub_integrals
#print axioms Sleplet.Props.C49_zero_bandlimit
#print axioms Sleplet.Props.C50_arbitrary_bounded_partial
#print axioms Sleplet.Props.C50_arbitrary_energy_ratio
#print axioms Sleplet.Props.C50_arbitrary_runs_exist
#print axioms Sleplet.Props.C50_arbitrary_violation
#print axioms Sleplet.Props.C50_lat_lon_energy_ratio
#print axioms Sleplet.Props.C50_lat_lon_inverted_violation
#print axioms Sleplet.Props.C50_mesh_energy_ratio
#print axioms Sleplet.Props.C50_polar_energy_ratio
#print axioms Sleplet.Props.C50_polar_overlapping_gap_accepted
#print axioms Sleplet.Props.C50_polar_overlapping_gap_violation
#print axioms Sleplet.Props.C50_polar_runs_exist
#print axioms Sleplet.Props.C51_selection_rules
#print axioms Sleplet.Props.C51_symmetries
#print axioms Sleplet.Props.C51_wigner_never_raises
#print axioms Sleplet.Props.C51_zero_orders_odd
#print axioms Sleplet.Props.C52_mesh_region_ignored
#print axioms Sleplet.Props.C52_region_ignored
#print axioms Sleplet.Props.C52_violation
#print axioms Sleplet.Props.C53_harmonic_noise
#print axioms Sleplet.Props.C53_mesh_noise
#print axioms Sleplet.Props.C53_no_noise
#print axioms Sleplet.Props.C53_slepian_identity_broadcast
#print axioms Sleplet.Props.C53_slepian_identity_violation
#print axioms Sleplet.Props.C53_slepian_noise_partial
#print axioms Sleplet.Props.C54_harmonic_translation
#print axioms Sleplet.Props.C54_name_collision
#print axioms Sleplet.Props.C54_slepian_needs_shannon
#print axioms Sleplet.Props.C54_slepian_translation
#print axioms Sleplet.Props.C55_dirac_delta
#print axioms Sleplet.Props.C55_gaussian
#print axioms Sleplet.Props.C55_gaussian_documented_violated
#print axioms Sleplet.Props.C55_harmonic_gaussian
#print axioms Sleplet.Props.C55_harmonic_gaussian_not_real
#print axioms Sleplet.Props.C55_identity
#print axioms Sleplet.Props.C55_identity_violation
#print axioms Sleplet.Props.C55_ridgelets
#print axioms Sleplet.Props.C56_extra_args
#print axioms Sleplet.Props.C56_spherical_harmonic
#print axioms Sleplet.Props.C57_hermitian_completion
#print axioms Sleplet.Props.C57_symmetric_completion
#print axioms Sleplet.Props.C58_mesh_shannon
#print axioms Sleplet.Props.C58_transforms_in_range
#print axioms Sleplet.Props.C59_smoothing
#print axioms Sleplet.Props.C59_zero_factor
#print axioms Sleplet.Props.C60_mesh_range
#print axioms Sleplet.Props.C60_normalised_abs
#print axioms Sleplet.Props.C60_sphere_colours
#print axioms Sleplet.Props.C60_sphere_range
#print axioms Sleplet.Props.C60_unknown_plot_type
#print axioms Sleplet.Props.C61_command_line
#print axioms Sleplet.Props.C61_high_rank_violation
#print axioms Sleplet.Props.C61_slepian_rank
#print axioms Sleplet.Props.C62_mask_area
#print axioms Sleplet.Props.C62_mask_shannon
#print axioms Sleplet.Props.C62_weights
#print axioms Sleplet.Props.C63_amplitude
#print axioms Sleplet.Props.C63_own_amplitude_covers
#print axioms Sleplet.Props.C63_upsampling_keeps_samples
#print axioms Sleplet.Props.C64_masked_bandlimited
#print axioms Sleplet.Props.C64_mesh_slepian_functions
#print axioms Sleplet.Props.C65_harmonics_orthonormal
#print axioms Sleplet.Props.C65_legendre_table
#print axioms Sleplet.Props.C65_orders_decouple
#print axioms Sleplet.Props.C65_polar_matrix_is_surface_integral
#print axioms Sleplet.Props.C65_table_mismatch
#print axioms Sleplet.Props.C66_gaunt
#print axioms Sleplet.Props.C67_mesh_name
#print axioms Sleplet.Props.C67_name
#print axioms Sleplet.Props.C67_name_determines_bandlimit
#print axioms Sleplet.Props.C67_name_determines_settings
#print axioms Sleplet.Props.C68_harmonic_args
#print axioms Sleplet.Props.C68_harmonic_errors
#print axioms Sleplet.Props.C68_list_is_keywords
#print axioms Sleplet.Props.C68_slepian_args
#print axioms Sleplet.Props.C68_slepian_errors
#print axioms Sleplet.Props.C68_slepian_list_is_keywords
#print axioms Sleplet.Props.C69_name_determines_function_partial
#print axioms Sleplet.Props.C69_name_determines_object_partial
#print axioms Sleplet.Props.C69_powers_recorded
#print axioms Sleplet.Props.C69_slepian_name
#print axioms Sleplet.Props.C69_slepian_region
#print axioms Sleplet.Props.C69_tiny_violation
#print axioms Sleplet.Props.C70_identity_violation
#print axioms Sleplet.Props.C70_length
#print axioms Sleplet.Props.C70_reality_partial
#print axioms Sleplet.Props.C71_axisymmetric_wavelets
#print axioms Sleplet.Props.C71_scales
#print axioms Sleplet.Props.C71_wavelet_coefficients
#print axioms Sleplet.Props.C72_counts
#print axioms Sleplet.Props.C72_default_region_violation
#print axioms Sleplet.Props.C72_dirac_delta
#print axioms Sleplet.Props.C72_land
#print axioms Sleplet.Props.C72_noise_violation
#print axioms Sleplet.Props.C72_region
#print axioms Sleplet.Props.C72_wrong_region
#print axioms Sleplet.Props.C72_wrong_region_derived
#print axioms Sleplet.Props.C73_custom
#print axioms Sleplet.Props.C73_maps
#print axioms Sleplet.Props.C73_masks
#print axioms Sleplet.Props.C74_failures
#print axioms Sleplet.Props.C74_lookup_partial
#print axioms Sleplet.Props.C74_registry_violation
#print axioms Sleplet.Props.C75_convolution_violation
#print axioms Sleplet.Props.C75_filename
#print axioms Sleplet.Props.C75_filename_determines
#print axioms Sleplet.Props.C75_harmonic
#print axioms Sleplet.Props.C75_slepian
#print axioms Sleplet.Props.C75_slepian_earth_violation
#print axioms Sleplet.Props.C75_slepian_rotate
#print axioms Sleplet.Props.C76_elongated_gaussian
#print axioms Sleplet.Props.C76_noise_earth
#print axioms Sleplet.Props.C76_ridgelets
#print axioms Sleplet.Props.C76_slepian_noise
#print axioms Sleplet.Props.C76_slepian_wavelet_coefficients_partial
#print axioms Sleplet.Props.C76_slepian_wavelets
#print axioms Sleplet.Props.C76_squashed_gaussian
#print axioms Sleplet.Props.C76_wmap
#print axioms Sleplet.Props.C77_args
#print axioms Sleplet.Props.C77_classes
#print axioms Sleplet.Props.C77_default_names
#print axioms Sleplet.Props.C77_errors
#print axioms Sleplet.Props.C77_list_is_keywords
#print axioms Sleplet.Props.C77_name
#print axioms Sleplet.Props.C77_name_determines_object_partial
#print axioms Sleplet.Props.C77_negative_rank
#print axioms Sleplet.Props.C77_slepian_region_violation
#print axioms Sleplet.Props.C78_basis
#print axioms Sleplet.Props.C78_field
#print axioms Sleplet.Props.C78_noise
#print axioms Sleplet.Props.C78_noise_field_violation
#print axioms Sleplet.Props.C78_slepian_field
#print axioms Sleplet.Props.C78_slepian_functions
#print axioms Sleplet.Props.C78_slepian_noise_field
#print axioms Sleplet.Props.C78_wavelet_coefficients_partial
#print axioms Sleplet.Props.C78_wavelet_noise_violation
#print axioms Sleplet.Props.C78_wavelets
#print axioms Sleplet.Props.C79_deletion_violation
#print axioms Sleplet.Props.C79_deterministic
#print axioms Sleplet.Props.C79_file_names
#print axioms Sleplet.Props.C79_race_concentration
#print axioms Sleplet.Props.C79_race_violation
#print axioms Sleplet.Props.C79_sequential_partial
#print axioms Sleplet.Props.C80_leak_violation
#print axioms Sleplet.Props.C80_released_partial
#print axioms Sleplet.Props.C80_sizes
#print axioms Sleplet.Props.C80_success
#print axioms Sleplet.Props.C81_axisymmetric
#print axioms Sleplet.Props.C81_expected_power
#print axioms Sleplet.Props.C81_mesh_wavelets
#print axioms Sleplet.Props.C81_slepian_expected_power
#print axioms Sleplet.Props.C81_slepian_wavelets
#print axioms Sleplet.Props.C82_arguments
#print axioms Sleplet.Props.C82_basis_functions
#print axioms Sleplet.Props.C82_fields
#print axioms Sleplet.Props.C82_figure
#print axioms Sleplet.Props.C82_mirrored
#print axioms Sleplet.Props.C82_noise
#print axioms Sleplet.Props.C82_noise_field_violation
#print axioms Sleplet.Props.C82_region_violation
#print axioms Sleplet.Props.C82_slepian_functions
#print axioms Sleplet.Props.C82_zoom
#print axioms Sleplet.Props.C83_axisymmetric_covariance
#print axioms Sleplet.Props.C83_cmb_field
#print axioms Sleplet.Props.C83_cmb_spectrum
#print axioms Sleplet.Props.C83_random_signal
#print axioms Sleplet.Props.C83_slepian_covariance
#print axioms Sleplet.Props.C84_axisym
#print axioms Sleplet.Props.C84_axisym_error
#print axioms Sleplet.Props.C84_axisym_extremes
#print axioms Sleplet.Props.C84_conjugate_violation
#print axioms Sleplet.Props.C84_filtered_field_partial
#print axioms Sleplet.Props.C84_slepian_extremes_partial
#print axioms Sleplet.Props.C84_slepian_formula
#print axioms Sleplet.Props.C84_slepian_function
#print axioms Sleplet.Props.C84_slepian_violation
#print axioms Sleplet.Props.C84_sphere
#print axioms Sleplet.Props.C84_sphere_formula
#print axioms Sleplet.Props.C85_command_line
#print axioms Sleplet.Props.C85_harmonic
#print axioms Sleplet.Props.C85_noise_scale_partial
#print axioms Sleplet.Props.C85_noise_scale_violation
#print axioms Sleplet.Props.C85_outline
#print axioms Sleplet.Props.C85_region_violation
#print axioms Sleplet.Props.C85_region_violation_slepian
#print axioms Sleplet.Props.C85_slepian
#print axioms Sleplet.Props.C85_slepian_function
#print axioms Sleplet.Props.C86_dirac_delta
#print axioms Sleplet.Props.C86_sifting
#print axioms Sleplet.Props.C86_slepian_sifting
#print axioms Sleplet.Props.C86_translation
#print axioms Sleplet.Props.C87_energy
#print axioms Sleplet.Props.C87_forward
#print axioms Sleplet.Props.C87_inverse
#print axioms Sleplet.Props.C87_wavelets
#print axioms Sleplet.Props.C88_arbitrary
#print axioms Sleplet.Props.C88_lat_lon
#print axioms Sleplet.Props.C88_mesh
#print axioms Sleplet.Props.C88_optimal
#print axioms Sleplet.Props.C88_polar
#print axioms Sleplet.Props.C88_reconstruction
#print axioms Sleplet.Props.C89_axisymmetric
#print axioms Sleplet.Props.C89_continents
#print axioms Sleplet.Props.C89_dirac_delta
#print axioms Sleplet.Props.C89_exists_unique
#print axioms Sleplet.Props.C89_group
#print axioms Sleplet.Props.C89_isometry
#print axioms Sleplet.Props.C89_real
#print axioms Sleplet.Props.C89_smoothing
#print axioms Sleplet.Props.C89_turn
#print axioms Sleplet.Props.C89_views
#print axioms Sleplet.Props.C89_wavelet_synthesis
#print axioms Sleplet.Props.C89_wavelets
#print axioms Sleplet.Props.C90_fields_shown
#print axioms Sleplet.Props.C90_overlap_violation
#print axioms Sleplet.Props.C90_progressive_partial
#print axioms Sleplet.Props.C91_axisymmetric_measured
#print axioms Sleplet.Props.C91_report
#print axioms Sleplet.Props.C91_scaling_violation
#print axioms Sleplet.Props.C91_slepian_experiment
#print axioms Sleplet.Props.C92_dirac_delta
#print axioms Sleplet.Props.C92_translation
#print axioms Sleplet.Props.C92_wavelet_coefficients
#print axioms Sleplet.Props.C93_label_index
#print axioms Sleplet.Props.C93_order_marks
#print axioms Sleplet.Props.C93_panel
#print axioms Sleplet.Props.C94_axisymmetric_transform
#print axioms Sleplet.Props.C94_selected_scale
#print axioms Sleplet.Props.C94_slepian_transform
#print axioms Sleplet.Props.C94_smooth
#print axioms Sleplet.Props.C94_tiling
#print axioms Sleplet.Props.C94_values
#print axioms Sleplet.Props.C95_curves
#print axioms Sleplet.Props.C95_sparsity_label_violation
#print axioms Sleplet.Props.C95_sparsity_partial
#print axioms Sleplet.Props.C95_translation_mean
#print axioms Sleplet.Props.C95_translation_no_angles
#print axioms Sleplet.Props.C95_translation_norms
#print axioms Sleplet.Props.C96_camera
#print axioms Sleplet.Props.C96_colour_scale
#print axioms Sleplet.Props.C96_mesh_mirrored
#print axioms Sleplet.Props.C96_short_rows
#print axioms Sleplet.Props.C96_sphere_figure
#print axioms Sleplet.Props.C96_surface_embedded
#print axioms Sleplet.Props.C96_wrong_size
#print axioms Sleplet.Props.C97_colour_range_partial
#print axioms Sleplet.Props.C97_errors
#print axioms Sleplet.Props.C97_parametric
#print axioms Sleplet.Props.C97_parametric_violation
#print axioms Sleplet.Props.C97_seam_violation
#print axioms Sleplet.Props.C97_unseen_violation
#print axioms Sleplet.Props.C98_arbitrary
#print axioms Sleplet.Props.C98_empty
#print axioms Sleplet.Props.C98_figure
#print axioms Sleplet.Props.C98_gap_violation
#print axioms Sleplet.Props.C98_lat_lon
#print axioms Sleplet.Props.C98_mesh_basis_dependent
#print axioms Sleplet.Props.C98_mesh_partial
#print axioms Sleplet.Props.C98_polar_partial
#print axioms Sleplet.Props.C99_dots_partial
#print axioms Sleplet.Props.C99_exact
#print axioms Sleplet.Props.C99_phase_violation
#print axioms Sleplet.Props.CreatesHarmonics.harm
#print axioms Sleplet.Props.EigshBasis.orthonormal
#print axioms Sleplet.Props.GoodMesh.le_K
#print axioms Sleplet.Props.Shape.best
#print axioms Sleplet.Props.Shape.best_same
#print axioms Sleplet.Props.Shape.energy_bar
#print axioms Sleplet.Props.Shape.energy_move
#print axioms Sleplet.Props.Shape.gives_exists
#print axioms Sleplet.Props.Shape.rows
#print axioms Sleplet.Props.Shape.same_eigenvalues
#print axioms Sleplet.Props.Shape.symmetry
#print axioms Sleplet.Props.SolvedCap.polar
#print axioms Sleplet.Props.SolvesMask.region
#print axioms Sleplet.Props.SolvesMask.whole
#print axioms Sleplet.Props.Together.other
#print axioms Sleplet.Props.abs_round_sub
#print axioms Sleplet.Props.afterBoth_get
#print axioms Sleplet.Props.afterMesh_ok
#print axioms Sleplet.Props.afterMesh_safe
#print axioms Sleplet.Props.ang_eq
#print axioms Sleplet.Props.ang_full
#print axioms Sleplet.Props.angleAsDegree_deg2rad
#print axioms Sleplet.Props.angleField_chars
#print axioms Sleplet.Props.angle_add_two_pi
#print axioms Sleplet.Props.angle_centre
#print axioms Sleplet.Props.apply_of_local
#print axioms Sleplet.Props.at2_rows
#print axioms Sleplet.Props.axisymmetric_moved
#print axioms Sleplet.Props.bandlimited_cut
#print axioms Sleplet.Props.belongs_basis_eval
#print axioms Sleplet.Props.belongs_basis_evec
#print axioms Sleplet.Props.belongs_eval
#print axioms Sleplet.Props.belongs_evec
#print axioms Sleplet.Props.belongs_inj
#print axioms Sleplet.Props.belongs_order
#print axioms Sleplet.Props.belongs_slepian
#print axioms Sleplet.Props.best_cast
#print axioms Sleplet.Props.boostField_eq
#print axioms Sleplet.Props.boost_ok
#print axioms Sleplet.Props.broadcast_mem
#print axioms Sleplet.Props.capEnergy_sum
#print axioms Sleplet.Props.ceil_logb
#print axioms Sleplet.Props.checkPhi_cases
#print axioms Sleplet.Props.checkPhi_ok
#print axioms Sleplet.Props.checkTheta_cases
#print axioms Sleplet.Props.checkTheta_ok
#print axioms Sleplet.Props.className_mem
#print axioms Sleplet.Props.class_eq
#print axioms Sleplet.Props.clip_eq
#print axioms Sleplet.Props.closeRow_mem
#print axioms Sleplet.Props.closeRows_mem
#print axioms Sleplet.Props.conj_synthesis
#print axioms Sleplet.Props.construct_mesh_ok
#print axioms Sleplet.Props.construct_mesh_safe
#print axioms Sleplet.Props.construct_ok
#print axioms Sleplet.Props.cornersExist_subdivide
#print axioms Sleplet.Props.count_interlace
#print axioms Sleplet.Props.createAll_ok
#print axioms Sleplet.Props.createNoise_ok
#print axioms Sleplet.Props.deg2rad_eq
#print axioms Sleplet.Props.degree_close
#print axioms Sleplet.Props.degree_elm2ind
#print axioms Sleplet.Props.degree_nonneg
#print axioms Sleplet.Props.diagonal_average
#print axioms Sleplet.Props.display_ok
#print axioms Sleplet.Props.distance_comm
#print axioms Sleplet.Props.distance_triangle
#print axioms Sleplet.Props.edges_of_face
#print axioms Sleplet.Props.eigenvector_row
#print axioms Sleplet.Props.elm2ind_degree
#print axioms Sleplet.Props.ending_limitLatLon
#print axioms Sleplet.Props.ending_polarCap
#print axioms Sleplet.Props.ending_tail
#print axioms Sleplet.Props.entry_withColumn
#print axioms Sleplet.Props.euler_centre
#print axioms Sleplet.Props.exactYlm_creates
#print axioms Sleplet.Props.exampleY_sym
#print axioms Sleplet.Props.executeSphere_ok
#print axioms Sleplet.Props.exists_argsortList
#print axioms Sleplet.Props.exists_built
#print axioms Sleplet.Props.exists_meshSolution
#print axioms Sleplet.Props.exists_pair
#print axioms Sleplet.Props.exists_solver
#print axioms Sleplet.Props.facePoints_parts
#print axioms Sleplet.Props.figure_ok
#print axioms Sleplet.Props.files_ne
#print axioms Sleplet.Props.filter_keys
#print axioms Sleplet.Props.firstColumn_ok
#print axioms Sleplet.Props.flmMethods_ignore
#print axioms Sleplet.Props.flm_homogeneous
#print axioms Sleplet.Props.forward_flm
#print axioms Sleplet.Props.fpHelper_ok
#print axioms Sleplet.Props.fpMethods_ignore
#print axioms Sleplet.Props.fp_noise
#print axioms Sleplet.Props.fp_prefix_free
#print axioms Sleplet.Props.fragment_inj
#print axioms Sleplet.Props.fragment_tail
#print axioms Sleplet.Props.function_ok
#print axioms Sleplet.Props.gap_factor
#print axioms Sleplet.Props.getD_pad
#print axioms Sleplet.Props.get_write
#print axioms Sleplet.Props.get_write_ne
#print axioms Sleplet.Props.get_write_self
#print axioms Sleplet.Props.goodMesh_exists
#print axioms Sleplet.Props.gram_exact
#print axioms Sleplet.Props.grid_eq_rows
#print axioms Sleplet.Props.half_sq
#print axioms Sleplet.Props.harm_of
#print axioms Sleplet.Props.harm_one_three
#print axioms Sleplet.Props.harm_small
#print axioms Sleplet.Props.harm_three_im
#print axioms Sleplet.Props.harmonic_table
#print axioms Sleplet.Props.hemisphere_functions
#print axioms Sleplet.Props.hemisphere_harm
#print axioms Sleplet.Props.hemisphere_top
#print axioms Sleplet.Props.inner_degrees
#print axioms Sleplet.Props.inner_rows
#print axioms Sleplet.Props.inner_synthesis
#print axioms Sleplet.Props.insertColumn_short
#print axioms Sleplet.Props.integral_window
#print axioms Sleplet.Props.inverse_ok
#print axioms Sleplet.Props.isLimitedLatLon_iff
#print axioms Sleplet.Props.isPolarCap_iff
#print axioms Sleplet.Props.isWigner_wignerTable
#print axioms Sleplet.Props.label_injective
#print axioms Sleplet.Props.land_made
#print axioms Sleplet.Props.land_of
#print axioms Sleplet.Props.latLon_ending_inj
#print axioms Sleplet.Props.latLon_name
#print axioms Sleplet.Props.lat_lon_numbers
#print axioms Sleplet.Props.lat_lon_reload
#print axioms Sleplet.Props.le_distance
#print axioms Sleplet.Props.linearOn_mesh
#print axioms Sleplet.Props.load_error
#print axioms Sleplet.Props.localRun_append
#print axioms Sleplet.Props.local_attach
#print axioms Sleplet.Props.local_close
#print axioms Sleplet.Props.local_touch
#print axioms Sleplet.Props.local_worker
#print axioms Sleplet.Props.main_ok
#print axioms Sleplet.Props.mapM_mem
#print axioms Sleplet.Props.map_ok
#print axioms Sleplet.Props.maskFile_inj
#print axioms Sleplet.Props.mask_energy
#print axioms Sleplet.Props.mask_numbers
#print axioms Sleplet.Props.mask_region
#print axioms Sleplet.Props.maskedBandlimited_ofFn
#print axioms Sleplet.Props.mem_edges
#print axioms Sleplet.Props.mem_samples
#print axioms Sleplet.Props.meshIntegral_eq
#print axioms Sleplet.Props.meshInverse_take
#print axioms Sleplet.Props.meshNoise_ok
#print axioms Sleplet.Props.meshShannon_mono
#print axioms Sleplet.Props.mesh_abs_greatest
#print axioms Sleplet.Props.mesh_main_core
#print axioms Sleplet.Props.mesh_method_ok
#print axioms Sleplet.Props.mesh_orthonormal
#print axioms Sleplet.Props.mesh_plot_name
#print axioms Sleplet.Props.mesh_plot_ok
#print axioms Sleplet.Props.mesh_read_name
#print axioms Sleplet.Props.mesh_recon
#print axioms Sleplet.Props.mesh_sigma
#print axioms Sleplet.Props.mesh_transforms
#print axioms Sleplet.Props.mid_lt
#print axioms Sleplet.Props.midpoint_comm
#print axioms Sleplet.Props.mk_of_not_range
#print axioms Sleplet.Props.mk_of_range
#print axioms Sleplet.Props.mk_ok_args
#print axioms Sleplet.Props.moved_rows
#print axioms Sleplet.Props.multiplyArgs_cons
#print axioms Sleplet.Props.multiplyArgs_ok
#print axioms Sleplet.Props.name_parse
#print axioms Sleplet.Props.namesSlepian_iff
#print axioms Sleplet.Props.names_slepian
#print axioms Sleplet.Props.natAbs_lt_of_mem
#print axioms Sleplet.Props.near_signals
#print axioms Sleplet.Props.noGain_of_orthonormal
#print axioms Sleplet.Props.nodup_edges
#print axioms Sleplet.Props.nodup_orders
#print axioms Sleplet.Props.noise_ne_smoothed
#print axioms Sleplet.Props.noise_power
#print axioms Sleplet.Props.norm_sphHarm_one_one
#print axioms Sleplet.Props.norm_sphereInner
#print axioms Sleplet.Props.number_eq
#print axioms Sleplet.Props.numbers_bounds
#print axioms Sleplet.Props.numbers_complement
#print axioms Sleplet.Props.numbers_cover
#print axioms Sleplet.Props.numbers_decrease
#print axioms Sleplet.Props.numbers_distance
#print axioms Sleplet.Props.numbers_eq
#print axioms Sleplet.Props.numbers_interlace
#print axioms Sleplet.Props.numbers_le
#print axioms Sleplet.Props.numbers_le_id
#print axioms Sleplet.Props.numbers_lt
#print axioms Sleplet.Props.numbers_ofFn
#print axioms Sleplet.Props.numbers_sum
#print axioms Sleplet.Props.one_le_round
#print axioms Sleplet.Props.opposite_orders
#print axioms Sleplet.Props.order_members
#print axioms Sleplet.Props.pairMesh_full
#print axioms Sleplet.Props.panel_numbers
#print axioms Sleplet.Props.panel_shows
#print axioms Sleplet.Props.parted_fin
#print axioms Sleplet.Props.parts_area
#print axioms Sleplet.Props.parts_pos
#print axioms Sleplet.Props.periodic_int
#print axioms Sleplet.Props.plotSphere_ok
#print axioms Sleplet.Props.point_add_two_pi
#print axioms Sleplet.Props.point_rotZ
#print axioms Sleplet.Props.points_spec
#print axioms Sleplet.Props.polar60_gap
#print axioms Sleplet.Props.polar_all_orders
#print axioms Sleplet.Props.polar_ending_inj
#print axioms Sleplet.Props.polar_name
#print axioms Sleplet.Props.polar_numbers
#print axioms Sleplet.Props.pos_mid
#print axioms Sleplet.Props.pos_of_lt_sq
#print axioms Sleplet.Props.pos_old
#print axioms Sleplet.Props.pow_lt_double_iff
#print axioms Sleplet.Props.prepareField_ok
#print axioms Sleplet.Props.randomSignal_ok
#print axioms Sleplet.Props.rank_bounds
#print axioms Sleplet.Props.read_ok
#print axioms Sleplet.Props.realSignal_iff
#print axioms Sleplet.Props.real_pad
#print axioms Sleplet.Props.reconstruction_eq
#print axioms Sleplet.Props.regionMesh_ok
#print axioms Sleplet.Props.regionSphere_ok
#print axioms Sleplet.Props.registry_none
#print axioms Sleplet.Props.rotates_list
#print axioms Sleplet.Props.rotates_scale
#print axioms Sleplet.Props.rotates_unique
#print axioms Sleplet.Props.round_near
#print axioms Sleplet.Props.run_append
#print axioms Sleplet.Props.run_array_cached
#print axioms Sleplet.Props.run_close
#print axioms Sleplet.Props.run_create
#print axioms Sleplet.Props.run_createAll
#print axioms Sleplet.Props.run_of_files
#print axioms Sleplet.Props.run_polar_cached
#print axioms Sleplet.Props.run_polar_fresh
#print axioms Sleplet.Props.run_shuffle
#print axioms Sleplet.Props.run_touch
#print axioms Sleplet.Props.run_unlink
#print axioms Sleplet.Props.sClassName_mem
#print axioms Sleplet.Props.sName_parse
#print axioms Sleplet.Props.sampleEnv_good
#print axioms Sleplet.Props.sampleLand_mask
#print axioms Sleplet.Props.sampleSphere_good
#print axioms Sleplet.Props.sampleSphere_transforms
#print axioms Sleplet.Props.sample_gaussian
#print axioms Sleplet.Props.sample_transforms
#print axioms Sleplet.Props.sampledHarmonic_symmetric
#print axioms Sleplet.Props.setOutsideRegion_mem
#print axioms Sleplet.Props.setupPlot_bounds
#print axioms Sleplet.Props.setupPlot_mem
#print axioms Sleplet.Props.setup_range
#print axioms Sleplet.Props.shared_polar
#print axioms Sleplet.Props.shifted_row
#print axioms Sleplet.Props.sig_sum
#print axioms Sleplet.Props.sigma_sq
#print axioms Sleplet.Props.signalPower_nonneg
#print axioms Sleplet.Props.signalPower_smul
#print axioms Sleplet.Props.signal_power
#print axioms Sleplet.Props.simple_fin
#print axioms Sleplet.Props.slepianForward_eq
#print axioms Sleplet.Props.slepian_as_harmonic
#print axioms Sleplet.Props.slepian_figure
#print axioms Sleplet.Props.snrArg_error
#print axioms Sleplet.Props.snrArg_ok
#print axioms Sleplet.Props.solved_best
#print axioms Sleplet.Props.solved_usable
#print axioms Sleplet.Props.sphHarm_neg
#print axioms Sleplet.Props.sphereUnseen_lt_zero
#print axioms Sleplet.Props.sphere_homogeneous
#print axioms Sleplet.Props.sqrt_half
#print axioms Sleplet.Props.step_save
#print axioms Sleplet.Props.sub_cube_lt_arctan
#print axioms Sleplet.Props.sum_eigenvectors
#print axioms Sleplet.Props.sum_first
#print axioms Sleplet.Props.sum_getD
#print axioms Sleplet.Props.sum_neg_orders
#print axioms Sleplet.Props.sum_ordersRange
#print axioms Sleplet.Props.sum_sampled
#print axioms Sleplet.Props.sum_sin_cube
#print axioms Sleplet.Props.synthesis_point
#print axioms Sleplet.Props.synthesis_sum
#print axioms Sleplet.Props.thetaPart_one_one_ne
#print axioms Sleplet.Props.ticks_ok
#print axioms Sleplet.Props.tiling_admissible
#print axioms Sleplet.Props.tiling_kept
#print axioms Sleplet.Props.tiling_wf
#print axioms Sleplet.Props.toRows_ofRows
#print axioms Sleplet.Props.triangle_parts
#print axioms Sleplet.Props.trueForward_inverse
#print axioms Sleplet.Props.trueInverse_inj
#print axioms Sleplet.Props.two_boxes
#print axioms Sleplet.Props.two_caps
#print axioms Sleplet.Props.unflatten_mem
#print axioms Sleplet.Props.unseenLast_of_ne_zero
#print axioms Sleplet.Props.unseenLast_split
#print axioms Sleplet.Props.waveArgs_error
#print axioms Sleplet.Props.waveArgs_ok
#print axioms Sleplet.Props.waveName_inj
#print axioms Sleplet.Props.wavelet_energies
#print axioms Sleplet.Props.wholeDegrees_region
#print axioms Sleplet.Props.wholeDegrees_separate
#print axioms Sleplet.Props.wholeMesh_ok
#print axioms Sleplet.Props.wholeSphere_ok
#print axioms Sleplet.Props.withColumn_length
#print axioms Sleplet.Props.write_write
