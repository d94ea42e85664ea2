{"id": "C01", "title": "Parallel work splitting is a partition", "statement": "For every problem size n and every worker count ncpu>=1, the chunks handed to the workers contain every index 0..n-1 exactly once, there are exactly ncpu chunks, and every chunk is in increasing order.", "quantifier": "all n >= 0 and all ncpu >= 1", "why_tests_cant": "The env variable NCPU and the bandlimit are unbounded; a test fixes a handful of (n, ncpu) pairs, a lost or doubled index at one other pair leaves a zero row in the concentration matrix.", "anchors": ["src/sleplet/_parallel_methods.py:split_arr_into_chunks"]}
{"id": "C02", "title": "Work splitting is balanced", "statement": "For every n and ncpu>=1 the sizes of any two chunks differ by at most one.", "quantifier": "all n, all ncpu >= 1, all pairs of chunks", "why_tests_cant": "Universally quantified over sizes and worker counts.", "anchors": ["src/sleplet/_parallel_methods.py:split_arr_into_chunks"]}
{"id": "C03", "title": "Arbitrary-region concentration matrix does not depend on the thread schedule", "statement": "For every bandlimit L, every NCPU>=1 and every interleaving of the worker threads (including every interleaving of the check-then-store accesses to the shared dictionary of precomputed fields), the matrix assembled for an arbitrary region is the same, is Hermitian, and its (j,i) entry is the region integral of Y_j times conj(Y_i).", "quantifier": "all L, all worker counts, all interleavings of atomic reads/writes of all threads", "why_tests_cant": "The set of interleavings is astronomically large and the runtime only ever shows a few.", "anchors": ["src/sleplet/slepian/slepian_arbitrary.py:SlepianArbitrary._create_D_matrix", "src/sleplet/slepian/slepian_arbitrary.py:SlepianArbitrary._matrix_helper", "src/sleplet/slepian/slepian_arbitrary.py:SlepianArbitrary._integral", "src/sleplet/_array_methods.py:fill_upper_triangle_of_hermitian_matrix"]}
{"id": "C04", "title": "A failure inside a worker reaches the caller", "statement": "If computing any entry of a concentration matrix raises in a worker thread, constructing the Slepian object raises as well; it never returns eigenfunctions of a partially filled matrix. (The code violates this: the iterator returned by Executor.map is never consumed, so exceptions are discarded and unfilled entries stay zero.)", "quantifier": "all chunk splits and all positions at which a worker can fail", "why_tests_cant": "A test has to guess which entry fails under which split; the statement ranges over every failure point.", "anchors": ["src/sleplet/slepian/slepian_arbitrary.py:SlepianArbitrary._create_D_matrix", "src/sleplet/slepian/slepian_polar_cap.py:SlepianPolarCap._create_Dm_matrix", "src/sleplet/meshes/mesh_slepian.py:MeshSlepian._create_D_matrix"]}
{"id": "C05", "title": "Mesh concentration matrix does not depend on the thread schedule", "statement": "For every mesh with K basis functions, every NCPU>=1 and every interleaving of the workers, the matrix whose eigenvectors become the Slepian functions of the mesh is the same symmetric matrix of region integrals of products of basis functions.", "quantifier": "all K, worker counts and interleavings", "why_tests_cant": "Schedules cannot be enumerated by tests.", "anchors": ["src/sleplet/meshes/mesh_slepian.py:MeshSlepian._create_D_matrix", "src/sleplet/meshes/mesh_slepian.py:MeshSlepian._fill_D_elements", "src/sleplet/meshes/mesh_slepian.py:MeshSlepian._integral"]}
{"id": "C06", "title": "Polar-cap concentration matrix is symmetric, complete and schedule independent", "statement": "For every L, every order |m|<L, every NCPU>=1 and every interleaving, every entry of the order-m polar-cap matrix is written, the matrix is symmetric, and its value does not depend on the interleaving.", "quantifier": "all L, m, worker counts and interleavings", "why_tests_cant": "Schedules cannot be enumerated by tests.", "anchors": ["src/sleplet/slepian/slepian_polar_cap.py:SlepianPolarCap._create_Dm_matrix", "src/sleplet/slepian/slepian_polar_cap.py:SlepianPolarCap._dm_matrix_helper"]}
{"id": "C07", "title": "Polar gap couples only degrees of equal parity and doubles them", "statement": "With the polar-gap option the order-m matrix entry between degrees l1 and l2 is exactly twice the single-cap entry when l1+l2 is even and exactly zero when it is odd; without the option it is unchanged.", "quantifier": "all L, m, l1, l2, theta_max", "why_tests_cant": "Ranges over all degrees.", "anchors": ["src/sleplet/slepian/slepian_polar_cap.py:SlepianPolarCap._polar_gap_modification", "src/sleplet/slepian/slepian_polar_cap.py:SlepianPolarCap._dm_matrix_helper"]}
{"id": "C08", "title": "Region area and Shannon number agree with the region mask", "statement": "The Shannon number of an angular region is the bandlimit squared times the fraction of the sphere the region's mask covers, i.e. the area used is the surface integral of sin(theta) over the coordinates the mask selects. (True for single polar caps and limited latitude/longitude regions; violated with the polar-gap option, whose mask covers both caps while the area counts one.)", "quantifier": "all angles allowed by Region validation", "why_tests_cant": "Real-valued angles; an equality of integrals.", "anchors": ["src/sleplet/slepian/slepian_polar_cap.py:SlepianPolarCap._calculate_area", "src/sleplet/slepian/slepian_limit_lat_lon.py:SlepianLimitLatLon._calculate_area", "src/sleplet/slepian/slepian_functions.py:SlepianFunctions.__post_init__", "src/sleplet/_mask_methods.py:create_mask_region"]}
{"id": "C09", "title": "Region classification is total, exclusive and prioritised", "statement": "Region(...) is a polar cap exactly when only theta_max differs from its default, a limited latitude/longitude region exactly when one of phi_min, phi_max, theta_min differs from its default, otherwise an arbitrary region exactly when a non-empty mask name is given, and raises AttributeError exactly when all angles are default and the mask name is empty. Angles outside [0,2pi]/[0,pi] are rejected before classification.", "quantifier": "all angles, gap flags and mask names", "why_tests_cant": "Real-valued inputs; exclusivity and totality are universal statements.", "anchors": ["src/sleplet/slepian/region.py:Region", "src/sleplet/_bool_methods.py:is_polar_cap", "src/sleplet/_bool_methods.py:is_limited_lat_lon"]}
{"id": "C10", "title": "Choosing a Slepian method preserves the region", "statement": "For every valid Region the Slepian object chosen for it is of the matching kind and the Region that object rebuilds internally has the same type, angles, gap flag (polar) and file-name ending as the one supplied.", "quantifier": "all valid regions", "why_tests_cant": "Universally quantified over regions; the region is rebuilt from a subset of its fields.", "anchors": ["src/sleplet/slepian_methods.py:choose_slepian_method", "src/sleplet/slepian/slepian_polar_cap.py:SlepianPolarCap._create_region", "src/sleplet/slepian/slepian_limit_lat_lon.py:SlepianLimitLatLon._create_region", "src/sleplet/slepian/slepian_arbitrary.py:SlepianArbitrary._create_region"]}
{"id": "C11", "title": "Cached eigensolutions belong to the region asked for", "statement": "Constructing a Slepian object never returns eigensolutions that were computed for a different region. (Violated: the cache key uses angles rounded to whole degrees together with L and N, so nearby regions collide. It holds in every history of problems of which no two share their file names, for example when all angles are whole degrees, C12.)", "quantifier": "all finite histories of constructions in one data directory", "why_tests_cant": "Depends on the order of earlier calls in other processes.", "anchors": ["src/sleplet/slepian/region.py:Region._identify_region", "src/sleplet/_string_methods.py:angle_as_degree", "src/sleplet/slepian/slepian_polar_cap.py:SlepianPolarCap._create_matrix_location", "src/sleplet/slepian/slepian_limit_lat_lon.py:SlepianLimitLatLon._solve_eigenproblem"]}
{"id": "C12", "title": "Cache file names identify the problem", "statement": "Two eigenproblems whose angles are whole degrees, or masks whose name does not begin with 'polar' or 'theta', have the same cache file name only if they are the same problem (same kind, same angles, gap flag, mask name, L and N), and no name of a region file is a name of a different region kind. (Without the restriction on names a user's mask called 'polar40' shares its files with the 40 degree cap.)", "quantifier": "all pairs of problems with whole-degree angles", "why_tests_cant": "Injectivity of a string encoding over an infinite domain.", "anchors": ["src/sleplet/slepian/region.py:Region._identify_region", "src/sleplet/slepian/slepian_polar_cap.py:SlepianPolarCap._create_matrix_location", "src/sleplet/slepian/slepian_arbitrary.py:SlepianArbitrary._create_matrix_location"]}
{"id": "C13", "title": "Reloading gives the same leading eigenfunctions as computing", "statement": "For every history of constructions of problems that do not share their file names, the eigenvalues and the first N eigenvectors obtained do not depend on whether they were computed or loaded. (The number of eigenvector rows does: fresh objects expose all rows, later ones only N, so asking for a coefficient or rank >= N works once and fails afterwards.)", "quantifier": "all histories of constructions by any number of processes, of problems with different file names (such as all whole-degree ones, C12)", "why_tests_cant": "History dependence.", "anchors": ["src/sleplet/slepian/slepian_arbitrary.py:SlepianArbitrary._solve_D_matrix", "src/sleplet/slepian/slepian_limit_lat_lon.py:SlepianLimitLatLon._solve_eigenproblem", "src/sleplet/slepian/slepian_polar_cap.py:SlepianPolarCap._solve_eigenproblem_from_scratch", "src/sleplet/meshes/mesh_slepian.py:MeshSlepian._compute_slepian_functions"]}
{"id": "C14", "title": "Single-order polar-cap queries do not depend on history", "statement": "SlepianPolarCap(L, theta_max, order=m) returns the eigenpairs of order m whether or not the all-orders solution has been cached before. (Holds up to L=16; for L>16 the cached eigenvectors are truncated to N rows but the cached orders are not, so the same call raises IndexError once the cache exists.)", "quantifier": "all L, m and cache histories of problems with different file names", "why_tests_cant": "History dependence.", "anchors": ["src/sleplet/slepian/slepian_polar_cap.py:SlepianPolarCap._solve_eigenproblem_from_files", "src/sleplet/slepian/slepian_polar_cap.py:SlepianPolarCap._solve_eigenproblem_from_scratch"]}
{"id": "C15", "title": "Crash safety of the eigensolution cache", "statement": "If a process is killed between any two file writes while saving eigensolutions, later constructions still succeed and return the correct eigensolutions. (If it is killed inside one write, leaving a torn file, later constructions fail until the file is deleted; they never return wrong data.)", "quantifier": "every crash point of every construction in every history of problems with different file names (such as all whole-degree ones, C12)", "why_tests_cant": "Crash points cannot be sampled exhaustively.", "anchors": ["src/sleplet/slepian/slepian_arbitrary.py:SlepianArbitrary._solve_eigenproblem", "src/sleplet/slepian/slepian_polar_cap.py:SlepianPolarCap._solve_eigenproblem", "src/sleplet/_mesh_methods.py:mesh_eigendecomposition", "src/sleplet/_data/setup_pooch.py:find_on_pooch_then_local"]}
{"id": "C16", "title": "Published files take precedence over local ones", "statement": "A lookup returns the published file when the registry lists the name, otherwise the local file when it exists, otherwise nothing; local writes never change what a published name resolves to.", "quantifier": "all registries, file systems, names and write histories", "why_tests_cant": "All states of registry and disk.", "anchors": ["src/sleplet/_data/setup_pooch.py:find_on_pooch_then_local"]}
{"id": "C17", "title": "Eigenpairs are sorted and stay paired", "statement": "After cleaning, the eigenvalues are in non-increasing order, they are a permutation of the solver's eigenvalues, and row p of the eigenvectors is (up to a unit factor and conjugation) the solver's eigenvector for eigenvalue p, for all four cleaning routines and for the merge over orders.", "quantifier": "all solver outputs, including repeated eigenvalues and any tie-breaking of the sort", "why_tests_cant": "All inputs and every tie-breaking order.", "anchors": ["src/sleplet/_slepian_arbitrary_methods.py:clean_evals_and_evecs", "src/sleplet/slepian/slepian_limit_lat_lon.py:SlepianLimitLatLon._clean_evals_and_evecs", "src/sleplet/slepian/slepian_polar_cap.py:SlepianPolarCap._clean_evals_and_evecs", "src/sleplet/slepian/slepian_polar_cap.py:SlepianPolarCap._sort_all_evals_and_evecs", "src/sleplet/meshes/mesh_slepian.py:MeshSlepian._clean_evals_and_evecs"]}
{"id": "C18", "title": "Cleaning preserves orthonormality", "statement": "If the solver's eigenvectors are orthonormal then so are the returned Slepian functions (all region kinds), including after the factor 1j applied to repeated eigenvalues and to negative orders.", "quantifier": "all orthonormal solver outputs", "why_tests_cant": "All inputs.", "anchors": ["src/sleplet/_slepian_arbitrary_methods.py:clean_evals_and_evecs", "src/sleplet/slepian/slepian_polar_cap.py:SlepianPolarCap._clean_evals_and_evecs", "src/sleplet/slepian/slepian_limit_lat_lon.py:SlepianLimitLatLon._clean_evals_and_evecs"]}
{"id": "C19", "title": "Polar-cap eigenvectors live on their order", "statement": "Every eigenvector of order m has nonzero harmonic coefficients only at indices (l,m) with |m|<=l<L, there are exactly L-|m| of them per order and L^2 in total, and eigenvectors of different orders are orthogonal.", "quantifier": "all L, m", "why_tests_cant": "All L and m.", "anchors": ["src/sleplet/slepian/slepian_polar_cap.py:SlepianPolarCap._clean_evals_and_evecs", "src/sleplet/harmonic_methods.py:_create_emm_vector"]}
{"id": "C20", "title": "Sign normalisation of Slepian functions", "statement": "The first coefficient of every returned eigenvector is not negative. (Violated in spirit for polar caps: the first element of the full-length vector is zero for every order m != 0, so the rule never acts there and the first nonzero coefficient can be negative.)", "quantifier": "all solver outputs", "why_tests_cant": "All inputs.", "anchors": ["src/sleplet/_slepian_arbitrary_methods.py:clean_evals_and_evecs", "src/sleplet/slepian/slepian_polar_cap.py:SlepianPolarCap._clean_evals_and_evecs"]}
{"id": "C21", "title": "Harmonic indexing is a bijection", "statement": "The map (l,m) -> l^2+l+m is a bijection between {0<=l<L, |m|<=l} and 0..L^2-1, its inverse is the (l,m) lookup, and the vector of orders used for polar caps lists at position l^2+l+m the value m for every l<2L and nothing else.", "quantifier": "all L", "why_tests_cant": "All L.", "anchors": ["src/sleplet/harmonic_methods.py:_create_emm_vector", "src/sleplet/slepian/slepian_arbitrary.py:SlepianArbitrary._matrix_helper", "src/sleplet/slepian/slepian_limit_lat_lon.py:SlepianLimitLatLon._slepian_matrix"]}
{"id": "C22", "title": "Noise, Earth and WMAP coefficients describe real signals", "statement": "The coefficients returned for harmonic noise, the Earth (with or without smoothing) and WMAP satisfy f(l,-m) = (-1)^m conj(f(l,m)) for every degree and order, and all L^2 entries are determined.", "quantifier": "all L, all random streams, all source data (for the Earth: real m=0 data)", "why_tests_cant": "All random draws and data.", "anchors": ["src/sleplet/noise.py:_create_noise", "src/sleplet/_data/create_earth_flm.py:create_flm", "src/sleplet/_data/create_wmap_flm.py:create_flm"]}
{"id": "C23", "title": "Noise is reproducible", "statement": "Noise for the same signal and SNR is the same however many times and in whatever order noise has been generated before, because each call restarts the generator from the fixed seed.", "quantifier": "all call histories", "why_tests_cant": "History dependence.", "anchors": ["src/sleplet/noise.py:_create_noise", "src/sleplet/noise.py:_create_mesh_noise"]}
{"id": "C24", "title": "Upsampling and padding preserve the coefficients", "statement": "Boosting coefficients from bandlimit L to a resolution >= L keeps every (l,m) coefficient with l<L at its index and sets every coefficient with l>=L to zero; a resolution below L is rejected.", "quantifier": "all L, all resolutions, all coefficient vectors", "why_tests_cant": "All sizes.", "anchors": ["src/sleplet/harmonic_methods.py:_boost_coefficient_resolution", "src/sleplet/harmonic_methods.py:invert_flm_boosted"]}
{"id": "C25", "title": "Sifting convolution laws", "statement": "convolve(f,g) is coefficientwise f*conj(g): additive in each argument, homogeneous (conjugate in g), convolve(g,f)=conj(convolve(f,g)), convolve(f,identity)=f, and with a Shannon number N only the first N coefficients are used and returned.", "quantifier": "all coefficient vectors and Shannon numbers", "why_tests_cant": "Algebraic laws over all inputs.", "anchors": ["src/sleplet/_convolution_methods.py:sifting_convolution", "src/sleplet/functions/coefficients.py:Coefficients.convolve"]}
{"id": "C26", "title": "Axisymmetric wavelet synthesis inverts analysis", "statement": "For every set of generating functions satisfying the admissibility condition sum_j kappa_j(l)^2 = 1 for all l<L, axisymmetric_wavelet_inverse(axisymmetric_wavelet_forward(f)) = f for every f; without the condition each coefficient is scaled by exactly that sum.", "quantifier": "all L, wavelet families and signals", "why_tests_cant": "All inputs.", "anchors": ["src/sleplet/wavelet_methods.py:axisymmetric_wavelet_forward", "src/sleplet/wavelet_methods.py:axisymmetric_wavelet_inverse", "src/sleplet/wavelet_methods.py:_create_axisymmetric_wavelets"]}
{"id": "C27", "title": "Slepian wavelet synthesis inverts analysis", "statement": "For admissible generating functions slepian_wavelet_inverse(slepian_wavelet_forward(f)) equals the first N coefficients of f. (Violated: analysis drops every all-zero row, synthesis pairs the survivors with the leading wavelets, so if a non-trailing scale has zero coefficients the wrong wavelets are used. Holds when only trailing rows vanish.)", "quantifier": "all signals, wavelet families, Shannon numbers", "why_tests_cant": "All signals; the failing ones have special zero patterns.", "anchors": ["src/sleplet/wavelet_methods.py:slepian_wavelet_forward", "src/sleplet/wavelet_methods.py:slepian_wavelet_inverse", "src/sleplet/wavelet_methods.py:find_non_zero_wavelet_coefficients"]}
{"id": "C28", "title": "Selecting scale j of Slepian wavelet coefficients selects scale j", "statement": "For every j accepted by validation, the coefficients exposed for scale j are those of wavelet j. (Violated: rows of zero coefficients are dropped first, so j can select another scale or raise IndexError although validation accepted it. Holds for scales before the first all-zero scale.)", "quantifier": "all j, signals, wavelet families", "why_tests_cant": "All signals.", "anchors": ["src/sleplet/functions/slepian_wavelet_coefficients_africa.py:SlepianWaveletCoefficientsAfrica._create_coefficients", "src/sleplet/meshes/mesh_slepian_wavelet_coefficients.py:MeshSlepianWaveletCoefficients._create_coefficients"]}
{"id": "C29", "title": "Hard thresholding", "statement": "Hard thresholding leaves every pixel with |f| >= n_sigma*sigma unchanged, sets every other pixel to zero, is idempotent, never increases energy, and a larger threshold keeps a subset of the pixels.", "quantifier": "all fields, thresholds (scalar or per pixel)", "why_tests_cant": "All inputs.", "anchors": ["src/sleplet/noise.py:_perform_hard_thresholding"]}
{"id": "C30", "title": "Wavelet hard thresholding touches the right scales and mutates its input", "statement": "harmonic_hard_thresholding leaves the scaling coefficients unchanged, thresholds wavelet row j+1 with sigma_j[j], returns the very array it was given (so the caller's array is changed), while the Slepian and mesh versions threshold every row j with sigma_j[j].", "quantifier": "all coefficient arrays and thresholds", "why_tests_cant": "All inputs; aliasing.", "anchors": ["src/sleplet/noise.py:harmonic_hard_thresholding", "src/sleplet/noise.py:slepian_wavelet_hard_thresholding", "src/sleplet/noise.py:slepian_mesh_hard_thresholding"]}
{"id": "C31", "title": "Noise level and SNR are inverse to each other", "statement": "For a nonzero signal with K coefficients and requested SNR s, noise whose power is K*sigma^2 with sigma = compute_sigma_noise(signal, s) has compute_snr(signal, noise) = s exactly; scaling signal and noise together leaves the SNR unchanged and scaling the noise by c changes it by -20 log10 c.", "quantifier": "all signals and SNR values", "why_tests_cant": "Real-valued.", "anchors": ["src/sleplet/noise.py:compute_snr", "src/sleplet/noise.py:compute_sigma_noise"]}
{"id": "C32", "title": "Slepian transform round trip", "statement": "For orthonormal eigenvectors and a field whose harmonic coefficients are in the span of the first N eigenvectors, slepian_forward recovers the N coefficients and the inverse reproduces the field; in general forward-then-inverse is the orthogonal projection onto that span and never increases energy (Bessel).", "quantifier": "all orthonormal families, signals, N", "why_tests_cant": "All inputs.", "anchors": ["src/sleplet/slepian_methods.py:slepian_forward", "src/sleplet/slepian_methods.py:slepian_inverse", "src/sleplet/slepian_methods.py:compute_s_p_omega", "src/sleplet/slepian/_slepian_decomposition.py:SlepianDecomposition._harmonic_sum"]}
{"id": "C33", "title": "Decomposition method selection", "statement": "Harmonic coefficients take precedence over a field, a field with a mask is integrated over the region and divided by the eigenvalue, a field without a mask over the sphere, and passing none raises RuntimeError; ranks outside 0..L^2-1 are rejected with ValueError.", "quantifier": "all combinations of supplied arguments and ranks", "why_tests_cant": "Decision table over all inputs.", "anchors": ["src/sleplet/slepian/_slepian_decomposition.py:SlepianDecomposition._detect_method", "src/sleplet/slepian/_slepian_decomposition.py:SlepianDecomposition._validate_rank", "src/sleplet/meshes/_mesh_slepian_decomposition.py:MeshSlepianDecomposition._detect_method"]}
{"id": "C34", "title": "The three decomposition methods agree", "statement": "When the basis is orthonormal under the integration rule, and the Slepian functions are eigenvectors of the concentration matrix with nonzero eigenvalues, decomposing by harmonic sum, by integrating everywhere and by integrating the region divided by the eigenvalue give the same coefficient for every bandlimited signal. (The integration rule used on the sphere does not meet the condition: it integrates constants to less than their integral.)", "quantifier": "all bandlimited signals, ranks, masks", "why_tests_cant": "All signals.", "anchors": ["src/sleplet/meshes/_mesh_slepian_decomposition.py:MeshSlepianDecomposition", "src/sleplet/slepian/_slepian_decomposition.py:SlepianDecomposition", "src/sleplet/meshes/mesh_slepian.py:MeshSlepian._integral"]}
{"id": "C35", "title": "Mesh harmonic transform round trip", "statement": "For an orthonormal basis on the vertices mesh_forward(mesh_inverse(c)) = c for every coefficient vector, energy is preserved, and mesh_inverse(mesh_forward(u)) is the orthogonal projection of u.", "quantifier": "all orthonormal bases, all coefficient vectors and fields", "why_tests_cant": "All inputs.", "anchors": ["src/sleplet/harmonic_methods.py:mesh_forward", "src/sleplet/harmonic_methods.py:mesh_inverse", "src/sleplet/_integration_methods.py:integrate_whole_mesh"]}
{"id": "C36", "title": "Mesh basis normalisation", "statement": "Orthonormalising mesh basis functions gives every nonzero basis function unit norm and keeps orthogonal functions orthogonal.", "quantifier": "all families of basis functions", "why_tests_cant": "All inputs.", "anchors": ["src/sleplet/_mesh_methods.py:_orthonormalise_basis_functions"]}
{"id": "C37", "title": "Region masks select exactly the region", "statement": "A grid point is in the mask of a polar cap iff theta<=theta_max, with the gap option iff theta<=theta_max or theta>=pi-theta_max (symmetric under theta -> pi-theta), of a limited latitude/longitude region iff both coordinates are within the closed bounds; a mesh vertex is in the region iff all three coordinates are within the closed box.", "quantifier": "all angles, grids, boxes, vertices", "why_tests_cant": "All inputs.", "anchors": ["src/sleplet/_mask_methods.py:create_mask_region", "src/sleplet/_mesh_methods.py:create_mesh_region", "src/sleplet/_mask_methods.py:create_mesh_region"]}
{"id": "C38", "title": "Integration over a region", "statement": "Region integrals are linear, the integral over a mask plus that over its complement is the integral over everything, a full mask gives the whole integral, and for nonnegative weights integrating |f|^2 over a region is monotone in the region.", "quantifier": "all fields, masks, weights", "why_tests_cant": "All inputs.", "anchors": ["src/sleplet/_integration_methods.py:integrate_region_sphere", "src/sleplet/_integration_methods.py:integrate_whole_sphere", "src/sleplet/_integration_methods.py:integrate_region_mesh"]}
{"id": "C39", "title": "A face is drawn in the region iff all its vertices are", "statement": "convert_region_on_vertices_to_faces marks a face exactly when each of its vertices is in the vertex region, and the plot replaces exactly the other faces' values by the 'unseen' value.", "quantifier": "all meshes and regions", "why_tests_cant": "All inputs.", "anchors": ["src/sleplet/_mask_methods.py:convert_region_on_vertices_to_faces", "src/sleplet/plotting/_create_plot_mesh.py:PlotMesh._set_outside_region_to_minimum"]}
{"id": "C40", "title": "Plot resolution", "statement": "For every bandlimit L>=1 the plot resolution is L times a power of two, at least L, at least 64, as tabulated, and equal to L exactly from 1024 on. It is not monotone in L.", "quantifier": "all L", "why_tests_cant": "All L.", "anchors": ["src/sleplet/plot_methods.py:calc_plot_resolution"]}
{"id": "C41", "title": "Nearest grid point", "statement": "The grid point chosen for (alpha,beta) is a sample position at minimal distance from the requested angle in each coordinate, the first such one on ties.", "quantifier": "all grids and angles", "why_tests_cant": "All inputs.", "anchors": ["src/sleplet/plot_methods.py:_calc_nearest_grid_point"]}
{"id": "C42", "title": "Normalised plots lie in [0,1]", "statement": "With normalisation the plotted values are between 0 and 1 with both ends attained for every field that is not (nearly) constant, all one half for the zero field; without it the field is unchanged. (A nearly constant field is divided by its maximum instead and may leave [0,1].)", "quantifier": "all fields", "why_tests_cant": "All inputs.", "anchors": ["src/sleplet/plot_methods.py:_normalise_function"]}
{"id": "C43", "title": "Plot masking", "statement": "Values inside the region (including the duplicated closing meridian) are unchanged and values outside are set to the 'unseen' constant.", "quantifier": "all fields and masks", "why_tests_cant": "All inputs.", "anchors": ["src/sleplet/plot_methods.py:_set_outside_region_to_minimum", "src/sleplet/plotting/_create_plot_sphere.py:PlotSphere._setup_plot"]}
{"id": "C44", "title": "Names encode parameters", "statement": "The file-name fragment written for a parameter determines its value. (Violated: 3 and 3/2 both give '_3arg', because the denominator is written only for magnitudes below one. It holds on integers together with fractions of magnitude below one.)", "quantifier": "all pairs of parameter values", "why_tests_cant": "Injectivity over an infinite domain.", "anchors": ["src/sleplet/_string_methods.py:filename_args", "src/sleplet/_string_methods.py:wavelet_ending"]}
{"id": "C45", "title": "Rotation angles in names are unambiguous", "statement": "filename_angle gives different names to different triples of fractions of pi (after reduction to denominators up to 10^6).", "quantifier": "all triples of rationals", "why_tests_cant": "Injectivity over an infinite domain.", "anchors": ["src/sleplet/_string_methods.py:filename_angle", "src/sleplet/_string_methods.py:_pi_in_filename", "src/sleplet/_string_methods.py:_get_angle_num_dem"]}
{"id": "C46", "title": "Command-line function lookup is exact", "statement": "For every class offered on the command line, its snake-case name selects that class, the snake-case conversion is injective on underscore-free class names that start with a capital, and any other string is rejected.", "quantifier": "all class lists with camel-case names; all command-line strings", "why_tests_cant": "Injectivity over all names, including future classes.", "anchors": ["src/sleplet/_string_methods.py:_convert_camel_case_to_snake_case", "src/sleplet/_string_methods.py:convert_classes_list_to_snake_case", "src/sleplet/_scripts/plotting_on_sphere.py:main", "src/sleplet/_scripts/plotting_on_mesh.py:main"]}
{"id": "C47", "title": "Default region from the environment", "statement": "With no environment variables the default region is the South America mask; setting only THETA_MAX to a value other than its default gives a polar cap, setting any of PHI_MIN, PHI_MAX, THETA_MIN to a value other than its default gives a limited latitude/longitude region regardless of SLEPIAN_MASK, values that are not integers or out of range are refused with ValueError, and POLAR_GAP is on exactly for the case-insensitive word 'true'.", "quantifier": "all environments", "why_tests_cant": "All environments.", "anchors": ["src/sleplet/_mask_methods.py:create_default_region"]}
{"id": "C48", "title": "Rank validation of mesh basis functions", "statement": "A rank is accepted exactly when the basis function exists. (Violated: the command-line rank equal to the number of basis functions passes validation and fails later with IndexError; for Slepian functions of the mesh the check is never called.)", "quantifier": "all ranks and meshes", "why_tests_cant": "Boundary over all sizes.", "anchors": ["src/sleplet/meshes/mesh_basis_functions.py:MeshBasisFunctions._validate_rank", "src/sleplet/meshes/mesh_slepian_functions.py:MeshSlepianFunctions._validate_rank"]}
{"id": "C49", "title": "Limited latitude/longitude matrix entries are exact surface integrals", "statement": "For every pair of degrees/orders the matrix entry built for a limited latitude/longitude region equals the double integral over the region of Y_lm conj(Y_pq) sin(theta), Y being the harmonics expanded with the supplied Wigner-d table, that is the spherical harmonics when the table holds Wigner's d at pi/2; in particular the sub-integrals are the exact integrals of exp(i row phi) and exp(i col theta) sin(theta) including the special case |col|=1, and all reads of the sub-integral table are within bounds and written before.", "quantifier": "all L, all angles, all d tables, all (l,m),(p,q)", "why_tests_cant": "Real angles, all degrees.", "anchors": ["src/sleplet/slepian/slepian_limit_lat_lon.py:SlepianLimitLatLon._slepian_integral", "src/sleplet/slepian/slepian_limit_lat_lon.py:SlepianLimitLatLon._slepian_matrix", "src/sleplet/slepian/slepian_limit_lat_lon.py:SlepianLimitLatLon._create_K_matrix"]}
{"id": "C50", "title": "Concentration eigenvalues are energy ratios in [0,1]", "statement": "Every eigenvalue of the concentration matrix is the ratio of the energy of its Slepian function inside the region to its total energy, hence real and in [0,1], and the eigenvalues sum to the trace of the matrix.", "quantifier": "all regions, all eigenpairs", "why_tests_cant": "All inputs.", "anchors": ["src/sleplet/slepian/slepian_limit_lat_lon.py:SlepianLimitLatLon._create_K_matrix", "src/sleplet/slepian/slepian_arbitrary.py:SlepianArbitrary._create_D_matrix", "src/sleplet/meshes/mesh_slepian.py:MeshSlepian._create_D_matrix"]}
{"id": "C51", "title": "Wigner 3j symbols satisfy the selection rules and symmetries", "statement": "The computed 3j symbol is zero unless the orders sum to zero, each |m_i|<=l_i and the triangle inequality hold; exchanging two columns or negating all orders multiplies it by (-1)^(l1+l2+l3); hence with zero orders it vanishes for odd l1+l2+l3; no factorial of a negative number is ever taken.", "quantifier": "all integer arguments", "why_tests_cant": "All integers.", "anchors": ["src/sleplet/slepian/slepian_polar_cap.py:SlepianPolarCap._wigner3j"]}
{"id": "C52", "title": "Setting a region masks a harmonic function", "statement": "Creating a harmonic (or mesh) function with a region yields coefficients of the function restricted to that region. (Violated: the region only changes the name; coefficients are identical with and without it.)", "quantifier": "all functions and regions", "why_tests_cant": "All inputs.", "anchors": ["src/sleplet/functions/coefficients.py:Coefficients.__post_init__", "src/sleplet/functions/coefficients.py:Coefficients._add_details_to_name", "src/sleplet/meshes/mesh_coefficients.py:MeshCoefficients.__post_init__", "src/sleplet/_mask_methods.py:ensure_masked_flm_bandlimited"]}
{"id": "C53", "title": "Adding noise keeps the signal", "statement": "With noise=s the object's coefficients are the clean coefficients plus the noise and the clean ones remain available; without noise they are unchanged and no SNR is reported. (Violated for Slepian identity, Dirac delta and wavelets: their vectors have L^2 entries while the noise has N, so unless N is 1 or L^2 construction raises.)", "quantifier": "all functions, L, N", "why_tests_cant": "All sizes.", "anchors": ["src/sleplet/functions/flm.py:Flm._add_noise_to_signal", "src/sleplet/functions/fp.py:Fp._add_noise_to_signal", "src/sleplet/meshes/mesh_harmonic_coefficients.py:MeshHarmonicCoefficients._add_noise_to_signal"]}
{"id": "C54", "title": "Translation", "statement": "Translating harmonic coefficients multiplies coefficient (l,m) by Y_lm at the target point, the Dirac delta translates to conj(Y_lm), translation clears the reality flag except for Dirac deltas, and for Slepian coefficients the translation requires the Shannon number (without it vectors of length N and L^2 meet and an error is raised unless N is 1 or L^2).", "quantifier": "all functions, target points, sizes", "why_tests_cant": "All inputs.", "anchors": ["src/sleplet/functions/coefficients.py:Coefficients.translate", "src/sleplet/functions/fp.py:Fp._translation_helper", "src/sleplet/slepian_methods.py:_compute_s_p_omega_prime"]}
{"id": "C55", "title": "Analytic functions have the documented coefficients", "statement": "DiracDelta, Gaussian, HarmonicGaussian, Identity, SphericalHarmonic and Ridgelets return vectors of length L^2 whose (l,m) entries are the documented ones; axisymmetric functions vanish for m != 0; the vectors flagged real satisfy the reality symmetry. (Violated for Identity: flagged real although all-ones coefficients are not those of a real signal for L>=2.)", "quantifier": "all L, l, m and parameters", "why_tests_cant": "All sizes.", "anchors": ["src/sleplet/functions/dirac_delta.py:DiracDelta._create_coefficients", "src/sleplet/functions/gaussian.py:Gaussian._create_coefficients", "src/sleplet/functions/harmonic_gaussian.py:HarmonicGaussian._create_coefficients", "src/sleplet/functions/identity.py:Identity", "src/sleplet/functions/spherical_harmonic.py:SphericalHarmonic", "src/sleplet/functions/ridgelets.py:Ridgelets._create_wavelets"]}
{"id": "C56", "title": "SphericalHarmonic validation", "statement": "SphericalHarmonic(L, ell, m) is accepted exactly when 0<=ell<L and |m|<=ell, and then has a single coefficient 1 at (ell,m) and zeros elsewhere.", "quantifier": "all integers L, ell, m", "why_tests_cant": "All integers.", "anchors": ["src/sleplet/functions/spherical_harmonic.py:SphericalHarmonic._check_ell", "src/sleplet/functions/spherical_harmonic.py:SphericalHarmonic._check_m", "src/sleplet/functions/spherical_harmonic.py:SphericalHarmonic._create_coefficients"]}
{"id": "C57", "title": "Hermitian completion", "statement": "Filling the upper triangle makes any matrix Hermitian below/above the diagonal without changing the diagonal or lower triangle, is idempotent, and returns an already Hermitian matrix unchanged.", "quantifier": "all square matrices", "why_tests_cant": "All sizes and entries.", "anchors": ["src/sleplet/_array_methods.py:fill_upper_triangle_of_hermitian_matrix"]}
{"id": "C58", "title": "Mesh Shannon number", "statement": "The Shannon number of a mesh region is between 0 and the number of basis functions, is monotone in the region, is zero for the empty region and equals the number of basis functions for the full one, so the saved eigenvector rows and all transforms up to N stay in range.", "quantifier": "all meshes, regions", "why_tests_cant": "All sizes.", "anchors": ["src/sleplet/_slepian_arbitrary_methods.py:compute_mesh_shannon", "src/sleplet/slepian_methods.py:_compute_mesh_s_p_pixel"]}
{"id": "C59", "title": "Smoothing", "statement": "Gaussian smoothing multiplies coefficient (l,m) by a factor in (0,1] depending on l only, equal to 1 at l=0 and decreasing in l, and keeps the reality symmetry.", "quantifier": "all coefficient vectors, L, smoothing factors", "why_tests_cant": "All inputs.", "anchors": ["src/sleplet/_smoothing.py:apply_gaussian_smoothing"]}
{"id": "C60", "title": "Colour scale covers the data", "statement": "Without normalisation the colour range [-t,t] contains every plotted value when no amplitude is supplied, and is symmetric about zero.", "quantifier": "all fields", "why_tests_cant": "All inputs.", "anchors": ["src/sleplet/_plotly_methods.py:create_tick_mark", "src/sleplet/_plotly_methods.py:create_colour_bar"]}
{"id": "C61", "title": "The Slepian function of a rank", "statement": "Slepian(L, region, rank=p) has Slepian coefficient one at p and zero elsewhere, whenever it is accepted; the command-line rank is accepted exactly for 0<=p<L^2. (Violated for N<=p<L^2: right after computing the eigensolution the function is identically zero, after loading it from the cache IndexError is raised.)", "quantifier": "all L, regions, ranks", "why_tests_cant": "All ranks and both cache states.", "anchors": ["src/sleplet/functions/slepian.py:Slepian._create_coefficients", "src/sleplet/functions/slepian.py:Slepian._validate_rank", "src/sleplet/slepian_methods.py:slepian_forward"]}
{"id": "C62", "title": "Integration weights and the area of a mask", "statement": "For every bandlimit the integration weights are nonnegative and total less than the area 4*pi of the sphere, tending to it like 1/L^2; hence the area of any mask is between 0 and 4*pi and monotone in the mask, its Shannon number is between 0 and L^2, 0 for the empty mask and exactly L^2 for the full one.", "quantifier": "all L>=1, all masks", "why_tests_cant": "All L and masks.", "anchors": ["src/sleplet/_integration_methods.py:calc_integration_weight", "src/sleplet/slepian/slepian_arbitrary.py:SlepianArbitrary._calculate_area", "src/sleplet/slepian/slepian_functions.py:SlepianFunctions.__post_init__"]}
{"id": "C63", "title": "Upsampling only adds samples", "statement": "The field upsampled for a plot contains the original field: with resolution k*L, sample (k t, k p) equals sample (t, p). The amplitude found for a function bounds its plotted values on its own grid and on the upsampled grid and is attained, so a plot with that amplitude never exceeds its colour range.", "quantifier": "all L>=1, all bandlimited signals, plot types", "why_tests_cant": "All L, signals.", "anchors": ["src/sleplet/plot_methods.py:_boost_field", "src/sleplet/plot_methods.py:find_max_amplitude", "src/sleplet/harmonic_methods.py:invert_flm_boosted"]}
{"id": "C64", "title": "Masking a mesh signal", "statement": "Masking a mesh signal and bandlimiting it again is linear, symmetric, the identity for the full region, zero for the empty one, and never increases energy; it multiplies every mesh Slepian function by its eigenvalue, i.e. it is the operator of the concentration matrix.", "quantifier": "all meshes, orthonormal bases, regions, signals", "why_tests_cant": "All inputs.", "anchors": ["src/sleplet/_mask_methods.py:ensure_masked_bandlimit_mesh_signal"]}
{"id": "C65", "title": "Polar-cap matrices are the surface integrals", "statement": "For every bandlimit, order m, cap angle and gap flag, entry (i,j) of the matrix built for order m is the integral of Y_{|m|+i,m} conj(Y_{|m|+j,m}) over the cap (both caps for a gap), whatever the number of workers and their interleaving; harmonics of different orders are orthogonal over the caps, so together the matrices are the whole concentration matrix.", "quantifier": "all L, orders, angles, gap flags, worker counts and schedules", "why_tests_cant": "An identity between real numbers for every angle, degree and order; tests compare with tolerances at a few bandlimits.", "anchors": ["src/sleplet/slepian/slepian_polar_cap.py:SlepianPolarCap._create_legendre_polynomials_table", "src/sleplet/slepian/slepian_polar_cap.py:SlepianPolarCap._create_Dm_matrix", "src/sleplet/slepian/slepian_polar_cap.py:SlepianPolarCap._dm_matrix_helper", "src/sleplet/slepian/slepian_polar_cap.py:SlepianPolarCap._polar_gap_modification"]}
{"id": "C66", "title": "3j symbols satisfy Gaunt's formula", "statement": "For all degrees and orders with m1+m2+m3=0 and |mi|<=li, the symbols the program computes give the integral over [-1,1] of the product of three associated Legendre functions as 2 w(0,0,0) w(m1,m2,m3) times the square roots of (li+mi)!/(li-mi)!.", "quantifier": "all degrees and orders", "why_tests_cant": "An identity for all degrees and orders.", "anchors": ["src/sleplet/slepian/slepian_polar_cap.py:SlepianPolarCap._wigner3j"]}
{"id": "C67", "title": "Names record the settings", "statement": "The name of a function object is the function's name, then the region's name if one is set and no word of the function's name is slepian, south or america, then noise, smoothing and bandlimit; the name determines the bandlimit, and together with class and region it determines noise (integer or below one) and smoothing. On meshes: the region marker unless the mesh's name contains slepian, noise, and the zoom marker.", "quantifier": "all classes, settings, regions, noise kinds", "why_tests_cant": "All names and settings.", "anchors": ["src/sleplet/functions/coefficients.py:Coefficients._add_details_to_name", "src/sleplet/meshes/mesh_coefficients.py:MeshCoefficients._add_details_to_name"]}
{"id": "C68", "title": "Extra arguments of the function classes", "statement": "Giving a class a list of extra arguments is the same as giving it keywords: each class accepts exactly the lists of its documented length whose values its parameters admit (degree below L, |order| at most the degree, scale between -1 and the last scale), and then the object is the one with those parameters (powers of ten for widths); classes without parameters answer any list with TypeError, the others answer any other list with ValueError, and no other exception occurs.", "quantifier": "all classes, lists of integers, bandlimits", "why_tests_cant": "All lists of integers for every class.", "anchors": ["src/sleplet/functions/gaussian.py:Gaussian._setup_args", "src/sleplet/functions/elongated_gaussian.py:ElongatedGaussian._setup_args", "src/sleplet/functions/harmonic_gaussian.py:HarmonicGaussian._setup_args", "src/sleplet/functions/spherical_harmonic.py:SphericalHarmonic._setup_args", "src/sleplet/functions/axisymmetric_wavelets.py:AxisymmetricWavelets._setup_args", "src/sleplet/functions/slepian_wavelets.py:SlepianWavelets._setup_args", "src/sleplet/functions/identity.py:Identity._setup_args"]}
{"id": "C69", "title": "Names of functions determine their parameters", "statement": "Two function objects with the same name are of the same class with the same parameters, bandlimit, noise and smoothing. (Holds for every parameter the file name can hold, in particular for powers of ten from -6 on; violated below: all Gaussians with 10^-7 and less share a name.)", "quantifier": "all classes, parameters, settings", "why_tests_cant": "All pairs of objects.", "anchors": ["src/sleplet/functions/coefficients.py:Coefficients.name", "src/sleplet/functions/gaussian.py:Gaussian._create_name", "src/sleplet/functions/squashed_gaussian.py:SquashedGaussian._create_name", "src/sleplet/functions/axisymmetric_wavelets.py:AxisymmetricWavelets._create_name", "src/sleplet/_string_methods.py:filename_args"]}
{"id": "C70", "title": "The reality flag is true", "statement": "Every object whose reality flag is set has coefficients with f(l,-m)=(-1)^m conj f(l,m), with or without noise and smoothing, and every harmonic object has exactly L^2 coefficients. (Violated by Identity, whose flag is set for coefficients that are all one.)", "quantifier": "all harmonic classes, parameters, bandlimits, noise and smoothing settings", "why_tests_cant": "All classes and settings.", "anchors": ["src/sleplet/functions/coefficients.py:Coefficients.reality", "src/sleplet/functions/flm.py:Flm._add_noise_to_signal", "src/sleplet/functions/earth.py:Earth._create_coefficients", "src/sleplet/functions/africa.py:Africa._create_coefficients", "src/sleplet/functions/squashed_gaussian.py:SquashedGaussian._create_coefficients", "src/sleplet/functions/wmap.py:Wmap._create_coefficients"]}
{"id": "C71", "title": "Wavelet classes select the scale asked for", "statement": "An axisymmetric wavelet object has coefficient sqrt((2l+1)/4pi) kappa(l) at order zero and zero elsewhere, an object of wavelet coefficients of the Earth has kappa(l) f(l,m), where kappa is the generating function of the scale: the scaling function without j, the wavelet number j otherwise; every j that is accepted exists.", "quantifier": "all bandlimits, tilings, scales", "why_tests_cant": "All scales and tilings.", "anchors": ["src/sleplet/functions/axisymmetric_wavelets.py:AxisymmetricWavelets._create_coefficients", "src/sleplet/functions/axisymmetric_wavelet_coefficients_earth.py:AxisymmetricWaveletCoefficientsEarth._create_coefficients", "src/sleplet/wavelet_methods.py:axisymmetric_wavelet_forward"]}
{"id": "C72", "title": "Slepian classes", "statement": "An object of a continental Slepian class has the region of its continent, any other region raising RuntimeError; its N coefficients are the inner products of the map with the first N Slepian functions. The Slepian Dirac delta sits at a sample where the first Slepian function is largest. Dirac delta, identity and wavelets have L^2 coefficients, all other classes N. (Consequences that look wrong: with nothing configured and no region given no African class can be made; noise cannot be added to the classes with L^2 coefficients when 1<N<L^2.)", "quantifier": "all Slepian classes, regions, parameters, settings", "why_tests_cant": "All classes, regions and settings.", "anchors": ["src/sleplet/functions/slepian_africa.py:SlepianAfrica.__post_init__", "src/sleplet/functions/slepian_south_america.py:SlepianSouthAmerica.__post_init__", "src/sleplet/functions/slepian_noise_africa.py:SlepianNoiseAfrica", "src/sleplet/functions/slepian_dirac_delta.py:SlepianDiracDelta._compute_angles", "src/sleplet/functions/slepian_identity.py:SlepianIdentity", "src/sleplet/functions/slepian_wavelets.py:SlepianWavelets"]}
{"id": "C73", "title": "Named masks", "statement": "The mask of the region africa (south_america) is the set of samples within 41 (40) degrees of the pole whose elevation is nonnegative after the documented rotation, whatever masks were made or put into the data directory under other names before; a mask of another name is the user's file if it has the shape of the grid, AssertionError if it has another shape, ValueError if there is none. The maps of the continents are the (smoothed) elevation on the mask and zero elsewhere.", "quantifier": "all bandlimits, histories of masks, mask names, smoothing", "why_tests_cant": "All histories and bandlimits.", "anchors": ["src/sleplet/_mask_methods.py:create_mask_region", "src/sleplet/_mask_methods.py:create_mask", "src/sleplet/_mask_methods.py:_load_mask", "src/sleplet/_mask_methods.py:_create_africa_mask", "src/sleplet/_mask_methods.py:_create_south_america_mask", "src/sleplet/functions/africa.py:Africa._grid_fun", "src/sleplet/functions/south_america.py:SouthAmerica._grid_fun"]}
{"id": "C74", "title": "Published files are preferred", "statement": "A lookup of a data file answers the published file if the name is published, else the file in the data directory, else nothing, whatever lookups came before, and raises in the call where the network fails. (Violated: once loading the registry has failed, published files are ignored silently for the rest of the process.)", "quantifier": "all sequences of lookups, network failures", "why_tests_cant": "All sequences of lookups with failures.", "anchors": ["src/sleplet/_data/setup_pooch.py:_lazy_load_registry", "src/sleplet/_data/setup_pooch.py:find_on_pooch_then_local"]}
{"id": "C75", "title": "The sphere plotting command", "statement": "The figure shows the function's coefficients after the method asked for (none, rotation, or translation to the nearest sample), multiplied by the conjugate of the other map if one is given, then turned to the view if it is about the Earth; rotating a Slepian function raises NotImplementedError; the field is declared real only if it is; the file name records function, method, angles, other map and view, so different figures of a function do not overwrite each other. (Violated: the product shown is the conjugate of the documented one; Slepian coefficients of a function convolved with the Earth are rotated as if they were harmonic coefficients.)", "quantifier": "all functions, maps, methods, angles, views", "why_tests_cant": "All combinations of arguments.", "anchors": ["src/sleplet/_scripts/plotting_on_sphere.py:plot", "src/sleplet/_scripts/plotting_on_sphere.py:_rotation_helper", "src/sleplet/_scripts/plotting_on_sphere.py:_translation_helper", "src/sleplet/_scripts/plotting_on_sphere.py:_convolution_helper", "src/sleplet/functions/fp.py:Fp.rotate", "src/sleplet/functions/flm.py:Flm.rotate"]}
{"id": "C76", "title": "Coefficients of the remaining classes", "statement": "ElongatedGaussian and SquashedGaussian hold the coefficients of exp(-(theta^2/2 sigma_t^2+(phi-pi)^2/2 sigma_p^2)) and exp(-theta^2/2 sigma_t^2) sin(nu phi) sampled on the grid; Earth with noise=s is Earth plus NoiseEarth with snr=s, and likewise for the two Slepian continents, whenever and in whatever order the objects are made; Ridgelets have the spin asked for and the generating function of the scale times the ring at order zero; WMAP has power 2 pi C_l/l(l+1) at degree l and nothing below two; SlepianWavelets hold the generating function of the scale and the wavelet coefficients of a continent its product with the conjugate of the map. (The last only if every earlier scale sees the map, see C28.)", "quantifier": "all bandlimits, parameters, spins, scales, noise levels, smoothings, states of the random generators, transforms, masks and data files", "why_tests_cant": "the laws relate objects of different classes made at different times; tests compare single objects with stored numbers", "anchors": ["src/sleplet/functions/elongated_gaussian.py:ElongatedGaussian._grid_fun", "src/sleplet/functions/squashed_gaussian.py:SquashedGaussian._grid_fun", "src/sleplet/functions/noise_earth.py:NoiseEarth._create_coefficients", "src/sleplet/functions/ridgelets.py:Ridgelets._create_coefficients", "src/sleplet/functions/wmap.py:Wmap._create_coefficients", "src/sleplet/functions/slepian_noise_africa.py:SlepianNoiseAfrica._create_coefficients", "src/sleplet/functions/slepian_wavelets.py:SlepianWavelets._create_coefficients", "src/sleplet/functions/slepian_wavelet_coefficients_africa.py:SlepianWaveletCoefficientsAfrica._create_coefficients"]}
{"id": "C77", "title": "Extra arguments and names of mesh functions", "statement": "The list of extra arguments of a mesh class is accepted exactly when it holds the class's parameters in the documented order (rank; signal-to-noise ratio; basis, first scale and scale, the scale existing for the number of basis functions), and gives the object that the same keywords give; classes without parameters raise TypeError, an empty list for the basis functions IndexError, anything else ValueError; negative ranks are rejected. The name of an object on a mesh of the package determines the mesh, its zoom, the class, the parameters, the noise and the region flag. (Ratios that are neither integers nor fractions below one are excepted, see C44. The region is added to the names of Slepian functions although the code means not to.)", "quantifier": "all classes, argument lists, keywords, numbers of basis functions, meshes of the package, noise levels and flags", "why_tests_cant": "names and argument lists are unbounded families; tests construct one object per class", "anchors": ["src/sleplet/meshes/mesh_coefficients.py:MeshCoefficients._add_details_to_name", "src/sleplet/meshes/mesh_basis_functions.py:MeshBasisFunctions._setup_args", "src/sleplet/meshes/mesh_basis_functions.py:MeshBasisFunctions._validate_rank", "src/sleplet/meshes/mesh_slepian_functions.py:MeshSlepianFunctions._create_name", "src/sleplet/meshes/mesh_noise_field.py:MeshNoiseField._setup_args", "src/sleplet/meshes/mesh_slepian_wavelets.py:MeshSlepianWavelets._setup_args", "src/sleplet/meshes/mesh_slepian_wavelet_coefficients.py:MeshSlepianWaveletCoefficients._create_name"]}
{"id": "C78", "title": "Coefficients of mesh functions", "statement": "On a mesh with orthonormal basis functions MeshField holds the inner products of the vertical normal component with the basis, MeshBasisFunctions of rank r the r-th unit vector, MeshSlepianField and MeshSlepianFunctions the inner products with the Slepian functions (the latter again a unit vector), MeshSlepianWavelets the generating function of the selected scale; noise is added as white noise of the requested level in the stated order of draws, and MeshSlepianField with noise=s is MeshSlepianField plus MeshSlepianNoiseField with snr=s. (Violated: MeshNoiseField always raises AttributeError; noise on MeshSlepianWavelets raises ValueError for 1<N<K. The wavelet coefficients hold only if every earlier scale sees the field, see C28.)", "quantifier": "all meshes with orthonormal basis functions, regions, ranks, scales, noise levels, random streams and schedules of the workers that built the matrix", "why_tests_cant": "needs all meshes, bases and random streams; the class that always fails has no test", "anchors": ["src/sleplet/meshes/mesh_field.py:MeshField._create_coefficients", "src/sleplet/meshes/mesh_basis_functions.py:MeshBasisFunctions._create_coefficients", "src/sleplet/meshes/mesh_noise_field.py:MeshNoiseField._create_coefficients", "src/sleplet/meshes/mesh_slepian_field.py:MeshSlepianField._create_coefficients", "src/sleplet/meshes/mesh_slepian_functions.py:MeshSlepianFunctions._create_coefficients", "src/sleplet/meshes/mesh_slepian_noise_field.py:MeshSlepianNoiseField._create_coefficients", "src/sleplet/meshes/mesh_slepian_wavelet_coefficients.py:MeshSlepianWaveletCoefficients._create_coefficients", "src/sleplet/meshes/mesh_slepian_wavelets.py:MeshSlepianWavelets._create_coefficients", "src/sleplet/meshes/mesh_slepian_coefficients.py:MeshSlepianCoefficients._add_noise_to_signal"]}
{"id": "C79", "title": "Cached mesh bases and Slepian functions belong together", "statement": "Building a mesh and its Slepian functions gives the basis of one eigendecomposition, with as many functions as asked for or a quarter of the vertices, and the Slepian functions of exactly that basis (all of them, or as many as the Shannon number when loaded), whatever was cached by earlier sessions; cache file names identify mesh, number of basis functions, Shannon number and kind of array. (Violated, as the eigensolver starts from a random vector and the basis can come out with other signs: after two sessions of the same mesh at once, or after deleting the basis file, objects hold one basis and the Slepian functions of another. Holds for a reproducible eigensolver in every history, and for sessions one after another.)", "quantifier": "all meshes, histories of sessions, outcomes of the eigensolver", "why_tests_cant": "Histories of concurrent and interrupted sessions; the random start vector.", "anchors": ["src/sleplet/_mesh_methods.py:mesh_eigendecomposition", "src/sleplet/meshes/mesh.py:Mesh.__post_init__", "src/sleplet/meshes/mesh_slepian.py:MeshSlepian._compute_slepian_functions", "src/sleplet/meshes/mesh_slepian.py:MeshSlepian._compute_slepian_functions_from_scratch"]}
{"id": "C80", "title": "Shared memory is released", "statement": "However the worker threads of a parallel matrix construction are interleaved and whatever they raise, no shared memory block is accessed through a closed handle or after it has been removed; when the construction ends, every block it made is removed and every handle closed. (Violated: if NCPU is not a positive number the construction raises ValueError after making its blocks and leaves them behind; a worker that raises leaves its own handle open.)", "quantifier": "all matrices, values of NCPU, interleavings, worker exceptions", "why_tests_cant": "Interleavings; leaks are not observable in the result.", "anchors": ["src/sleplet/_parallel_methods.py:create_shared_memory_array", "src/sleplet/_parallel_methods.py:attach_to_shared_memory_block", "src/sleplet/_parallel_methods.py:free_shared_memory", "src/sleplet/_parallel_methods.py:release_shared_memory", "src/sleplet/slepian/slepian_polar_cap.py:SlepianPolarCap._create_Dm_matrix", "src/sleplet/slepian/slepian_arbitrary.py:SlepianArbitrary._create_D_matrix", "src/sleplet/meshes/mesh_slepian.py:MeshSlepian._create_D_matrix"]}
{"id": "C81", "title": "Noise has the requested level on average, and sigma_j is its standard deviation in wavelet space", "statement": "Averaged over independent standard normal random numbers, harmonic noise has mean zero and the power of the signal divided by 10^(snr/10); Slepian noise has mean zero and N/L^2 of that power over its N coefficients; and at every sample (vertex) the sigma_j computed for axisymmetric wavelets, Slepian wavelets and mesh Slepian wavelets is exactly the standard deviation of the field of the wavelet coefficients of that noise, whose mean is zero.", "quantifier": "all signals, signal-to-noise ratios, wavelets, regions, meshes, samples", "why_tests_cant": "Statement about a probability distribution; the seed is fixed in the code, so tests see one draw only.", "anchors": ["src/sleplet/noise.py:_compute_sigma_j", "src/sleplet/noise.py:_compute_slepian_sigma_j", "src/sleplet/noise.py:compute_slepian_mesh_sigma_j", "src/sleplet/noise.py:_create_noise", "src/sleplet/noise.py:_create_slepian_noise", "src/sleplet/noise.py:_create_slepian_mesh_noise"]}
{"id": "C82", "title": "The mesh command shows what was asked for", "statement": "mesh NAME -m METHOD -e ARGS shows the function of exactly the class METHOD stands for (basis functions if no method is given; unknown meshes and methods are refused): each face gets the mean of its three vertex values, which are the field of the object's coefficients (-e r: basis function or Slepian function r); in Slepian plots, and only there, faces not inside the region are masked; without normalisation the colour scale is symmetric and reaches the largest absolute value of the field before noise was added; with it, values are scaled to [0, 1] and the file name ends in _norm; --zoom changes the view, the colour bar position and the file name only; --region masks the function; the drawing is congruent to the mesh.", "quantifier": "all meshes, methods, extra arguments, noise levels and flags", "why_tests_cant": "End-to-end behaviour of a plotting command: tests do not look at figures, and there are too many combinations of flags.", "anchors": ["src/sleplet/_scripts/plotting_on_mesh.py:main", "src/sleplet/_scripts/plotting_on_mesh.py:plot", "src/sleplet/plot_methods.py:compute_amplitude_for_noisy_mesh_plots", "src/sleplet/plot_methods.py:_coefficients_to_field_mesh", "src/sleplet/plotting/_create_plot_mesh.py:PlotMesh", "src/sleplet/meshes/mesh.py:Mesh", "src/sleplet/_plotly_methods.py:create_camera"]}
{"id": "C83", "title": "Random signals and the simulated CMB have the stated spectra on average", "statement": "Averaged over independent standard normal random numbers: compute_random_signal gives L^2 coefficients of mean zero and variance var_signal, uncorrelated with one another and with those of other signals drawn from the same generator, with real and imaginary parts alike; the simulated CMB has mean zero, no power below degree 2, power 2 pi C_l / l(l+1) in every coefficient of degree l >= 2 (C_l being entry l-2 of the file), no correlation between different coefficients, and the same mean square at every point of the sphere; and the theoretical covariance of wavelet coefficients of random signals (sum of the squares of the wavelet times the variance; for Slepian wavelets weighted by the squared Slepian functions) is at every sample exactly the variance of the field of these coefficients.", "quantifier": "all bandlimits, variances, power spectra, generators and numbers drawn before, wavelets, sample points", "why_tests_cant": "A statement about averages over all random numbers: the examples compare estimates from a few seeds with the theory and tolerate percent differences.", "anchors": ["src/sleplet/harmonic_methods.py:compute_random_signal", "src/sleplet/_data/create_wmap_flm.py:create_flm", "examples/wavelets/axisymmetric_wavelet_covariance.py:_compute_wavelet_covariance", "examples/arbitrary/_slepian_wavelet_covariance.py:compute_slepian_wavelet_covariance"]}
{"id": "C84", "title": "The denoising pipelines cut each scale at its own noise level and nothing else", "statement": "Denoising with axisymmetric wavelets returns the scaling part kappa_0(l)^2 times the noised coefficients plus, for every wavelet, kappa_j(l) times the coefficients of its field cut at n_sigma standard deviations sigma sqrt(sum_l (2l+1)/4pi kappa_j(l)^2), and reports the ratio of the signal to the remaining error; with admissible wavelets a threshold of zero returns the noised signal, a threshold above everything leaves the scaling part, and the squared error is at most the sum of the squared errors of the scales. With Slepian wavelets (sphere and mesh) a threshold of zero returns the noised signal and each scale is cut at its own level at the samples where the filtered signal is below it. (Violated: if an earlier wavelet does not see the signal, the later ones are cut and resynthesised with the wrong scale; and the field that is cut is that of the conjugated coefficients. The Slepian version, unlike the axisymmetric one, cuts the scaling part too.) With Slepian functions the field is cut at n_sigma times the noise level spread over L^2 harmonics.", "quantifier": "all signals, noised signals, generating functions, noise levels, thresholds, transforms", "why_tests_cant": "The demonstrations run on one map and assert that one number grew.", "anchors": ["examples/misc/_denoising_axisym.py:denoising_axisym", "examples/arbitrary/_denoising_slepian_wavelet.py:denoising_slepian_wavelet", "examples/mesh/denoising_slepian_mesh.py:_denoising_mesh_slepian", "examples/arbitrary/south_america/denoising_slepian_functions_south_america.py:_denoising_slepian_function", "src/sleplet/noise.py:slepian_wavelet_hard_thresholding"]}
{"id": "C85", "title": "The sphere command shows what was asked for", "statement": "sphere FUNCTION with any of its options shows the function of exactly the class the name stands for, with that class's default parameters (unknown functions, maps, methods, views and parts are refused): every sample of the grid of the resolution (the bandlimit with -z, otherwise the upsampled one) gets the part asked for of the function with the coefficients after method, convolution and view, evaluated at that sample; for harmonic functions everywhere, for Slepian functions inside the region only; without normalisation (-u) the colour scale goes from -A to A, A being the greatest absolute value shown, or with noise the greatest modulus before noise was added; with it the values are mapped affinely from their range to [0, 1]; -o only removes the annotation, which is otherwise the sample translated to; the file name records function, method, map, view, resolution, part and normalisation; -r masks the function for a region; noise does not change the colour scale. (Violated: -r masks nothing; and the scale of noisy plots is the clean one only for moduli on the original grid at the pole.)", "quantifier": "all functions, extra arguments, bandlimits, maps, methods, angles, views, parts, noise levels, smoothings and flags", "why_tests_cant": "End-to-end behaviour of a plotting command: tests do not look at figures, and there are too many combinations of options.", "anchors": ["src/sleplet/_scripts/plotting_on_sphere.py:main", "src/sleplet/_scripts/plotting_on_sphere.py:read_args", "src/sleplet/_scripts/plotting_on_sphere.py:valid_plotting", "src/sleplet/_scripts/plotting_on_sphere.py:valid_maps", "src/sleplet/_scripts/plotting_on_sphere.py:plot", "src/sleplet/plot_methods.py:compute_amplitude_for_noisy_sphere_plots", "src/sleplet/plot_methods.py:_coefficients_to_field_sphere", "src/sleplet/plotting/_create_plot_sphere.py:PlotSphere", "src/sleplet/functions/slepian.py:Slepian"]}
{"id": "C86", "title": "Translation and sifting convolution are operations on fields", "statement": "Translating a harmonic function to a point gives the coefficients of the field in which every spherical harmonic is multiplied by its value at the point; convolving two functions gives the coefficients of the field whose value at a point is the integral over the sphere of the first function translated to the point against the second; the integral of any bandlimited field against the Dirac delta is its value at the north pole, against the Dirac delta translated to a point its value at that point; the translated Dirac delta is the Dirac delta centred at that point, and convolving with it translates. With orthonormal Slepian functions the same holds for convolving Slepian coefficients.", "quantifier": "all bandlimits, functions, colatitudes in [0, pi] and longitudes", "why_tests_cant": "The tests check one Dirac delta and one pair of functions at one bandlimit; the statement is about integrals over the sphere.", "anchors": ["src/sleplet/_convolution_methods.py:sifting_convolution", "src/sleplet/functions/coefficients.py:Coefficients.translate", "src/sleplet/functions/coefficients.py:Coefficients.convolve", "src/sleplet/functions/flm.py:Flm._translation_helper", "src/sleplet/functions/dirac_delta.py:DiracDelta"]}
{"id": "C87", "title": "Axisymmetric wavelet coefficients are correlations on the sphere", "statement": "The axisymmetric wavelets are the fields with Legendre series of coefficients kappa_j(l) (2l+1)/4pi; the wavelet coefficients at a point are the inner product over the sphere of the signal with the wavelet centred at the point; the inverse transform is at every point the sum over the scales of the integral of the coefficients against the wavelet centred at that point; when the squares of the kappas add up to one at every degree the energies over the sphere of the wavelet coefficients add up to that of the signal.", "quantifier": "all bandlimits, kappas, signals and points with colatitude in [0, pi]", "why_tests_cant": "The tests check a round trip for one signal; the statement relates coefficient arrays to integrals over the sphere.", "anchors": ["src/sleplet/wavelet_methods.py:axisymmetric_wavelet_forward", "src/sleplet/wavelet_methods.py:axisymmetric_wavelet_inverse", "src/sleplet/wavelet_methods.py:_create_axisymmetric_wavelets"]}
{"id": "C88", "title": "Slepian functions are the best concentrated bandlimited functions", "statement": "For every region the Slepian functions returned are a basis of the bandlimited fields, orthonormal over the whole domain; the first has the greatest part of its energy in the region of all bandlimited fields, each next one of those orthogonal to the ones before, and these parts are the eigenvalues returned; no k orthonormal fields have more energy in the region together than the first k Slepian functions; after removing the components along the first k at most the part e_k of the energy of what is left is in the region. So the field reconstructed from the N Slepian coefficients of a signal differs from it by a field with at most the part e_N of its energy in the region; and no other way of describing signals by N numbers that depend linearly on them, however they are turned back into signals, has a smaller greatest error in the region over the signals of energy one.", "quantifier": "all bandlimits, polar caps and gaps, latitude/longitude bounds, masks and mesh regions, all schedules, solver outputs and sorts within their contracts, all bandlimited fields, all linear descriptions and reconstructions", "why_tests_cant": "Quantifies over all bandlimited fields, all families of them and all other methods of reconstruction; tests compare single numbers with stored ones.", "anchors": ["src/sleplet/slepian/slepian_polar_cap.py:SlepianPolarCap._solve_eigenproblem", "src/sleplet/slepian/slepian_limit_lat_lon.py:SlepianLimitLatLon._solve_eigenproblem", "src/sleplet/slepian/slepian_arbitrary.py:SlepianArbitrary._solve_eigenproblem", "src/sleplet/meshes/mesh_slepian.py:MeshSlepian", "src/sleplet/slepian_methods.py:slepian_forward", "src/sleplet/slepian_methods.py:slepian_inverse"]}
{"id": "C89", "title": "Rotating coefficients rotates the sphere", "statement": "If the external rotation of coefficients moves the field by the rotation with the given Euler angles (which can be done, in exactly one way), then rotating keeps inner products and the energy of every degree, keeps real signals real, is undone by the opposite angles, multiplies orders by phases for turns about the poles, commutes with smoothing and with the axisymmetric wavelet transform, and centres axisymmetric functions at the point (beta, alpha) whatever gamma is. For the Dirac delta rotation and translation give the same coefficients. The Earth turned to Africa or South America has the stated point of the Earth at the pole, and the mask of either continent selects the samples standing for points of the Earth within the stated angle of that point and not below sea level.", "quantifier": "all bandlimits, coefficients, angles, wavelets, smoothing factors, samples", "why_tests_cant": "The test of rotation against translation runs eight angles at one bandlimit; the masks are only used, not checked.", "anchors": ["src/sleplet/functions/flm.py:Flm.rotate", "src/sleplet/functions/flm.py:Flm._translation_helper", "src/sleplet/functions/coefficients.py:Coefficients.translate", "src/sleplet/harmonic_methods.py:rotate_earth_to_africa", "src/sleplet/harmonic_methods.py:rotate_earth_to_south_america", "src/sleplet/_mask_methods.py:_create_africa_mask", "src/sleplet/_mask_methods.py:_create_south_america_mask", "src/sleplet/_smoothing.py:apply_gaussian_smoothing", "src/sleplet/wavelet_methods.py:axisymmetric_wavelet_forward"]}
{"id": "C90", "title": "Progressive wavelet reconstructions end at the signal", "statement": "The reconstruction examples show the field of the map; the progressive ones show one field per scale that sees the map, field i being the part of the map in the scales up to i, so that the last field is the map. (Violated for wavelets which overlap: every row of coefficients is multiplied by the sum of all wavelets in place of its own, so the last field has coefficients f_p (sum_j psi_j(p))^2, more than f_p wherever two wavelets overlap.)", "quantifier": "all maps, Slepian functions, wavelets and samples", "why_tests_cant": "The examples draw figures whose colour scale is normalised: too large values are not seen.", "anchors": ["examples/arbitrary/africa/progressive_wavelet_reconstruction_africa.py:main", "examples/arbitrary/africa/wavelet_reconstruction_africa.py:main", "examples/arbitrary/south_america/progressive_wavelet_reconstruction_south_america.py:main", "examples/arbitrary/south_america/wavelet_reconstruction_south_america.py:main", "src/sleplet/wavelet_methods.py:slepian_wavelet_inverse", "src/sleplet/_convolution_methods.py:sifting_convolution"]}
{"id": "C91", "title": "The covariance experiments measure the theoretical covariances", "statement": "Averaged over independent standard normal random numbers, the covariance that the experiment with axisymmetric wavelets measures for a scale is the theoretical one less the power of the mean of the field over the samples (at least var_signal |Psi_00|^2), whatever the number of runs. The experiment with Slepian wavelets almost surely succeeds, compares measurement and theory of the same wavelet for exactly the wavelets that are not zero below the Shannon number, in order, and on average measures 1 - 1/R of the theoretical covariance for R runs. (Violated for the scaling function when j_min = 0: the variance is taken over the scales of the first run, not over the runs, so the number of runs makes no difference and it is zero if there is no other wavelet.)", "quantifier": "all bandlimits, wavelets, variances, numbers of runs >= 1 (Slepian: >= 2), sampling grids, random numbers", "why_tests_cant": "Statements about averages over random numbers and events of probability one; the experiments run with one seed, and print or plot the differences.", "anchors": ["examples/wavelets/axisymmetric_wavelet_covariance.py:axisymmetric_wavelet_covariance", "examples/wavelets/axisymmetric_wavelet_covariance.py:_is_ergodic", "examples/arbitrary/africa/slepian_wavelet_covariance_africa.py:main", "examples/arbitrary/south_america/slepian_wavelet_covariance_south_america.py:main", "src/sleplet/harmonic_methods.py:compute_random_signal", "src/sleplet/wavelet_methods.py:find_non_zero_wavelet_coefficients"]}
{"id": "C92", "title": "Slepian translation, the Slepian Dirac delta and Slepian wavelets act on fields", "statement": "Translating a Slepian function to a sample and synthesising multiplies the component of each Slepian function by the value of that Slepian function at the sample. Integrating any field against the Slepian Dirac delta translated to a sample gives the value there of its part in the first N Slepian functions; the delta's energy is its (real) value at the sample, its energy in the region is the eigenvalue-weighted sum of the squares, no field of those Slepian functions of the same energy is larger there, and convolving with it translates. The field of the wavelet coefficients of each wavelet that sees a signal is, at each point, the integral of the wavelet translated there against the signal, and for admissible wavelets the energies of the scales add up to that of the signal on the sphere and in the region.", "quantifier": "all regions whose eigenfunctions solve the concentration problem (C88), Shannon numbers, coefficients, samples, wavelets", "why_tests_cant": "Integral identities for all coefficients and all points; tests compare a handful of arrays and never integrate over the region.", "anchors": ["src/sleplet/functions/fp.py:Fp._translation_helper", "src/sleplet/functions/coefficients.py:Coefficients.translate", "src/sleplet/_convolution_methods.py:sifting_convolution", "src/sleplet/functions/slepian_dirac_delta.py:SlepianDiracDelta", "src/sleplet/slepian_methods.py:slepian_inverse", "src/sleplet/slepian_methods.py:_compute_s_p_omega_prime", "src/sleplet/wavelet_methods.py:slepian_wavelet_forward"]}
{"id": "C93", "title": "Figures of polar-cap Slepian functions show what they say", "statement": "Each panel of the figures of polar-cap eigenfunctions draws, at the colatitudes 0, 180/R, ..., 180 degrees, a curve g such that the Slepian function of that order m and rank is +- g(theta) e^{i m phi} on the whole sphere, split into the part inside and the part outside the cap; the number printed is the fraction of the energy of the curve inside the cap. The index printed for rank r of an order is the place, in the list for all orders, of the function of that order with r functions of it before, carrying the eigenvalue that solving the order alone gives, and ranks beyond the number of functions of the order raise IndexError. The figure of eigenvalues by order shows non-increasing eigenvalues, each function living on the order shown up to sign, with the same eigenvalues for m and -m.", "quantifier": "all bandlimits, caps, orders, ranks, resolutions at least the bandlimit, matrices assembled by the workers, eigensolutions and sorting orders of equal eigenvalues", "why_tests_cant": "The figures are looked at by eye; no test evaluates a curve away from the grid, integrates it over the cap, or compares the list of one order with the list of all orders.", "anchors": ["examples/polar_cap/eigenfunctions.py:_helper", "examples/polar_cap/eigenfunctions.py:_find_p_value", "examples/polar_cap/simons_5_1.py:_helper", "examples/polar_cap/simons_5_3.py:_create_plot", "src/sleplet/harmonic_methods.py:invert_flm_boosted"]}
{"id": "C94", "title": "The wavelets tile the line, and the transforms built from them are inverted", "statement": "For base B >= 2 and smallest scale j_min up to J = ceil(log_B x), the generating functions for a line of length x are a scaling function and the scales j_min..J, with values in [0,1] whose squares add up to 1 at every degree; scale j is nonzero exactly for B^(j-1) < l < B^(j+1) and 1 at B^j; the squares are values, and differences of values, of one curve from 1 to 0 that is infinitely differentiable and never increases. Hence the wavelet transform on the sphere is inverted exactly for all coefficients; the Slepian wavelet transform of a signal with no zero among its first N coefficients is inverted exactly, its rows are the scaling function and the scales that reach a rank below N, in order, so that the row labelled j belongs to scale j; and selecting scale j gives that wavelet's coefficients, IndexError for scales beyond rank N, ValueError outside 0..J-j_min.", "quantifier": "all bases, limits, smallest scales, Shannon numbers, signals", "why_tests_cant": "The admissibility of the tiling is an integral identity in an external library; tests check one base and one signal.", "anchors": ["src/sleplet/wavelet_methods.py:create_kappas", "src/sleplet/wavelet_methods.py:slepian_wavelet_forward", "src/sleplet/wavelet_methods.py:slepian_wavelet_inverse", "src/sleplet/wavelet_methods.py:axisymmetric_wavelet_forward", "src/sleplet/wavelet_methods.py:axisymmetric_wavelet_inverse", "src/sleplet/functions/slepian_wavelet_coefficients_africa.py:SlepianWaveletCoefficientsAfrica", "examples/arbitrary/africa/sparsity_wavelet_slepian_comparison_africa.py:_plot_slepian_coefficients"]}
{"id": "C95", "title": "Figures of sorted coefficients show best approximations by few functions", "statement": "In the figure of sorted Slepian and harmonic coefficients both curves have the points 0..N-1 and never rise; for every K <= N the energy of the field minus the sum of the first K squared ordinates of the Slepian curve is the least squared distance from the field to a sum of at most K of the first N Slepian functions, and the same for the harmonic curve and spherical harmonics. In the sparsity figure the line labelled j shows the coefficients weighted by the wavelet of scale j, in non-increasing order, and the unlabelled one those of the scaling function. In the figure of translation norms the ordinate at each colatitude is the norm of the field translated to any point of that colatitude, it is symmetric about the equator, its mean square over the sphere is that of the field over 4 pi, and the axis limit is the least integer not exceeded.", "quantifier": "all fields, regions given by their Slepian functions, numbers K, bases, scales, sets of colatitudes", "why_tests_cant": "Optimality ranges over all approximating fields; a figure shows one field, and labels cannot be checked against scales by looking at it.", "anchors": ["examples/polar_cap/slepian_coefficients.py:_earth_region_harmonic_coefficients", "examples/polar_cap/slepian_coefficients.py:_earth_region_slepian_coefficients", "examples/arbitrary/africa/sparsity_wavelet_slepian_comparison_africa.py:_plot_slepian_coefficients", "examples/arbitrary/africa/sparsity_wavelet_slepian_comparison_africa.py:_plot_axisymmetric_coefficients", "examples/misc/translation_normalisation.py:compute_translation_normalisation_theta", "src/sleplet/slepian_methods.py:slepian_forward"]}
{"id": "C96", "title": "Figures put every sample at its place and on the colour scale", "statement": "A figure on the sphere of resolution R puts the sample in row t and column p at colatitude pi t / R and longitude pi p / R on the unit sphere with the value of the field there as its colour, and repeats the first meridian in position and colour as the last; two positions coincide only at a pole or for the same sample; the reported range of values is attained; a field of another size raises AttributeError, and one with the right number of samples in rows that are too short raises IndexError. The colour scale of raw values is symmetric about zero, has its three ticks at its ends and its middle, and without an amplitude is the smallest that holds all values; that of normalised values is 0 to 1. A figure of a mesh keeps distances between vertices and reverses orientation. The camera looks from the direction asked for, nearer by the zoom, and zoom 0 raises.", "quantifier": "all resolutions, fields, values, vertices, zooms", "why_tests_cant": "The figures are only looked at; a shifted column, a gap at the seam or a tick beside the end of the scale would pass unnoticed.", "anchors": ["src/sleplet/plotting/_create_plot_sphere.py:PlotSphere._setup_plot", "src/sleplet/plotting/_create_plot_sphere.py:PlotSphere.execute", "src/sleplet/plotting/_create_plot_mesh.py:PlotMesh.execute", "src/sleplet/_plotly_methods.py:create_camera", "src/sleplet/_plotly_methods.py:create_tick_mark", "src/sleplet/_plotly_methods.py:create_colour_bar"]}
{"id": "C97", "title": "A colour range clips every drawn value and a parametric figure has the normalised value as its radius", "statement": "With a colour range [lo, hi] every drawn point shows its value clipped to the range, samples marked as unseen are left out, and points drawn twice are coloured once; a parametric figure draws each sample at its own angles and at the radius s1 (f - vmin) / (vmax - vmin) + s0. Ranges of fewer than two numbers raise IndexError, and equal ends raise ZeroDivisionError for a parametric figure.", "quantifier": "all fields, resolutions, colour ranges and scalings", "why_tests_cant": "No caller uses these options, so that no test draws with them.", "anchors": ["src/sleplet/plotting/_create_plot_sphere.py:PlotSphere._setup_plot"]}
{"id": "C98", "title": "Figures of eigenvalues mark the sum of the eigenvalues", "statement": "A figure of eigenvalues shows all L^2 of them (all basis functions of a mesh) against their rank from 0, never rising, with ticks labelled by the powers of two up to the first that reaches the number of ranks, and a dashed line labelled N at the Shannon number, within one half of the sum of all the ordinates.", "quantifier": "all bandlimits, regions of all types, solvers and schedules of the workers", "why_tests_cant": "The figures are only looked at; that the line stands at the sum of the eigenvalues links the area formula of a region to the trace of its matrix.", "anchors": ["examples/polar_cap/eigenvalues.py:main", "examples/arbitrary/africa/eigenvalues_africa.py:main", "examples/arbitrary/eigenvalues_combined.py:main", "examples/mesh/mesh_slepian_eigenvalues.py:main"]}
{"id": "C99", "title": "The figure of coefficient errors shows the relative errors", "statement": "The figure of errors of Slepian coefficients has one dot per rank below the Shannon number for the integral over the region and one for the integral over the sphere, whose ordinate is the relative error of the coefficient found by integration against the one found by the sum over harmonics; it is zero wherever the quadrature is exact.", "quantifier": "all bandlimits, regions, Slepian bases, quadratures and fields with given harmonic coefficients", "why_tests_cant": "The figure is only looked at, and for the bandlimits in use errors of phase and of magnitude look alike.", "anchors": ["examples/polar_cap/slepian_error.py:main", "examples/polar_cap/slepian_error.py:_helper_sphere", "examples/polar_cap/slepian_error.py:_helper_region", "src/sleplet/slepian_methods.py:slepian_forward"]}
{"id": "C100", "title": "Figures of the tiling show an exact partition", "statement": "A figure of wavelet generating functions draws the scaling function and one curve for every scale, labelled by its scale; every curve passes through the function's values at all degrees and stays between neighbouring values, hence within 0 and 1, and values on a straight line are joined by that line; at every degree the squares of the ordinates add up to one; the curve of a scale is non-zero exactly between the neighbouring powers of the base and reaches one at its own power; the horizontal axis runs from one to the number of degrees.", "quantifier": "all bandlimits or numbers of basis functions, bases from 2 and lowest scales up to the highest", "why_tests_cant": "The figures are only looked at; interpolation that overshoots or a label off by one scale goes unnoticed.", "anchors": ["examples/wavelets/axisymmetric_tiling.py:main", "examples/arbitrary/africa/tiling_africa.py:main", "examples/arbitrary/south_america/tiling_south_america.py:main", "examples/mesh/mesh_tiling.py:main", "src/sleplet/wavelet_methods.py:create_kappas"]}
{"id": "C101", "title": "The figure of a mesh region shows the faces of the region", "statement": "The figure of the region of a mesh gives every face whose three corners are vertices of the region the top value of the colour bar, which runs from 0 to 1, and leaves every other face undrawn; a mesh without vertices is refused.", "quantifier": "all meshes and regions, including empty regions and regions that are the whole mesh", "why_tests_cant": "The figure is only looked at; the normalisation has three branches that depend on how the region meets the faces.", "anchors": ["examples/mesh/mesh_region.py:main", "src/sleplet/_mask_methods.py:convert_region_on_vertices_to_faces", "src/sleplet/plotting/_create_plot_mesh.py:PlotMesh", "src/sleplet/plot_methods.py:_normalise_function"]}
{"id": "C102", "title": "The figure of Ricker wavelets shows the wavelets of the frequencies one after the other", "statement": "The figure shows one Ricker wavelet per frequency, one after the other, each sampled at steps of the time step about the middle of its window, symmetric, with its peak of one in the middle, negative exactly outside the zero crossings of its frequency and never outside the extremes of the Ricker profile; a window that is more than half a step above a whole number of steps is refused.", "quantifier": "all lengths, time steps and lists of frequencies", "why_tests_cant": "The script has no tests; two different roundings of the same quotient have to agree for it to run at all.", "anchors": ["examples/misc/wavelet_transform.py:main", "examples/misc/wavelet_transform.py:_ricker"]}
{"id": "C103", "title": "The amplitude of a function is the greatest value of its plot", "statement": "The amplitude found for a function, given to plots of other functions so that they share a scale, is the greatest absolute value of the chosen part of the function on the grid of its own plot, with or without upsampling, for functions given by harmonic coefficients and by Slepian coefficients; a function without samples is refused.", "quantifier": "all functions, bandlimits, plot types, with and without upsampling", "why_tests_cant": "The amplitude is only seen as the ends of a colour bar, and functions with a spin are rarely given one.", "anchors": ["src/sleplet/plot_methods.py:find_max_amplitude", "src/sleplet/plot_methods.py:_boost_field", "src/sleplet/plot_methods.py:_create_plot_type"]}
{"id": "C104", "title": "Basis functions of a mesh are its smoothest orthonormal functions", "statement": "The energy of a function on the vertices with respect to the Laplacian of a mesh is the integral over the faces of the square of its gradient.  The basis functions are orthonormal, as many as asked for or a quarter of the vertices, in the order of their energies, which are the eigenvalues, and none has more energy than any unit function orthogonal to those before it.  On a connected mesh the first is constant with eigenvalue zero, and all others have positive eigenvalues and mean zero.", "quantifier": "all meshes without faces of area zero, all numbers of basis functions", "why_tests_cant": "The eigendecomposition is only tested on the meshes shipped; a wrong sign of the Laplacian or the wrong end of the spectrum still gives orthonormal functions.", "anchors": ["src/sleplet/_mesh_methods.py:_mesh_laplacian", "src/sleplet/_mesh_methods.py:mesh_eigendecomposition", "src/sleplet/_mesh_methods.py:_orthonormalise_basis_functions"]}
{"id": "C105", "title": "Fields on the sampling grid determine the function", "statement": "Two signals of bandlimit L whose fields agree on the samples of the grid have the same harmonic coefficients, also when the fields are computed at a higher resolution; two lists of Slepian coefficients with the same field agree.  Functions of bandlimit L + 1 are not determined by the samples of bandlimit L.  Exact transforms with the spherical harmonics, as assumed by the claims on plots, therefore exist at every bandlimit.", "quantifier": "all bandlimits, all coefficients, all resolutions not below the bandlimit, all orthonormal Slepian bases", "why_tests_cant": "Tests compare a few fields at one bandlimit; that no two signals share a field is a statement about all pairs.", "anchors": ["src/sleplet/harmonic_methods.py:invert_flm_boosted", "src/sleplet/slepian_methods.py:slepian_inverse", "src/sleplet/slepian_methods.py:compute_s_p_omega"]}
{"id": "C106", "title": "Arrays of orders select the solutions of those orders", "statement": "A polar cap asked for an array of orders holds the eigenvalues and eigenvectors of those orders, and gives the same answer whether the solutions were saved before or not; an order not below the bandlimit is rejected.  The code ignores the array when nothing is saved and answers with all orders; once they are saved, an array of one order selects it and an array of another length than the number of solutions raises ValueError; above bandlimit 16, where only the first eigenvectors are saved, the array of all orders and that of some single order raise IndexError.", "quantifier": "all bandlimits from 2, all polar caps and gaps, all arrays with one axis, all solvers that behave as assumed, with and without saved files", "why_tests_cant": "Tests construct caps with no order or one integer; the array form is accepted by the annotation and never constructed.", "anchors": ["src/sleplet/slepian/slepian_polar_cap.py:SlepianPolarCap", "src/sleplet/slepian/slepian_polar_cap.py:SlepianPolarCap._solve_eigenproblem_from_files", "src/sleplet/slepian/slepian_polar_cap.py:SlepianPolarCap._solve_eigenproblem_from_scratch"]}
{"id": "C107", "title": "Assigning to a field of a region gives the region of the new fields", "statement": "After assignments to the angles, the gap or the mask name of a Region, an assignment out of range raises ValueError and changes nothing, and the region (its mask, its name in files and the Slepian functions chosen) is that of a Region constructed with the new values.  The code keeps the type and the name found at the construction.", "quantifier": "all regions, all sequences of assignments to the public fields, all samples", "why_tests_cant": "Tests construct regions and never assign to them, although the configuration validates assignments.", "anchors": ["src/sleplet/slepian/region.py:Region", "src/sleplet/slepian/region.py:Region._identify_region", "src/sleplet/_mask_methods.py:create_mask_region", "src/sleplet/slepian_methods.py:choose_slepian_method"]}
{"id": "C108", "title": "Refining a mesh keeps its surface, its area and its region", "statement": "A mesh read with n subdivisions has the vertices of the file with their numbers, the midpoints of the edges as new ones, and 4^n faces for each face of the file; it is the same set of points in space with the same area, and the parts of a face in the region of the mesh are in the region.", "quantifier": "all triangle meshes whose faces have existing corners, all numbers of subdivisions, all convex regions and boxes", "why_tests_cant": "Tests read the six meshes of the package with the subdivisions of their settings.", "anchors": ["src/sleplet/_mesh_methods.py:read_mesh", "src/sleplet/_mesh_methods.py:create_mesh_region", "src/sleplet/meshes/mesh.py:Mesh"]}
{"id": "C109", "title": "Integrals over a mesh are integrals over its surface", "statement": "The integral of functions on a mesh, from which the norms of basis functions, the concentration matrix and the coefficients are computed, is the integral over the surface up to a common factor, and the Shannon number of a region is the number of basis functions times the share of the surface in the region, however finely the surface is cut.  The code sums over the vertices without the area around them.", "quantifier": "all triangle meshes whose faces have existing corners, all functions that are linear on the faces, all regions", "why_tests_cant": "Tests compare sums on fixed meshes; the dependence on the refinement needs two meshes of the same surface.", "anchors": ["src/sleplet/_integration_methods.py:integrate_whole_mesh", "src/sleplet/_integration_methods.py:integrate_region_mesh", "src/sleplet/_slepian_arbitrary_methods.py:compute_mesh_shannon", "src/sleplet/_mesh_methods.py:read_mesh"]}
{"id": "C110", "title": "Using a function object does not change it", "statement": "translate, convolve and rotate give results that depend on the object and the arguments alone, not on earlier calls, and leave the object as it was; assigning a field gives the object of the new fields. (Violated: translate and convolve, also when they raise, clear the flag that says that the function itself is real; after assigning the bandlimit, noise, region or smoothing, the coefficients and the name are still those of the construction, and translating raises ValueError after a change of bandlimit.)", "quantifier": "all harmonic and Slepian function objects, all sequences of calls and assignments", "why_tests_cant": "All sequences of calls, also ones that raise; tests use each object once.", "anchors": ["src/sleplet/functions/coefficients.py:Coefficients.translate", "src/sleplet/functions/coefficients.py:Coefficients.convolve", "src/sleplet/functions/flm.py:Flm.rotate", "src/sleplet/functions/fp.py:Fp.rotate", "src/sleplet/_validation.py:validation"]}
{"id": "C111", "title": "Eigenvalues of related regions", "statement": "Every two solutions for the same region give the same eigenvalues. A region within another, also at a smaller bandlimit, has no greater eigenvalue of any rank, and for caps, gaps and latitude/longitude regions with an interior smaller ones when the regions differ; the eigenvalues of such regions are above zero, and below one unless the region is the whole sphere. A polar cap has the eigenvalues of the region of its colatitudes and all longitudes; turning a region about the axis or reflecting it in the equator keeps its eigenvalues. The eigenvalues of a cap, gap, lune or mesh region and of the rest of the sphere or mesh add up to one in opposite order.", "quantifier": "all bandlimits, all polar caps and gaps, all bounds in latitude and longitude, all masks, all regions of all meshes; all workers and solvers", "why_tests_cant": "Relates different regions and infinitely many fields; tests compute single regions and floats add up to one only nearly.", "anchors": ["src/sleplet/slepian/slepian_polar_cap.py:SlepianPolarCap._solve_eigenproblem", "src/sleplet/slepian/slepian_limit_lat_lon.py:SlepianLimitLatLon._solve_eigenproblem", "src/sleplet/slepian/slepian_arbitrary.py:SlepianArbitrary._solve_eigenproblem", "src/sleplet/meshes/mesh_slepian.py:MeshSlepian._compute_slepian_functions"]}
{"id": "C112", "title": "From a region to reconstructed signals", "statement": "Constructing a Slepian object, whatever happened in the data directory before (other constructions at the same time, processes killed, files deleted), gives orthonormal functions of the bandlimit with decreasing eigenvalues that are their energies in the region asked for, the greatest possible; and every signal transformed to N Slepian coefficients and back differs from itself by a field with at most the part of eigenvalue N of its energy in the region. (Violated when two problems share their file names: at every even bandlimit a cap wider than that of 60 degrees gets, after that one, eigenvalues that no functions have in it.)", "quantifier": "all collections of problems with different file names (such as all whole-degree regions and named masks), all histories of the data directory, all workers and solvers, all signals", "why_tests_cant": "The composition of region, parallel matrices, solver, cache and transforms over all histories; tests run each part alone, with a warm or a cold cache.", "anchors": ["src/sleplet/slepian/slepian_functions.py:SlepianFunctions.__post_init__", "src/sleplet/slepian/slepian_polar_cap.py:SlepianPolarCap._solve_eigenproblem", "src/sleplet/slepian/slepian_limit_lat_lon.py:SlepianLimitLatLon._solve_eigenproblem", "src/sleplet/slepian/slepian_arbitrary.py:SlepianArbitrary._solve_eigenproblem", "src/sleplet/slepian_methods.py:slepian_forward", "src/sleplet/slepian_methods.py:slepian_inverse"]}
{"id": "C113", "title": "From a mesh to reconstructed fields", "statement": "Constructing a mesh and its Slepian functions, whatever happened in the data directory before, gives an orthonormal basis and orthonormal fields of that basis with decreasing eigenvalues that are their energies in the region, the greatest possible; and every field on the mesh transformed to N Slepian coefficients and back differs from itself by a field orthogonal to the Slepian functions, with at most the part of eigenvalue N of its energy in the region if the basis can represent the field. (Violated when two sessions run at once or a file is deleted: eigsh starts from a random vector, and the files can hold the basis of one run with the Slepian functions of another; a function said to have all of its energy in the region can have none there.)", "quantifier": "all meshes, regions, numbers of basis functions and outcomes of eigsh; all sequences of sessions, complete or stopped; all workers and solvers, all fields", "why_tests_cant": "The composition of eigsh, parallel matrix, solver, two pairs of files and transforms over all histories and outcomes of a randomised routine; tests run it once.", "anchors": ["src/sleplet/_mesh_methods.py:mesh_eigendecomposition", "src/sleplet/meshes/mesh.py:Mesh.__post_init__", "src/sleplet/meshes/mesh_slepian.py:MeshSlepian.__post_init__", "src/sleplet/meshes/mesh_slepian.py:MeshSlepian._compute_slepian_functions", "src/sleplet/slepian_methods.py:slepian_mesh_forward", "src/sleplet/slepian_methods.py:slepian_mesh_inverse"]}
{"id": "C114", "title": "Eigenvalues change with the region by the Shannon number of the change", "statement": "The eigenvalues of a region and of a greater one at the same bandlimit differ, summed over all ranks, by exactly the Shannon number of the part added, for polar caps, gaps, regions limited in latitude and longitude and masks; on a mesh by the squares of the basis functions at the vertices added. The eigenvalue of rank k, counted from zero, is at most the Shannon number over k + 1, and the first is at least the fraction of the sphere covered. So two polar caps that share their cache files have eigenvalues that differ by no more than one in all (two for gaps), nor by more than L**2 pi / 360; two regions limited in latitude and longitude that share theirs, by no more than L**2 (pi + 1) / 180, and by no more than one if one contains the other; and the region constructed second gets the eigenvalues of the first.", "quantifier": "all bandlimits, angles, boxes, masks, meshes and regions; all workers and solvers; all pairs of regions of the same kind with the same files", "why_tests_cant": "Relates two runs of an eigensolver through the area between their regions, for all regions; tests compare neither two regions nor their sums of eigenvalues.", "anchors": ["src/sleplet/slepian/slepian_polar_cap.py:SlepianPolarCap._solve_eigenproblem", "src/sleplet/slepian/slepian_limit_lat_lon.py:SlepianLimitLatLon._solve_eigenproblem", "src/sleplet/slepian/slepian_arbitrary.py:SlepianArbitrary._solve_eigenproblem", "src/sleplet/slepian/slepian_functions.py:SlepianFunctions.__post_init__", "src/sleplet/meshes/mesh_slepian.py:MeshSlepian._compute_slepian_functions"]}
{"id": "C115", "title": "The number of Slepian coefficients asked for and given", "statement": "slepian_forward with n_coeffs=k gives exactly the first k coefficients, the same ones as any longer request and the default of N, for every k up to L**2 whether the Slepian functions were computed or loaded, and fails beyond; slepian_inverse reads exactly the first N coefficients and refuses fewer. The same on meshes, with the number of basis functions for L**2.", "quantifier": "all bandlimits, regions, Slepian objects with any number of eigenvectors at hand, signals and ways to give them, numbers asked for and coefficient vectors of any length; two constructions in a row", "why_tests_cant": "Ranges over numbers of coefficients and over what earlier sessions left on disk; tests use the default number and vectors of length N or more.", "anchors": ["src/sleplet/slepian_methods.py:slepian_forward", "src/sleplet/slepian_methods.py:slepian_inverse", "src/sleplet/slepian_methods.py:slepian_mesh_forward", "src/sleplet/slepian_methods.py:slepian_mesh_inverse", "src/sleplet/slepian/_slepian_decomposition.py:SlepianDecomposition.decompose_all", "src/sleplet/meshes/_mesh_slepian_decomposition.py:MeshSlepianDecomposition.decompose_all"]}
{"id": "C116", "title": "From a region to wavelet coefficients and back", "statement": "Whatever sessions ran or were killed before, a signal is taken to its N Slepian coefficients, to Slepian wavelet coefficients of any base and smallest scale, back to the same N coefficients and on to a field that differs from the signal by a bandlimited field with at most the fraction eigenvalue N of its energy in the region; and the energies of the fields of the wavelet coefficients add up to that of the N coefficients.", "quantifier": "all regions, bandlimits, histories, workers and solvers within their contracts, bases, smallest scales, sampling points, signals", "why_tests_cant": "Composes the solver, the cache in any history, the transforms and the wavelets; tests run one signal in one session with one tiling.", "anchors": ["src/sleplet/slepian_methods.py:slepian_forward", "src/sleplet/slepian_methods.py:slepian_inverse", "src/sleplet/wavelet_methods.py:slepian_wavelet_forward", "src/sleplet/wavelet_methods.py:slepian_wavelet_inverse", "src/sleplet/wavelet_methods.py:create_kappas", "src/sleplet/slepian/slepian_functions.py:SlepianFunctions.__post_init__"]}
{"id": "C117", "title": "From a mesh to wavelet coefficients and back", "statement": "A field on a mesh is taken to its N Slepian coefficients, to Slepian wavelet coefficients of any base and smallest scale, back to the same N coefficients and on to a field that differs from the given one by a field with at most the fraction eigenvalue N of its energy in the region, if the basis can represent it; the wavelet coefficients are real and the energies of their fields add up to that of the field reconstructed. So in every session after others that were complete or stopped.", "quantifier": "all meshes, regions, numbers of basis functions and outcomes of eigsh, sequences of sessions, workers and solvers within their contracts, bases, smallest scales, fields", "why_tests_cant": "Composes eigsh, the solver, the files in any sequence of sessions, the transforms and the wavelets; tests run one mesh in one session with one tiling.", "anchors": ["src/sleplet/slepian_methods.py:slepian_mesh_forward", "src/sleplet/slepian_methods.py:slepian_mesh_inverse", "src/sleplet/wavelet_methods.py:slepian_wavelet_forward", "src/sleplet/wavelet_methods.py:slepian_wavelet_inverse", "src/sleplet/wavelet_methods.py:create_kappas", "src/sleplet/meshes/mesh_slepian.py:MeshSlepian.__post_init__"]}
{"id": "C118", "title": "The name under which the sphere command saves a figure determines the figure", "statement": "Two figures that the sphere command saves under one name show the same values in the same colours on the same scale: whatever functions, maps, ranks, extra arguments, bandlimits, noise and smoothing levels, methods, angles, views, parts and flags were asked for in the two runs and whatever random numbers were drawn before, a later run overwrites a figure only with the same figure. The annotations agree as well if both runs were asked for them or both were not.", "quantifier": "all pairs of command lines, random states and default regions of the package's kinds; exponents of widths at least -6 and angles with denominators up to a million, which is what the names can tell apart", "why_tests_cant": "A collision can come from any pair among the functions, parameters and options; tests compare a handful of names.", "anchors": ["src/sleplet/_scripts/plotting_on_sphere.py:main", "src/sleplet/_scripts/plotting_on_sphere.py:plot", "src/sleplet/_string_methods.py:filename_args", "src/sleplet/_string_methods.py:filename_angle", "src/sleplet/functions/coefficients.py:Coefficients._add_details_to_name", "src/sleplet/plotting/_create_plot_sphere.py:PlotSphere.execute", "src/sleplet/plot_methods.py:compute_amplitude_for_noisy_sphere_plots"]}
{"id": "C119", "title": "The name under which the mesh command saves a figure determines the figure", "statement": "Two figures that the mesh command saves under one name are equal in everything: the mesh and its view, the colours and their scale. Whatever meshes, methods, extra arguments, noise levels and flags were asked for in the two runs and whatever random numbers were drawn before, a later run overwrites a figure only with the same figure.", "quantifier": "all pairs of command lines, meshes loaded and random states", "why_tests_cant": "A collision can come from any pair among the methods, parameters and flags; tests compare a handful of names.", "anchors": ["src/sleplet/_scripts/plotting_on_mesh.py:main", "src/sleplet/_scripts/plotting_on_mesh.py:plot", "src/sleplet/meshes/mesh_coefficients.py:MeshCoefficients._add_details_to_name", "src/sleplet/plotting/_create_plot_mesh.py:PlotMesh.__post_init__", "src/sleplet/_string_methods.py:filename_args", "src/sleplet/_string_methods.py:wavelet_ending"]}
{"id": "C120", "title": "Results do not depend on the unit of the signal", "statement": "Multiplying a signal by a positive number multiplies by it the noise that is added for a given ratio, the noised coefficients, and the field recovered by every denoising demonstration (axisymmetric wavelets, Slepian wavelets on the sphere and on a mesh, Slepian functions); reported signal-to-noise ratios, names, random numbers used and exceptions stay the same. Normalised figures stay the same and others change by that factor.", "quantifier": "all signals, noisy signals, wavelets, ratios, thresholds, plot settings, positive factors, states of the random generators", "why_tests_cant": "Tests run one signal in one unit; an absolute tolerance or a power that is not squared shows only when the unit is changed.", "anchors": ["src/sleplet/noise.py:compute_snr", "src/sleplet/noise.py:compute_sigma_noise", "src/sleplet/noise.py:_create_noise", "src/sleplet/noise.py:_create_mesh_noise", "src/sleplet/noise.py:_perform_hard_thresholding", "src/sleplet/functions/flm.py:Flm._add_noise_to_signal", "src/sleplet/functions/fp.py:Fp._add_noise_to_signal", "src/sleplet/wavelet_methods.py:find_non_zero_wavelet_coefficients", "src/sleplet/plot_methods.py:_normalise_function", "examples/misc/_denoising_axisym.py", "examples/arbitrary/_denoising_slepian_wavelet.py", "examples/mesh/denoising_slepian_mesh.py"]}
{"id": "C121", "title": "What the denoising demonstrations show", "statement": "Each denoising demonstration, started in any session, draws numbers from the generator of the fixed seed once and shows one figure. For Earth, Africa and South America with axisymmetric wavelets: the map plus noise of 10 dB is split into wavelets of dilation 2 and lowest scale 0, each wavelet part is cut at three standard deviations of its noise, and the recombined map (rotated to the view of South America for Earth) is shown on the scale of the clean map; the Earth demonstration stops with a failed assertion exactly if the ratio has not become better than that of the noised map. For the continents with Slepian wavelets (dilation 3, lowest scale 2), for South America with Slepian functions, and for meshes: the Slepian coefficients of the map or field plus noise of the given ratio are cut at the given number of standard deviations, sample by sample, and the recovered field is shown inside the region only, on the scale of the clean field. File names tell the map, ratio and threshold. The table of meshes shows six meshes, each at its own ratio and all at two standard deviations.", "quantifier": "all bandlimits, masks, harmonic transforms, Slepian bases, meshes, noise ratios, thresholds, random numbers, sessions before the call", "why_tests_cant": "The demonstrations are run by hand and judged by eye; a wrong scale, a missing rotation, a threshold of the wrong size or a region that is not masked still gives a plausible picture.", "anchors": ["examples/misc/denoising_axisym_earth.py", "examples/misc/denoising_axisym_africa.py", "examples/misc/denoising_axisym_south_america.py", "examples/arbitrary/africa/denoising_slepian_africa.py", "examples/arbitrary/south_america/denoising_slepian_south_america.py", "examples/arbitrary/south_america/denoising_slepian_functions_south_america.py", "examples/mesh/denoising_slepian_mesh.py", "examples/mesh/produce_table.py"]}
{"id": "C122", "title": "What the reconstructions and the figures of Slepian functions show", "statement": "The reconstructions of Africa and South America, started in any session, draw no random numbers and show the real part of a field inside the continent only, on the symmetric colour scale of the field over the whole sphere, in files named after the continent, the kind of reconstruction and the bandlimit. From the Slepian coefficients: the field of the Slepian coefficients of the smoothed map. From the wavelet coefficients: the field where each coefficient is multiplied by the sum of the products of the first, second, ... wavelet with that of the first, second, ... scale with signal, which is the same field if the squares of the wavelets add up to one and the scales without signal come last. Scale by scale: one figure for each scale with signal, numbered from zero, where the coefficient of each rank is multiplied by the sum of all wavelets and by the sum of the wavelets of the scales so far. The figures of the Slepian functions of a polar cap show the functions of the first ranks in order, each inside the cap, on its own scale, in files named after the cap, the order, the rank and the eigenvalue.", "quantifier": "all bandlimits, masks, harmonic transforms, Slepian bases, wavelets, angles of the cap, numbers of ranks, sessions before the call", "why_tests_cant": "The figures are made by hand at bandlimit 16 or 128 and judged by eye; a wrong scale, basis, file name or sum of wavelets still gives a plausible picture.", "anchors": ["examples/arbitrary/africa/slepian_reconstruction_africa.py", "examples/arbitrary/south_america/slepian_reconstruction_south_america.py", "examples/arbitrary/africa/wavelet_reconstruction_africa.py", "examples/arbitrary/south_america/wavelet_reconstruction_south_america.py", "examples/arbitrary/africa/progressive_wavelet_reconstruction_africa.py", "examples/arbitrary/south_america/progressive_wavelet_reconstruction_south_america.py", "examples/polar_cap/fried_egg.py"]}
{"id": "C123", "title": "The area outside the region is told apart in figures", "statement": "A figure restricted to a region is the figure without the region, on the same colour scale, except for the cells or faces outside the region: these show one fixed number, which lies below the colour scale, so that they are never mistaken for values of the field.", "quantifier": "all fields, masks, mesh regions, plot settings", "why_tests_cant": "The figures are judged by eye and for fields of moderate size.", "anchors": ["src/sleplet/plotting/_create_plot_sphere.py", "src/sleplet/plotting/_create_plot_mesh.py", "src/sleplet/plot_methods.py"]}
{"id": "C124", "title": "Transforms of combinations of signals", "statement": "The transform of a f + b g is a times that of f plus b times that of g, and where one of them raises an exception all three raise the same: the harmonic transforms on meshes both ways, the Slepian transforms on the sphere and on meshes both ways, by each of the three methods and for any number of coefficients, the axisymmetric wavelet transform both ways. The Slepian wavelet coefficients of a f + b g are conj(a) times those of f plus conj(b) times those of g. (Violated for Slepian wavelets when a scale does not see one of the signals: its row is missing.)", "quantifier": "all signals, complex or real numbers a and b, Slepian bases, wavelets, masks, numbers of coefficients", "why_tests_cant": "Tests transform single signals.", "anchors": ["src/sleplet/harmonic_methods.py", "src/sleplet/slepian_methods.py", "src/sleplet/slepian/_slepian_decomposition.py", "src/sleplet/meshes/_mesh_slepian_decomposition.py", "src/sleplet/wavelet_methods.py"]}
{"id": "C125", "title": "Integrating the region ignores the field outside", "statement": "The Slepian coefficients computed by integrating the region are the same for two fields that agree inside the region, whatever they are outside, on the sphere and on meshes, exceptions included.", "quantifier": "all fields, regions, Slepian bases, numbers of coefficients", "why_tests_cant": "Tests compare the methods on single signals that vanish nowhere in particular.", "anchors": ["src/sleplet/slepian_methods.py", "src/sleplet/slepian/_slepian_decomposition.py", "src/sleplet/meshes/_mesh_slepian_decomposition.py", "src/sleplet/_integration_methods.py"]}
{"id": "C126", "title": "Denoising adds no energy", "statement": "The coefficients and the field returned by each denoising routine (axisymmetric wavelets, Slepian wavelets on the sphere and on meshes, Slepian functions) have at most the energy of the noised signal, whatever the threshold, the signal-to-noise ratio and the noise, and whichever wavelet scales see the signal, for transforms that add no energy and wavelets whose squares add up to at most one at every degree or rank.", "quantifier": "all signals, noises, signal-to-noise ratios, numbers of standard deviations, wavelets, Slepian bases, quadratures with nonnegative weights", "why_tests_cant": "Tests do not run the denoising; a property of all signals and thresholds.", "anchors": ["src/sleplet/noise.py", "examples/misc/_denoising_axisym.py", "examples/arbitrary/_denoising_slepian_wavelet.py", "examples/mesh/denoising_slepian_mesh.py", "examples/arbitrary/south_america/denoising_slepian_functions_south_america.py"]}
{"id": "C127", "title": "How much denoising can change a signal", "statement": "Denoising with n standard deviations changes the noised coefficients by an energy of at most n squared times the expected energy of the noise, no matter how many wavelet scales are cut: n^2 10^(-snr/10) times the signal's energy for axisymmetric wavelets, n^2 sigma^2 times the number of Slepian functions (sphere and mesh, sigma that of the noise) for Slepian wavelets, n^2 sigma^2 times the total weight of the samples for Slepian functions. With n = 0 nothing changes. (Violated for Slepian wavelets when a scale that does not see the signal comes before one that does: then even n = 0 removes the signal.)", "quantifier": "all signals, noises, signal-to-noise ratios, numbers of standard deviations, wavelets whose squares add up to one, Slepian bases", "why_tests_cant": "Tests do not run the denoising; the bound combines the noise formulas, the transforms and the wavelets.", "anchors": ["src/sleplet/noise.py", "examples/misc/_denoising_axisym.py", "examples/arbitrary/_denoising_slepian_wavelet.py", "examples/mesh/denoising_slepian_mesh.py", "examples/arbitrary/south_america/denoising_slepian_functions_south_america.py"]}
{"id": "C128", "title": "How errors in the data reach the Slepian coefficients", "statement": "For two fields or signals, the Slepian coefficients computed by summing harmonic coefficients or by integrating everything differ by no more energy than the inputs, and so do the reconstructed fields. Computed by integrating the region, the squared differences weighted with the eigenvalues are at most the energy of the difference in the region; reconstructed fields differ by no more than the data in the region, and by at most the energy over the least eigenvalue everywhere. An error shaped like the Slepian function of a rank attains the factor one over its eigenvalue and reaches no other rank. No combination of the Slepian functions is closer to the data, in the region or everywhere according to the method, than the reconstruction.", "quantifier": "all pairs of fields, regions, Slepian bases with nonzero eigenvalues, on the sphere and on meshes", "why_tests_cant": "Tests transform single signals without errors; a bound over all pairs of fields and the best constant.", "anchors": ["src/sleplet/slepian_methods.py", "src/sleplet/slepian/_slepian_decomposition.py", "src/sleplet/meshes/_mesh_slepian_decomposition.py", "src/sleplet/_integration_methods.py"]}
{"id": "C129", "title": "How large fields and noise levels can be at a point", "statement": "At every sample the squared moduli of the Slepian functions used add up to at most L²/4π, and to exactly that when all L² are used. So a field made from Slepian or harmonic coefficients has nowhere a squared modulus above L²/4π times the sum of the squared moduli of the coefficients; this is attained at any sample, and by the Dirac delta at the north pole. The deviation of the noise in a Slepian wavelet whose coefficients are at most K squares to at most K²/4π times the power of the noise whatever the bandlimit, and over wavelets whose squares add up to one they square and add up to at most 1/4π times that power. Data of the region that differ by a given energy give fields that differ at no sample, squared, by more than L²/4π over the least eigenvalue times that energy.", "quantifier": "all bandlimits, orthonormal Slepian bases, coefficients, samples, wavelets, signals and pairs of fields", "why_tests_cant": "Tests look at single fields on a grid; the bound holds at every point and for every signal, and rests on the addition theorem.", "anchors": ["src/sleplet/slepian_methods.py", "src/sleplet/noise.py", "src/sleplet/functions/dirac_delta.py", "src/sleplet/slepian/_slepian_decomposition.py"]}
{"id": "C130", "title": "The eigenvalues that the region method divides by", "statement": "Every Slepian function kept by default has an eigenvalue that is not zero, so integrating the region, which divides by it, gives finite coefficients. For polar caps, polar gaps and regions limited in latitude and longitude at bandlimit L the eigenvalue of each kept rank p is at least 1/(2(L² - p)) and at most a share 1/(p + 1) of L²/4π times the area. For a mesh with as many basis functions as vertices the kept eigenvalues are one and all others zero.", "quantifier": "all bandlimits, regions, masks, meshes, worker schedules, solvers and sorting permutations within their contracts, and all kept ranks", "why_tests_cant": "Tests divide by the eigenvalues of one region; the bound is for every region and every rank and rests on the sum of the eigenvalues and the rounding of the Shannon number.", "anchors": ["src/sleplet/slepian/_slepian_decomposition.py", "src/sleplet/slepian/slepian_functions.py", "src/sleplet/meshes/_mesh_slepian_decomposition.py", "src/sleplet/meshes/mesh_slepian.py"]}
{"id": "C131", "title": "The figure of the eigenvalues of four caps, marked by order", "statement": "Provided there are at least as many functions as ranks shown, the figure has four panels, in rows of two, for caps of 10, 20, 30 and 40 degrees, with the angle written in each; only the first explains the marks, only the left ones name the vertical and only the lower ones the horizontal axis. Each panel has a point for every rank at the height of its eigenvalue, between 0 and 1 and never rising, labelled with the order of the harmonics that the eigenvector uses, without the sign; two labels are equal exactly if the orders agree up to sign, and they are explained by increasing order. The line is at the Shannon number less one, so the points up to it belong to the functions kept, and they are above zero; the number written is within a half of the sum of all eigenvalues. A later panel has a higher point at every rank. At the bandlimit of the script the numbers are 2, 8, 17 and 30. With fewer functions than ranks the figure fails.", "quantifier": "all bandlimits and numbers of ranks, worker schedules, solvers and sorting permutations within their contracts, all ranks and pairs of panels", "why_tests_cant": "Nothing tests the figures; a run shows one bandlimit and one solver, and nobody can see from a picture that labels belong to the eigenvectors or that points rise from one panel to the next at every bandlimit.", "anchors": ["examples/polar_cap/simons_5_3.py", "src/sleplet/slepian/slepian_polar_cap.py", "src/sleplet/slepian/slepian_functions.py"]}
{"id": "C132", "title": "Regions too small for a Slepian function", "statement": "Every region that is accepted keeps at least one Slepian function, so that signals in it have coefficients. (Violated. A function is kept exactly if the area is more than 2 pi/L^2, on a mesh with K basis functions exactly if the region has more than one in 2K of the vertices; a polar cap keeps one exactly if its angle exceeds arccos(1 - 1/L^2). Smaller caps are accepted at every bandlimit although their best function has a positive eigenvalue; then every signal has the empty list of coefficients by each method, every list of coefficients stands for the zero field, Slepian functions of all ranks are empty, and wavelet coefficients fail with IndexError for every scale.)", "quantifier": "all Slepian objects, all bandlimits from 1, all cap angles, all meshes and regions on them, all signals, coefficients, ranks, wavelets and scales", "why_tests_cant": "Tests use large regions; the limit follows from how the Shannon number is rounded and the consequences are for all inputs.", "anchors": ["src/sleplet/slepian/slepian_functions.py", "src/sleplet/slepian/slepian_polar_cap.py", "src/sleplet/_slepian_arbitrary_methods.py", "src/sleplet/slepian_methods.py", "src/sleplet/wavelet_methods.py", "src/sleplet/functions/slepian.py"]}
{"id": "C133", "title": "Symmetries of a region are symmetries of its Slepian functions", "statement": "For polar caps and gaps, regions limited in latitude and longitude, and masks: a Slepian function whose eigenvalue is not repeated is real up to a constant factor; a reflection in the equator or of longitudes that keeps the region keeps it or changes its sign, and a turn about the axis that keeps the region multiplies it by a number of modulus one. With repeated eigenvalues each Slepian function is taken to a sum of those with its eigenvalue, with coefficients whose squares add up to one. The sum of the squares of the functions at a point, weighted by any function of the eigenvalues, and the energy density of the first N functions when N does not part equal eigenvalues, have the symmetries of the region; for polar caps and gaps they depend on the colatitude only.", "quantifier": "all bandlimits, all caps and gaps, all bounds, all masks on the grid, all reflections in the equator or of longitudes and all turns that keep the region, all points, all solvers within their contract", "why_tests_cant": "Tests do not look at values of Slepian functions at related points; the statement is about all regions and all solvers, whose vectors are determined up to a unitary matrix only.", "anchors": ["src/sleplet/slepian/slepian_polar_cap.py", "src/sleplet/slepian/slepian_limit_lat_lon.py", "src/sleplet/slepian/slepian_arbitrary.py", "src/sleplet/_slepian_arbitrary_methods.py"]}
{"id": "C134", "title": "Reconstructions of real and of symmetric signals", "statement": "Transforming a real signal to the N Slepian coefficients of a region and back gives a real signal, and moving a signal by a reflection or turn that keeps the region moves its reconstruction. (Violated for real signals when N parts equal eigenvalues: the hemisphere at bandlimit 2 has N = 2, and every solution keeps one function of order 0 and only one of the two functions of orders 1 and -1, which share their eigenvalue; the real signal with coefficients -1 and 1 at these orders then comes back with a nonzero imaginary part at every sample off the poles and off one meridian circle. Both statements hold for all regions, signals and numbers of coefficients that do not part equal eigenvalues.)", "quantifier": "all bandlimits, caps, gaps, bounds and masks, all signals, all numbers of coefficients, all reflections and turns that keep the region, all solvers within their contract", "why_tests_cant": "Tests compare reconstructions with the signal on one region only; whether the result is real depends on how the Shannon number falls among repeated eigenvalues.", "anchors": ["src/sleplet/slepian_methods.py", "src/sleplet/slepian/slepian_polar_cap.py", "src/sleplet/slepian/slepian_functions.py", "src/sleplet/slepian/slepian_limit_lat_lon.py", "src/sleplet/slepian/slepian_arbitrary.py"]}
{"id": "C135", "title": "Eigenvalues of a region at different bandlimits", "statement": "Raising the bandlimit from L to L' lowers no eigenvalue of a polar cap or gap or of a region limited in latitude and longitude, and moves the eigenvalues by at most L'**2 - L**2 places: the eigenvalue of rank k + L'**2 - L**2 at L' is at most that of rank k at L. So the number of eigenvalues above any level does not fall and grows by at most L'**2 - L**2. On a mesh the same holds when basis functions are added to those used before.", "quantifier": "all pairs of bandlimits, all caps, gaps and bounds, all levels, all meshes and orthonormal basis functions, all workers and solvers", "why_tests_cant": "Relates the eigensolver's output at two bandlimits for all regions; tests use one bandlimit for each region.", "anchors": ["src/sleplet/slepian/slepian_polar_cap.py:SlepianPolarCap._solve_eigenproblem", "src/sleplet/slepian/slepian_limit_lat_lon.py:SlepianLimitLatLon._solve_eigenproblem", "src/sleplet/meshes/mesh_slepian.py:MeshSlepian._compute_slepian_functions"]}
{"id": "C136", "title": "Eigenvalues of regions that differ in few pixels", "statement": "If a mask has d pixels that another mask does not have, its eigenvalue of rank k + d is at most the eigenvalue of rank k of the other one, so that it has at most d more eigenvalues above any level; the same holds for regions of a mesh and their vertices.", "quantifier": "all bandlimits, all pairs of masks, all levels, all meshes, basis functions and pairs of regions, all workers and solvers", "why_tests_cant": "Ranges over all pairs of masks; tests compute one mask.", "anchors": ["src/sleplet/slepian/slepian_arbitrary.py:SlepianArbitrary._solve_eigenproblem", "src/sleplet/meshes/mesh_slepian.py:MeshSlepian._compute_slepian_functions"]}
{"id": "C137", "title": "Eigenvalues of a region covered by two others", "statement": "If two regions cover a third, the eigenvalue of rank j + k of the third is at most the sum of the eigenvalues of rank j of the first and of rank k of the second, and the sum of its first k eigenvalues is at most the sum of the first k of both. This holds for regions limited in latitude and longitude cut along a meridian or a circle of latitude, for masks, and for regions of a mesh. A polar gap is covered by the cap of its angle and the reflected one, so its eigenvalues are between the cap's own and the sums of two of them: that of rank 2k is at most twice the cap's of rank k.", "quantifier": "all bandlimits, angles, bounds and cuts, all masks, all meshes, basis functions and regions, all ranks, all workers and solvers", "why_tests_cant": "Relates three runs of the eigensolver for all regions; tests compute single regions.", "anchors": ["src/sleplet/slepian/slepian_polar_cap.py:SlepianPolarCap._solve_eigenproblem", "src/sleplet/slepian/slepian_polar_cap.py:SlepianPolarCap._polar_gap_modification", "src/sleplet/slepian/slepian_limit_lat_lon.py:SlepianLimitLatLon._solve_eigenproblem", "src/sleplet/slepian/slepian_arbitrary.py:SlepianArbitrary._solve_eigenproblem", "src/sleplet/meshes/mesh_slepian.py:MeshSlepian._compute_slepian_functions"]}
{"id": "C138", "title": "What does not depend on the eigensolver", "statement": "Two runs for the same region, with any numbers of workers, any eigensolver within its contract and any order among equal eigenvalues, give the same eigenvalues and, unless the number of coefficients parts equal eigenvalues, the same reconstruction of every signal and the same sum of squared moduli of the functions used at every point. The Slepian function of an eigenvalue that occurs once is the same up to a factor of modulus one, and so are the moduli of the coefficients of all signals. The same holds for the reconstruction of all fields on a mesh.", "quantifier": "all bandlimits, caps, gaps, bounds and masks, all meshes and regions, all signals and fields, all numbers of coefficients that do not part equal eigenvalues, all pairs of runs", "why_tests_cant": "Quantifies over pairs of solvers and sortings; tests run one library version on one machine.", "anchors": ["src/sleplet/slepian/slepian_polar_cap.py:SlepianPolarCap._solve_eigenproblem", "src/sleplet/slepian/slepian_limit_lat_lon.py:SlepianLimitLatLon._solve_eigenproblem", "src/sleplet/slepian/slepian_arbitrary.py:SlepianArbitrary._solve_eigenproblem", "src/sleplet/slepian_methods.py:slepian_forward", "src/sleplet/slepian_methods.py:slepian_inverse", "src/sleplet/meshes/mesh_slepian.py:MeshSlepian._compute_slepian_functions", "src/sleplet/slepian_methods.py:slepian_mesh_forward", "src/sleplet/slepian_methods.py:slepian_mesh_inverse"]}
{"id": "C139", "title": "Errors in the concentration matrix", "statement": "If every entry of the concentration matrix handed to the eigensolver is within e of the exact one, the Slepian functions returned are still orthonormal, and the eigenvalues returned are within L^2 e of the exact ones and within L^2 e of the parts of their energy that the functions returned have in the region. If the first N exact eigenvalues are greater than the others by at least g, the components of the first N functions returned along the later exact functions have at most the energy 2 N L^2 e / g together, and at most N (L^2 e / (g - L^2 e))^2 if g is greater than L^2 e. If an eigenvalue differs from all others by at least g, greater than L^2 e, the function returned for it is the exact one up to a factor and up to the part (L^2 e / (g - L^2 e))^2 of its energy, and the modulus of the coefficient of any signal changes by at most sqrt(2) L^2 e / (g - L^2 e) times the norm of the signal. The same holds on meshes with the number of basis functions in place of L^2.", "quantifier": "all bandlimits, caps, gaps, bounds and masks, all meshes and regions, all sizes of errors, all Hermitian matrices within the errors, all numbers of functions", "why_tests_cant": "Quantifies over all errors; tests see the rounding of one machine and compare with themselves.", "anchors": ["src/sleplet/slepian/slepian_polar_cap.py:SlepianPolarCap._solve_eigenproblem", "src/sleplet/slepian/slepian_limit_lat_lon.py:SlepianLimitLatLon._solve_eigenproblem", "src/sleplet/slepian/slepian_limit_lat_lon.py:SlepianLimitLatLon._clean_evals_and_evecs", "src/sleplet/slepian/slepian_arbitrary.py:SlepianArbitrary._solve_eigenproblem", "src/sleplet/_slepian_arbitrary_methods.py:clean_evals_and_evecs", "src/sleplet/meshes/mesh_slepian.py:MeshSlepian._compute_slepian_functions", "src/sleplet/meshes/mesh_slepian.py:MeshSlepian._clean_evals_and_evecs"]}
{"id": "C140", "title": "The functions kept are those concentrated in the region", "statement": "Let T be the sum of x (1 - x) over all eigenvalues x of a polar cap or a region limited in latitude and longitude. The number N of Slepian functions kept by default differs from the number of functions with more than half of their energy in the region by at most 2 T + 1/2, and what the functions kept have outside the region and the others have inside it adds up to at most 4 T + 1/2. For polar gaps, where the number kept counts one of the two caps only, the number of concentrated functions is within 2 T + 1 of twice the number kept. On a mesh it is within 2 T of the sum of the squares of the basis functions over the vertices of the region.", "quantifier": "all bandlimits, caps, gaps without overlap and bounds, all meshes and regions, all workers, solvers and sortings within their contracts", "why_tests_cant": "Relates a rounded area to all eigenvalues of every region; tests look at a few regions and do not compute all eigenvalues.", "anchors": ["src/sleplet/slepian/slepian_functions.py:SlepianFunctions", "src/sleplet/slepian/slepian_polar_cap.py:SlepianPolarCap._calculate_area", "src/sleplet/slepian/slepian_limit_lat_lon.py:SlepianLimitLatLon._calculate_area", "src/sleplet/slepian/slepian_polar_cap.py:SlepianPolarCap._solve_eigenproblem", "src/sleplet/slepian/slepian_limit_lat_lon.py:SlepianLimitLatLon._solve_eigenproblem", "src/sleplet/meshes/mesh_slepian.py:MeshSlepian._compute_slepian_functions"]}
{"id": "C141", "title": "Small errors in the concentration matrix change reconstructions little", "statement": "Let every entry of the concentration matrix handed to the eigenvalue solver be within e of its exact value, and let the first N exact eigenvalues be greater than the others by g. A signal transformed forward and back with the first N functions of the matrix in error differs from the same signal transformed forward and back with the exact functions by at most 2 N n e / g of its energy, and at most N (n e / (g - n e))^2 of it if g is greater than n e, where n is the number of rows of the whole matrix (the square of the bandlimit, or the number of basis functions of a mesh).", "quantifier": "all bandlimits, caps, gaps, bounds, masks, meshes and signals, all errors of the entries, all numbers N of functions and all pixel grids, all solvers and sortings within their contracts", "why_tests_cant": "Bounds the effect of every possible error on every signal; a test sees the errors of one run and no exact functions to compare with.", "anchors": ["src/sleplet/slepian_methods.py:slepian_forward", "src/sleplet/slepian_methods.py:slepian_inverse", "src/sleplet/slepian/slepian_polar_cap.py:SlepianPolarCap._solve_eigenproblem", "src/sleplet/slepian/slepian_limit_lat_lon.py:SlepianLimitLatLon._solve_eigenproblem", "src/sleplet/slepian/slepian_arbitrary.py:SlepianArbitrary._solve_eigenproblem", "src/sleplet/meshes/mesh_slepian.py:MeshSlepian._compute_slepian_functions"]}
{"id": "C142", "title": "Regions that differ little give nearly the same reconstructions", "statement": "Take two polar caps, two polar gaps, two regions limited in latitude and longitude, two masks or two regions of one mesh. Let d be the square of the bandlimit over 4 pi times the area between them: the ring between the caps (two rings for gaps), the area swept when the bounds move one after the other, the weights of the pixels in which the masks differ; for a mesh d is the sum of the squares of the basis functions at the vertices in which the regions differ. Then each eigenvalue of one region is within d of the eigenvalue of the other with the same rank. If the first N eigenvalues of one region are greater than the others by g, a signal transformed forward and back with the first N functions of one region and with the first N of the other gives two signals whose difference has at most 2 N d / g of the energy of the signal, and at most N (d / (g - d))^2 of it when g is greater than d. If all other eigenvalues are at least g > d away from the k-th, the k-th functions of the two regions have a scalar product of modulus squared at least 1 - (d / (g - d))^2.", "quantifier": "all bandlimits, all pairs of caps, gaps, bounds, masks and mesh regions, nested or not, all signals, all numbers N of functions and all pixel grids, all solvers and sortings within their contracts", "why_tests_cant": "Compares the whole computation for every pair of regions and every signal; tests compute one region at a time.", "anchors": ["src/sleplet/slepian_methods.py:slepian_forward", "src/sleplet/slepian_methods.py:slepian_inverse", "src/sleplet/slepian/slepian_polar_cap.py:SlepianPolarCap._solve_eigenproblem", "src/sleplet/slepian/slepian_limit_lat_lon.py:SlepianLimitLatLon._solve_eigenproblem", "src/sleplet/slepian/slepian_arbitrary.py:SlepianArbitrary._solve_eigenproblem", "src/sleplet/meshes/mesh_slepian.py:MeshSlepian._compute_slepian_functions"]}
{"id": "C143", "title": "Reconstructions with the cached functions of another region", "statement": "Cache file names round angles to degrees, so a polar cap, a polar gap or a region limited in latitude and longitude that is constructed after a similar one may hold the functions of the other. After any sequence of constructions in a directory without files, of which the first to save under its name was a region of the same kind, a signal transformed forward and back with the object constructed last differs from the one its own functions give by little when the eigenvalues are separated. Let d be the smaller of 1 and L**2 pi / 360 for caps, twice that for gaps, and L**2 (pi + 1) / 180 for regions limited in latitude and longitude, and let the first N eigenvalues it holds, N the Shannon number, be greater than the others by g. Then the difference has at most 2 N d / g of the energy of the signal and, if g is greater than d, at most N (d / (g - d))**2 of it.", "quantifier": "all bandlimits, all pairs of caps, gaps or bounds with the same file names, all constructions before and between them (for bounds, none of a cap with that name after the first), all signals and pixel grids, all solvers and sortings within their contracts", "why_tests_cant": "Follows a name collision through the cache to the signals computed from it; tests construct one region of each name and do not compare signals.", "anchors": ["src/sleplet/slepian_methods.py:slepian_forward", "src/sleplet/slepian_methods.py:slepian_inverse", "src/sleplet/slepian/slepian_polar_cap.py:SlepianPolarCap._solve_eigenproblem", "src/sleplet/slepian/slepian_limit_lat_lon.py:SlepianLimitLatLon._solve_eigenproblem", "src/sleplet/slepian/slepian_functions.py:SlepianFunctions.__post_init__"]}
{"id": "C144", "title": "The first region to save under a name decides", "statement": "Let any regions be constructed one after another over a data directory that starts without files, also ones that fail to validate and single orders of caps. A region whose file names none of them saved under gets its own eigenvalues and eigenvectors. Otherwise it gets the eigenvalues of the first that saved under its name and the eigenvectors saved then, and no later construction replaces these files; single orders of a cap never save. There is one exception: regions that are not caps save no orders, so a cap whose name only they have saved under computes and keeps its own solution.", "quantifier": "all sequences of constructions of caps, gaps, bounds and masks, with and without a single order, valid or not; all names, all solvers", "why_tests_cant": "An induction over sequences of sessions of any length; tests run one construction in a directory.", "anchors": ["src/sleplet/slepian/slepian_polar_cap.py:SlepianPolarCap._solve_eigenproblem", "src/sleplet/slepian/slepian_limit_lat_lon.py:SlepianLimitLatLon._solve_eigenproblem", "src/sleplet/slepian/slepian_arbitrary.py:SlepianArbitrary._solve_eigenproblem", "src/sleplet/slepian/slepian_functions.py:SlepianFunctions.__post_init__", "src/sleplet/_data/setup_pooch.py:find_on_pooch_then_local"]}
{"id": "C145", "title": "Whatever the history, an object holds solutions saved under its own name", "statement": "Let any regions be constructed at the same time over one data directory, with constructions killed and files deleted at any moment. A region constructed to its end, with all its orders, holds either its own solution or eigenvalues, eigenvectors and orders that regions of the same file names saved. The eigenvalues and the eigenvectors need not be of the same region: two concurrent constructions of regions with the same names can leave the eigenvalues of one beside the eigenvectors of the other. For a cap or gap whose names only caps or gaps share, the eigenvalues and the reconstructed signals stay within the bounds of C143 also then.", "quantifier": "all histories of concurrent constructions of caps, gaps, bounds and masks, all kills and deletions, all names, all solvers; for the bounds, all bandlimits and signals", "why_tests_cant": "An invariant of every interleaving of any number of processes; tests run one construction in a directory.", "anchors": ["src/sleplet/slepian/slepian_polar_cap.py:SlepianPolarCap._solve_eigenproblem", "src/sleplet/slepian/slepian_limit_lat_lon.py:SlepianLimitLatLon._solve_eigenproblem", "src/sleplet/slepian/slepian_arbitrary.py:SlepianArbitrary._solve_eigenproblem", "src/sleplet/slepian/slepian_functions.py:SlepianFunctions.__post_init__", "src/sleplet/_data/setup_pooch.py:find_on_pooch_then_local"]}
