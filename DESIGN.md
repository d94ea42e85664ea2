# Formal model of sleplet in Lean 4: design

The code under study is the Python package `/repo/src/sleplet` (pinned commit).  It is read as text only.
The model is a set of small total Lean functions (`/verif/lean/Verif/Model/*.lean`), each citing the file and
lines it mirrors.  Small specifications that do not use the model's helpers are in `Verif/Spec/*.lean`,
helper lemmas in `Verif/Lemmas/*.lean`, and the property theorems with their concrete instances in
`Verif/Props/*.lean`.

## 1. Modelling decisions

* **Numbers.** Floating point is replaced by exact `ℝ`/`ℂ` (Mathlib).  Rounding, NaN, overflow and
  tolerance effects are out of scope except where the code itself names a tolerance (1e-14, `np.isclose`).
  Integers are exact in both.
* **Arrays.** Where shapes can go wrong (broadcasting, truncation, dropped rows, indices) arrays are `List`s
  and operations return `Except Err _`, with one constructor per Python exception class.  Where shapes are fixed
  by construction arrays are functions on `Fin n` or on `ℕ` with a size.
* **Exceptions** are values (`Except`), so every error branch is visible in statements.
* **Threads.** A worker is a list of atomic actions on shared state; an execution is any interleaving of the
  workers' lists (`Interleaving`), so theorems about schedules quantify over all of them.
* **Files.** The cache is a state machine over a map from file names to contents; constructors are programs that
  emit a list of file operations, and a crash is any prefix of that list (a torn write is its own content value).
* **External calls** (`pyssht`, `pys2let`, `numpy.linalg.eigh`, `igl`, `numpy.random`, `pooch`, `scipy.special`)
  are parameters.  Whatever a theorem assumes about them is a hypothesis in its statement and is listed in section 4.
* **Sorting.** `argsort` is any sorting permutation: NumPy's default is not stable, so nothing may depend on ties.
* **pydantic** validation is modelled as running before `__post_init__` and after assignment (`validate_assignment`).

## 2. Trusted base

* Lean 4.33.0's kernel, and the Mathlib it was built against.
* Axioms: at most `propext`, `Classical.choice`, `Quot.sound` for each theorem.  `Verif/Audit.lean` prints the
  axioms of every property theorem at build time.  No other axiom, no `sorry`, no `native_decide`, no `bv_decide`.
* The transcription of Python to Lean, done by hand (section 3 says what is and is not transcribed).

## 3. What is modelled and how each property is proved

| id | model | proof |
|----|-------|-------|
| C01, C02 | `split_arr_into_chunks` on lists: second-half reversal, strided slices, sort | permutation of strided slices by induction; length formula |
| C03 | worker programs with atomic reads/writes of the shared matrix and field dictionary | invariant over any interleaving; disjoint writes; coverage by case split on orders |
| C04 | executor with discarded results | negation with witness (a failing entry leaves zeros); partial: no failure implies full matrix |
| C05, C06 | same scheduler, mesh and polar programs | as C03 |
| C07 | `_polar_gap_modification`, `_dm_matrix_helper` | parity case split |
| C08 | area formulas, mask predicates, Shannon rounding | interval integrals; negation for the gap |
| C09, C10 | `Region`, `_bool_methods`, validators, `choose_slepian_method` | decision logic stated outright |
| C11, C12 | name strings, cache state machine | collision witness; injectivity of the string encodings; invariant over histories |
| C13, C14 | cache state machine with truncation | invariant over histories; witness for the violated part |
| C15, C16 | crash prefixes, lookup with precedence | invariant over crashed histories |
| C17, C18, C19, C20 | four cleaning routines over an arbitrary sorting permutation | permutation, inner products, support |
| C21 | index arithmetic, emm vector as the nested loop builds it | bijection, induction on L |
| C22, C23 | loops writing coefficient vectors, seeded stream | loop invariant; purity |
| C24 | `_boost_coefficient_resolution`, resolution check | pointwise |
| C25 | sifting convolution with broadcasting and truncation | algebra |
| C26, C27, C28 | wavelet transforms on lists of rows with dropped zero rows | algebra; witnesses; partial under trailing zeros |
| C29, C30, C31 | thresholding, SNR | pointwise; logarithm algebra |
| C32, C33, C34 | decomposition class | orthonormal families, decision table |
| C35, C36 | mesh transforms, orthonormalisation | finite sums |
| C37, C38, C39 | masks and quadrature | decision logic; finite sums |
| C40 .. C43, C60 | plot helpers | case split; argmin; order |
| C44, C45, C46 | string encodings | injectivity, witnesses |
| C47 | environment parsing | decision table |
| C48 | rank validators | boundary, witness |
| C49 | table G as the loops write it, matrix K written by any number of threads | antiderivatives, interval integrals over ℂ, rely–guarantee over interleavings |
| C50 | quadratic forms of the matrices, eigensolver, cleaning | positivity and monotonicity of integrals / sums, addition theorem, Fourier expansion of spherical harmonics with Wigner-d values; polar caps (through C65), latitude/longitude regions and masks with the spherical harmonics themselves; for masks a Clenshaw-Curtis type quadrature on the same samples that is exact, bounded below by the cosine series of the sine |
| C51 | Racah sum as coded | reindexing of the finite sum |
| C52, C53, C54, C55, C56 | constructors of functions | decision logic; witnesses |
| C57 | triangle fill | pointwise |
| C58, C59 | Shannon number of meshes, smoothing | order |
| C61 | Slepian functions of a rank | decision logic; witness |
| C62 | weights from sample positions, mask area | telescoping sine sum, bounds on `x cot x`, rounding |
| C63 | upsampling and amplitudes | nested sample grids, padding, order |
| C64 | masking of mesh signals | finite sums, Bessel's inequality, eigenvector equation |
| C65 | table of Legendre polynomials, matrix of one order | Simons' formula (C06), Gaunt's formula (C66), expansion of products in Legendre polynomials, their antiderivatives |
| C66 | 3j symbols (Racah's formula) | Rodrigues' formula, repeated integration by parts, Dixon's identity for `w(0,0,0)` |
| C67 | names of function objects and mesh functions | splitting at underscores, reading the fragments back (C44) |
| C68, C69 | every function class: extra arguments, names (`Model/Classes.lean`) | decision logic by class, names split into fragments, region suffix of Slepian classes |
| C73 | masks and their files (`Model/Masks.lean`) | invariant over sequences of steps, file names parsed |
| C74 | registry of published files with its global (`Model/Pooch.lean`) | invariant over sequences of lookups |
| C75 | the sphere plotting command (`Model/Script.lean`) | composition of C41, C54, C34; file names parsed |
| C76 | coefficients of the remaining classes (`Model/Classes.lean`) | each class run to its closed form; the Slepian wavelet coefficients only where every scale up to the selected one sees the map (partial) |
| C77 | `_setup_args`, `_create_name` and `_add_details_to_name` of the mesh classes (`Model/MeshClasses.lean`) | decision table as an inductive relation; unique parsing of names word by word |
| C78 | coefficients of the mesh classes and noise on them (`Model/MeshClasses.lean`) | each class run to its closed form on a mesh built by the library (`BuiltMesh`) |
| C79 | `mesh_eigendecomposition` and `MeshSlepian` as programs of loads and saves (`Model/MeshCache.lean`) | invariant over histories for a reproducible eigensolver; invariant after every operation for sessions one after another; witnesses for the rest |
| C80 | builds as sequences of events on shared memory blocks (`Model/SharedMemory.lean`) | workers act on their own handles only, so any interleaving runs like each worker alone; explicit leaking run |
| C81 | `sigma_j` for the three kinds of wavelets (`Model/SigmaJ.lean`) | a field of wavelet coefficients of noise is a linear combination of the values drawn; the squares of its weights add up to `sigma_j²`; mean squares by integrating over a probability space |
| C82 | the command `mesh` from parsed arguments to the figure (`Model/MeshScript.lean`) | composition of C39, C42, C46, C77, C78 and the inverse transforms; flags compared by factoring the command through the part that does not read them |
| C83 | `compute_random_signal`, `create_flm` of the CMB, covariances of the examples (`Model/RandomSignals.lean`, `Model/Noise.lean`) | as C81, with covariances of linear combinations of the values drawn; addition theorem for the field |
| C84 | the denoising demonstrations (`Model/Denoising.lean`), from the models of C26, C27, C30, C81 | composition of their theorems on explicit lists; Cauchy–Schwarz over the scales |
| C85 | command line, objects and figure of `sphere` (`Model/SphereScript.lean`), from the models of C40–C43, C52, C68–C70, C72, C75 | composition of their theorems; the tables of functions and maps are compared with the class lists by evaluation |
| C86 | `Functions.translate`, `Functions.convolve`, `Functions.flmHelper`, `Functions.diracDelta`; fields and integrals in `Spec/Convolution.lean` | Parseval from the orthonormality of the spherical harmonics (`Lemmas/SphHarm.lean`), and their addition theorem (`Lemmas/Addition.lean`), proved with the bilinear form of degree-`2l` polynomials under rotation |
| C87 | `Wavelets.axisymForward`, `axisymInverse`, `createAxisym` | as C86, with the coefficient formulas of C23 |
| C88 | the eigenproblem models of C17–C19, C50 and the transforms of C32; the concentration problem is stated in `Spec/BestConcentrated.lean` | a basis orthonormal for one form and diagonal for the other solves it (Rayleigh quotients, Bessel inequality, Ky Fan); unitarity of the eigenvector matrix gives completeness; optimality: N linear numbers miss a combination of N+1 Slepian functions, and it or its opposite is rebuilt badly (parallelogram law) |
| C89 | `Masks.rotateToAfrica`, `rotateToSouthAmerica`, `africaMask`, `southAmericaMask`, `Script.harmonic`, `Functions.translate`, `Noise.applyGaussianSmoothing`, `Wavelets.axisymForward`; rotations in `Spec/Rotation.lean` | the addition theorem makes the values of the harmonics of a degree at rotated points a family with the same inner products, hence a unitary map per degree; coefficients are determined by the field |
| C90 | `Experiments.progressiveFields`, `reconstructedField` over the wavelet model of C27 | the array shapes turn the one row of coefficients into a factor of every wavelet; sums of products over the scales |
| C91 | `Experiments.axisymCovariance`, `slepianExperiment` over the models of C83 | sample variance as mean square minus squared mean of linear functionals of the random numbers; runs use disjoint random numbers; almost surely no random number vanishes and no two agree |
| C92 | `Functions.translate`, `fpHelper`, `Transform.slepianInverse`, `Wavelets.slepianForward` | components of fields in the orthonormal Slepian basis, Cauchy-Schwarz, energy in the region as the eigenvalue-weighted sum (C88), sums over the wavelets that see the signal |
| C93 | `PolarFigures.panel`, `findPValue`, `orderPoints` | separation of the field of one row into g(theta) e^{im phi}, energy of the curve by the orthonormality of harmonics and the matrix as a cap integral (C65), eigenvalues of two solutions of one matrix as permutations (characteristic polynomial), positions of one order in the merged list |
| C94 | `Tiling.createKappas` over the generating functions of S2LET; the transforms of C26-C28 | telescoping sum of squared scaling functions, positivity of the integral of a bump, first rank of each scale is monotone in the scale |
| C95 | `Sparsity.coefficientsFigure`, `sparsityFigure`, `translationFigure` | uniqueness of sorted rearrangements, exchange argument for the K largest, Pythagoras for orthonormal rows; parity of associated Legendre functions and orthonormality of harmonics for the norms |
| C96 | `Plot.setupFull`, `colourScale`, `drawnVertex`, `cameraEye` | arrays row by row, closed with one more column; injectivity of cosine on [0, π] and of angles modulo 2π |
| C97 | `Plot.setupFull` with `colourRange` and `parametric` | the same arrays; the radius formula compared with the normalised one |
| C98 | `EigenFigure.figure`, `combined`, `meshFigure` | ceiling of the binary logarithm; the traces of C50 against the rounded area |
| C99 | `ErrorFigure.figure` on the decompositions of C33 | triangle inequality with its equality case; agreement of the three methods (C34) |
| C100 | `TilingFigure.figure` with the monotone cubic `pchip` written out | bounds on the cubic from the limits on its derivatives; the tiling of C94 |
| C101 | `SmallFigures.regionFigure` on the mesh plot of C60 | the branches of the normalisation (C42) |
| C102 | `SmallFigures.rickerFigure` | floor against ceiling of the same quotient; tangent of the exponential |
| C103 | `SphereScript.findMaxAmplitude` with the transforms of C85 | the field and its upsampling are samples of the same function |
| C104 | `MeshLaplacian.meshEigendecomposition`, with the cotangent matrix written out | the form of the cotangent matrix on a face is area times squared gradient; Rayleigh quotients on the complement of eigenvectors |
| C105 | `invertFlmBoosted`, `Transform.slepianInverse` with synthesis by spherical harmonics on the MWSS grid | longitudes separate the orders by sums of characters; for one order the colatitudes are more nodes than the degree of a polynomial of the cosine; Parseval |
| C106 | `PolarOrders.construct`: `order` as `None`, integer or array, with the loads and saves of `Model/Cache.lean` | runs of the program on no files and on the files of the first run; broadcasting of the mask; solutions counted by order |
| C107 | `RegionAssign.assign`, `assignAll` on the objects of `Model/Region.lean` | induction over the assignments; masks and methods depend on the type and the fields only |
| C108 | `MeshRead.upsample`, `readMesh` with `igl.upsample` written out | a triangle is the union of its four parts by barycentric coordinates; areas by Gram determinants; induction over the subdivisions |
| C109 | `Integration.wholeMesh`, `regionMesh`, `meshShannon` on the meshes of C108 | surface integrals of functions linear on the faces as weighted sums over vertices; witnesses of two triangles |
| C110 | `ObjectUses.call`, `calls`, `assign` on the objects of `Functions` | induction over the calls: the results do not depend on the flag |
| C111 | the models of C50 and C88 | min-max: `Lemmas/CompareConcentration` compares the numbers of two concentration problems, `Lemmas/RegionEnergy` the energies of bandlimited fields in related regions |
| C112 | the models of C11, C15, C32, C50 composed (`SolutionOf`: the answers of the solver in the cache model are those of the modelled solver) | composition of C11/C15, C88 and C32; for the fault C11 and the strict growth of eigenvalues (C111) |
| C113 | the models of C32, C35, C36, C50 and C79 composed (`MeshContracts`: what `eigsh` and the solver return in the model of the files are orthogonal functions, normalised, and the modelled solution for them) | composition of C79, C36, C88 and C32; for the fault the race of C79 and the best concentrated function on two vertices |
| C114 | the models of C11, C49, C50 and C111 | the numbers of a concentration problem add up to the energies of any orthonormal basis; the harmonics at a point have the energy `L²/4π` together; nested regions by C111 |
| C115 | the models of C11, C32 and C35 | the loop over ranks stops at the first failing one; products by number of coefficients; two constructions in a row leave `L²` and then `N` rows |
| C116 | the models of C112 and C94 | composition; a scale that is dropped multiplies nothing but zeros, so the energies of the others add up; the way back is decided by `C27_round_trip_iff` |
| C117 | the models of C113 and C94 | composition, with the energies of the scales from C116 |
| C118 | the model of C85 | the name is taken apart: ending of the plot, label of the function, noise, smoothing, bandlimit, method, map, view; then each stage of the run is a function of the parts (noise is reseeded) |
| C119 | the model of C82 | names are lists of words without underscores; the words give the mesh, the class, its parameters and the settings, of which the run is a function (noise is reseeded) |
| C120 | the models of C22, C31, C42, C53, C84 | every program is run beside itself on the rescaled input: each step commutes with the factor, through sequencing, loops, `mapM` and broadcasting, exceptions included |
| C121 | `Demos`: the `main` functions of the denoising demonstrations, from the objects over the denoising of C84 to the figure | the objects are made in every session (C53, C70, C78), the denoising is C84, the scale is C103 or the greatest vertex value, the figure is that of C39 and C82; everything is stated with the transforms of the basis, not with the model of the denoising |
| C122 | `Reconstructions`: the `main` functions of the reconstructions and of the fried-egg figure, from the objects to the figures | the objects are those of C85 and C121, made in every session; the fields are those of C27 and C90; the figure is that of C121 without a given scale; stated with the Slepian basis, not with the model of the reconstruction.  That the last figure scale by scale is not the map is the violation of C90 |
| C123 | the models of C39, C43, C60 | the figure with a region is compared with the figure without one; whether the number shown outside is below the scale is decided exactly |
| C124 | the models of C26, C27, C32, C35 | three runs of each program side by side, related through sequencing, loops, broadcasting and assignment (`Lemmas/Superposition`) |
| C125 | the models of C32, C34 | the integrands agree at every sample |
| C126 | the models of C83, C84 and C121 | each cut field has at most the energy of the field (Bessel, Parseval: `Lemmas/Bessel`), and recombining scales is a contraction by Cauchy-Schwarz |
| C127 | the models of C83, C84 and C121 | the difference of each cut field is bounded by the threshold at each sample; summed over scales with the noise formulas of the code |
| C128 | the models of C32, C33, C34 | the Slepian functions are orthogonal in the region with squared norms the eigenvalues; Pythagoras for weighted sums (`Lemmas/Gram`) |
| C129 | the models of C32, C33, C55, C81 | the addition theorem over all degrees; Bessel for orthonormal rows of harmonic coefficients; Cauchy-Schwarz (`Lemmas/Peaks`) |
| C130 | the models of C50, C98, C111 | numbers that never rise, bounded above and with known sum; for masks, the samples on the L best filled rings tell apart at least as many bandlimited fields as the Shannon number (`Lemmas/MaskRank`, `Lemmas/MaskCount`); a complete orthonormal basis makes the concentration matrix a projection |
| C131 | `Model/OrderPanels.lean` with the models of C50, C93 | the panels are computed outright; C93 for the marks, C50 and C130 for the heights, C111 for the rise between panels; Shannon numbers from bounds of the cosine |
| C132 | the models of C08, C28, C32, C58, C61 | when rounding gives at least one; the empty case of each transform |
| C133 | the models of C17, C19, C49, C50 | a map that keeps both energies has a unitary matrix commuting with the eigenvalues |
| C134 | the models of C32 and C133 | leaving out components commutes with maps that keep both energies, unless equal eigenvalues are parted |
| C135 | the models of C111 | the fields of the smaller bandlimit are singled out by as many linear conditions as harmonics were added; as many places are lost |
| C136 | the models of C111 | on fields that vanish at the added pixels both regions hold the same energy |
| C137 | the models of C111 | a field orthogonal to the leading functions of both covering regions, among as many functions of the covered one and one more |
| C138 | the models of C32 and C133 | two families that both attain the greatest sums of energies span the same fields where the eigenvalues drop |
| C139 | the models of C88, with another matrix handed to the solver | quadratic forms of matrices with close entries; Courant's comparison; weights of the functions returned; residuals of the functions returned in the exact problem (as Davis and Kahan) |
| C140 | the models of C08 and C50 | numbers between zero and one: those above one half against their sum; moving the cut by one place |
| C141 | the models of C88, C139 and C32 | the difference of two orthogonal projections, component by component along one of the two families; Cauchy–Schwarz on each of the two blocks |
| C142 | the models of C88 and C32 | the squared modulus of a bandlimited field is nowhere greater than L²/4π times its energy, so the energies in the two regions differ by at most d; then the comparison of two concentration problems of C139 and of two projections of C141; a quadratic form that is at most d has an operator of norm at most d (polarisation), which gives the residuals of the functions of one region in the problem of the other |
| C143 | the models of C11, C88 and C32 | C144 gives the rows saved for the other region, equal to its first N; equal names bound the change of each angle by one degree and that of a cap's Shannon number by one; then C142 |
| C144 | the model of C11, constructions run one after another | a construction leaves the directory as it is or saves because a file is missing; the files of a name are absent up to the first save and the same ever after, by induction |
| C145 | the histories of C11, without the assumption that names differ | every file of a name was saved by a region of that name (invariant of C11); an explicit interleaving of two constructions mixes their files; the bounds of C143 for eigenvalues and functions of two other caps |
| C70, C71, C72 | every function class: coefficients, flags, regions | case analysis over classes, using C22, C26, C34, C53, C55 |

None of the listed properties is declared impossible to express; properties that the code violates are recorded as
a negation theorem plus a `_partial` theorem.

## 4. Assumptions about external calls

Each is a hypothesis or a parameter of the theorems that use it; the notes in `MANIFEST.json` repeat them per property.

* `pyssht.inverse`: linear synthesis with fixed basis fields `Y(l,m)`, with `Y(l,-m) = (-1)^m conj Y(l,m)` (C03, C32, C34).
* quadrature: exact on products of basis functions where a theorem says so (C34, `C50_arbitrary_energy_ratio`; not assumed in
  `C50_arbitrary_bounded_partial`, where the inverse transform is assumed to sample the spherical harmonics); C62 and
  `C34_quadrature_violation` show how far the program's own weights are from that.
* `ssht.generate_dl(π/2, L)`: any table of shape `(L, 2L-1, 2L-1)` (C49); for `C49_matrix_of_spherical_harmonics`
  and C50, the table of Wigner's `d^l_{ab}(π/2)` by his formula (`Spec.wignerHalfPi`). That the Fourier expansion with this table is
  the spherical harmonic of Rodrigues' formula is proved (`Lemmas/WignerD.lean`).
* `numba.prange`: every iteration runs once, on some thread, interleaved arbitrarily at the level of array accesses (C49).
* `numpy.linalg.eigh`: orthonormal eigenvectors, real eigenvalues, any order (C17 .. C20).
* `argsort`: any sorting permutation.
* `np.save` followed by `np.load` returns the array saved; an interrupted `np.save` leaves a file on which `np.load`
  raises (any exception) or the old file (C13 .. C16).  `FileNotFoundError`/`TypeError` of a missing file is modelled.
* `pooch.retrieve` of a published name returns the published content (C16).
* `numpy.random.default_rng(seed)`: value number `k` is a function of `seed` and `k` (C22, C23, C31).
* `ssht.gaussian_smoothing`: multiplies degree `l` by `exp(-l² σ²)`, as `_smoothing.py` documents (C22, C59).
* `fractions.Fraction.limit_denominator`: fixes rationals of denominator at most a million and returns such a rational
  (C44, C45).
* `scipy.special.gammaln(x)`: `log Γ(x)`; `(-1)**x` for a half integer has real part `cos πx` (C55).
* `ssht.create_ylm`: any vector of `L²` values (C54); for C65 and C50 on polar caps, `(2L)²` values with the harmonic of
  degree `n` and order zero (`Spec/Harmonics.lean`, Rodrigues' formula) at index `n(n+1)`.
* pydantic: fields are validated in order, later validators run after an earlier one failed, assignment validates (C56).
* `ssht.sample_positions(L, Method="MWSS")`: colatitudes `πt/L`, `t = 0..L`, longitudes `πp/L`, `p = 0..2L-1` (C41, C62, C63).
* `ssht.inverse` for plots: evaluates functions of position that do not depend on `L` at these positions (C63).
* `igl.average_onto_faces`: the mean of the three vertex values (C60).
* `ssht.forward`: `L²` coefficients, with `Reality=True` and spin zero those of a real signal (C70); nothing else is used.
* the topography file: at least `L²` coefficients, real at order zero (C22, C70).
* `pys2let.wavelet_tiling`: rows with a value for every degree (C71) or Slepian rank (C72); `pys2let_j_max`: any function.
* `igl.per_vertex_normals`: any field on the vertices (C78); `format(x, "e")`: any string (C78), without underscores (C77).
* `scipy.sparse.linalg.eigsh` (C79): a function of the mesh, the number of basis functions and the run; it returns as many eigenvalues as asked for. The published files hold whole bases.
* `SharedMemory` (C80): creation fails for size zero only; `close` may be repeated; access after `close` and `attach` or `unlink` of a removed block are errors. `ThreadPoolExecutor` rejects `max_workers` below one and waits for its tasks.
* `rng.standard_normal()` (C81): independent standard normal random variables (`Spec/StandardNormals.lean`), in the theorems on averages only. `ssht.inverse` is linear; for axisymmetric wavelets it sums the harmonics of `Spec/Harmonics.lean`, whose addition theorem `∑_m |Y_lm(x)|² = (2l+1)/4π` is proved; for Slepian noise `ssht.forward` inverts it.
* `argparse` (C82): options are split as declared; a value refused by a validator ends the command. Mesh files and their settings are given for each name; zoom factors are not zero.
* `rng.standard_normal(n)` (C83): the next `n` values of the generator, in order. A negative variance or power, which gives nan, is excluded.
* the transforms in the denoising demonstrations (C84): total, with as many coefficients as given; for the extremes the forward one inverts the inverse one. Both proved for the Slepian transforms of the sphere (`C84_sphere`), the second from exact quadrature.
* `ssht.inverse`, `ssht.forward`, `ssht.create_ylm`, `ssht.rotate_flms` in `sphere` (C85, `GoodTransforms`): the inverse evaluates the expansion in given functions at the samples, the forward transform returns the coefficients except where the function is zero (degrees below the spin); the flag for real signals is only assumed to work for real signals of spin zero. `choose_slepian_method` gives eigenvectors for each rank below the Shannon number (`GoodSlepian`).
* `ssht.create_ylm` gives the true spherical harmonics at points with colatitude in `[0, π]` (C86, `CreatesHarmonics`; the existence is shown by `exactYlm_creates`).
* `ssht.rotate_flms` (C89, `RotatesFields`): the field of the result at a rotated point is the field of the input at the point, the rotation being z-y-z with the given angles. `C89_exists_unique` proves that such a function exists and is unique. `ssht.inverse` with `Reality=True` (C89, `SamplesFields`) evaluates real fields at the samples.
* `ssht.inverse` in the covariance experiment (C91) evaluates the field at a non-empty list of samples.
* `ssht.inverse` (C92, structure `SlepianOn`) evaluates bandlimited fields at the samples; the eigenvectors solve the concentration problem, as C88 proves of those the code computes.
* `ssht.inverse` (C93, `Evaluates`) samples the field at colatitudes t pi/L and longitudes p pi/L; the published file of orders is that of a solution of all orders; matplotlib and seaborn draw the points they are given and raise `ValueError` for lists of different lengths.
* `pys2let.axisym_wav_l` and `pys2let_j_max` (C94, `Model/Tiling.lean`) compute the generating functions of S2LET as documented, for the scales `j_min..J`; integrals are exact. Everywhere else they stay arbitrary, as stated with each property.
* seaborn and matplotlib (C95) draw the points they are given and raise `ValueError` when the coordinates differ in number.
* `ssht.sample_positions`, `s2_to_cart` and `spherical_to_cart` (C96, C97) give the MWSS grid and the usual Cartesian coordinates; plotly draws ticks at `tick0 + k·dtick`.
* matplotlib (C98) draws one point per pair and raises `ValueError` for coordinates of different lengths; the logarithm of 2 is exact at powers of two.
* SciPy's `pchip` (C100) is the Fritsch–Carlson rule as written out in `TilingFigure.lean` and raises `ValueError` below two nodes; matplotlib's `xticks` widens the axis until it holds all ticks.
* `igl.cotmatrix` (C104) adds, for every edge of every face, half the cotangent of the opposite angle as written out in `MeshLaplacian.lean`; `eigsh` returns orthonormal eigenvectors in ascending order of their eigenvalues, for `which="LM"` those nearest to `sigma` (that the shifted matrix, which is singular for `sigma=0`, can be factorised is left to rounding).
* `ssht.inverse` (C105) evaluates the expansion in spherical harmonics at the colatitudes `tπ/L` and longitudes `pπ/L`.
* NumPy 2 (C106): `==` of two arrays whose shapes do not fit raises `ValueError` (older versions warn and give `False`).
* pydantic (C107, C110): `validate_assignment` runs the validators of the field assigned to and stores the value; `__post_init__` is not run again.
* `igl.upsample` (C108, C109) cuts every face into four at the midpoints of its edges, one new vertex for each edge, after the old ones.
* transforms (C126, C127): the Slepian functions are orthonormal for the quadrature over all samples, with nonnegative weights. For the axisymmetric transforms of `pyssht` this is a hypothesis (`NoGain`: neither direction adds energy; total weight 4 pi for C127); its exact sampling theorem is not shown to satisfy it.
* environment variables: a parser with the stated specification (`StrSpec`, C47).

## 5. Violations found

| property | what the code does | witness |
|---|---|---|
| C04 | exceptions of workers are discarded, leaving zero columns | `C04_worker_failure_swallowed`, `C04_worker_failure_swallowed_mesh` |
| C08 | with `gap=True` the mask covers both caps but the area one; inverted bounds give negative areas | `C08_gap_violation`, `C08_inverted_violation` |
| C11 | file names round angles to degrees, so near-equal regions share cached solutions | `C11_violation` |
| C12 | a custom mask called `polar40` shares its files with the 40 degree cap | `C12_mask_collision` |
| C13 | the number of eigenvector rows depends on whether a cache exists | `C13_rows_depend_on_history` |
| C14 | for `L > 16`, `order=m` raises `IndexError` once the solution of all orders is cached | `C14_large_L_violation` |
| C15 | a process killed inside `np.save` leaves a file that makes later constructions fail | `C15_torn_file` |
| C20 | the sign rule is lost for repeated eigenvalues and for polar caps of nonzero order | `C20_arbitrary_repeated_violated`, `C20_polar_leading_coefficient_negative` |
| C27 | zero rows are dropped before synthesis, which pairs the remaining rows with the leading wavelets | `C27_violation`, exactly the signals for which it matters: `C27_round_trip_iff`; with the wavelets of S2LET, for every signal that vanishes below `B^j_min`: `C27_s2let_violation` |
| C28 | the same dropping makes scale `j` select another scale or raise `IndexError` | `C28_violation` |
| C30 | with too few thresholds `IndexError` is raised after part of the caller's array was overwritten | `C30_short_sigma` |
| C34 | the quadrature weights do not integrate even constants exactly, so integrating gives smaller coefficients than the harmonic sum | `C34_quadrature_violation` |
| C41 | longitudes just below 2π go to the last sample although longitude 0 is nearer on the sphere | `C41_wraparound_violation` |
| C42 | fields below `10⁻⁸` are treated as constant: normalised values leave [0,1] or are not finite | `C42_small_field_violation` |
| C44 | the denominator is dropped from names for magnitudes of at least one | `C44_collisions`, `C44_violation` |
| C50 | longitudes in the wrong order are accepted and give a matrix with a negative eigenvalue | `C50_lat_lon_inverted_violation` |
| C50 | the integration weights of arbitrary regions overestimate some energies: for every `L ≥ 2` the mask of the whole sphere has an eigenvalue greater than one (about 1.005; never above 4/3) | `C50_arbitrary_violation`, `C50_arbitrary_bounded_partial` |
| C50 | polar gaps with `theta_max > π/2` are accepted, the two caps overlap, the overlap is counted twice and some eigenvalue is greater than one | `C50_polar_overlapping_gap_violation`, `C50_polar_overlapping_gap_accepted` |
| C55 | `Identity` is flagged real; the Gaussian is not the documented one | `C55_identity_violation`, `C55_gaussian_documented_violated` |
| C56 | an invalid degree raises `KeyError` from the validator of `m` | `C56_spherical_harmonic` |
| C48 | rank `K` passes the mesh command-line check and fails with `IndexError`; mesh Slepian ranks are never checked | `C48_validation_violation`, `C48_mesh_slepian_violation` |
| C52 | a region given to a harmonic or mesh function changes only its name | `C52_region_ignored`, `C52_mesh_region_ignored`, `C52_violation` |
| C53 | noise on Slepian functions stored with `L²` coefficients raises `ValueError` or, for `N = 1`, is broadcast | `C53_slepian_identity_violation`, `C53_slepian_identity_broadcast` |
| C54 | translation looks for `dirac_delta` anywhere in the name, region included | `C54_name_collision` |
| C69 | widths below `1/2000000` appear as 0 in names, so different Gaussians share names | `C69_tiny_violation` |
| C70 | the reality flag of `Identity` | `C70_identity_violation` |
| C72 | with nothing configured the default region is South America, so `SlepianAfrica(L)` always fails, after doing all the work | `C72_default_region_violation` |
| C72 | noise on Slepian Dirac delta, identity and wavelets fails for `1 < N < L²` | `C72_noise_violation` |
| C74 | the global is assigned before the registry is loaded, so after one failure published files are ignored for the rest of the process | `C74_registry_violation` |
| C75 | `--convolve` multiplies the map with the conjugate of the function, the help says the opposite | `C75_convolution_violation` |
| C75 | `"earth" in filename` makes Slepian coefficients go through a harmonic rotation | `C75_slepian_earth_violation` |
| C77 | `_region` is added to names of mesh Slepian functions: the test looks for `slepian` in the name of the mesh | `C77_slepian_region_violation` |
| C78 | `MeshNoiseField` looks up a class in the wrong module and always raises `AttributeError` | `C78_noise_field_violation` |
| C78 | noise on `MeshSlepianWavelets` raises `ValueError` for `1 < N < K` | `C78_wavelet_noise_violation` |
| C79 | two sessions of a mesh at once leave a basis and the Slepian functions of another basis in the cache; in a two-vertex example the best concentrated function then vanishes on the region | `C79_race_violation`, `C79_race_concentration` |
| C79 | deleting the basis file alone leaves the Slepian functions of the old basis in use | `C79_deletion_violation` |
| C80 | `NCPU` that is not a positive number: `ValueError` after the shared memory blocks have been made, which are left behind; a raising worker leaves its handle open | `C80_leak_violation`, `C80_released_partial` |
| C82 | `mesh --region` ("masks the function for a region") changes only the file name | `C82_region_violation` |
| C82 | `mesh -m noise_field` is offered but always fails | `C82_noise_field_violation` |
| C82 | meshes are drawn as their mirror images: the y and z axes are swapped | `C82_mirrored` |
| C84 | after a wavelet that does not see the signal, the later scales are cut and resynthesised with the wrong scale: a threshold of zero does not return the signal | `C84_slepian_violation` |
| C84 | Slepian wavelet denoising cuts the field of the conjugated coefficients, so it keeps and removes the wrong samples of signals with coefficients that are not real | `C84_conjugate_violation` |
| C85 | `sphere -r` "masks the function for a region" but masks nothing: of harmonic functions only the file name changes, of Slepian functions nothing at all | `C85_region_violation`, `C85_region_violation_slepian` |
| C85 | noisy plots are to keep the colour scale of the clean ones, but the scale is taken from the moduli on the original grid before rotation, translation and convolution, whatever part is shown at whatever resolution | `C85_noise_scale_violation` |
| C90 | the progressive reconstructions multiply each row of wavelet coefficients by the sum of all wavelets, so the last field is not the map | `C90_overlap_violation` |
| C91 | for `j_min = 0` the variance of the scaling function over all realisations is taken over the scales of the first run | `C91_scaling_violation` |
| C95 | when the first Slepian coefficients vanish, zero rows are dropped and the line drawn for the scaling function shows scale `j_min` | `C95_sparsity_label_violation` |
| C97 | with a colour range the closing meridian is taken from the unclipped field, so that the seam shows two colours | `C97_seam_violation` |
| C97 | unseen samples are raised to the lower end of the colour range before they are looked for, so that they are never left out | `C97_unseen_violation` |
| C97 | the parametric radius divides only `vmin` by the range (`f - vmin / (vmax - vmin)`), so that it is not that of the normalised value | `C97_parametric_violation` |
| C98 | for a polar gap the line stands at half the sum of the eigenvalues, since the area counts one of the two caps (as in C08) | `C98_gap_violation` |
| C99 | the figure compares magnitudes, so that a coefficient found with the wrong phase (here the wrong sign) has a dot at zero | `C99_phase_violation` |
| C100 | the axis set to end at the number of basis functions is widened by the ticks to the next power of two | `C100_axis_violation` |
| C103 | the amplitude of a function with a spin is that of the function of spin zero with the same coefficients; here, at bandlimit 3, more than twice the greatest value | `C103_spin_violation` |
| C106 | an array of orders is ignored when nothing is saved (all orders are returned), selects its order afterwards when it has one entry, and raises `ValueError` when it has several; above bandlimit 16 also the array of all orders raises `IndexError` once saved | `C106_fresh_violation`, `C106_history_violation`, `C106_large_violation` |
| C107 | a region keeps its type and name after assignments: with a new `theta_min` a cap remains the cap, with a new `theta_max` its files are named after the old one, and fields the constructor rejects are accepted | `C107_type_violation`, `C107_name_violation`, `C107_constructor_violation` |
| C109 | sums over the vertices of a mesh are not surface integrals: they change when the mesh is refined, functions with different integrals have the same sum, and the Shannon number of half of a surface is not half of the number of basis functions | `C109_refine_violation`, `C109_weights_violation`, `C109_shannon_violation` |
| C110 | `translate` and `convolve` clear the reality flag of the object they are called on, also when they raise; assigned bandlimits and noise levels leave the coefficients and the name of the construction | `C110_flag_violation`, `C110_failure_violation`, `C110_stale_violation`, `C110_noise_violation` |
| C112 | a cap a little wider than one constructed before gets the eigenvalues of that one, which are the energies of no functions in it | `C112_violation` |
| C113 | after two sessions at once every later session gets, without an error, the basis of one run of `eigsh` with the Slepian functions of the other | `C113_violation` |
| C115 | the same lines `slepian_forward(L, slepian, flm=flm, n_coeffs=k)` with `N < k <= L**2` give `k` coefficients the first time on a machine and `IndexError` the second time, for every region other than a polar cap and for polar caps from bandlimit 17 on, since only `N` eigenvectors are saved, and likewise on every mesh; and `slepian_inverse` given a single coefficient where `N > 1` are needed does not fail, it uses it for all `N` functions | `C115_history_violation`, `C115_mesh_history_violation`, `C115_inverse_violation` |
| C116 | the Slepian function of rank `B**j_min`, with all of its energy, comes back from its own wavelet coefficients as the zero field (from C27); which signals come back is decided exactly | `C116_violation` |
| C117 | the same on a mesh: the Slepian function of rank `B**j_min` comes back as the zero field | `C117_violation` |
| C118 | the name does not tell whether `-o` removed the annotations: the annotated figure of a translation and the plain one overwrite each other | `C118_annotation_violation` |
| C120 | `_normalise_function` compares with an absolute tolerance of 1e-8: the same field with a negative and a positive value is drawn from 0 to 1 in one unit, and below 0 in a unit that is large enough | `C120_figure_violation` |
| C123 | `_MESH_UNSEEN` is -1e5 although "negative infinity" is meant: in figures without normalisation of fields that reach 1e5 in size (every nonzero field does in a small enough unit) the faces outside the region are drawn as values of the colour scale, possibly above those inside | `C123_marker_violation` |
| C124 | Slepian wavelet analysis drops the rows of scales without signal, so it is not additive | `C124_slepian_wavelets_violation` |
| C127 | Slepian wavelet denoising with thresholds of zero removes the signal when the first scale does not see it | `C127_slepian_wavelets_violation` |
| C130 | meshes with fewer basis functions than vertices: the number kept is the share of the vertices in the region times the number of basis functions, whatever the basis functions are there; with one basis function that vanishes in a region of two of three vertices, one function is kept and its eigenvalue, by which the region method divides, is zero | `C130_mesh_violation` |
| C132 | caps of at most arccos(1 - 1/L²) at every bandlimit L: accepted, their best function has a positive eigenvalue, and nothing is kept | `C132_violation`, `C132_nothing_left` |
| C134 | the hemisphere at bandlimit 2 keeps one of the two functions of orders 1 and -1, so that a real signal is reconstructed as one that is not real | `C134_violation` |
| C61 | ranks from `N` on are accepted and give the zero function or `IndexError` | `C61_high_rank_violation` |

## 6. Not modelled

* rendering of figures (colours and colour ranges are modelled, and for meshes the camera and the coordinates); download progress;
* float rounding (C139 and C141 bound the effect of errors in the entries of concentration matrices of any origin; the solver's own rounding stays out); performance; logging.
* `order` arguments of `SlepianPolarCap` that are arrays with several axes.
