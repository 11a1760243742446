{"id": "C01", "title": "OSA/ANSI index is a bijection", "statement": "ZernPol.get_osa_index is a one-to-one map from the pairs (m, n) with n >= 0, |m| <= n and n-|m| even onto all integers >= 0.", "quantifier": "every valid pair of orders (unbounded n) and every non-negative index", "why_tests_cant": "Infinitely many orders and pairs of orders; a collision or a gap may sit anywhere.", "anchors": ["src/zernpy/zernikepol.py:ZernPol.get_osa_index"]}
{"id": "C02", "title": "Noll index is a bijection with Noll's parity rule", "statement": "ZernPol.get_noll_index is a one-to-one map from valid (m, n) onto all integers >= 1; an index with m > 0 is even and with m < 0 is odd; indices of radial order n form one contiguous block, ordered by |m|.", "quantifier": "every valid pair of orders and every index >= 1", "why_tests_cant": "Infinitely many pairs; the n mod 4 rule can fail only at some residues.", "anchors": ["src/zernpy/zernikepol.py:ZernPol.get_noll_index"]}
{"id": "C03", "title": "Fringe index is a bijection", "statement": "ZernPol.get_fringe_index is a one-to-one map from valid (m, n) onto all integers >= 1.", "quantifier": "every valid pair of orders and every index >= 1", "why_tests_cant": "Infinitely many pairs; collisions or gaps can be anywhere.", "anchors": ["src/zernpy/zernikepol.py:ZernPol.get_fringe_index"]}
{"id": "C04", "title": "index2orders inverts each index scheme on its supported range and only there", "statement": "For every index of a scheme (OSA, Noll, Fringe) inside the searched range, index2orders returns the unique valid (m, n) with that index; outside that range it returns a fixed sentinel pair that is never a pair of valid orders.", "quantifier": "every integer index of the three schemes, and every combination of the three keyword arguments", "why_tests_cant": "The search loop has boundaries; tests sample a few indices.", "anchors": ["src/zernpy/zernikepol.py:ZernPol.index2orders"]}
{"id": "C05", "title": "Index conversions are mutually inverse", "statement": "osa2noll, noll2osa, osa2fringe, fringe2osa return the index of the same polynomial in the other scheme, for every index >= the minimum of the scheme, so converting back and forth is the identity.", "quantifier": "every index of every scheme (unbounded)", "why_tests_cant": "Unbounded domain; the boundary where the bounded search stops is not sampled.", "anchors": ["src/zernpy/zernikepol.py:ZernPol.osa2noll", "src/zernpy/zernikepol.py:ZernPol.noll2osa", "src/zernpy/zernikepol.py:ZernPol.osa2fringe", "src/zernpy/zernikepol.py:ZernPol.fringe2osa"]}
{"id": "C06", "title": "Index conversions reject bad arguments", "statement": "osa2noll / osa2fringe raise ValueError exactly for non-integers and integers < 0; noll2osa / fringe2osa raise exactly for non-integers and integers < 1; they raise nothing else and otherwise return an integer.", "quantifier": "every Python value passed as index", "why_tests_cant": "Infinitely many values and types.", "anchors": ["src/zernpy/zernikepol.py:ZernPol.osa2noll", "src/zernpy/zernikepol.py:ZernPol.noll2osa", "src/zernpy/zernikepol.py:ZernPol.osa2fringe", "src/zernpy/zernikepol.py:ZernPol.fringe2osa"]}
{"id": "C07", "title": "ZernPol(m, n) accepts exactly the valid orders", "statement": "ZernPol(m=m, n=n) succeeds exactly when m and n are integers with 0 <= n <= 54, |m| <= n and n-|m| even, and raises ValueError otherwise.", "quantifier": "every pair of Python values m, n", "why_tests_cant": "The set of pairs is infinite; the accepted set is defined by a conjunction of checks one of which may be missing.", "anchors": ["src/zernpy/zernikepol.py:ZernPol.__init__"]}
{"id": "C08", "title": "ZernPol(index) accepts exactly the supported indices", "statement": "ZernPol(osa_index=i) succeeds exactly for integers 0..1539, ZernPol(noll_index=i) exactly for 1..1540, ZernPol(fringe_index=i) exactly for those i >= 1 whose polynomial has n <= 54; every other value raises ValueError.", "quantifier": "every Python value passed under each index keyword", "why_tests_cant": "Infinite domain with a boundary in each scheme, and an exception that may be built but not raised.", "anchors": ["src/zernpy/zernikepol.py:ZernPol.__init__", "src/zernpy/zernikepol.py:ZernPol.index2orders"]}
{"id": "C09", "title": "Every constructed polynomial carries consistent orders and indices", "statement": "After any successful construction the reported tuple ((m, n), osa, noll, fringe) has osa, noll and fringe equal to the indices of (m, n), whichever keyword was used.", "quantifier": "every keyword set that leads to a successful construction", "why_tests_cant": "All inputs, all naming variants.", "anchors": ["src/zernpy/zernikepol.py:ZernPol.__init__", "src/zernpy/zernikepol.py:ZernPol.get_indices", "src/zernpy/zernikepol.py:ZernPol.get_mn_orders"]}
{"id": "C10", "title": "All ways of naming a polynomial give the same object", "statement": "For every valid (m, n) with n <= 54, construction by orders, by OSA index, by Noll index and by Fringe index give objects that compare equal and have identical indices.", "quantifier": "every valid (m, n) with n <= 54 and the four ways of naming", "why_tests_cant": "Needs the composition of all conversions on the whole table.", "anchors": ["src/zernpy/zernikepol.py:ZernPol.__init__", "src/zernpy/zernikepol.py:ZernPol.__eq__"]}
{"id": "C11", "title": "Keyword aliases are interchangeable, other keyword sets are rejected", "statement": "n/radial_order, m/l/azimuthal_order/angular_frequency, osa_index/osa/ansi_index/ansi, noll_index/noll, fringe_index/fringe are interchangeable; a call with 0, or more than 2 keywords, or with an unrecognised set, raises ValueError and never returns an object; keyword order does not matter.", "quantifier": "every finite set of keyword arguments with arbitrary names and values", "why_tests_cant": "Arbitrary keyword dictionaries.", "anchors": ["src/zernpy/zernikepol.py:ZernPol.__init__"]}
{"id": "C12", "title": "Comparison is by polynomial identity and OSA order", "statement": "Polynomials built through the public constructor compare == iff they have the same orders (m, n); exactly one of a == b, a > b, b > a holds; > is the OSA order; comparing with another type raises ValueError.", "quantifier": "every pair of constructed polynomials", "why_tests_cant": "All pairs; transitivity and trichotomy are universal statements.", "anchors": ["src/zernpy/zernikepol.py:ZernPol.__eq__", "src/zernpy/zernikepol.py:ZernPol.__gt__"]}
{"id": "C13", "title": "generate_polynomials enumerates all polynomials in OSA order", "statement": "generate_polynomials(k) for an integer 0 <= k <= 54 returns (k+1)(k+2)/2 polynomials, the i-th having OSA index i, containing every valid polynomial with n <= k once; other integers raise ValueError. Any other argument is used as int(k) with a warning: a float is accepted exactly when -1 < k < 55 (so -0.5 gives the piston alone), nan raises ValueError, an infinity an overflow error, a value without conversion TypeError; a second warning is given exactly for orders above 30.", "quantifier": "every argument", "why_tests_cant": "All orders, including completeness of the enumeration.", "anchors": ["src/zernpy/zernikepol.py:generate_polynomials"]}
{"id": "C14", "title": "Polynomial names", "statement": "get_polynomial_name returns a non-empty name, different for different polynomials, exactly when n <= 7, both for long and short names; str(polynomial) contains the name and the indices exactly when the name exists.", "quantifier": "every constructed polynomial", "why_tests_cant": "Whole table completeness and injectivity.", "anchors": ["src/zernpy/zernikepol.py:ZernPol.get_polynomial_name", "src/zernpy/zernikepol.py:ZernPol.__str__", "src/zernpy/props/properties.py"]}
{"id": "C15", "title": "radial(r) is the Zernike radial polynomial", "statement": "For every valid (m, n), ZernPol.radial(r) computed by the default path equals sum_k (-1)^k (n-k)! / (k! ((n+|m|)/2-k)! ((n-|m|)/2-k)!) r^(n-2k).", "quantifier": "every valid (m, n) (all n, not only n <= 54) and every real r", "why_tests_cant": "Infinitely many r; the tables and the recurrences have one branch per order, tests sample points of a few.", "anchors": ["src/zernpy/zernikepol.py:ZernPol.radial", "src/zernpy/calculations/calc_zernike_pol.py:radial_polynomial", "src/zernpy/calculations/calc_zernike_pol.py:radial_polynomial_coeffs", "src/zernpy/calculations/find_pols_coeffs.py:get_coefficients"]}
{"id": "C16", "title": "Exact-equation path agrees with the default path", "statement": "radial(r, use_exact_eq=True) agrees with the default path for every n <= 40 (and radial_dr for n <= 38); for larger n the exact path does not silently return a wrong value.", "quantifier": "every valid (m, n) and real r", "why_tests_cant": "Infinitely many r.", "anchors": ["src/zernpy/calculations/calc_zernike_pol.py:radial_polynomial_eq", "src/zernpy/calculations/calc_zernike_pol.py:radial_derivative_eq", "src/zernpy/zernikepol.py:ZernPol.radial"]}
{"id": "C17", "title": "Coefficient cache and memoisation never change a result", "statement": "The value returned for given orders is the same whatever sequence of coefficient / radial / derivative requests was made before in the process, for the table of coefficients shared by all polynomials.", "quantifier": "every finite history of requests (values and derivatives, any orders, any order of requests)", "why_tests_cant": "The number of histories is unbounded; shared mutable state.", "anchors": ["src/zernpy/calculations/find_pols_coeffs.py:get_coefficients", "src/zernpy/calculations/find_pols_coeffs.py:find_coeffs_orders", "src/zernpy/calculations/calc_zernike_pol.py:radial_polynomial_coeffs"]}
{"id": "C18", "title": "radial_dr(r) is the derivative of radial", "statement": "For every valid (m, n), n <= 54, and real r, the value returned by radial_dr(r) is the derivative at r of the function radial.", "quantifier": "every valid (m, n) with n <= 54, every real r", "why_tests_cant": "Infinitely many points, one branch per order; finite differences only sample.", "anchors": ["src/zernpy/zernikepol.py:ZernPol.radial_dr", "src/zernpy/calculations/calc_zernike_pol.py:radial_derivative", "src/zernpy/calculations/calc_zernike_pol.py:radial_polynomial_coeffs_dr"]}
{"id": "C19", "title": "Radial polynomials are 1 at the rim and bounded by 1 on the disk", "statement": "R(1) = 1 for every polynomial and |R(r)| <= 1 for every r in [0, 1].", "quantifier": "every valid (m, n), every r in [0,1]", "why_tests_cant": "Continuum of points; maxima between samples.", "anchors": ["src/zernpy/zernikepol.py:ZernPol.radial", "src/zernpy/calculations/calc_zernike_pol.py:radial_polynomial"]}
{"id": "C20", "title": "Triangular part and its derivative", "statement": "triangular(theta) is cos(m theta) for m >= 0 and sin(|m| theta) for m < 0, and triangular_dtheta is its derivative in theta.", "quantifier": "every m and real theta", "why_tests_cant": "Continuum of angles.", "anchors": ["src/zernpy/calculations/calc_zernike_pol.py:triangular_function", "src/zernpy/calculations/calc_zernike_pol.py:triangular_derivative", "src/zernpy/zernikepol.py:ZernPol.triangular"]}
{"id": "C21", "title": "Orthonormality on the unit disk", "statement": "polynomial_value with the normalisation factor gives functions with (1/pi) * integral over the unit disk of Z_i Z_j = 1 if i = j else 0.", "quantifier": "every pair of valid (m, n)", "why_tests_cant": "An integral identity for infinitely many pairs.", "anchors": ["src/zernpy/zernikepol.py:ZernPol.polynomial_value", "src/zernpy/calculations/calc_zernike_pol.py:normalization_factor"]}
{"id": "C22", "title": "Only radii in [0,1] are evaluated and results are elementwise", "statement": "radial, radial_dr, polynomial_value raise ValueError when some radius lies outside [0, 1] (or the input is neither number, list, tuple, set nor array, or the shapes of r and theta differ), and otherwise return exactly one value per input point, equal to the scalar result at that point; angles outside [-2 pi, 2 pi] never change the result.", "quantifier": "every input vector", "why_tests_cant": "Any length and any placement of the offending element.", "anchors": ["src/zernpy/zernikepol.py:ZernPol._check_radii", "src/zernpy/zernikepol.py:ZernPol._check_angles", "src/zernpy/zernikepol.py:ZernPol.polynomial_value"]}
{"id": "C23", "title": "sum_zernikes is the linear combination", "statement": "ZernPol.sum_zernikes(coeffs, pols, r, theta) equals sum_i c_i Z_i(r, theta) at each point; with get_surface=True the surface has entry [i, j] (for r_i, theta_j) = sum c Z(r_i, theta_j) for every branch of the mesh handling; mismatching lengths, an empty list or a non-polynomial raise.", "quantifier": "every list of polynomials, coefficients and points", "why_tests_cant": "Unbounded list lengths and different mesh branches.", "anchors": ["src/zernpy/zernikepol.py:ZernPol.sum_zernikes", "src/zernpy/zernikepol.py:ZernPol._sum_zernikes_meshgrid"]}
{"id": "C24", "title": "Polar coordinate grids cover the disk", "statement": "gen_polar_coordinates returns radii that start at 0, never exceed 1, end exactly at 1, are increasing, with neighbours at most one step apart; the same for angles on [0, 2 pi]; steps outside the documented ranges raise ValueError; gen_equal_polar_mesh returns n*n points, all on the disk.", "quantifier": "every step value", "why_tests_cant": "Rounding-to-grid boundary cases for every step value.", "anchors": ["src/zernpy/zernikepol.py:ZernPol.gen_polar_coordinates", "src/zernpy/zernikepol.py:ZernPol.gen_equal_polar_mesh"]}
{"id": "C25", "title": "Cropping phases keeps exactly the points on the disk", "statement": "crop_phases_img returns a 0/1 mask of the image shape and a phase vector equal to the masked pixels in row-major order; the polar coordinate vectors have the same length, with radii in [0, 1] and angles in [0, 2 pi].", "quantifier": "every image size and aspect, both strict modes, every allowed crop radius", "why_tests_cant": "All image shapes and parities.", "anchors": ["src/zernpy/calculations/fit_zernike_pols.py:crop_phases_img", "src/zernpy/zernikepol.py:fit_polynomials"]}
{"id": "C26", "title": "Fitting recovers the coefficients", "statement": "For phases that are exactly a linear combination of the given (linearly independent at the sampled points) polynomials the fitted coefficients equal the true ones up to the documented rounding; in general the fit is a least-squares minimiser; duplicate or empty lists raise.", "quantifier": "every list of polynomials, coefficient vector and set of sample points", "why_tests_cant": "All linear combinations.", "anchors": ["src/zernpy/calculations/fit_zernike_pols.py:fit_zernikes", "src/zernpy/zernikepol.py:fit_polynomials", "src/zernpy/zernikepol.py:fit_polynomials_vectors"]}
{"id": "C27", "title": "Generated phase images contain the requested profile", "statement": "generate_phases_image returns an image that is the sum of c_i Z_i at each pixel on the disk and 0 elsewhere; the coordinates evaluated always lie on the unit disk.", "quantifier": "every polynomial list, coefficient list and image size", "why_tests_cant": "All sizes and coefficients.", "anchors": ["src/zernpy/zernikepol.py:generate_phases_image"]}
{"id": "C28", "title": "Random phase images are never flat", "statement": "generate_random_phases returns coefficients bounded by the maximal amplitude, at least one of them is non-negligible, whatever the random generator returned.", "quantifier": "every outcome of the random generator", "why_tests_cant": "All outcomes of the generator.", "anchors": ["src/zernpy/zernikepol.py:generate_random_phases"]}
{"id": "C29", "title": "ZernPSF construction checks its input", "statement": "ZernPSF(p) succeeds exactly for a ZernPol or a non-empty sequence of pairwise different ZernPol; otherwise it raises ValueError; the Airy flag is set exactly for the piston.", "quantifier": "every Python value passed", "why_tests_cant": "All sequences and types.", "anchors": ["src/zernpy/zernpsf.py:ZernPSF.__init__"]}
{"id": "C30", "title": "Physical properties are validated and stored consistently", "statement": "set_physical_props accepts exactly 0 < NA <= 1.7, wavelength > 0, 0 < pixel size <= 0.25 wavelength/NA; after a successful call every derived quantity (wave number, relative amplitude) corresponds to the new values; a rejected call leaves the object unchanged.", "quantifier": "every parameter set and every sequence of calls", "why_tests_cant": "All real parameters and all call histories.", "anchors": ["src/zernpy/zernpsf.py:ZernPSF.set_physical_props"]}
{"id": "C31", "title": "Kernel size is odd after any history", "statement": "After any sequence of constructor, set_physical_props, set_calculation_props (successful or raising), calculate and crop calls the kernel size is an odd number >= 1... and a calculated kernel is a square of exactly that size.", "quantifier": "every history of calls", "why_tests_cant": "Unbounded histories, including calls that raise.", "anchors": ["src/zernpy/zernpsf.py:ZernPSF.set_calculation_props", "src/zernpy/calculations/calc_psfs.py:get_kernel_size", "src/zernpy/zernpsf.py:ZernPSF.calculate_psf_kernel"]}
{"id": "C32", "title": "PSF values are bounded and normalised", "statement": "Every PSF value is in [0, 1], and with normalized=True the kernel maximum is exactly 1 and all values lie in [0, 1].", "quantifier": "every polynomial, coefficient, distance, angle, number of integration points", "why_tests_cant": "Continuum of parameters.", "anchors": ["src/zernpy/calculations/calc_psfs.py:diffraction_integral_r", "src/zernpy/calculations/calc_psfs.py:get_psf_kernel"]}
{"id": "C33", "title": "Quadrature is exact for a constant pupil", "statement": "The composite quadrature used for the diffraction integral integrates a constant exactly, so that the in-focus aberration-free central PSF value is 1.", "quantifier": "every number of integration points", "why_tests_cant": "Weights are a function of an arbitrary number of points.", "anchors": ["src/zernpy/calculations/calc_psfs.py:diffraction_integral_r", "src/zernpy/calculations/calc_psfs.py:radial_integral"]}
{"id": "C34", "title": "PSF ignores a global phase (piston)", "statement": "Adding a piston term of any amplitude to a set of aberrations does not change any PSF value.", "quantifier": "all polynomial sets, amplitudes, points", "why_tests_cant": "Continuum of parameters.", "anchors": ["src/zernpy/calculations/calc_psfs.py:diffraction_integral_r_pols", "src/zernpy/calculations/calc_psfs.py:get_psf_kernel_zerns"]}
{"id": "C35", "title": "Accelerated calculation agrees with the plain one", "statement": "The compiled (accelerated) PSF equals the plain PSF for every supported polynomial, and unsupported polynomials raise rather than give another result.", "quantifier": "all polynomials, coefficients, points", "why_tests_cant": "Continuum of parameters, one branch per polynomial.", "anchors": ["src/zernpy/calculations/calc_psfs_numba.py:get_psf_kernel_comp", "src/zernpy/calculations/calc_psfs_numba.py:zernpol_value", "src/zernpy/calculations/calc_psfs.py:get_psf_kernel"]}
{"id": "C36", "title": "crop_kernel removes only negligible symmetric borders", "statement": "Cropping removes the same number of rows/columns on every side, only elements below the threshold fraction of the maximum, stops as soon as one border element reaches it, and cropping again changes nothing; it terminates for every calculated kernel.", "quantifier": "every square odd kernel and threshold", "why_tests_cant": "All matrices of all sizes.", "anchors": ["src/zernpy/zernpsf.py:ZernPSF.crop_kernel"]}
{"id": "C37", "title": "Convolution keeps constant images and ranges", "statement": "Convolving an image with a normalised non-negative kernel keeps constant images constant, never leaves the range of the input, is linear in the image, keeps its shape; scale2original makes the result maximum equal to the image maximum.", "quantifier": "every image and kernel", "why_tests_cant": "All images, kernels and sizes.", "anchors": ["src/zernpy/calculations/calc_psfs.py:convolute_img_psf", "src/zernpy/zernpsf.py:ZernPSF.convolute_img"]}
{"id": "C38", "title": "save_json / read_json round trip", "statement": "Reading a saved calibration restores kernel, kernel size, physical properties, polynomials, coefficients and Airy flag of the saved object. The file is stored in the given folder if it exists, otherwise in the default one.", "quantifier": "every saved object, target object and history", "why_tests_cant": "All states and payloads.", "anchors": ["src/zernpy/calculations/calc_psfs.py:save_psf", "src/zernpy/calculations/calc_psfs.py:read_psf", "src/zernpy/zernpsf.py:ZernPSF.read_json", "src/zernpy/zernpsf.py:ZernPSF.save_json"]}
{"id": "C39", "title": "DispenserManager returns results in order under every schedule", "statement": "Parallel evaluation through DispenserManager returns exactly [f(p) for p in params], each parameter computed once, for every interleaving of the workers; it terminates; several managers can be used one after another.", "quantifier": "every parameter list, worker count, schedule", "why_tests_cant": "Number of interleavings is unbounded.", "anchors": ["src/zernpy/utils/intmproc.py:DispenserManager"]}
{"id": "C40", "title": "Slow-calculation warning is emitted at most once", "statement": "A polynomial emits its slow-calculation warning at most once over its life, exactly when n exceeds the limit of the requested quantity.", "quantifier": "every history of evaluation calls", "why_tests_cant": "All histories.", "anchors": ["src/zernpy/zernikepol.py:ZernPol.polynomial_value", "src/zernpy/zernikepol.py:ZernPol.radial", "src/zernpy/zernikepol.py:ZernPol.radial_dr"]}
{"id": "C41", "title": "Bumped circle sample", "statement": "get_bumped_circle returns a square symmetric image with values in [0, max intensity].", "quantifier": "every radius and max intensity", "why_tests_cant": "All real radii.", "anchors": ["src/zernpy/calculations/calc_psfs.py:get_bumped_circle"]}
{"id": "C42", "title": "Radial polynomial depends on |m| only", "statement": "radial and radial_dr of (m, n) and (-m, n) coincide at every point.", "quantifier": "every valid (m, n), every r", "why_tests_cant": "Continuum and infinitely many orders.", "anchors": ["src/zernpy/calculations/calc_zernike_pol.py:radial_polynomial", "src/zernpy/calculations/calc_zernike_pol.py:radial_derivative"]}
{"id": "C43", "title": "Negated amplitudes rotate the PSF by 180 degrees", "statement": "The kernel calculated with all amplitudes negated is the kernel of the original amplitudes rotated by 180 degrees about its central pixel.", "quantifier": "all polynomial lists, amplitudes, kernel sizes, numbers of integration points, histories", "why_tests_cant": "an identity between two calculations for every list of polynomials and amplitudes; a test compares a few kernels up to a tolerance", "anchors": ["src/zernpy/calculations/calc_psfs.py:get_psf_kernel_zerns", "src/zernpy/calculations/calc_psfs.py:diffraction_integral_r_pols"]}
{"id": "C44", "title": "Every kernel pixel is the PSF at the place of the pixel", "statement": "A kernel calculated for a polynomial or a list of polynomials is a square of the requested odd size whose pixel (i, j) holds the diffraction sum for the image point at distance 2 pi NA pixel_size/wavelength times the offset of the pixel from the centre, in the direction opposite to the offset; normalised, divided by the greatest value.", "quantifier": "all polynomials, amplitudes, physical parameters, kernel sizes, numbers of integration points, histories", "why_tests_cant": "every pixel of every kernel for every parameter set", "anchors": ["src/zernpy/calculations/calc_psfs.py:get_psf_kernel", "src/zernpy/calculations/calc_psfs.py:get_psf_kernel_zerns", "src/zernpy/calculations/calc_psfs.py:get_psf_point_r_parallel"]}
{"id": "C45", "title": "No aberration exceeds the ideal centre", "statement": "No PSF value of any aberrated kernel exceeds the central value that the same calculation gives without aberrations (the Strehl ratio is at most 1).", "quantifier": "all polynomial lists, amplitudes, pixels, numbers of integration points", "why_tests_cant": "a bound over a continuum of amplitudes and all polynomial lists", "anchors": ["src/zernpy/calculations/calc_psfs.py:get_psf_kernel_zerns"]}
{"id": "C46", "title": "Order and packaging of polynomials do not matter for the PSF", "statement": "The kernel does not depend on the order in which polynomials (with their amplitudes) are listed, and a list of one polynomial gives the same kernel as the polynomial alone.", "quantifier": "all lists, permutations, amplitudes, parameters, histories", "why_tests_cant": "all permutations of all lists", "anchors": ["src/zernpy/calculations/calc_psfs.py:get_psf_kernel_zerns", "src/zernpy/calculations/calc_psfs.py:get_psf_kernel"]}
{"id": "C47", "title": "A calculated kernel belongs to the current properties of the object", "statement": "After set_physical_props(NA, wavelength, coefficients, pixel size) on a ZernPSF object with any history, calculate_psf_kernel returns and stores the kernel whose pixels are the PSF values for exactly these properties, its polynomials and the current numbers of integration points, of exactly the estimated kernel size; plain and accelerated calculations alike; nothing of earlier calls remains.", "quantifier": "every history of calls (successful or raising), every accepted parameter set, every polynomial or list", "why_tests_cant": "every history of calls and a continuum of parameters", "anchors": ["src/zernpy/zernpsf.py:ZernPSF.set_physical_props", "src/zernpy/zernpsf.py:ZernPSF.calculate_psf_kernel"]}
{"id": "C48", "title": "Amplitudes are RMS values", "statement": "For polynomials given once each, the mean square over the unit disk of the surface that ZernPol.sum_zernikes computes is the sum of the squared amplitudes, and its mean is the amplitude of the piston (0 without a piston).", "quantifier": "all lists of different polynomials of any order, all amplitudes, all call histories", "why_tests_cant": "integrals over a continuum of points for every list of polynomials and amplitudes", "anchors": ["src/zernpy/zernikepol.py:ZernPol.sum_zernikes", "src/zernpy/zernikepol.py:ZernPol.polynomial_value", "src/zernpy/zernikepol.py:ZernPol.normf"]}
{"id": "C49", "title": "A surface determines its amplitudes", "statement": "The amplitude of each polynomial in a sum computed by ZernPol.sum_zernikes is the mean over the disk of the surface times this polynomial; sums of the same different polynomials that give the same surface have the same amplitudes.", "quantifier": "all lists of different polynomials, all amplitudes, all call histories", "why_tests_cant": "an injectivity statement over a continuum of amplitudes and surfaces", "anchors": ["src/zernpy/zernikepol.py:ZernPol.sum_zernikes", "src/zernpy/zernikepol.py:fit_polynomials"]}
{"id": "C50", "title": "Symmetries of the polynomials", "statement": "polynomial_value at the opposite point is multiplied by (-1)^m; at the point mirrored at the horizontal axis it is kept for m >= 0 and negated for m < 0; rotation by 2 pi/|m| does not change it, and for m = 0 no rotation does.", "quantifier": "all polynomials, all points of the disk, all call histories", "why_tests_cant": "identities at every point of a continuum for polynomials of every order", "anchors": ["src/zernpy/zernikepol.py:ZernPol.polynomial_value", "src/zernpy/zernikepol.py:ZernPol.triangular"]}
{"id": "C51", "title": "Kernels converge to the diffraction integral", "statement": "With enough integration points over radius and angle (each at least some N), every pixel of the calculated kernel of a polynomial, or of a list of polynomials, deviates by at most epsilon from the exact diffraction integral over the pupil (normalised: from the exact values divided by their maximum).", "quantifier": "every epsilon > 0, all polynomials and lists, amplitudes, physical parameters, kernel sizes, all numbers of points >= N, all call histories", "why_tests_cant": "a limit statement: the integral is not computable and every epsilon needs its own N", "anchors": ["src/zernpy/calculations/calc_psfs.py:get_psf_kernel", "src/zernpy/calculations/calc_psfs.py:get_psf_kernel_zerns", "src/zernpy/calculations/calc_psfs.py:diffraction_integral_r", "src/zernpy/calculations/calc_psfs.py:radial_integral"]}
{"id": "C52", "title": "The Airy formula is the limit of the numerical kernel of the piston", "statement": "The exact PSF without aberrations at distance rho is (2 J1(rho)/rho)^2; the Airy kernel calculated for the piston deviates from it by at most 1e-10 in each pixel, so the numerical kernel of the piston converges to the Airy kernel up to 1e-10.", "quantifier": "all image points, all physical parameters, kernel sizes, piston amplitudes, every epsilon, call histories", "why_tests_cant": "equality of an integral with a Bessel function at a continuum of points, and a limit", "anchors": ["src/zernpy/calculations/calc_psfs.py:airy_ref_pattern", "src/zernpy/calculations/calc_psfs.py:get_psf_kernel"]}
{"id": "C53", "title": "The parallel kernel calculation gives the kernel of calculate_psf_kernel", "statement": "get_kernel_parallel with running workers gives and stores, under every interleaving of the workers, the PSF kernel for the stored amplitude and wave number; it equals the kernel of calculate_psf_kernel for the physical properties of the object. (The equality is false after a change of the wavelength; without workers, with released workers, for several polynomials and for a second object after a release the call gives a wrong kernel, raises or never returns.)", "quantifier": "all reachable ZernPSF objects, polynomials, physical properties, numbers of points and workers, all schedules of manager, workers and message transport", "why_tests_cant": "nondeterministic schedules of several processes, and all physical properties and histories", "anchors": ["src/zernpy/zernpsf.py:ZernPSF.get_kernel_parallel", "src/zernpy/zernpsf.py:ZernPSF.get_psf_point_r_parallel", "src/zernpy/zernpsf.py:ZernPSF.initialize_parallel_workers", "src/zernpy/zernpsf.py:ZernPSF.deinitialize_workers", "src/zernpy/calculations/calc_psfs.py:radial_integral_s", "src/zernpy/utils/intmproc.py:DispenserManager"]}
{"id": "C54", "title": "A tilt moves the PSF by whole pixels", "statement": "Adding a tilt (orders (1,1) or (-1,1)) with the phase coefficient pi*NA*pixel*s/wavelength to a set of aberrations moves the not normalised PSF kernel by exactly s pixels along the columns or rows and changes nothing else.", "quantifier": "all non-empty lists of aberrations and places in them, all physical parameters, shifts s, kernel sizes, numbers of integration points, call histories", "why_tests_cant": "an identity of sums over all pixels for all aberrations and parameters", "anchors": ["src/zernpy/calculations/calc_psfs.py:diffraction_integral_r", "src/zernpy/calculations/calc_psfs.py:get_psf_kernel", "src/zernpy/zernpsf.py:ZernPSF.calculate_psf_kernel"]}
{"id": "C55", "title": "Strehl ratio: small aberrations keep the central intensity", "statement": "The variance of the phase over the pupil is the sum of squares V of the coefficients of all polynomials but the piston. For V <= 2 the exact PSF in the centre is at least (1 - V/2)^2 >= 1 - V and nowhere greater than 1; the computed not normalised kernel satisfies the same up to any epsilon if enough integration points are used.", "quantifier": "all sets of different polynomials and amplitudes with V <= 2, all physical parameters and kernel sizes, every epsilon, call histories", "why_tests_cant": "a bound over all aberrations, and a limit", "anchors": ["src/zernpy/calculations/calc_psfs.py:diffraction_integral_r", "src/zernpy/calculations/calc_psfs.py:get_psf_kernel", "src/zernpy/zernpol.py:ZernPol.polynomial_value"]}
{"id": "C56", "title": "The PSF has the symmetries of the aberration", "statement": "Aberrations that are even in the angle (all m >= 0) give an exact PSF with mirror symmetry about the horizontal axis; cosines with even m and sines with odd m about the vertical axis; if q divides all m the PSF is unchanged by rotations by 1/q turn; if all m = 0 it depends only on the distance to the centre. The computed kernels have these symmetries up to any epsilon if enough integration points are used (exact equality is false: the angular rule is not symmetric).", "quantifier": "all amplitudes, polynomials, image points, physical parameters, kernel sizes, every epsilon, call histories", "why_tests_cant": "symmetry at a continuum of points, and a limit", "anchors": ["src/zernpy/calculations/calc_psfs.py:get_psf_point_r", "src/zernpy/calculations/calc_psfs.py:get_psf_kernel_zerns"]}
{"id": "C57", "title": "Fitting a generated phase image returns its amplitudes", "statement": "fit_polynomials applied to the image of generate_phases_image for the same polynomials returns the amplitudes (rounded). (False: the two functions use circles of different radii, a tilt on a (2k+1)x(2k+1) image comes back multiplied by about k/(k+1), e.g. 1/2 for 3x3 pixels. True for the piston on square images of odd size (all sizes for crop radii up to 0.9989; false with crop radius 1 from 6201 pixels), and for fit_polynomials_vectors with polar coordinates relative to the circle of the generation.)", "quantifier": "all polynomials, amplitudes, image sizes, border modes, rounding, call histories, all least-squares solvers", "why_tests_cant": "a round trip over all sizes and amplitudes", "anchors": ["src/zernpy/zernikepol.py:generate_phases_image", "src/zernpy/zernikepol.py:fit_polynomials", "src/zernpy/zernikepol.py:fit_polynomials_vectors", "src/zernpy/calculations/fit_zernike_pols.py:crop_phases_img"]}
{"id": "C58", "title": "Convolution conserves the total intensity", "statement": "Without scaling, the convolution of a (float) image with a PSF kernel redistributes the intensity and neither loses nor creates any: the sum of all pixels of the result is the sum of all pixels of the image. This holds for every image, however small and however bright at its borders, if the kernel has odd sizes and is symmetric under both mirrors (as the Airy kernels are), and for every kernel with odd sizes if the image has a black margin as broad as half of the kernel.", "quantifier": "all images and all kernels of odd size without negative elements, not identically zero; any margin and size", "why_tests_cant": "The claim is about sums over all pixels of all images, including those smaller than the kernel, where the border is reflected several times; a test sees a few images.", "anchors": ["src/zernpy/calculations/calc_psfs.py: convolute_img_psf", "src/zernpy/calculations/calc_psfs.py: get_psf_kernel", "src/zernpy/zernpsf.py: ZernPSF.convolute_img"]}
{"id": "C59", "title": "Rounding errors of radial() and polynomial_value() are bounded", "statement": "Evaluated in floating-point arithmetic with unit roundoff u (every sum, difference, product, conversion, division, root, power, sine and cosine rounded), radial(r) differs from the exact Zernike radial polynomial at the same r in [0, 1] by at most ((1+u)^(4n+p+5) - 1) * g(n), where g(n) = 1, 1, 3, 7, 17, ... bounds the sum of the absolute values of the coefficients, by the default path and by use_exact_eq (n <= 40), whatever was calculated before; polynomial_value(r, theta) correspondingly. In double precision this is below 2e-11 for n <= 10, 3e-7 for n <= 20 and 3e-3 for n <= 30; polynomial_value is within 1e-8 for n <= 10 and |theta| <= 2 pi; radial never exceeds 1 by more than 2e-11 for n <= 10; the two paths agree within twice the bound.", "quantifier": "all valid orders (m, n), all radii in [0, 1] and angles, both evaluation paths, all histories of calls filling the coefficient tables, all roundings satisfying the accuracy assumption (in particular binary64 with round-to-nearest-even)", "why_tests_cant": "there are 2^62 radii per polynomial, and cancellation makes errors depend erratically on the radius: a sample shows typical errors and not the greatest", "anchors": ["src/zernpy/zernikepol.py:ZernPol.radial", "src/zernpy/zernikepol.py:ZernPol.polynomial_value", "src/zernpy/calculations/calc_zernike_pol.py:radial_polynomial", "src/zernpy/calculations/calc_zernike_pol.py:radial_polynomial_coeffs", "src/zernpy/calculations/calc_zernike_pol.py:radial_polynomial_eq", "src/zernpy/calculations/calc_zernike_pol.py:triangular_function", "src/zernpy/calculations/calc_zernike_pol.py:normalization_factor"]}
{"id": "C60", "title": "radial(1.0) is exactly 1.0 and radial(0.0) is exact in double precision", "statement": "In double precision radial(1.0) returns exactly 1.0 for every polynomial, and radial(0.0) returns exactly R(0) (0, 1 or -1), by the default path and by use_exact_eq (n <= 40), whatever was calculated before: no rounding error at the border and the centre.", "quantifier": "all valid orders (m, n) below 2^52, both evaluation paths, all histories of calls, every arithmetic exact on integers below 2^53 with exact powers of 0 and 1", "why_tests_cant": "exactness depends on all partial sums of large alternating coefficients staying below 2^53, for every order; a test sees the orders it tries", "anchors": ["src/zernpy/zernikepol.py:ZernPol.radial", "src/zernpy/calculations/calc_zernike_pol.py:radial_polynomial", "src/zernpy/calculations/calc_zernike_pol.py:radial_polynomial_coeffs", "src/zernpy/calculations/calc_zernike_pol.py:radial_polynomial_eq"]}
{"id": "C61", "title": "Rounding errors of radial_dr() are bounded", "statement": "Evaluated in floating-point arithmetic with unit roundoff u, radial_dr(r) differs from the derivative of the Zernike radial polynomial at the same r in [0, 1] by at most ((1+u)^(5n+p+8) - 1) * n * g(n) (g as in C59), by the default path for n - |m| <= 38 (where the derivative is right, C18) and by use_exact_eq for n <= 38, whatever was calculated before. In double precision this is below 3e-10 for n <= 10 and 6e-6 for n <= 20.", "quantifier": "all valid orders in that range, all radii in [0, 1], both paths, all histories of calls, all roundings satisfying the accuracy assumption (in particular binary64)", "why_tests_cant": "there are 2^62 radii per polynomial, and cancellation makes errors depend erratically on the radius", "anchors": ["src/zernpy/zernikepol.py:ZernPol.radial_dr", "src/zernpy/calculations/calc_zernike_pol.py:radial_derivative", "src/zernpy/calculations/calc_zernike_pol.py:radial_polynomial_coeffs_dr", "src/zernpy/calculations/calc_zernike_pol.py:radial_derivative_eq"]}
{"id": "C62", "title": "NaN and infinite arguments do not silently give numbers", "statement": "An infinite radius, and every argument with a radius outside [0, 1], is rejected with ValueError also when NaN is involved; a NaN radius or angle gives NaN; a NaN coefficient makes sum_zernikes NaN; set_physical_props rejects NaN and infinite values. (The code guarantees only a part, see the note.)", "quantifier": "all floats including NaN and the infinities, arrays of them of any size, all valid orders, both evaluation paths, all histories of calls; all lists of polynomials with finite or NaN coefficients", "why_tests_cant": "NaN makes all comparisons false; which of the many combinations of NaN, infinities and numbers get through the checks and what they produce cannot be enumerated, and depends on the order of every recursive scheme", "anchors": ["src/zernpy/zernikepol.py: ZernPol._check_radii, ZernPol.radial, ZernPol.radial_dr, ZernPol.polynomial_value, ZernPol.sum_zernikes", "src/zernpy/zernpsf.py: ZernPSF.set_physical_props", "src/zernpy/calculations/calc_psfs.py: get_kernel_size"]}
{"id": "C63", "title": "Arrays and lists shared with the caller", "statement": "Evaluation and calculation never change an array or a list of the caller, and results are independent of later changes: radial, radial_dr and polynomial_value return new arrays; calculate_psf_kernel returns a new array, and no later call on the object (set_physical_props, set_calculation_props, calculate_psf_kernel, crop_kernel, in any order) changes an array or list that existed before, in particular a kernel returned earlier; a method uses the contents that arrays have at the time of the call. What is shared: radial of a first-order polynomial returns its argument; set_physical_props keeps a passed array itself (not a list or tuple), so later writes change the saved coefficients but not the calculated kernel; the constructor keeps the passed list of polynomials; the returned kernel is the stored one; new objects share the kernel of the class.", "quantifier": "every heap of arrays and lists, every accepted argument, every history of method calls and of writes by the caller", "why_tests_cant": "sharing shows only when something is written after the call; tests compare values immediately and cannot cover all interleavings of calls and writes", "anchors": ["src/zernpy/zernikepol.py: ZernPol.radial, radial_dr, polynomial_value, _check_radii", "src/zernpy/calculations/calc_zernike_pol.py: radial_polynomial", "src/zernpy/zernpsf.py: ZernPSF.__init__, set_physical_props, calculate_psf_kernel, crop_kernel, save_json"]}
{"id": "C64", "title": "Life of a parallel manager", "statement": "For one manager in a process: without interruptions every call of compute returns the values of the function for the parameters accepted last, in order, until close, and None after it, for every interleaving from the constructor on; the constructor, compute and close return under every fair schedule if the function does not raise (otherwise compute never returns); after close was called the function is not called any more and all worker processes end; close ends all workers also after interrupted calls (then each worker calls the function at most once more). It is false with interruptions that a later compute returns function values (it can return the parameter itself), and that close ends the workers of an interrupted constructor.", "quantifier": "all functions, numbers of workers, lists of parameters, sequences of calls of the user and interleavings of the main process, the workers and the transport of messages; for the closing also all interruptions of the main process", "why_tests_cant": "the interleavings of the processes and the points of an interruption cannot be enumerated by tests; ending of processes is a liveness property", "anchors": ["src/zernpy/utils/intmproc.py: DispenserManager.__init__, compute, close, __del__, update_params", "src/zernpy/utils/intmproc.py: IndiWorker.run"]}
{"id": "C65", "title": "The plots show the polynomials", "statement": "plot_profile of any polynomial, flat or in 3d, with default coordinates, shows the values of that polynomial (and its name as the title of the flat picture if asked for) at nodes whose radii cover [0, 1] and whose angles cover [0, 2 pi]; with own coordinates it shows the polynomial at exactly the given nodes, and raises ValueError for a radius off the unit disk or coordinates that are not a pair; an object that is not a ZernPol gives no picture and no exception. plot_sum_zernikes_on_fig shows the linear combination of the polynomials with the coefficients, or exactly the given surface (for example one made by gen_zernikes_surface), and raises ValueError for empty or unequal lists. In 3d pictures the node (r, theta) is at x = r cos(theta), y = r sin(theta). The pyramid of polynomials shows each of the 27 polynomials of radial orders 1 to 6 once, in the row of its radial order, azimuthal orders growing to the right. visualize_convolution shows the sample disk and an image of the same size, of integers between 0 and max_intensity, with max_intensity as maximum. All this after any history of earlier calls.", "quantifier": "all polynomials, coefficient lists, radii and angles, both projections, all histories of calls, all kernels with a positive centre, all radii and intensities of the sample", "why_tests_cant": "the pictures are drawn on hundreds of nodes for any of infinitely many polynomials and combinations; tests only check that no exception is raised", "anchors": ["src/zernpy/zernikepol.py:ZernPol.plot_profile", "src/zernpy/zernikepol.py:ZernPol.plot_sum_zernikes_on_fig", "src/zernpy/zernikepol.py:ZernPol._plot_zernikes_half_pyramid", "src/zernpy/plotting/plot_zerns.py:plot_sum_fig", "src/zernpy/plotting/plot_zerns.py:plot_sum_fig_3d", "src/zernpy/plotting/plot_zerns.py:subplot_sum_on_fig", "src/zernpy/plotting/plot_zerns.py:subplot_sum_on_fig_3d", "src/zernpy/zernpsf.py:ZernPSF.visualize_convolution"]}
{"id": "C66", "title": "The unit of length does not matter for PSF kernels", "statement": "If wavelength, expansion coefficients and pixel size are given in another unit of length (all multiplied by the same positive number), set_physical_props accepts or rejects the same calls with the same exception, and every kernel calculated by calculate_psf_kernel and cropped after that is the same. After two successful calls of set_physical_props this also holds for get_kernel_parallel, before and after which any other methods may be called: same tasks for the workers, same kernel, same exceptions (after a single call the parallel kernels differ, as they use the wave number from before).", "quantifier": "every object state, every positive factor, every sequence of method calls after a successful set_physical_props (failing calls included), plain, accelerated and parallel, one or several polynomials", "why_tests_cant": "a test compares a few unit pairs on a few calls; the equality has to hold for every factor and every history of calls, and depends on each length entering only through ratios", "anchors": ["src/zernpy/zernpsf.py: ZernPSF.set_physical_props, ZernPSF.calculate_psf_kernel, ZernPSF.crop_kernel", "src/zernpy/calculations/calc_psfs.py: get_kernel_size, get_psf_kernel, get_psf_kernel_zerns", "src/zernpy/calculations/calc_psfs_numba.py: get_psf_kernel_comp", "src/zernpy/zernpsf.py: ZernPSF.get_kernel_parallel"]}
{"id": "C67", "title": "The estimated kernel size follows the coefficient and the pixel", "statement": "The kernel size that set_physical_props estimates for one polynomial does not depend on the sign of the coefficient or of m (nor on NA, except for the piston), and does not get smaller when the pixel gets smaller or the absolute coefficient gets larger; for several polynomials it is at least the size estimated for each of them alone, and at most 1.4 x (number of polynomials) + 2 above one of these.", "quantifier": "every reachable PSF object, every accepted set of physical properties, every two coefficients and pixel sizes; every list of polynomials", "why_tests_cant": "the size goes through piecewise formulas with square roots and rounding; a test sees a few points and not the places where the formulas meet", "anchors": ["src/zernpy/zernpsf.py: ZernPSF.set_physical_props", "src/zernpy/calculations/calc_psfs.py: get_kernel_size"]}
{"id": "C68", "title": "The radial integration nodes are right in double precision", "statement": "Whatever number n >= 2 of radial integration points is set, the PSF calculation in double precision uses n-1 inner nodes of the radius, the i-th close to i/n, all on the pupil (so that the calculation never rejects its own nodes), and the PSF values stay in [0, 1] up to rounding.", "quantifier": "every n from 2 to 2^50, every polynomial, coefficient, image point and history of calls", "why_tests_cant": "the number of nodes is the ceiling of a rounded quotient: whether it is right depends on the last bit for each n, and a test sees the default n", "anchors": ["src/zernpy/calculations/calc_psfs.py: radial_integral, radial_integral_args, radial_integral_pols, get_psf_point_r, get_psf_point_r_parallel, get_psf_point_r_pols", "src/zernpy/zernpsf.py: ZernPSF.set_calculation_props"]}
{"id": "C69", "title": "The radii of gen_polar_coordinates in double precision", "statement": "For every step from 2^-50 to 0.5 the radii that gen_polar_coordinates returns in double precision start at 0, all lie in [0, 1] (so that the polynomials accept them), increase strictly by at most the step (up to 2^-52), and end at exactly 1.", "quantifier": "every double-precision step in [2^-50, 0.5]", "why_tests_cant": "the last radii depend on the roundings of 1+step, of the quotient and of the products for each step; a test sees a few steps", "anchors": ["src/zernpy/zernikepol.py: ZernPol.gen_polar_coordinates"]}
{"id": "C70", "title": "The PSF kernels are accurate in floating-point arithmetic", "statement": "Each pixel of a kernel that is calculated in floating-point arithmetic (every operation of the polynomials, the phase, the pupil wave, the radial and angular integration, the pixel distance and the normalisation rounded) differs from the exact value of the discretised PSF at the pixel by a known bound: in double precision with the default numbers of integration points, an amplitude up to one wavelength and an optical radius up to 1000, by less than 5e-8 for a polynomial up to the order 10 and less than 4e-10 up to the order 4; by less than 1e-7 for up to 66 polynomials up to the order 10 whose amplitudes add up to at most one wavelength.", "quantifier": "every arithmetic with a unit roundoff up to 1/10 and any order of the summations, every polynomial (or list of polynomials), coefficient, physical parameters without underflow, kernel size, numbers of points for which the number of radial nodes is right (C68), and history of calls", "why_tests_cant": "the accumulated error of some 10^5 roundings per pixel for every parameter: a test compares a few pixels with another rounded calculation", "anchors": ["src/zernpy/calculations/calc_psfs.py: diffraction_integral_r, radial_integral, get_psf_point_r, get_psf_point_r_parallel, get_psf_kernel, diffraction_integral_r_pols, radial_integral_pols, get_psf_point_r_pols, get_psf_kernel_zerns", "src/zernpy/calculations/calc_zernike_pol.py"]}
{"id": "C71", "title": "The radial polynomials are steepest at the rim", "statement": "radial_dr(1.0) is (n(n+2) - m^2)/2 and the derivative is nowhere in the pupil greater in absolute value; hence values of radial at two radii differ by at most that slope times the difference of the radii (and no smaller constant will do), and polynomial_value at two points differs by at most the normalisation factor times (slope times the difference of the radii plus |m| times the difference of the angles).", "quantifier": "every valid pair of orders (m, n), every pair of radii in [0, 1] and of angles, every history of calls", "why_tests_cant": "a bound over a continuum of radii for each of infinitely many polynomials; sampled radii miss the extremum", "anchors": ["src/zernpy/calculations/calc_zernike_pol.py: radial_polynomial, radial_derivative", "src/zernpy/zernikepol.py: ZernPol.radial, ZernPol.radial_dr, ZernPol.polynomial_value"]}
{"id": "C72", "title": "The error of the kernels against the exact diffraction integral, for given numbers of integration points", "statement": "Each pixel of a kernel deviates from the exact diffraction integral at its position by at most an explicit function of the coefficients, the orders, the optical radius of the kernel and the numbers of integration points, with terms of the orders 1/n_phi (the nodes omitted by the angular rule), 1/n_phi^2 and 1/n_r^2; a normalised kernel by at most 2E/(top - E). In double precision the bound holds with the rounding error of C70 added.", "quantifier": "every polynomial (or list of polynomials), coefficients, physical parameters, kernel size, n_r >= 2, n_phi >= 4, history of calls", "why_tests_cant": "the exact diffraction integral has no closed form to test against, and the bound is for all parameters", "anchors": ["src/zernpy/calculations/calc_psfs.py: diffraction_integral_r, radial_integral, get_psf_point_r, get_psf_kernel, get_psf_kernel_zerns"]}
{"id": "C73", "title": "The coefficient tables of the process stay bounded", "statement": "The module-level dictionaries of coefficients, which every call that evaluates a polynomial of the order 13 or above may extend, never hold more than the 861 polynomials of the orders up to 40 and the 780 derivatives of the orders up to 38, each pair of orders once, with at most 41 (39) coefficients each, and the two function caches never hold more than 128 entries: the memory taken by a long-running process does not grow with the number of calls, whatever orders are asked for and whether the calls return or raise, made by one thread or by any number of threads at the same time.", "quantifier": "every history of evaluations (radial, radial_dr, polynomial_value, PSF calculations, direct and compiled) with any arguments, orders, recursion limit and outcome; any number of threads that evaluate, sum and calculate kernels, at any moment of any interleaving of their accesses to the tables", "why_tests_cant": "a leak shows only after a history that a test does not run; the bound is on all histories and all orders", "anchors": ["src/zernpy/calculations/calc_zernike_pol.py: coefficients, coefficients_dr, find_coefficients, find_coefficients_dr, radial_polynomial_coeffs, radial_polynomial_coeffs_dr", "src/zernpy/zernikepol.py: ZernPol.radial, ZernPol.radial_dr, ZernPol.polynomial_value", "src/zernpy/zernpsf.py: ZernPSF.calculate_psf_kernel"]}
{"id": "C74", "title": "Forcing the compilation has no effect on any result", "statement": "force_get_psf_compilation returns None with one warning if numba is not installed. Otherwise it returns two ZernPSF objects, the first with the 1x1 kernel [[1]] for the tilt, the second with the normalized 3x3 kernel (elements between 0 and 1, the greatest is 1) for the three polynomials (-2,4), (3,3), (0,4), and it never raises an exception; it recommends to update numba exactly for versions older than 0.57.1, and warns if the version cannot be parsed. The process-wide coefficient tables, and so the results of all later calls, are the same as if it had not been called; this is true of every accelerated calculation, also a failing one.", "quantifier": "every history of calls before it, every version string of numba, every object and argument of an accelerated calculation", "why_tests_cant": "a test runs with one installed version of numba and compares a few later results; absence of any effect is about all states and all later calls", "anchors": ["src/zernpy/zernpsf.py: force_get_psf_compilation, ZernPSF.calculate_psf_kernel", "src/zernpy/calculations/calc_psfs_numba.py: get_psf_kernel_comp, set_methods_compiled"]}
{"id": "C75", "title": "The warnings of a ZernPSF tell the truth, and suppressing them changes nothing else", "statement": "calculate_psf_kernel, if it returns and the warnings are not suppressed, warns that the kernel is truncated exactly if some element on its border is greater than 5 % of the greatest one, that the pixels are too coarse exactly if the pixel size is greater than half of the Airy radius 0.61 wavelength / NA, that the calculation is slow exactly if it is accelerated and the kernel has more than 85 rows, about default properties exactly if no properties were set, about the missing numba exactly if the acceleration was requested without it; and nothing else, besides the polynomial objects of orders above 50, which without acceleration warn once each that their calculation is slow, also with suppress_warnings=True. After a successful set_physical_props the pixel size and the default properties are never the reason of a warning. set_physical_props warns exactly if it accepts its arguments and some coefficient exceeds 10 wavelengths in absolute value; set_calculation_props exactly if the size gets smaller than the present one, if the physical properties are not set, or if more than 500 radial and more than 400 angular points are requested. With suppress_warnings=True nothing else is emitted, and the kernel, the object and the tables are the same.", "quantifier": "every object in every state reached by any calls, all arguments, with and without numba", "why_tests_cant": "a warning is a universally quantified statement about the kernel (its whole border), and the object can be in any state", "anchors": ["src/zernpy/zernpsf.py: ZernPSF.set_physical_props, ZernPSF.set_calculation_props, ZernPSF.calculate_psf_kernel, ZernPSF._sanity_check_expansion_coefficient", "src/zernpy/calculations/calc_psfs.py: get_psf_kernel, get_psf_kernel_zerns", "src/zernpy/calculations/calc_psfs_numba.py: get_psf_kernel_comp", "src/zernpy/zernikepol.py: ZernPol.polynomial_value"]}
{"id": "C76", "title": "Threads that evaluate polynomials do not disturb each other", "statement": "If several threads of a process call radial, radial_dr and polynomial_value, then every call on an existing polynomial within the recursion limit gets exactly the value (or exception) that it gets in a fresh process with one thread, however the interpreter switches between the threads at their accesses to the shared coefficient tables and lru caches; no access fails, no thread waits for another one, and a thread that is run again and again finishes. Calls made while the threads are running or afterwards get the same values, too, also if other threads raise (for example exceed the recursion limit) in the middle of their accesses.", "quantifier": "every history of calls before, every number of threads, every list of calls of each thread (returning or raising), every thread whose own calls are on existing polynomials within the recursion limit, every schedule of their atomic actions", "why_tests_cant": "a schedule cannot be enforced by a test, and there are exponentially many", "anchors": ["src/zernpy/calculations/find_pols_coeffs.py: find_coeffs_orders, find_coeffs_orders_dr, precalculated_initial_coeffs, precalculated_initial_coeffs_dr", "src/zernpy/calculations/calc_zernike_pol.py: radial_polynomial_coeffs, radial_polynomial_coeffs_dr", "src/zernpy/zernikepol.py: ZernPol.radial, ZernPol.radial_dr, ZernPol.polynomial_value"]}
{"id": "C77", "title": "Interrupted saving of a calibration", "statement": "save_json writes a JSON text from which read_json of any object gets the calibration back. If the process stops at any moment of save_json (crash, signal, power failure), then a later read_json of this file gives either what it gave before the call, or the complete new calibration, or it raises a ValueError and leaves the object as it was: never wrong or mixed data. Other files are kept, and without overwrite an existing file is never touched. Saving again repairs the file, and an existing calibration is not lost by an interrupted overwriting.", "quantifier": "every object reachable by API calls with finite numbers, every file system, path argument and overwrite flag, every moment at which the process stops, every reading object", "why_tests_cant": "a test cannot stop the process after every single character of every possible file", "anchors": ["src/zernpy/calculations/calc_psfs.py: save_psf, read_psf", "src/zernpy/zernpsf.py: ZernPSF.save_json, ZernPSF.read_json"]}
{"id": "C78", "title": "Results are reproducible to the last bit", "statement": "Whatever the floating-point arithmetic is (rounding in any way, but deterministically), radial(), radial_dr(), polynomial_value() and the PSF kernels give exactly the same numbers after every history of earlier calls in the process, although the coefficient tables and the caches are in different states, and at every depth of the call stack from which the recursion fits; radial() and radial_dr() give the same numbers for (m, n) and (-m, n).", "quantifier": "every arithmetic (any rounding, any elementary functions, any summation), all valid orders, both paths, all arguments, all pairs of histories and of remaining recursion depths", "why_tests_cant": "bit differences between a cached and a recomputed coefficient, or between another order of operations, appear for single arguments after particular histories only", "anchors": ["src/zernpy/calculations/find_pols_coeffs.py: find_coeffs_orders, find_coeffs_orders_dr", "src/zernpy/calculations/calc_zernike_pol.py: radial_polynomial, radial_derivative, radial_polynomial_coeffs, radial_polynomial_coeffs_dr, radial_polynomial_eq, radial_derivative_eq", "src/zernpy/zernikepol.py: ZernPol.radial, ZernPol.radial_dr, ZernPol.polynomial_value", "src/zernpy/calculations/calc_psfs.py: get_psf_kernel, get_psf_kernel_zerns"]}
{"id": "C79", "title": "Sums of polynomials in floating-point arithmetic", "statement": "The rounding errors of sum_zernikes are bounded for every list of polynomials and coefficients (in double precision below 2e-8 times the sum of the absolute coefficients up to the order 10 with up to 66 polynomials, and 1e-11 times this sum up to the order 4 with up to 15). In double precision a surface (get_surface=True, by rows or by columns) and the sum on a mesh have, bit for bit, the values of sum_zernikes at the single points; polynomials with the coefficient 0 do not change a bit of the result, wherever they stand; another order of the polynomials changes the result by no more than the rounding errors.", "quantifier": "every arithmetic with a unit roundoff, every non-empty list of polynomials of valid orders with coefficients, all radii in [0, 1] and angles in [-2 pi, 2 pi], all vectors of radii and angles of any lengths, all histories", "why_tests_cant": "rounding differences occur for particular arguments; lists and vectors have any length", "anchors": ["src/zernpy/zernikepol.py: ZernPol.sum_zernikes, ZernPol._sum_zernikes_meshgrid"]}
{"id": "C80", "title": "The work of an evaluation is bounded by a polynomial in the order", "statement": "The number of accesses to the shared coefficient tables and caches made by one call of radial, polynomial_value or radial_dr is bounded by a fixed polynomial in the radial order, whatever was called before, whatever the caches have forgotten, and whatever other threads do meanwhile. True up to the order 40 (38 for derivatives): at most 18 n^3 (31 n^4 for derivatives), 9 n^2 (31 n^3) for m >= 0, none up to the order 12 or with the exact formula, and 31 n once the polynomial has been evaluated before; a thread finishes after it has been switched to that often. False above: with |m| <= 38 a value makes at least 2^((n-39)/2) accesses, a derivative with |m| <= 36 at least 2^((n-37)/2).", "quantifier": "all valid orders, all arguments, all histories of calls (also interrupted ones), all schedules of any number of threads", "why_tests_cant": "the work depends on the history of the process and on the evictions from the caches, and the growth is a statement about all orders", "anchors": ["src/zernpy/calculations/find_pols_coeffs.py: find_coeffs_orders, find_coeffs_orders_dr, lru_cache", "src/zernpy/calculations/calc_zernike_pol.py: radial_polynomial_coeffs, radial_polynomial_coeffs_dr", "src/zernpy/zernikepol.py: ZernPol.radial, ZernPol.radial_dr, ZernPol.polynomial_value"]}
{"id": "C81", "title": "Nearly equal parameters give nearly equal kernels", "statement": "The kernel depends continuously on the amplitudes and on the optical parameters, with an explicit constant: for the same polynomials, size and numbers of integration points, each pixel of the kernel that is not normalised changes by at most 2 (sum of |c_i - d_i| max|Z_i| + |k - k'| d), with the amplitudes in units of the wavelength, k = 2 pi NA pixel / wavelength, and d the distance of the pixel from the centre in pixels; a normalised kernel by at most 2e/top if the pixels change by at most e < top, the greatest value. There are no jumps, whatever the amplitudes are and whatever was called before.", "quantifier": "all pairs of amplitude lists, polynomials, wavelengths, apertures, pixel sizes, kernel sizes, numbers of points, histories", "why_tests_cant": "a statement about all pairs of parameters", "anchors": ["src/zernpy/calculations/calc_psfs.py: get_psf_kernel, get_psf_kernel_zerns, get_psf_point_r, diffraction_integral_r", "src/zernpy/zernpsf.py: ZernPSF.calculate_psf_kernel"]}
{"id": "C82", "title": "Geometry and stability of the convolution", "statement": "convolute_img commutes with mirroring (both directions) and transposition of image and kernel, for every type of pixels, with and without scaling. Without scaling, a pixel of the result depends only on the pixels of the image within half the size of the kernel, also at the border; a shifted image gives a shifted result where the kernel fits; a brighter image gives a brighter result. Two kernels of the same shape that differ by at most e per element give images that differ by at most rows*cols*e/sum of the range of the pixels, so nearly equal amplitudes give nearly equal images; cropping the kernel changes the image by at most the fraction of the kernel that is removed, times the range. (With the default scaling the result is not local: a change far away rescales all pixels.)", "quantifier": "all images, kernels of odd size (for mirroring), types of pixels, shifts, states of the object, parts of cropping", "why_tests_cant": "statements about pairs of images or kernels of any size", "anchors": ["src/zernpy/calculations/calc_psfs.py: convolute_img_psf", "src/zernpy/zernpsf.py: ZernPSF.convolute_img, ZernPSF.crop_kernel"]}
{"id": "C83", "title": "Convolution of images in double precision", "statement": "The result of convolute_img computed with rounded additions, products and quotients (the kernel summed in any order, weights up to 2^-52 left out by scipy) has the shape of the image. Without scaling each floating-point pixel differs from the exact value by at most about (3(n+2)u + 2n 2^-52/sum)M, with n elements of the kernel and pixels up to M: in double precision at most 1e-15 n M for kernels with a sum of at least 1. With scaling the bound is three times that, multiplied by M/(maximum before the scaling). Integer pixels stay in the range of their type, nothing overflows, and they differ by at most 1 from those in exact arithmetic. The difference 1 does occur because of the truncation: a constant image of bytes 7 becomes 6, and with the default scaling a maximum 15 becomes 14.", "quantifier": "all arithmetics with unit roundoff u, all orders of summation, images and kernels of any size (up to 1e6 elements of the kernel for the numbers in double precision), types of pixels, with and without scaling", "why_tests_cant": "all images, kernels and orders of summation; tests compare a few images with tolerances", "anchors": ["src/zernpy/calculations/calc_psfs.py: convolute_img_psf", "src/zernpy/zernpsf.py: ZernPSF.convolute_img"]}
{"id": "C84", "title": "Calibration files with reordered, missing or foreign entries", "statement": "read_json does not depend on the order of the entries of a file nor on entries with unknown keys. If it raises nothing and does not warn about missing keys, then the file has given all quantities of the calibration, and the object holds those of the file; the warning is given exactly if a quantity is missing. An incomplete file does not change the object. save_json warns if the kernel has not been calculated, and exactly if an existing file is kept instead of the calibration.", "quantifier": "every list of entries (each quantity at most once), every order of them, every object in every state", "why_tests_cant": "all files, also ones edited by hand or by other programs, and all objects; tests read files just written", "anchors": ["src/zernpy/zernpsf.py: ZernPSF.read_json, ZernPSF.save_json, ZernPSF.set_physical_props", "src/zernpy/calculations/calc_psfs.py: read_psf, save_psf"]}
{"id": "C85", "title": "Several objects with calibration files, in any history", "statement": "In a program with any number of ZernPSF objects that are constructed, used, saved and read in any order, with calls that may raise, every object always has a square kernel of odd size without negative values, an odd kernel size, and valid properties; a call changes no other object; a file changes only by save_json(overwrite=True), and a saved calibration can be restored by every object at any later time. A saving that raises changes no object and no file; the stored path changes only by saving. The stored path of an object leads to its own calibration; saving again replaces its file; a kernel calculated after reading is that of the read polynomial.", "quantifier": "every history of calls on every number of objects, every file system with calibrations", "why_tests_cant": "all interleavings of calls on several objects and files; tests use one or two objects and one file", "anchors": ["src/zernpy/zernpsf.py: ZernPSF.__init__, ZernPSF.set_physical_props, ZernPSF.set_calculation_props, ZernPSF.calculate_psf_kernel, ZernPSF.crop_kernel, ZernPSF.save_json, ZernPSF.read_json", "src/zernpy/calculations/calc_psfs.py: save_psf, read_psf"]}
{"id": "C86", "title": "Blurred images in double precision, from the optics to the pixels", "statement": "An image blurred by convolute_img with a calculated kernel differs from the image that the exact PSF of the diffraction integral gives (the image continued by reflection) by at most an explicit bound: with E the error of the pixels of the kernel (quadrature, C72, plus roundings, C70), W the sum of the exact PSF in the S x S pixels and M the maximum of the image, by about S*S*E/W*M plus the roundings of the convolution (C83); with the default scaling by three times that, divided by C/M, where C is the maximum of the ideal image. This holds for normalised kernels, too (E is then about 2E/(top - E)).", "quantifier": "every image of floating-point pixels without negative values, every polynomial (or list of polynomials), coefficients, physical parameters without underflow, kernel size, numbers of points for which the number of radial nodes is right (C68), history of calls, order of the summations, with and without normalisation and scaling", "why_tests_cant": "a bound on the distance to an integral without closed form, for every image and all parameters; a test compares with another approximation for a few", "anchors": ["src/zernpy/calculations/calc_psfs.py: get_psf_kernel, get_psf_kernel_zerns, convolute_img_psf", "src/zernpy/zernpsf.py: ZernPSF.calculate_psf_kernel, ZernPSF.convolute_img"]}
{"id": "C87", "title": "Fitted coefficients follow the phases", "statement": "For polynomials that are linearly independent on the sampled points: the result of fit_polynomials_vectors is linear in the phases up to the rounding; adding a combination of the polynomials to the phases adds its coefficients (a constant phase changes only the piston); after the returned combination is subtracted the fit of the rest returns zeros; noise of the phases changes no coefficient by more than sqrt(sum of the squared noise / kappa) plus the rounding, where kappa measures the independence (and a positive kappa exists); the order of the points and of the polynomials does not matter. fit_polynomials takes the same pixels from images of the same shape and is linear and stable in the same way.", "quantifier": "all lists of different polynomials, points, phases, noise, coefficients, rounding digits, call histories, least-squares solvers", "why_tests_cant": "The inputs are real vectors of any length; a test has finitely many phases and cannot bound the effect of every noise, nor compare every order of points.", "anchors": ["src/zernpy/zernikepol.py: fit_polynomials_vectors, fit_polynomials", "src/zernpy/calculations/fit_zernike_pols.py: fit_zernikes, crop_phases_img"]}
{"id": "C88", "title": "Enough points determine the coefficients", "statement": "A surface computed by gen_zernikes_surface for polynomials of orders up to N, flattened and fitted by fit_polynomials_vectors on the returned radii and angles, gives the amplitudes back (rounded), if the steps are small enough (rStep*(floor(N/2)+1) <= 1, thetaStep*(2N+1) <= 2 pi; the default steps are enough up to the order 179) and the numbers of radii and angles differ. On an image with (N+1)(N+3) <= crop*(min(rows, cols) - 1) the cropped pixels determine the coefficients: fit_polynomials gives the same coefficients with every least-squares solver and after every history, and exactly the amplitudes if the cropped phases are a combination of the polynomials. A generated image, fitted with the coordinates of the generation of all its pixels, gives the amplitudes back. (With equal_n_coordinates=True the fit of the surface raises ValueError.)", "quantifier": "all orders N, lists of different polynomials up to N, amplitudes, steps, image sizes and pixels, crop ratios, strictness, rounding digits, call histories, least-squares solvers", "why_tests_cant": "Linear independence on the sampled points is a statement about all combinations of the polynomials, for every order, step and image size; tests try a few lists of amplitudes on a few meshes.", "anchors": ["src/zernpy/zernikepol.py: gen_zernikes_surface, fit_polynomials_vectors, fit_polynomials, generate_phases_image, gen_polar_coordinates", "src/zernpy/calculations/fit_zernike_pols.py: crop_phases_img"]}
{"id": "C89", "title": "Threads get bit-identical floating-point results", "statement": "Threads of one process that evaluate polynomials (radial, radial_dr, polynomial_value on floats), sums of polynomials (sum_zernikes at a point, on two vectors, on a mesh) and PSF kernels (get_psf_kernel, get_psf_kernel_zerns) in floating-point arithmetic, each with any list of calls, switched at any points, after any earlier calls: every call of a thread that uses existing polynomials within the recursion limit gives exactly the numbers (or the exception) that it gives in a fresh process with one thread; a thread that is scheduled again and again finishes; later calls are not affected by the threads, finished or not, also if they raise.", "quantifier": "all floating-point arithmetics, earlier histories, numbers of threads, lists of calls, schedules of the atomic actions on the shared tables and caches, later histories", "why_tests_cant": "The number of schedules is unbounded and a race shows only under rare interleavings; equality of floating-point numbers to the last bit under each of them cannot be tested.", "anchors": ["src/zernpy/calculations/find_pols_coeffs.py: find_coeffs_orders, find_coeffs_orders_dr, precalculated_initial_coeffs, precalculated_initial_coeffs_dr", "src/zernpy/zernikepol.py: ZernPol.radial, ZernPol.radial_dr, ZernPol.polynomial_value, ZernPol.sum_zernikes", "src/zernpy/calculations/calc_psfs.py: get_psf_kernel, get_psf_kernel_zerns"]}
{"id": "C90", "title": "Every polynomial surface is exactly one sum of Zernike polynomials", "statement": "With a list of different polynomials that contains all orders up to N (for example generate_polynomials(N)) and any polynomial P(x, y) of degree at most N there is exactly one list of amplitudes for which sum_zernikes gives P(r cos θ, r sin θ) at every point of the unit disk, and every sum of polynomials of orders up to N is such a polynomial. If a polynomial is missing in the list, some polynomial surface of its degree is not reached. A fit of samples of P (from vectors of polar coordinates or from an image, large enough) returns these amplitudes, rounded.", "quantifier": "all polynomials in two variables, all lists of polynomials with all orders up to N, all N, all points of the disk, all earlier calls; for the fits all meshes and images above the stated sizes and all solvers that solve the least squares problem", "why_tests_cant": "It is a statement about all (infinitely many) polynomial surfaces and all points of the disk, with the existence and uniqueness of the amplitudes.", "anchors": ["src/zernpy/zernikepol.py: ZernPol.sum_zernikes, generate_polynomials, fit_polynomials, fit_polynomials_vectors", "src/zernpy/calculations/calc_zernikes_sum.py: fit_zernikes"]}
{"id": "C91", "title": "Continuous wavefronts are approximated by sums of Zernike polynomials", "statement": "For every continuous surface on the unit disk and every accuracy there is an order N such that with any list of different polynomials that contains all orders up to N some amplitudes make sum_zernikes differ from the surface by less than this accuracy at every point. The amplitudes given by the means of the products of the surface with the polynomials have the smallest RMS difference among all sums of these polynomials; this RMS difference goes to zero with N, and the sum of the squared amplitudes goes to the mean square of the surface and never exceeds it. Two continuous surfaces with the same amplitudes in all polynomials are equal everywhere on the disk.", "quantifier": "all continuous functions on the closed unit disk, all accuracies, all lists of different valid polynomials, all points, all earlier calls", "why_tests_cant": "It ranges over all continuous functions and over limits of the number of polynomials.", "anchors": ["src/zernpy/zernikepol.py: ZernPol.sum_zernikes"]}
{"id": "C92", "title": "Simultaneous saving to one file", "statement": "Several processes call save_json for the same file at the same time (the name depends only on the polynomial and its coefficient), in any interleaving of their tests for the file, openings and writings, and some may be stopped. If they save the same calibration, a reader gets at every moment what the file held before, or the whole calibration, or ValueError with its object unchanged, and once no process is in the middle of writing and one that was allowed to write has returned, everybody reads the calibration. Desired also: if they save different calibrations, the file afterwards holds one of them, and overwrite=False never changes an existing file.", "quantifier": "all objects, numbers of processes, flags, contents of the file before, schedules of the actions (with stopped processes), reading objects", "why_tests_cant": "The number of schedules is unbounded; corruption appears only under rare interleavings of processes.", "anchors": ["src/zernpy/calculations/calc_psfs.py: save_psf, read_psf", "src/zernpy/zernpsf.py: ZernPSF.save_json, ZernPSF.read_json"]}
{"id": "C93", "title": "The accelerated kernels are accurate in floating-point arithmetic and agree with the plain ones up to rounding errors", "statement": "For the polynomials that the accelerated calculation supports correctly (orders up to 10 without |m| = n = 8, 9, 10, see C35), each pixel of the accelerated kernel, for one or several polynomials, differs from the exact PSF at its place by at most the same explicit bound as in the plain calculation, whatever the rounding of the operations, functions and sums of the compiled code within the stated accuracy; so the plain and the accelerated kernels, calculated in possibly different arithmetics, differ by at most the sum of the two bounds. In double precision with the default numbers of integration points, amplitudes up to one wavelength and functions accurate to 8 units the error of a pixel is below 1e-7, and below 1e-9 up to the order 4. Normalised kernels have the corresponding bound. Orders above 10 are rejected.", "quantifier": "all arithmetics within the accuracy (also two different ones for the two calculations), polynomials and lists of polynomials, amplitudes, optical parameters, numbers of integration points, kernel sizes, pixels, states of the coefficient tables", "why_tests_cant": "Tests compare a few kernels with a tolerance chosen by hand; whether rounding errors of compiled code (other libm, other summation) can add up is a statement about all inputs.", "anchors": ["src/zernpy/calculations/calc_psfs_numba.py: zernpol_value, pol_sums, get_psf_point_r_comp, get_psf_point_r_pols_comp, get_psf_kernel_comp", "src/zernpy/calculations/calc_psfs.py: get_psf_kernel, get_psf_kernel_zerns"]}
{"id": "C94", "title": "Fitting in floating-point arithmetic: bounded errors, exact round trip of decimal amplitudes", "statement": "With rounded values of the polynomials and a backward stable solver (numpy.linalg.lstsq returns an exact solution for a matrix and phases changed by a factor of at most eta of their norms), the coefficients of fit_polynomials_vectors differ from those of any combination of the polynomials by at most (delta |c| + rms of the deviations of the phases from the combination + eta rms of the phases) / (k - delta) plus the final rounding, where delta = sqrt(number of polynomials) (eps + eta (beta + eps)), eps bounds the errors of the values (C59) and k measures the independence of the polynomials on the points. In double precision, up to 66 polynomials up to the order 10 with k >= 1/10: at most 1e-6 |c| + 10.1 rms of the deviations + 1e-8 rms of the phases. Round trip in double precision: phases computed by sum_zernikes (at points, or as a surface) with amplitudes that have at most d decimals (sum of their absolute values at most 3e5 / 10^d, 30 for the default 4) are fitted to exactly the same amplitudes, bit for bit. No or repeated polynomials are a ValueError.", "quantifier": "all arithmetics within the accuracy, backward stable solvers, lists of different valid polynomials, points (pairs or product grids), phases, amplitudes, numbers of decimals, states of the coefficient tables", "why_tests_cant": "Tests fit a few surfaces and compare with a tolerance; that rounding errors of the matrix, the solver and np.round never change a decimal amplitude is a statement about all inputs.", "anchors": ["src/zernpy/zernikepol.py: fit_polynomials_vectors, sum_zernikes", "src/zernpy/calculations/fit_zernike_pols.py: fit_zernikes"]}
{"id": "C95", "title": "gen_polar_coordinates covers the disk in double precision", "statement": "For every pair of steps (radial step from 2^-50 to 0.5, angular step from 2^-48 to pi, double-precision numbers) gen_polar_coordinates returns, in double precision, radii and angles that start at 0, stay in [0, 1] and [0, 2*pi] (no rounding takes them outside, so that every polynomial accepts them), never decrease, leave no gap larger than the step (by more than 2^-49), end at most 2^-51 below 1 and 2^-48 below 2*pi, and are no more than needed; every point of the unit disk has a grid point at most one step (and 2^-47) below it in both coordinates. The default call gives 101 radii ending at exactly 1 and 481 angles ending at exactly 2*np.pi.", "quantifier": "every pair of double-precision steps in the documented ranges (not below 2^-50, 2^-48)", "why_tests_cant": "whether the last or the last but one angle exceeds 2*pi depends on how the step, the stop, the quotient and each product are rounded (a tie at 2*np.pi is decisive): no sample of steps settles it", "anchors": ["src/zernpy/zernikepol.py: ZernPol.gen_polar_coordinates"]}
{"id": "C96", "title": "gen_equal_polar_mesh in double precision", "statement": "For every number of points n up to 2^48 (fewer than 4 count as 4) gen_equal_polar_mesh returns, in double precision, n radii and n angles that start at 0, increase strictly, stay in [0, 1] and [0, 2*pi], and end at exactly 1 and exactly 2*np.pi, the number nearest to 2*pi; each value differs from the exact equidistant one by at most 2^-48 and no gap exceeds the exact step by more than 2^-47.", "quantifier": "every int n up to 2^48", "why_tests_cant": "the rounded step and the rounded products depend on n; that the product before the last never reaches the fixed last value, and that no two values coincide, has to hold for each n", "anchors": ["src/zernpy/zernikepol.py: ZernPol.gen_equal_polar_mesh"]}
{"id": "C97", "title": "gen_zernikes_surface in double precision", "statement": "For every list of up to 66 polynomials up to the order 10 and every documented grid (steps, or a number of points up to 2^48), whatever was called before, gen_zernikes_surface in double precision returns a surface with one row for each returned radius and one column for each returned angle, all on the unit disk; every element differs from the exact sum at its radius and angle by at most 2e-8 times the sum of the absolute coefficients; the surface closes (the elements of a row at the first and last angle differ by at most 5e-8 times this sum, although 2*np.pi is not 2*pi) and has one value in the centre (the elements of the first row differ by no more than that). The default call gives 101 rows and 361 columns, ending at the radius 1 and the angle 2*np.pi.", "quantifier": "all lists of polynomials and coefficients, all steps in the documented ranges and numbers of points, all histories, all orders of summation", "why_tests_cant": "the errors of the grid and of the values accumulate differently for each list, step and history; tests look at a few surfaces", "anchors": ["src/zernpy/zernikepol.py: ZernPol.gen_zernikes_surface, gen_polar_coordinates, gen_equal_polar_mesh, sum_zernikes"]}
{"id": "C98", "title": "The parallel kernel is the serial kernel to the last bit", "statement": "In any floating-point arithmetic (any rounding, any numpy.sum, any elementary functions): for an object with one polynomial, an odd kernel size of at least 3 and a wave number and relative amplitude that belong to the stored wavelength, get_kernel_parallel with running workers returns exactly the numbers of the plain calculation of calculate_psf_kernel, normalised or not, under every interleaving of the main process and the workers, for managers used in any way before, and whatever was called before in each process. Under every fair schedule the workers return all the values.", "quantifier": "all floating-point arithmetics, valid polynomials, parameters, numbers of workers, interleavings, histories of each process", "why_tests_cant": "an order of the returned values or of the additions that depends on the schedule would change the last bits only now and then; tests with tolerances do not see it", "anchors": ["src/zernpy/zernpsf.py: ZernPSF.get_psf_point_r_parallel, get_kernel_parallel", "src/zernpy/calculations/calc_psfs.py: radial_integral_s, get_psf_point_r, get_psf_kernel", "src/zernpy/utils/intmproc.py: DispenserManager"]}
{"id": "C99", "title": "Generated phase images in double precision", "statement": "In double precision (IEEE binary64, correctly rounded elementary functions, any order of summation), for every list of up to 66 polynomials up to the order 10 with any amplitudes, every width and height of at least 1 pixel (the lesser up to 2^25), whatever was called before, generate_phases_image returns an image of height rows and width columns; each pixel on the circle of the image differs from the exact sum of the polynomials at its polar coordinates by at most 3e-8 times the sum of the absolute amplitudes; each pixel outside of the circle is exactly 0, and rounding never moves a pixel in or out of the circle. The image differs from the image of exact arithmetic by at most the same bound at every pixel.", "quantifier": "all lists of polynomials, amplitudes, widths, heights, pixels, histories of calls", "why_tests_cant": "a test compares one or two images; that no pixel of the border is lost to the rounding of a square root, for any size, is a statement about all integers below 2^50", "anchors": ["src/zernpy/zernikepol.py: generate_phases_image, ZernPol.sum_zernikes"]}
{"id": "C100", "title": "Cropping and fitting of images in double precision", "statement": "In double precision, for every image of 3 to 2^25 rows and columns, every crop radius in [0.5, 1] and both border modes, crop_phases_img selects every pixel of the circle of the crop radius (and of its border), and nothing beyond the tolerance of the border; the phases are the selected pixels, unchanged, in row-major order; each angle is in [0, 2 pi] and within 2^-48 of the angle of its pixel; each radius is in [0, 1] (never above 1 because of rounding) and within 0.00011 of the distance in units of the circle. Crop radii out of range, small images and other objects are a ValueError. fit_polynomials then returns, for up to 66 different polynomials up to the order 10 that are independent at these points and a stable solver, coefficients that differ from those of any combination by at most 1e-6 of the amplitudes, 10.1 times the root mean square of the deviations of the phases from it, 1e-8 of the root mean square of the phases, and the final rounding; the cropped image has the pixels of the image where the mask is 1 and 0 elsewhere.", "quantifier": "all images, sizes, crop radii, border modes, polynomials, combinations, rounding digits, histories of calls, backward stable solvers", "why_tests_cant": "the comparisons radius - crop < 0.001 and > 0.001 decide on rounded differences of rounded decimals (1.001 - 1.0 < 0.001 holds in double precision); that no radius stays above 1, for any size, is a statement about all images", "anchors": ["src/zernpy/calculations/fit_zernike_pols.py: crop_phases_img, fit_zernikes", "src/zernpy/zernikepol.py: fit_polynomials"]}
{"id": "C101", "title": "Decimal amplitudes are recovered exactly from noisy phases and from generated images in double precision", "statement": "In double precision: (a) if every phase is within delta of a combination of up to 66 different polynomials up to the order 10 whose amplitudes have at most d decimals, and 11 delta + 1.1e-6 times the sum of the absolute amplitudes is at most 0.4 units of the last decimal, then fit_polynomials_vectors with round_digits = d returns these amplitudes bit for bit, at any points where the polynomials are independent; (b) hence the pixels of an image of generate_phases_image, made with such amplitudes (sum of absolute values at most 20 for d = 4), fitted with polar coordinates of the pixels in double precision relative to the circle of the generation, give the amplitudes back bit for bit, for every size of the image and every selection of pixels.", "quantifier": "all polynomials, amplitudes with d decimals, noise within the bound, points, image sizes, selections of pixels, histories of calls, backward stable solvers", "why_tests_cant": "exact equality of all returned doubles with the decimal inputs is a statement about every combination of amplitudes, image size and selection of pixels", "anchors": ["src/zernpy/zernikepol.py: generate_phases_image, fit_polynomials_vectors", "src/zernpy/calculations/fit_zernike_pols.py: fit_zernikes"]}
{"id": "C102", "title": "The physical properties, the estimated kernel size and the cropping in double precision", "statement": "In double precision: set_physical_props accepts every set of properties that the exact checks accept, and only properties in range up to the rounding of the limits; an accepted call stores the given values, the rounded relative amplitudes and the flag of given properties, a rejected one changes neither kernel size nor flag; the kernel size it estimates is odd and lies between the exact estimates for a pixel larger and smaller by the factor 1 + 2^-48 (one polynomial; several polynomials if no coefficient is just below 3/4 of the wavelength), so it is the exact estimate or differs from it by 2; the branches on half and a quarter of the wavelength are those of the exact quotient; for one polynomial the size is monotone in the pixel and in the coefficient (on each side of half of the wavelength) and independent of the signs without any rounding left over; crop_kernel crops as the exact rule for a part within one rounding of the requested one, and a second call changes nothing.", "quantifier": "all objects with one or several polynomials up to the order 2^40, all doubles NA >= 2^-500, wavelength in [2^-500, 2^500], pixel size up to 2^500, all coefficients; all square kernels without negative values and all parts in (0, 0.5)", "why_tests_cant": "a chain of ten rounded operations followed by a rounding to an integer, with thresholds between: a test sees a few values and not the inputs where a rounding changes the branch or the integer", "anchors": ["src/zernpy/zernpsf.py: ZernPSF.set_physical_props, ZernPSF.crop_kernel", "src/zernpy/calculations/calc_psfs.py: get_kernel_size"]}
{"id": "C103", "title": "Reading a calibration while others save to its file", "statement": "read_json reads a file piece by piece while other processes save to it, in any interleaving, with pieces of any sizes. A reader that nobody disturbs gets exactly the text of the file. If all processes save the same calibration, and there was no file before or it held this calibration or an interrupted save of it, the reader finds no file, or raises ValueError and keeps its object unchanged, or gets the whole calibration; it always gets the whole calibration once no save is in progress and one that was allowed to write has returned. Desired also: if a complete calibration is replaced by another one, a reader gets one of the two.", "quantifier": "all objects, numbers of saving processes, flags, schedules of the actions (with stopped processes), sizes of the pieces read, reading objects", "why_tests_cant": "the number of schedules and of ways to cut the file into pieces is unbounded; a torn read needs a rare interleaving", "anchors": ["src/zernpy/calculations/calc_psfs.py: save_psf, read_psf", "src/zernpy/zernpsf.py: ZernPSF.save_json, ZernPSF.read_json"]}
{"id": "C104", "title": "The sample image in double precision", "statement": "get_bumped_circle in double precision, for an intensity in the range of its type and a radius up to 2^20: the size of the exact image, integer values in [0, max_intensity] (nothing overflows the type), exactly the maximum in the centre, 0 on the border, and values that depend on the squared distance from the centre only (symmetric bit for bit); they do not increase with the distance if exp and pow are monotone; each pixel differs from the exact image by at most 1 unless its distance from the centre is within 2e-6 of the edge at 5/4 of the radius, and for an integer radius up to 10^4 at every pixel; a negative intensity gives a black image.", "quantifier": "all radii up to 2^20, intensities, pixels, implementations of exp and of the eighth power with errors up to 1e-14", "why_tests_cant": "a chain of rounded operations with a cancellation, two thresholds and a final rounding to an integer: tests see a few images", "anchors": ["src/zernpy/calculations/calc_psfs.py: get_bumped_circle", "src/zernpy/zernpsf.py: ZernPSF.visualize_convolution"]}
{"id": "C105", "title": "Symmetries hold to the last bit", "statement": "In double precision the symmetries of the polynomials are exact, not only up to rounding: polynomial_value(r, -theta) equals polynomial_value(r, theta) for m >= 0 and its negative for m < 0; for m = 0 the value does not depend on theta; the same for sums of cosine or of sine polynomials; with the signs of all amplitudes changed, sum_zernikes (at points, as a surface, on a mesh) and generate_phases_image return exactly the negative numbers; in an image of polynomials with m = 0 pixels at the same distance from the centre are the same number. After any calls before.", "quantifier": "all valid orders, radii, angles, lists of polynomials and amplitudes, image sizes (the lesser up to 2^25), histories, and all arithmetics with a rounding that is odd, an even cos and an odd sin", "why_tests_cant": "equality to the last bit for all arguments; tests compare a few values with a tolerance", "anchors": ["src/zernpy/calculations/calc_zernike_pol.py: triangular_function", "src/zernpy/zernikepol.py: ZernPol.polynomial_value", "src/zernpy/zernikepol.py: ZernPol.sum_zernikes", "src/zernpy/zernikepol.py: generate_phases_image"]}
{"id": "C106", "title": "Aberrations conserve the light of a PSF", "statement": "Aberrations move the light of a PSF to other pixels and neither create nor destroy it: for pixels smaller than wavelength / (2 NA) (all those that set_physical_props accepts), the sum of the exact PSF over all the pixels of the image plane is wavelength^2 / (pi NA^2 pixel^2), whatever the polynomials and their coefficients are. A kernel of any odd size never contains more; the computed kernels (not normalised) contain at most this much up to size^2 times the quadrature (and rounding) error of a pixel, and all of it, up to as little as you like, if the kernel is large and the integration points are enough.", "quantifier": "all valid polynomials and lists of polynomials, coefficients, wavelengths, apertures, pixel sizes below wavelength / (2 NA), kernel sizes, histories", "why_tests_cant": "an infinite sum, for all aberrations; a test can sum one kernel of a finite size", "anchors": ["src/zernpy/calculations/calc_psfs.py: get_psf_kernel", "src/zernpy/calculations/calc_psfs.py: get_psf_kernel_zerns", "src/zernpy/zernpsf.py: ZernPSF.calculate_psf_kernel"]}
{"id": "C107", "title": "Collections of polynomials", "statement": "Python containers of ZernPol objects behave as the order of the OSA/ANSI pyramid says: sorted(l) contains the same objects in this order and is stable, does not depend on the order of l, and restores generate_polynomials(k) from any shuffle; max and min return the last and first polynomial (of no polynomials: ValueError); z in l tells whether the polynomial is in the list, however it was made, and raises ValueError if an object of another type stands before it; < is the mirrored >, != the opposite of ==; <=, >= and sets raise TypeError.", "quantifier": "all lists of polynomials with valid orders, made in any way, all shuffles, all max_order 0..54", "why_tests_cant": "holds for all lists and permutations; the operators <, != and the containers are not defined in the package and follow from Python rules", "anchors": ["src/zernpy/zernikepol.py: ZernPol.__gt__", "src/zernpy/zernikepol.py: ZernPol.__eq__", "src/zernpy/zernikepol.py: generate_polynomials"]}
{"id": "C108", "title": "Surfaces on arrays of any shape", "statement": "sum_zernikes(..., get_surface=True) on two non-empty arrays with radii in [0, 1] and a coefficient that is not zero returns exactly for two vectors (the surface on their mesh), for a matrix of radii with as many columns as there are angles and fewer rows, and for a matrix of angles with as many columns as there are radii and not more rows; in the last two cases the matrix is used element by element (element [p, q] is the sum at r[p, q], theta[q], resp. at r[p], theta[q, p]), so the result is not a mesh. Every other combination of shapes raises ValueError, an array without dimensions IndexError. With only zero coefficients the zeros of the leading lengths are returned for any shapes and radii. An object in the list that is no polynomial raises ValueError, whatever its coefficient (two vectors).", "quantifier": "every pair of shapes (any number of dimensions), every list of polynomials and coefficients, every history of calls", "why_tests_cant": "All shapes and sizes; tests use two vectors.", "anchors": ["src/zernpy/zernikepol.py:ZernPol.sum_zernikes"]}
{"id": "C109", "title": "Warnings raised as exceptions", "statement": "With warnings made errors (python -W error, warnings.simplefilter('error')) a call of set_physical_props, set_calculation_props or calculate_psf_kernel that gives no warning does exactly what it does otherwise, and one that gives warnings raises the first of them. It then stops in the middle: set_physical_props has stored the aperture, the wavelength and the pixel size of the call but not the amplitudes, the kernel size and the flag 'properties set'; set_calculation_props has stored nothing (warnings about the size) or all three values (warning about the precision); calculate_psf_kernel has not stored a kernel. The text of a warning raised by one of the two setters stays pending: every calculation with suppress_warnings=False raises it again and changes nothing, an accepted set_calculation_props does not remove it, an accepted set_physical_props does; when warnings are shown again, each calculation repeats it. Polynomials of orders above 50 make every calculation without acceleration raise, also with suppress_warnings=True. After a refused NA = 0 every calculation without acceleration raises ZeroDivisionError before any warning.", "quantifier": "every object and state, all arguments of the three methods, both filters, with and without numba", "why_tests_cant": "Which step raises depends on the state of the object and on the computed kernel; the pending text is a matter of histories of calls.", "anchors": ["src/zernpy/zernpsf.py:ZernPSF.set_physical_props, ZernPSF.set_calculation_props, ZernPSF.calculate_psf_kernel", "src/zernpy/zernikepol.py:ZernPol.polynomial_value"]}
{"id": "C110", "title": "From the calls of a user to the physics", "statement": "Whatever happened to a ZernPSF object before: set_physical_props, set_calculation_props and calculate_psf_kernel with accepted arguments return a kernel that deviates in each pixel from the exact diffraction integral of the optics given in these calls by at most an explicit function of the amplitudes, the orders, the size and the numbers of integration points, plain or accelerated, for one polynomial or several; normalised, by at most 2E/(top - E) from the normalised exact PSF. It is as exact as you like: there are numbers of points, dependent only on the arguments, from which on every object for the polynomials gives the exact PSF up to a given error. The kernel holds at most the light through the pupil, up to this error. An object for the piston gives the exact PSF of the ideal system up to 1e-10, whatever the numbers of points are.", "quantifier": "every object and history of calls before, every polynomial or list of polynomials that the calculation supports, all accepted physical properties, coefficients, sizes, numbers of points", "why_tests_cant": "The exact diffraction integral has no closed form to test against, and the histories and parameters are infinitely many.", "anchors": ["src/zernpy/zernpsf.py:ZernPSF.set_physical_props, ZernPSF.set_calculation_props, ZernPSF.calculate_psf_kernel", "src/zernpy/calculations/calc_psfs.py:get_psf_kernel, get_psf_kernel_zerns", "src/zernpy/calculations/calc_psfs_numba.py:get_psf_kernel_comp"]}
{"id": "C111", "title": "From the calls of a user to the physics, in double precision", "statement": "set_physical_props, set_calculation_props(kernel_size, 320, 300) and calculate_psf_kernel, computed in double precision with the order of the summations left open: properties in the documented ranges are accepted and stored, and each pixel of the returned kernel deviates from the exact diffraction integral of the given optics (with the exact amplitudes coefficient/wavelength) by at most the quadrature error plus 2e-7; plain or accelerated, for one polynomial or several, the piston included (its Airy kernel alone is within 1e-10). Normalised, the deviation from the normalised exact PSF is at most 2E/(top - E) and one more rounding. The kernel holds at most the light through the pupil, up to this error.", "quantifier": "every object and history, every list of up to 66 polynomials of orders up to 10 that the calculation supports, all doubles in the accepted ranges and of ordinary size (2^-40 and more), coefficients together below 0.99 wavelengths, optical radius of the kernel up to 1000, every order of the additions", "why_tests_cant": "Rounding errors, the quadrature and the exact integral cannot be compared by running the code on some inputs; the inputs are infinitely many.", "anchors": ["src/zernpy/zernpsf.py:ZernPSF.set_physical_props, ZernPSF.set_calculation_props, ZernPSF.calculate_psf_kernel", "src/zernpy/calculations/calc_psfs.py:airy_ref_pattern, get_psf_kernel, get_psf_kernel_zerns", "src/zernpy/calculations/calc_psfs_numba.py:get_psf_kernel_comp"]}
{"id": "C112", "title": "From the calls of a user to the blurred image, in double precision", "statement": "set_physical_props, set_calculation_props(kernel_size, 320, 300), calculate_psf_kernel and convolute_img, all computed in double precision: the blurred image differs from the image that the exact diffraction integral of the given optics makes (the image continued by reflection) in each pixel by at most an explicit bound d, made of the error of the kernel (C111) and the roundings of the convolution (C83); scaled to the maximum of the image, by (3d/C + 3*2^-53) times the maximum, C the maximum of the ideal image. Images of integer pixels (not scaled) keep their type, nothing overflows, and they differ by less than 1 + d. No calculated kernel has a negative pixel.", "quantifier": "every object and history, one or several polynomials, plain or accelerated, normalised or not, all physical properties and coefficients as in C111, kernels up to 1000 x 1000, every image without negative pixels, every order of the additions", "why_tests_cant": "The ideal image is an integral without closed form; images, histories and parameters are infinitely many.", "anchors": ["src/zernpy/zernpsf.py:ZernPSF.set_physical_props, ZernPSF.set_calculation_props, ZernPSF.calculate_psf_kernel, ZernPSF.convolute_img", "src/zernpy/calculations/calc_psfs.py:convolute_img_psf"]}
{"id": "C113", "title": "The lists that DispenserManager shares with its caller", "statement": "Whatever the caller does with its lists of parameters and with the returned lists between the calls: when compute returns, the returned list holds the values of the function for the present elements (not those at the time of update_params) of the list accepted last, in order, and nothing else changes; it returns under every fair schedule if the lists have equal lengths. compute without update_params in between returns the same list object again, so that the list returned first is overwritten; after an accepted update_params the lists returned before are never changed by the manager. If the caller has removed elements from its list, or appended to a returned list, compute never returns, for every interleaving.", "quantifier": "every function, number of workers, every history of changes of lists, update_params and compute by the caller, every interleaving of the workers and messages", "why_tests_cant": "Histories, contents of lists and interleavings are infinitely many; a call that never returns cannot be observed by a test.", "anchors": ["src/zernpy/utils/intmproc.py:DispenserManager.__init__, DispenserManager.compute, DispenserManager.update_params"]}
{"id": "C114", "title": "The developers' reference integrations", "statement": "In calc_psfs_check: get_psf_point_r does the same computation (value, exception, coefficient tables) as the library's PSF point with 320 radial and 300 angular points in every state; get_psf_point_ang returns, for every polynomial, amplitude and image point, the squared field over 2*pi with the trapezoidal rule for 600 angles and Simpson's rule without two nodes for 320 radii, never exceeds (18961/38400)^2 < 1/4, and reaches it in the centre of the unaberrated PSF, where get_psf_point_r gives 22201/22500: the two references differ by a factor of about four. get_psf_kernel has an odd size, between 1/2 and 5/2 pixels more than the tabulated width, that never decreases with the amplitude or with smaller pixels; every pixel holds the PSF at its position; with the coefficient 2*pi/lambda*NA*pixel it is the library's kernel of that size, not normalised; a coefficient 0 is a ZeroDivisionError and one giving a negative size a ValueError.", "quantifier": "every polynomial, amplitude, image point, calibration coefficient and history of calls", "why_tests_cant": "Amplitudes, points and coefficients are real numbers; the equality of two programs must hold for all of them and in every state of the tables.", "anchors": ["src/zernpy/calculations/calc_psfs_check.py:diffraction_integral_r, radial_integral, get_psf_point_r, diffraction_integral_ang, angular_integral, get_psf_point_ang, get_psf_kernel", "src/zernpy/calculations/calc_psfs.py:get_psf_kernel"]}
{"id": "C115", "title": "Turning and mirroring an aberration", "statement": "Every amplitude c of a polynomial (m, n) is replaced by c cos(m d) for (m, n) and c sin(m d) for (-m, n): then sum_zernikes at the angle t gives what the original amplitudes give at t - d, for every angle d; the sum of the squares of the amplitudes is unchanged; the exact PSF is turned by d. Negating the amplitudes with m < 0 mirrors the wavefront (value at -t) and the exact PSF. The calculated kernels follow: with a quarter turn pixel (j, S-1-i) holds what pixel (i, j) of the original kernel holds, with mirroring pixel (S-1-i, j) does, up to twice the bound of the integration error of C72 (normalised kernels: relative to the greatest exact value).", "quantifier": "every list of polynomials and amplitudes, angle of the turn, point, optics, kernel size, number of integration points (at least 2 and 4) and history of calls", "why_tests_cant": "Amplitudes, angles and points are real numbers and the lists have any length; the orientation of a kernel against its aberration can only be sampled by tests.", "anchors": ["src/zernpy/zernikepol.py:ZernPol.sum_zernikes, ZernPol.polynomial_value", "src/zernpy/calculations/calc_psfs.py:get_psf_kernel_zerns"]}
{"id": "C116", "title": "The self-checks pass and leave the process as it was", "statement": "compare_radial_calculations and compare_radial_derivatives, with any integer max_order N that the recursion limit allows, compare each existing polynomial with n < N (and the piston) once and no other, never fail their assertion and return N(N+1)/2 rows of zeros, whatever was called before; compare_recursive_coeffs_radials and ..._dr return 783 and 700 rows of zeros; check_high_orders_recursion returns the 220 rows with the values of the radial polynomials of orders 41 to 45, none above 1 in magnitude. A float of at least 2 is a TypeError, below 2 it is read as 2. After any self-checks, passed or raised, every evaluation returns what it returns in a fresh process. check_equal_coeffs is True exactly for dictionaries with the same keys and values, in any order of insertion, and never raises on dictionaries of coefficients.", "quantifier": "every max_order (integer or float), recursion limit, history of calls before, sequence of self-checks, later call; every pair of dictionaries", "why_tests_cant": "Each run of a self-check starts from one state of the process-wide tables and one max_order; that they pass from every state and do not disturb later calls ranges over all histories.", "anchors": ["src/zernpy/calculations/calc_zernike_pol.py:compare_radial_calculations, compare_radial_derivatives, compare_recursive_coeffs_radials, compare_recursive_coeffs_radials_dr, check_high_orders_recursion", "src/zernpy/calculations/find_pols_coeffs.py:check_equal_coeffs"]}
{"id": "C117", "title": "Documented arguments of the self-checks", "statement": "compare_radial_calculations tests the polynomials up to the maximum order max_order, which is not less than 2 (smaller values are set to 2); check_equal_coeffs returns False for dictionaries that differ.", "quantifier": "every max_order; every pair of dictionaries", "why_tests_cant": "Universal statements over the arguments; a sampled test passes for all the polynomials it happens to compare.", "anchors": ["src/zernpy/calculations/calc_zernike_pol.py:compare_radial_calculations, compare_radial_derivatives", "src/zernpy/calculations/find_pols_coeffs.py:check_equal_coeffs"]}
{"id": "C118", "title": "The dictionaries of coefficients are canonical", "statement": "For every existing polynomial find_coeffs_orders returns one and the same dictionary - keys 0 to n, the coefficients of the textbook polynomial - after any two histories of calls, with any recursion limits that allow the order, whether the flag is given or not; find_coeffs_orders_dr (n >= 9) likewise, with keys 0 to n-1 and the coefficients of the derivative. The test mode (use_test_dict=True), which starts from other initial coefficients (orders 7 and 8), returns the same dictionaries as the normal mode after any histories of the two modes and any evictions from the caches (for derivatives also right at the orders 7 and 8), so that test_coeffs_calc and test_coeffs_dr_calc pass in every state of the process.", "quantifier": "every polynomial, pair of histories of calls (of the normal and of the test mode), recursion limits, way of passing the flag, evicted entries", "why_tests_cant": "The recursion fills process-wide tables, so the result might depend on what was called before; a test compares twelve polynomials in one state.", "anchors": ["src/zernpy/calculations/find_pols_coeffs.py:find_coeffs_orders, find_coeffs_orders_dr, test_coeffs_calc, test_coeffs_dr_calc, initial_coefficients_test, initial_coefficients_test_dr"]}
{"id": "C119", "title": "What compare_performances measures and reports", "statement": "compare_performances(min_order, max_order) makes and evaluates, in both ways, every existing polynomial with min_order <= n <= max_order, raises a ValueError (and evaluates nothing) for a negative minimum or a maximum above 54, and reports the number of polynomials used.", "quantifier": "every min_order and max_order, history of calls before, recursion limit that allows the orders", "why_tests_cant": "The claim ranges over all pairs of orders and states of the process-wide tables.", "anchors": ["src/zernpy/zernikepol.py:compare_performances"]}
{"id": "C120", "title": "Which calibration files can be loaded, and that their layout does not matter", "statement": "read_json accepts exactly the texts that are one JSON value with white space around its tokens; any other text raises a ValueError and leaves the object as it was. Each text has one meaning. A saved calibration that has been laid out in another way (indented, with line ends of any system, white space before or after it) restores the same calibration; with anything else than white space after it, it is refused.", "quantifier": "every text of any length, every value of any depth, every object, every layout", "why_tests_cant": "The claim ranges over all texts and all ways to put white space between the tokens.", "anchors": ["src/zernpy/zernpsf.py:read_json", "src/zernpy/calculations/calc_psfs.py:read_psf"]}
{"id": "C121", "title": "check_conformity passes after any history", "statement": "check_conformity() never fails an assertion and never raises, whatever was called before it in the process; the two ways of summing polynomials it runs give the same surface, the linear combination of the polynomials, at every point; later evaluations are not disturbed by it.", "quantifier": "every history of calls before, every recursion limit that allows the order 5, every later evaluation", "why_tests_cant": "The check is itself a test, but its outcome after every possible history of the process-wide tables cannot be tested.", "anchors": ["src/zernpy/zernikepol.py:check_conformity"]}
{"id": "C122", "title": "Edited calibration files", "statement": "A file written by save_json is an object of nine entries with different names. After editing by hand, a file with the same entries in any order and layout (also with escapes in the names), and with any other entries (any names that are not calibration names, any values, repeated or not) among them, still restores the calibration in every object. If a key is repeated, the earlier value does not matter: the file acts as the one with the later value.", "quantifier": "every saved calibration, every edited text with the same calibration entries, every place and number of other entries, every reading object; every object text with a repeated key", "why_tests_cant": "There are infinitely many edited texts and values under other names; tests sample a few.", "anchors": ["src/zernpy/zernpsf.py:ZernPSF.read_json", "src/zernpy/calculations/calc_psfs.py:read_psf"]}
