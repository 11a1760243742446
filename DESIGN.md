# A Lean 4 model of sklykov/zernpy

## What is here

* `properties.jsonl` - the properties a user of zernpy relies on (C01 ...).
* `lean/Verif/Spec/` - small specifications, independent of the code: which orders are valid, the factorial
  formula of the radial polynomial, the Zernike function, the least-squares and quadrature specifications.
* `lean/Verif/Model/` - the model of the code, function by function, each definition citing `/repo` file and lines.
* `lean/Verif/Proofs/` - helper lemmas.
* `lean/Verif/Props/` - the property theorems (one file per group) with a non-vacuity `example` beside each.
* `MANIFEST.json` - property -> theorems; `seeded/LOG.jsonl` - mutation tests of the theorems.

## Trusted base

* Lean 4.33.0's kernel, and the axioms `propext`, `Classical.choice`, `Quot.sound` (through Mathlib). No axiom of our own,
  no `native_decide`/`bv_decide`.
* The faithfulness of the reading of `/repo/src/zernpy` (the code is not executed here).
* **Numbers.** Python `int` is `Int` (exact). In the base model (`Radial`, `Sums`, `Psf`, `PsfObj`, ...) `float`/`numpy.float64` is an exact ordered field or `ℝ`:
  no rounding, overflow, NaN or infinities. Beside it there are models of the same functions in rounded arithmetic, `Model/Float*.lean`: evaluation, sums, surfaces,
  images, fit, nodes of the integration, PSF kernels (also numba and parallel), estimated kernel size, cropping, sample image, convolution. They are parametrised by the operations and
  their theorems are stated for IEEE binary64, round to nearest even, without overflow (`binary64`; no fused multiply-add), with the elementary functions and the order of the sums as
  visible hypotheses. Overflow, NaN and infinities are left out there (the proved bounds exclude overflow); `Model/NonFinite.lean` (C62) models NaN and infinities, with exact finite numbers,
  for the evaluation methods and `set_physical_props`. `np.round`/`round` at a number of decimals is exact round-half-even on reals. Types that influence control flow (`int`, `bool`,
  `numpy.int64`, `float`, `str`, ...) are modelled as constructors of a value type where the code does an `isinstance` test on them.
* **Libraries.** numpy (`arange`, `linspace`, `meshgrid`, `linalg.lstsq`, `min`, `max`, `sign`), scipy
  (`ndimage.convolve`, `special.jv`), `json`, `random`, `multiprocessing.Queue/Process` are represented by their documented behaviour;
  where it is an assumption it is a visible hypothesis of a theorem (never an axiom).
* **Exceptions** are values (`Except`), with the Python exception class as the error.
* **Not modelled**: what matplotlib draws (the data handed to it by `plot_profile` and `plot_sum_zernikes_on_fig` is modelled, C65; the other
  `plot_*`, `show_*` are not), printing, timing, the `examples/` scripts, the approximations by series, figures and scripts of `calc_psfs_check.py` (its integrals are modelled, C114)
  (developer checks that are not imported by the package), the measured times of the timing functions, numba compilation itself (the compiled functions are read as Python).

## Plan per property

Notation: "valid (m,n)" is `Spec.ValidOrders m n : 0 ≤ n ∧ |m| ≤ n ∧ 2 ∣ n - |m|`.

| id | model | proof |
|----|-------|-------|
| C01 | `get_osa_index` over `Int` | injectivity and surjectivity by triangular-number arithmetic (`nlinarith`/`omega`), all n |
| C02 | `get_noll_index` | parity case split n mod 4, block argument |
| C03 | `get_fringe_index` | square-block argument |
| C04 | `index2orders` as the literal double loop with early exit | loop invariant: first match; bounds of index of order n |
| C05 | `osa2noll`, ... | corollaries of C04; the unbounded claim is false beyond the searched range and for `numpy.int64` results: negations with witnesses and `_partial` |
| C06 | same, on Python values | case analysis |
| C07-C11 | constructor on keyword dictionaries | case analysis; C07 is false (|m| ≤ n is not checked): negation + exact characterisation |
| C12 | `__eq__`, `__gt__` | from C01; false with orders such as (4,2): negation + partial for valid orders |
| C13 | `generate_polynomials` loop (Model/ZernPol); its conversion of any argument and its warnings (Model/Generate) | induction over loop; case analysis of the argument, floor and ceiling of reals |
| C14 | name tables | `decide +kernel` over the complete finite table, lifted |
| C15,C16,C42 | `radial_polynomial` (table and recurrences), `radial_polynomial_eq`, coefficient dictionaries | every table entry = formula (ring), recurrences of the factorial formula proved for all n |
| C17 | the global dictionary `coefficients` as state, requests as operations | invariant: each cached entry is correct; induction over histories |
| C18 | `radial_derivative`, `_eq`, `radial_polynomial_coeffs_dr` | `HasDerivAt`; false for n - abs(m) ≥ 40: negation + partial |
| C19 | same spec | R(1)=1 by recurrence; abs bound by a trigonometric generating function |
| C20 | `triangular_function`, derivative | `HasDerivAt` of sin/cos |
| C21 | `normalization_factor`, `polynomial_value` | Fubini in polar coordinates, angular orthogonality, radial orthogonality by integration by parts |
| C22 | `_check_radii`, `_check_angles`, elementwise evaluation | case analysis, list induction |
| C23 | `sum_zernikes` and mesh variants | list induction |
| C24 | `gen_polar_coordinates`, `gen_equal_polar_mesh` | ceil arithmetic; the step checks can never fire: negation |
| C25 | `crop_phases_img` | real arithmetic on pixel radii, induction over rows |
| C26 | `fit_zernikes` with `lstsq` as a parameter satisfying its contract | linear algebra |
| C27, C28 | phase-image generators, RNG as an arbitrary oracle | induction |
| C29-C31 | `ZernPSF` object as state machine | invariant over histories; several clauses false: negations |
| C32-C35 | quadrature sums over `ℂ` | norm bounds on sums; weight counting |
| C36 | `crop_kernel` loop | loop invariant and termination measure |
| C37 | convolution with reflected boundary | convexity of weighted averages |
| C38 | JSON record round trip | case analysis; some clauses false |
| C39 | `DispenserManager` as a labelled transition system | invariant over all interleavings |
| C40 | warning flag state machine | induction over histories |
| C41 | `get_bumped_circle` | real arithmetic |
| C43-C46 | kernels as functions of the pixel position, from C32's characterisation of `get_psf_kernel*` | conjugation / rearrangement of the quadrature sums |
| C47 | `set_physical_props` followed by `calculate_psf_kernel` | composition of the state machine with the kernel theorem |
| C48, C49 | the surface computed by `sum_zernikes`, integrated over the disk | orthonormality (C21) and bilinearity of the mean |
| C50 | `polynomial_value` | parity and periodicity of the angular factor |
| C51 | kernels of C44 against `Spec/Diffraction.lean` (Lebesgue integral over the pupil) | uniform continuity, quadrature error bounds |
| C52 | `airy_ref_pattern` against the diffraction integral | Fubini, integration by parts, Lipschitz bound |
| C53 | `initialize_parallel_workers`, `get_kernel_parallel`, `deinitialize_workers`; the workers run the model of the dispenser with `radial_integral_s` | composition of C39 (results under every schedule) with C32 (the sums); counterexamples by a strict triangle inequality and continuity |
| C54 | kernel of several polynomials | the tilt is linear in the pupil coordinates: shift of the argument of the discrete diffraction integral |
| C55 | exact PSF and kernel of several polynomials | orthonormality (C21, C48), cos x >= 1 - x^2/2 integrated over the pupil, C51 for the kernel |
| C56 | exact PSF and kernels of several polynomials | substitution in the diffraction integral (periodicity), then C51 |
| C57 | generated image (C27), cropping (C25) and fit (C26) composed | values at the same point in two polar representations; normal equation of the fit of one polynomial and a bound for each pixel |
| C58 | Verif.Model.Convolve (reflected borders as an index function), Verif.Model.Psf | the reflected image is periodic; the shifts by d and by -d cover a period together; weights symmetric in both directions; kernel elements depend on the distance only |
| C59 | the functions of the radial part are written for any type of numbers; here they run on `Fl F`, numbers rounded after each operation (`Verif.Model.Float`); `doubles` is the concrete binary64 (exponent unbounded above) | running error analysis: a value with a majorant `M` and an exponent `k`, error at most `((1+u)^k - 1) M`; rules for each operation; induction over the recurrences and the coefficient sums; sum of the absolute coefficients bounded by `g(n)` by the recurrence |
| C60 | as C59, for arithmetics exact on integers below 2^53 | values that are integers with a bound on the absolute value: the bound on the coefficient sums is below 2^53 up to the order 40, above it the recurrences add numbers of absolute value at most 1 |
| C61 | as C59, `radialDrFl` | the same running error analysis; the coefficients of the derivative have an absolute sum of at most n g(n) |
| C62 | extended floats (numbers, infinities, NaN) with the IEEE rules; the polymorphic evaluation functions run on them | the functions respect every relation that the operations respect (parametricity), applied to: finite numbers, elements of arrays, and 'not a number' (NaN or infinite) against non-constant polynomials over the rationals; case analysis for the checks |
| C63 | Model/Alias: a heap of arrays and lists with identities; `Tracked` runs the radial code of Model/Radial on values that remember whether they are the argument object; a ZernPSF object holds references for kernel, polynomials, coefficients, and every method is the one of Model/PsfObj applied to what the references show | parametricity (value relation) for the content, case analysis over the branches for the identity; refinement of the heap step to the PsfObj step; frame theorem by induction over histories of calls and writes |
| C64 | the complete loop of the workers with the checks of both events, the constructor, `compute`, `update_params`, `close` and interruptions as one transition system | refinement of the sequence of the user's calls by an invariant over all histories; simulation by the model of C39 for termination; a measure for the ending of the workers |
| C65 | Model/Plot: the arguments of pcolormesh / plot_surface / imshow as the picture; plotProfile, plotSumOnFig, the cells and the drawing of the half pyramid, visualizeConvolution. Colours, colour bars, windows and matplotlib itself are not modelled | the surface theorems of C23/C24 with the covering coordinates; failures of the surface loops for radii off the disk by induction over the polynomials and rows; the table of the 27 cells is decided over the complete (finite) pyramid, the drawings by induction over the cells; the integer convolution from the scaled one of C37 |
| C66 | the methods of ZernPSF (Model/PsfObj, PsfCalls, Parallel, Psf, PsfNumba) | simulation relation between the two objects (for get_kernel_parallel also the wave number), kept by every call; induction on the history |
| C67 | get_kernel_size and set_physical_props (Model/Psf, PsfObj) | the size as makeOdd of a rounded product, monotone pieces; induction over the polynomials |
| C68 | radial_integral and get_psf_point_r with the step and the nodes rounded to binary64 after each operation (Model/FloatNodes), numpy.arange as in numpy | monotony, exactness and error of binary64 (Proofs/FloatNodes); the rule on the rounded nodes against the trapezoidal rule (Proofs/NodeRule) |
| C69 | the radii of gen_polar_coordinates with all operations rounded to binary64 (Model/FloatNodes: genRadiiFl) | monotony, exactness and error of binary64 (Proofs/FloatNodes) |
| C70 | the PSF functions with each operation rounded by an arbitrary arithmetic (Model/FloatPsf: PsfArith), the polynomials as in C47 (polynomialFl); accuracy of the arithmetic in Spec/FloatPsf (PsfAccurate), binary64 is an instance for every order of the additions | errors propagated through the polynomials in both arguments (Proofs/FloatPsfPhase), the wave, the sums and the rules (Proofs/FloatPsf, FloatPsfPoint), the pixels and the normalisation (FloatPsfKernel) |
| C71 | radial, radialDr and polynomialValue as in C15, C18 | the derivative of a radial polynomial is a combination of radial polynomials with positive coefficients (R'_n^m - R'_{n-2}^m = n(R_{n-1}^{m-1} + R_{n-1}^{m+1})), which are bounded by their value 1 at the rim (C19) (Proofs/RadialSlope); mean value theorem |
| C72 | getPsfKernel, getPsfKernelZerns (C44), the exact integral exactPixel (C51), the bound quadratureError in Spec/PsfRate | error of the trapezoidal rule M/(12 N^2) and of Simpson's rule with omitted nodes from the second derivatives of the integrand (Proofs/QuadratureRate), which are bounded by those of the radial polynomials at the rim (C71) (Proofs/PsfRate) |
| C73 | CoefState with the two tables and the two lru caches, findCoeffs(Dr), radial(Dr), polynomialValue, PsfObj.calculate; histories as the reflexive transitive closure of TableStep | invariant Bnd (keys distinct, orders and lengths bounded) kept by every step, with C17's invariant for the validity of the keys; a duplicate-free list of valid pairs of orders up to N has at most (N+1)(N+2)/2 members (Proofs/TableBound, TableBoundPsf); threads: every atomic action keeps both invariants, whether the call returns or raises (Proofs/ThreadsBound, ThreadsFloatHeld) |
| C74 | forceCompilation, versionWarnings, compileOne, compileBoth (Model/Warn) with the version as a list of parts | the accelerated calculations are computations that keep the state (Proofs/CompState, structural); the two kernels are the ideal kernels by C24 and their centre is positive, since the phase is less than pi/2 |
| C75 | the lists of warnings of the three methods (Model/Warn), on the object model of C30/C47; the warnings of the polynomial objects (Model/PolyWarn) | case analysis of the calculation (C36), the maximum over the four border lines is the maximum over the border, reachability gives the oddness of the size |
| C76 | programs of atomic actions on the shared state (Model/Threads): membership tests, reads and writes of the dictionaries, lookups and insertions of the lru caches are separate actions | rely/guarantee: every action of every thread keeps all entries correct and removes no key, so a key that was found stays present; structural induction on programs for termination; actions of calls that raise keep the invariant as well, so only the thread itself has to call existing polynomials; refinement of the sequential model by the programs run alone |
| C77 | the text of json.dump character by character, the scanner of json.load, and save_json as a list of actions on the file system (folder, open with truncation, one character after another), of which any first k may have been done (Model/JsonText) | parsing inverts writing (induction on texts); a parsed object stays parsed if the text is continued (mutual induction on the scanner), so no proper part of a document is a document; composition with C38; negations: truncation before writing |
| C78 | the floating-point models of C59-C61 and C69 (Model/Float, Model/FloatPsf) with no assumption on the arithmetic | the stored coefficients of an order are unique integers in every reachable state, so that two runs do the same operations: induction on the recursion for the pair of runs, with the two children of -m exchanged (one commutation of an addition); then through all loops of the PSF |
| C79 | sum_zernikes at a point, its two surface loops and _sum_zernikes_meshgrid with each operation rounded (Model/FloatSums) | error propagation by induction on the list (as in C70); the values of the terms do not depend on the state (C78), so that the loops over rows and columns fill the grid with the folded sums (loop invariants); idempotence of rounding gives the equality of a sum starting with 0 and one starting with the first term |
| C80 | number of atomic actions of the programs of C76 (Model/Cost) | invariant that everything in the tables and caches has its predecessors in the tables, kept by every action of every thread; a cost calculus that allows actions of other threads between any two; inductions over the order for the five ways the recursion can meet the tables; for the lower bound the recursion above the order 40 doubles every two orders (success of the calls from C76) |
| C81 | the model of C44 | the field is Lipschitz in the phase of the integrand because two points of the unit circle are not farther apart than their angles, and the weights of both rules sum up to at most those of the area; |Z| <= norm on the disk (C19) |
| C82 | the model of C37 | the reflected index commutes with mirroring and does not increase distances to pixels inside; reindexing of the sums; the maximum depends on the set of the elements only; the difference of two weighted means as one weighted sum |
| C83 | the loop of scipy's correlate over the weights above 2^-52, with a rounding after each operation, the sum of the kernel, the division, the scaling and the conversion of types | backward error calculus of C70 for the sum of products; bound of the quotient; truncation of two numbers that differ by less than 1; the counterexamples by exact evaluation of the roundings to nearest, ties to even |
| C84 | the loop of `read_json` over the entries with the count of properties, the warnings of `save_json` and `read_json` | entries for different quantities commute, induction over permutations; a variable is set only by the entry of its quantity; eight counted entries without repetition are all eight quantities |
| C85 | a world of objects with their `json_file_path`, the file system and the coefficient tables; a step for each call | invariant of all objects and all files (a document of a sound object keeps the reading object sound, entry by entry), induction over the history; the negations by calculation of the steps |
| C86 | the kernels and the convolution in the arithmetic of C70 and C83 | the error of the pixels of the kernel as a change of the weights of a mean (C82), the roundings of C83, the scaling of two nearby images; no pixel of the calculated kernel is negative, since roundings keep signs |
| C87 | Model/Fit, Model/Crop (as C26) | normal equations of least squares (a quadratic in one parameter), linearity of the normal equations, Pythagoras for the fitted values, uniqueness from independence; the constant from injectivity of a linear map between finite-dimensional spaces; cropping of images of equal shape by a relation between the two runs of the loop |
| C88 | Model/Polar, Model/Fit, Model/Crop (as C26, C57) | a combination of polynomials of orders up to N is a polynomial in r of degree N on every line through the centre and a trigonometric polynomial of degree N on every circle; N+1 lines with N+1 points (N/2+1 circles with 2N+1 points) make it zero everywhere, and orthogonality makes the coefficients zero; lines of pixels by integer directions of the right parity, separated in spite of the rounding of the radii to 4 decimals |
| C89 | Model/ThreadsFloat: the functions of Model/FloatPsf, Model/FloatSums as programs of atomic actions of Model/Threads | the coefficients found under any interference are the correct ones and determine the floating-point value; programs with a result independent of interference are closed under sequencing; run alone they are the sequential model (refinement) |
| C90 | Model/Sums, Model/ZernPol, Model/Fit as in C13, C23, C26; polynomials as MvPolynomial over Fin 2 (Spec/Polynomial) | monomials as homogeneous trigonometric polynomials, r^d cos(kθ) and r^d sin(kθ) as combinations of Zernike polynomials by induction on d (the leading coefficient of a radial polynomial is not zero); conversely r^k cos(kθ) as polynomials by induction on k; uniqueness and the missing polynomial by orthogonality (C21) |
| C91 | Model/Sums as in C23 | Stone-Weierstrass on the disk for polynomials in the Cartesian coordinates and C90; orthonormality (C21) for the best approximation and the mean squares; a continuous function whose square has the mean 0 is 0 |
| C92 | Model/SharedFile: each process as test, open with truncation, one character after another at its own position (gaps are zero bytes), on the texts and the scanner of C77 | invariant: the file holds the characters of the text at their places or zero bytes, complete up to the position of the process that opened last; texts with zero bytes are never read (mutual induction on the scanner); the negations by explicit schedules |
| C93 | Model/FloatNumba: zernpol_value, pol_sums and get_psf_kernel_comp with each operation rounded (the table of Model/PsfNumba on rounded numbers), the integration as in C70 | each of the 33 explicit equations by the error calculus of C59, then the phases, and the theorems of C70 on the integration for any phase with a bounded error |
| C94 | Model/FloatFit: the matrix with rounded polynomial values (pairs or slices per radius), the solver as a parameter, numpy.round as multiplication, rint and division with rounding | the error bound of C59 for the elements, then perturbation theory of least squares (the residual is orthogonal to the columns; Frobenius norms), the bound of C79 for the computed phases, and rint of a number within 1/2 of an integer |
| C95 | genPolarCoordinatesFl: the function in the arithmetic F, with np.pi and 2.0*np.pi rounded | case split at 8 - 2*np.pi where the rounding of the stop changes; the tie at 2*np.pi + 2^-51 is rounded to even; multiples of 2^-51 for the steps in [2, 2.1] |
| C96 | npLinspaceFl: numpy.linspace in the arithmetic F (rounded step, rounded products, last value set) | relative error of the two roundings against the distance of the neighbours |
| C97 | genZernikesSurfaceFl: the composition of the grids of C95, C96 and the sums of C79, all in the arithmetic F | C95, C96 give a grid on the disk, C79 the error of each element; the Lipschitz constant in the angle and the single-valuedness of the polynomials give the seam and the centre |
| C98 | fltRadialTask, fltPointParallel, fltKernelParallel: the parallel calculation in the arithmetic F, with the dispenser of Model/Dispenser for the exchanged tuples and complex numbers | the dispenser returns the values of the tuples in their order (invariants of C39); every radial integral returns one value in all good states (C78), so both calculations sum the same list |
| C99 | imgDistFl, imgRFl, imgThetaFl, imageRowFl, generatePhasesImageFl: generate_phases_image in the arithmetic F (Model/FloatImages) | the squared distance is an integer, so the rounded square root crosses the radius only if the exact one does; radius and angle within 2^-52 and 2^-48; Lipschitz bounds of the exact sum (C71) and the error of the sum (C79) |
| C100 | pixSquareFl, pixRadiusFl, pixThetaFl, cropPixelFl, cropLoopFl, cropPhasesImgFl, fltFitPolynomials: the functions in the arithmetic F (Model/FloatCrop) | invariant of the loop over the pixels (as C25) with the rounded comparisons; the coordinates of the pixels are exact doubles, rounding is monotone, so the recalibrated radii are at most 1; the fit by C94 |
| C101 | the functions of C94 and C99 in binary64 | error of the solution (C94) below half a unit of the last decimal, and rounding to d decimals of anything near a decimal returns it; pixels are near to the combination (C99), the combination changes little with the coordinates |
| C102 | get_kernel_size, set_physical_props and crop_kernel with binary64 after each operation (math.sqrt is correctly rounded, so there is no parameter) | relative error of positive numbers as a factor (1 + 2^-52)^k; quotients of doubles never round across a power of 2 (gap of doubles); monotonicity of binary64; roots of integers and tenths stay away from half-integers |
| C103 | Model/ReadWhileSaving: a reader (test for the file, open, pieces at its own position until nothing comes) next to the saving processes of C92 | invariant: the file and the characters read so far are characters of the text at their places or zero bytes; the negations by explicit schedules |
| C104 | Model/FloatSample: get_bumped_circle with binary64 after each operation; exp and pow are parameters with an error contract | Lipschitz bound of the bump as a function of the eighth power (mean value theorem), forward error analysis of the chain, monotonicity of binary64; the edge by an explicit double |
| C105 | Model/Float, Model/FloatSums, Model/FloatImages | the angular part is the only one that sees the angle; oddness of the rounding through each product and sum, induction over the polynomials and pixels |
| C106 | Model/Psf, Model/FloatPsf, Spec/Diffraction | the exact field at the pixels is the list of Fourier coefficients of the pupil function on a torus (polar coordinates, change of variables); Parseval; finite boxes of pixels; convergence and error bounds of the kernels (C51, C72) |
| C107 | Model/Ordering | the merge sort by not (b < a) is a sorted permutation; antisymmetry of the order of valid polynomials; induction over lists |
| C108 | Model/SumsShapes: the surface branch of sum_zernikes with x[j] of an array as a number or a sub-array and the in-place addition to a line | induction over the loops as in C23; for shapes that do not fit, the first line that is added raises |
| C109 | Model/StrictWarn: the three methods step by step with the attribute __warn_message and the filter; Model/PolyWarn: the flags of the polynomial objects during the loops | the model with the filter 'show' equals the models of C30, C31, C75; a relation 'does the same or raises the first warning' is closed under composition of steps |
| C110 | Model/PsfObj: the three methods on an object in any reachable state; Spec/Diffraction: the exact integral | the kernel after the calls (C30, C31, C47) is the discretised PSF of the arguments; its error by C51, C72; the light by C106; the piston by C52 |
| C111 | Model/FloatWorkflow: `airy_ref_pattern`, and the choice of the kernel function by an object, on doubles; Model/FloatKernelSize: `set_physical_props` on doubles | C102 for the first call; C70, C72, C93 for the kernel functions; the rounded amplitudes by C81; the Airy pattern: errors of the distance, of `round`, of `jv`, Lipschitz continuity of the exact PSF |
| C112 | Model/FloatWorkflow: the methods of an object on doubles, with `convolute_img` | C111 for the kernel, signs of the pixels by the signs of the roundings, then the comparison of images of C86 and the truncation of C83 |
| C113 | Model/DispenserLists: lists as objects in a memory, the steps of compute from Model/Dispenser | invariant of C39 for the values, a counting invariant that holds for any length of the lists for the negations, induction on the history |
| C114 | Model/Check: the functions literally, over the reals | equality of programs; sums over nodes as in C32 and C33; bound by the triangle inequality |
| C115 | model of C23 and C44; specification of the turned and mirrored amplitudes in Props/Turned | addition theorems, induction on the lists, rotation of the exact integral (C56), error bound of C72 |
| C116 | Model/SelfCheck: the lists of orders, the radii, the rounded differences and the assertions; dictionaries as lists of items | membership and number of the listed orders by induction, equality of the three ways to calculate a radial polynomial in every state of the tables (C09, C14), bound of the radial polynomials on [0, 1]; permutations of item lists |
| C117 | model of C116 | the statement is false of the code: for every N no polynomial of the order N is compared, an int below 2 is not set to 2 (the test reads `not isinstance(...) and`), unequal dictionaries of the same length with different keys are a KeyError |
| C118 | model of C15 (Model/Coeffs); Model/TestTables: the test mode as the same recursion on tables of its own, test_coeffs_calc, test_coeffs_dr_calc | invariant that all entries are right; the leading coefficient is not zero, so that length and entries of a right dictionary are determined; the initial test tables are right (kernel computation on their 9 entries) |
| C119 | Model/Performance: the list of objects, the two loops with the variable `i` that remains after a loop | induction over the list of polynomials; the reported number is false of the code: one less than the number of polynomials, and 250 (left over from the loop that fills the radii) for an empty range |
| C120 | Spec/JsonGrammar: the grammar of RFC 8259 as inductive relations between trees and texts, independent of the reader | the reader of Model/JsonText is sound (induction on its bound) and complete (induction on the derivations) for the grammar (with escapes in strings and literals); the limits of the Python scanner (nesting, digits of integers) are not modelled, and escaped surrogates are all U+FFFD |
| C121 | Model/Conformity: the three parts of the function in order | the indices are computed by the kernel (there are no free variables), the values follow from the theorems about polynomial_value and the sums in every state reachable by calls; exact arithmetic, so the arrays of np.arange are the exact ones; printing and times left out |
| C122 | Model/JsonText: json.load's dictionary of the members (dictPut, pyDict), unknown keys | filtering by names commutes with building the dictionary; entries are read one by one, then order irrelevance (C84); repeated keys by commutation of insertions |

## Modelling notes for the larger parts

* **Process-wide state.** The two coefficient dictionaries and both `lru_cache`s are a state (`CoefState`) threaded through every evaluation, in all modules
  above it (sums, fits, kernels). Theorems quantify over `afterCalls h`, the state after any list of calls, including calls interrupted by a
  `RecursionError` at any depth.
* **ZernPSF objects.** `PsfReachable o s`: constructed with any argument, then any list of method calls (accepted or rejected). `read_json` is not part of
  this relation: it can put an object into states no other method can (a stale Airy flag, leftover polynomials), so that invariants
  such as "the Airy flag belongs to the polynomial" fail; `read_json` itself is proved for *every* target object, reachable or not.
* **Numerical integration.** The quadrature sums are modelled exactly as written (including the two nodes missing in the angular sum); kernels are proved
  equal to these sums at the pixel positions.
* **DispenserManager.** The manager, the workers and the transport of each message (the feeder thread of a `multiprocessing.Queue`) are separate
  atomic steps; a schedule is any sequence of them. A queue is first-in-first-out per sender; one worker's queue is used in both directions, and
  messages of the two senders may be ordered arbitrarily. `time.sleep` has no effect in the model. Termination is proved for fair schedules.
* **JSON.** A document is the list of its entries; the text format (that numbers survive it) is trusted. `Path.exists(str)` raises `AttributeError`
  (CPython before 3.14).

## Properties that are false of the code

Each has a machine-checked negation (see `MANIFEST.json`) and the strongest true part that we found:

| id | what fails |
|----|------------|
| C05 | conversions outside of the searched range give wrong indices; `osa2fringe` returns `numpy.int64`, which `fringe2osa` rejects |
| C07, C12 | the constructor accepts abs(m) > n, such polynomials can share an OSA index |
| C18 | derivative by coefficients for m = 0 above order 38 adds the derivative instead of the value |
| C24 | the step checks can never fire (chained comparison `0.0 >= step > 0.5`) |
| C28 | rounding to 0 digits exceeds the amplitude bound |
| C29 | a non-sequence argument is accepted (the exception is not raised) |
| C30 | the wave number is computed from the previous wavelength; rejected calls change the object |
| C31 | a new object with suppressed warnings calculates a kernel of another size than its `kernel_size` |
| C33 | the angular rule misses two nodes, the centre value is not 1 |
| C35 | accelerated calculation wrong for abs(m) = n = 8, 9, 10, and for the piston |
| C37 | scaling a black image gives NaN, images with negative pixels are inverted |
| C38 | the kernel size and the Airy flag are not restored; `str` paths raise |
| C39 | a second manager in the same process never returns; a raising function never returns; one processor gives no workers |
| C53 | the parallel kernel uses the wave number of the previous wavelength; wrong without workers, raises after their release, zeros for several polynomials |
| C57 | the circle of generate_phases_image has the radius 1 + n//2, that of fit_polynomials (n-1)/2: a tilt comes back too small by k/(k+1); from 6201 pixels the crop takes zeros outside of the generated circle into the fit |
| C62 | "an argument with a radius outside [0, 1] is rejected": one NaN in the array disables the check; "a NaN coefficient gives NaN": it is skipped unless it is the first; "set_physical_props rejects NaN": a NaN coefficient, and NaN as NA, are accepted |
| C64 | a later `compute` after an interrupted one returns the values of the function; `close` ends the workers of an interrupted constructor |
| C67 | the estimated kernel size drops when the coefficient passes half of the wavelength |
| C68 | in double precision some numbers of radial points (24, 27, 28, 54, ..., 322, ...) give one node too many at the rim |
| C69 | in double precision the step 1/6 gives the radius 1 twice, the step 1/98 does not reach 1 |
| C71 | `radial_dr(1)` for `n - abs(m) >= 40` (as C18) |
| C74 | `force_get_psf_compilation` recommends the update only for versions 0.b.0 with b ≤ 57, and raises an `IndexError` for a version of two parts: `old_version_not_warned`, `short_version_raises` |
| C75 | `suppress_warnings=True` changes the size of the kernel of an object without properties: `suppress_changes_kernel` |
| C77 | An interrupted overwriting loses the old file, a repeated save with overwrite=False does not repair: `overwrite_not_atomic`, `save_again_default_keeps_broken` |
| C80 | The work is bounded by a polynomial in the order: `evaluation_cost_not_polynomial` |
| C84 | A file without the polynomial, or with two coefficients and no kernel, is read without a warning; an incomplete one is mixed in: `missing_polynomial_unnoticed`, `doubled_coefficient_hides_kernel`, `incomplete_file_mixes`, `stale_polynomials_after_read`, `uncalculated_kernel_saved` |
| C85 | The stored path can lead to another calibration, the second default save does not replace the file, and the kernel after reading can be the Airy pattern: `saved_path_of_other_object`, `second_default_save_elsewhere`, `recalculated_kernel_is_airy` |
| C88 | A surface made with equal_n_coordinates=True cannot be fitted with the returned coordinates: `surface_fit_equal_mesh` |
| C92 | Simultaneous savings of different calibrations: `different_saves_destroy`, `different_saves_mix`, `overwrite_flag_race` |
| C103 | A reader that overlaps a replacement: `replaced_while_read_mixes`, `resaved_while_read_fails` |
