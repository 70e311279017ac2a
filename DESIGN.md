# Formal model of diamondback in Lean 4

## Layout

* `lean/Verif/Model/*.lean` — the model, one file per Python module, every definition citing `/repo` file and lines.
* `lean/Verif/Spec/*.lean` — small specifications, written without looking at model helpers (convolution sums,
  difference equations, DFT sums, order statistics, ...).
* `lean/Verif/Lemmas/*.lean` — helper lemmas and proofs by induction.
* `lean/Verif/Props/*.lean` — the property theorems, named `Cnn_...`, each followed by an `example` showing that a
  concrete non-trivial case meets its hypotheses.
* `properties.jsonl`, `MANIFEST.json` — claims and status. `seeded/LOG.jsonl` — wrong-program experiments.

## Modelling conventions

* Python exceptions are values: `Except PyErr α`. A mutating method returns the result *and* the object afterwards
  also when it raises, so exception safety can be stated.
* numpy 1-D arrays are `List R`, 2-D arrays are lists of rows (or `Fin r → Fin c → R` where indices matter more than
  shape). In-place updates return the new value; C113 shows for FirFilter and IirFilter, on a heap of arrays with references, that
  this loses nothing.
* Numbers: where a property does not depend on exact arithmetic (streaming, counts, state shape, exceptions) the model
  is polymorphic in *arbitrary* operations, so the theorem covers IEEE-754 with any summation order. Where it does, the
  numbers are a commutative ring, a linear ordered field, `ℝ` or `ℂ`: **floating-point rounding is not modelled there**.
  C78, C79 and C111 bound the effect of rounding for the FIR, IIR, integral and PID filters, from error bounds on single operations;
  C159 constructs IEEE binary floating point (without overflow) and shows that it has those bounds.
  Infinities are explicit in `PidFilter` (`limit = inf`) and `DiversityModel`, and as samples in C143. NaN is modelled in C112, C125, C126 and C129
  and is absent from the other theorems.
* dtype: `numpy.array(s, type(b[0]))` makes the state share the dtype of `b`; storing a sample converts it. The model
  carries this conversion as a function `cast` (identity for float/complex, truncation for integer coefficient arrays).
* External libraries (numpy.fft, numpy.roots, polyfit, scipy windows, pickle, gzip, requests, loguru, sklearn) are
  modelled by their mathematical definition when that is short (DFT, interp, windows, base-85, linspace, half-even
  rounding), otherwise by a parameter together with the explicit hypothesis used (listed per theorem).

## Trusted base

* Lean 4.33.0 kernel; axioms `propext`, `Classical.choice`, `Quot.sound` only (checked by `vcheck` and by
  `#print axioms`). No `sorry`, `native_decide`, `bv_decide`, no added axioms. Finite tables are checked with
  `decide` / `decide +kernel`, which is kernel computation.
* The reading of the Python code into the model (no differential testing is possible in this sandbox).
* The statements in `Spec/` as rendering of the English properties.
* The behaviour of libraries, as far as a model or a hypothesis stands for it:

| library | in the model | used by |
|---------|--------------|---------|
| numpy 1-D `dot` | an arbitrary function (class `Dot`) where only structure matters, the exact sum (`ringDot`) elsewhere | filters |
| `numpy.array(.., dtype)` | a conversion `cast` | C01–C10 |
| `numpy.argsort` | any permutation that sorts; ties in any order | C16–C19, C54, C56 |
| `numpy.round` | nearest integer, ties to even | C33–C38 |
| `numpy.polyfit` | any least squares solution (existence is proved: `polyfit_exists`) | C33–C35 |
| `numpy.roots`, `numpy.poly` | exact roots with multiplicity | C11, C43, C66 |
| `numpy.fft.fft`, `ifft`, `fftshift` | the sums by which they are defined | C40–C42 |
| `scipy.signal.get_window`, `firwin`, `freqz`, `group_delay` | the formulas of the library | C14, C15, C39, C65, C67 |
| `scipy.signal.residue` | hypotheses `ResidueSpec` (the poles are the roots with multiplicity) and, for simple poles, `SimpleResidueSpec` (residue V(p) / U'(p)); `exactResidue_spec` shows a function which meets both | C43, C86 |
| `scipy.signal.hilbert` | an arbitrary function; in C77 and `C76_real_chunk_differs` the weighted inverse DFT of its documentation | C27–C30, C76, C77 |
| `numpy.linalg.inv` | the matrix inverse, LinAlgError when singular | C53–C56, C68 |
| sklearn `GaussianMixture` | an arbitrary function of the class data giving weights, means, precisions; in C116 it refuses fewer samples than components with ValueError and accepts the others | C56, C69, C116 |
| loguru | a table of handlers with increasing identifiers and levels; `add`, `remove`, `level`, `log` | C57–C59 |
| `threading.RLock` | owner and depth; interleaving semantics of `acquire` / `release` | C59 |
| `requests.request` | an arbitrary function from requests to a response or an exception | C60, C61, C70 |
| `pickle`, `gzip`, `hashlib`, codecs | parameters with hypotheses `PickleSpec`, `GzipSpec`, `AsciiCompatible`, 32-byte digest | C63, C64 |
| `base64.b85encode`, `b85decode` | modelled in full | C62 |

Every hypothesis of this kind is met by a concrete instance in an `example` beside the theorem.

Modelled: every class and method below `/repo/diamondback`, except getters and setters which only read or assign
(`b`, `s`, `proxy`, `timeout`, ...). Not modelled: messages of exceptions, warnings, `__init__` files, packaging, templates, noxfile.

## Plan per property

| id | model | proof |
|----|-------|-------|
| C01–C06 | `FirFilter` as a state machine over `List R` with `cast` and an abstract dot product | closed form of the state by induction over samples; sums over lists |
| C07–C10 | `IirFilter` state machine | auxiliary sequence `w`, generating-function argument for the recursion; constructor by case analysis on lengths |
| C11–C13 | `_evaluate`, `ZTransform.transform` over `ℂ`, `numpy.roots` = root multiset | Möbius/exponential maps of the left half plane; Hurwitz property of Butterworth, Chebyshev, Bessel polynomials; products of geometric series for BIBO |
| C14–C15 | design loop with the window-sinc `firwin`; loop as fold with early exit | sums, reflection symmetry, induction over the loop |
| C16–C19 | `RankFilter` over a linear order, `argsort` any sorting permutation | order statistics of lists; window lattice argument |
| C20–C21 | `PidFilter` with `limit : Option`/∞ | induction over samples |
| C22–C24 | `GoertzelFilter` built on the IIR model over `ℂ` | resonator cancellation identity; counting invariant |
| C25–C26 | `ComplexExponentialFilter` over `ℝ`/`ℂ`, `fmod` explicit | induction, periodicity of exp |
| C27–C30 | LMS recursions over `ℂ`; Hilbert transform a parameter for real input | one-step contraction, norm bounds |
| C31–C32 | coefficient tables over `ℚ` on the FIR/IIR model | moment conditions decided over the finite table, lifted to polynomials |
| C33–C35 | rate filter over `ℝ`; `interp` explicit; `polyfit` = least squares parameter | induction over the loop; uniqueness of least squares for affine data; for constants and any order (`Props/RateConstant.lean`) the exact fits differ only in coefficients of the powers above zero, so the fit of least norm is the constant |
| C36–C38 | the loop of `filter` with a bound on its passes, the constructor with its class variable and the window design behind the bank | measure (the bound suffices, `C36_terminates`); loop invariant; rows sum to one; the raw row sums of the real 256×15 bank are positive (`C37_constructed`): the search keeps the cut-off below 1/256 (bounds on windowed partial sums of the square wave), and below it every row is a sine sum over a convex sequence, positive by summing by parts twice; witness for dropped samples |
| C39 | window formulas over `ℝ` | trigonometric symmetry |
| C40–C42 | DFT over `ℂ` | orthogonality of roots of unity |
| C43–C44 | `ZTransform` | as C11 |
| C45–C46 | 3×3 matrices over `ℝ` | direct computation |
| C47–C49 | wavelet recursion on 1-D and 2-D arrays, FIR model inside | induction on `count`; table bounds by kernel computation over `ℚ` |
| C50–C52 | `DiversityModel` with abstract distance | invariants over histories |
| C53–C56 | matrices over `ℝ`; sklearn fit result a parameter | positive definiteness; argsort permutation |
| C57–C59 | loguru handler table + Log state; lock with owner and depth | refinement to an ideal log over histories, `C57_threshold` for the documented names in any case; invariants; commutation of critical sections |
| C60–C61 | strings as `List Char`; server behaviour a parameter | strip lemmas; event traces |
| C62–C64 | base-85 fully modelled; pickle, gzip, sha3 parameters with stated hypotheses | radix arithmetic; case analysis |
| C65 | `freqz` by definition (polynomial evaluation on the unit circle) | rotation of the grid |
| C66 | `roots` as sorted, tiled root multisets | characteristic polynomials; stability by C13; leading zeros drop out of the polynomial |
| C67 | `FirFilter.delay` with the formula of `group_delay` | pairing of symmetric terms |
| C68–C69 | as C53–C56 | sums over duplicated lists; invariance of sorting under increasing maps |
| C70 | as C60 | event traces |
| C71 | `delay` of both filters, `group_delay` of a quotient by its formula | logarithmic derivative of the response |
| C72 | as C07 | induction over samples; power series |
| C73–C74 | as C07; a state is the effect of past samples (`Iir.filter_state`) | absolutely summable impulse response, limits; the mode of a pole for the converse (`C73_unstable`) |
| C75 | as C16 | ranks compared by counting samples below and not above a value |
| C76 | as C27, C28 | loops append; the oscillator phase is kept up to whole turns |
| C77 | as C27, C28, with `scipy.signal.hilbert` as weighted DFT (`Model/Hilbert.lean`) | mirror symmetry of the weights, orthogonality |
| C78 | `Fir` over an abstract arithmetic with error bounds (`Spec/Rounding.lean`, no overflow) | closed form of the state; induction over summation trees |
| C79 | `Iir` over the same arithmetic | error obeys the perturbed recursion; absolute summability of the impulse response; fixed point of the bound |
| C80 | `Fir`, `Iir` as C01, C07 | convolution sums and power series |
| C81 | as C22, C41, C42 | the three spectra as one sum; orthogonality; Parseval |
| C82 | `Model/Diversity.lean`; two runs related row by row (`DivMap`), distances transformed by a strictly increasing `ψ` | The relation is preserved by each step of the loop: the least pairwise distance and the best replacement commute with `ψ` (`foldl_through`), so the same index is replaced.  Instances for translation, scaling and column order in the four styles.  Observations and their images must not look vacant, because the code marks vacancy by a value. |
| C83 | `Model/Gaussian.lean`; linear maps as matrices | Covariance becomes `P C Pᵀ`, its inverse `P⁻ᵀ C⁻¹ P⁻¹`, so quadratic forms agree; the loop over the classes is followed by induction, exceptions included.  `C83_unit_matters` is a concrete witness that the regularisation is not unit free. |
| C84 | `Model/ComplexTransform.lean`, as C45 | the coefficient rows as powers of the cube root of unity; algebra with `third ^ 3 = 1` |
| C85 | `ZTransform.transform`, bilinear | polynomials by their roots, one factor of the product at a time; the gain from the values at z = 1; the response at the frequency axis from exp(2 j atan x) = (1 + j x) / (1 - j x). Disagreement: zeros at infinity are mapped to z = 0 instead of z = -1 (`C85_gain`, `C85_nyquist`); the documentation example and IirFilter replace the numerator afterwards |
| C86 | `ZTransform.transform`, impulse invariant; `scipy.signal.residue` by hypothesis (poles are the roots, residue of a simple pole V(p) / U'(p); shown satisfiable) | power series: numerator = denominator times the sum of the geometric series; real by conjugate symmetry; partial fractions by Lagrange interpolation; Laplace transform of exponentials. Disagreement: repeated poles (`C86_repeated`) |
| C87 | as C47 | linearity of convolution, decimation and insertion lifted to rows, columns and levels by induction on `count`; energy by the parallelogram identity of pairs; exact rational evaluation for the witness |
| C88 | as C11, C15; Butterworth, exact arithmetic | product over the pole pairs = 1 + w^(2n) by roots of unity; bilinear transform maps the imaginary axis to the unit circle; derivative of the gain with respect to the scale between two bounds, so the scales increase to the solution without passing it and the deviation falls geometrically (mean value theorem); scales stay below 12 for the failure near Nyquist; `C88_cascade` (`Props/ButterworthCascade.lean`): numbers for two to four instances |
| C89 | as C11; Chebyshev, exact arithmetic; specification by the Chebyshev polynomials of Mathlib | product over the poles by roots of unity: 2 (T_N(x) - cos N a) = 2^N prod (x - cos(a + 2 pi k / N)) with N = 2 order; bilinear transform maps the imaginary axis to the unit circle; T is a cosine inside and a hyperbolic cosine outside the pass band |
| C90 | as C11, C14 | both designs run the same search; the renormalisation of the complement is by 1; alternating coefficients shift the frequency by 1; strong induction on the recursion for the output |
| C91 | as C53, C56 | the compared number is the exponent of the density; with one determinant the order is that of the densities. Disagreement: false otherwise (`C91_violation`, `C91_mixture_violation`, numeric bounds of exp and sqrt) |
| C92 | as C33; `numpy.polyfit` by its specification | the fit satisfies the normal equations, of which the solution is unique and linear in the data; for orders 2 and 3 they are solved; weights in [0, 1] have signs + and - so that the sum of magnitudes is 1 + t (1 - t). Order 2 smooths (`C92_parabola_witness`) |
| C93 | `PolyRate.filter`; spec: a function with a bounded derivative and its samples, `IsPolyfit` as the contract of numpy.polyfit | repeated Rolle theorem (`rolle_iterated`, induction on the number of zeros) applied to the function minus its interpolant; weights from C92; the parabola is the interpolant of three points plus a multiple of the third difference; `C93_sharp`: the bound of order one is attained |
| C94 | `DivStyle.distance`; spec: the metrics of Mathlib on `Fin n → ℝ`, `EuclideanSpace` and `PiLp 1` | the folds over the list are identified with the distances of Mathlib, whose metric axioms then apply; geometric mean by its n-th power; order by the inequality of the means. `C94_geometric_detour`: the triangle inequality fails for Geometric |
| C95 | `Wavelet.new`, `Wavelet.transform`, table digits; spec: a polynomial in the position within the window, number of vanishing moments from the literature | detail coefficient = alternating sum over the window (`wav_bands`), so a combination of the alternating moments of the digits; these are bounded per table entry with integer arithmetic in the kernel. `C95_misprints`: Coiflet 5 and Daubechies 7, 9, 11 are wrong by more than 5.6e-10, and for Daubechies one or two corrected digits restore 16 digits of accuracy; `C95_daubechies3`: closed form of order 3 |
| C96 | `Window.new`, `window.value` (the windows of scipy); spec: sines, cosines and `HasSum` of the Bessel series | monotonicity of the cosine on half a turn and of the series; sums of cosines over full turns cancel (`turn_sum`, geometric sum of a root of unity) |
| C97 | `Pid.new`, `Pid.setLimit`, `Pid.step`, `Pid.filter` | The held integral is an own recursion `hold` on the sequence of samples; `C97_law` by induction over the signal, any chunking. `C97_bounded` from the invariant `hold_lt`; `C97_unbounded` gives for every bound a length at which the constant one exceeds it; `C97_releases` by signs; `C97_stuck` shows that an integral left beyond a lowered limit never moves (a trap of the code, see the disagreements) |
| C98 | `Log.write`, `entryText`, `frameText`, `lastPart`; spec: a frame is a directory, a file name and a line | `lastPart_place` (last component of a path), induction over the frames, and the refinement of C57 to the ideal log; `C98_no_file` is the defect of an empty file name |
| C99 | `Derivative.new`, `Derivative.table`, `Integral.new`, `Integral.table`, FIR and IIR loops | Taylor polynomial at the middle of the window, Lagrange remainder (Mathlib), exactness on polynomials (C31, and `quadrature_exact` for real times); constants by evaluation of the tables. `C99_order` gives the exact error of the first power which is not reproduced; `C99_higher_is_worse`: orders 2, 4, 6 of the second derivative and 4, 6, 8 of the third have the same degree of exactness, and the higher ones a larger error |
| C100 | iir.bessel, iir.denominator, iir.evaluate, zt.transform | Closed form of the coefficients by induction over the recursion; derivative identity u_{n+1}' = u_{n+1} - s u_n and the Wronskian u_n(s)u_{n+1}(-s) - u_n(-s)u_{n+1}(s) = 2(-1)^(n+1) s^(2n+1) give the delay; positivity from the roots in the left half plane; response from the product over the poles. |
| C101 | constructors, setters, filter, reset and transform of the classes named | Case analysis on the documented ranges, stated with closed intervals instead of the comparisons of the code. |
| C102 | `Bandpass.filter` over ℂ; spec `bandImpulse`, `bandResponse` (Spec/Tone) | closed form of the loop by induction; geometric series; magnitude by trigonometry |
| C103 | `FreqF.filter` over ℂ; `instantaneous`, `Sector` | closed form of the recursion by induction; a sector below half a turn is a convex cone, given by linear inequalities |
| C104 | Gauss.fit, Gauss.predict; spread is the sum of squared Euclidean distances of samples from their mean | the matrix of a class is r I plus a sum of rank-one terms: the term of the sample itself bounds its distance by n; Cauchy-Schwarz in the quadratic form gives the lower bound; C54_rows carries it to predict; a witness shows that the condition is needed |
| C105 | Rank.filter with an arbitrary sorting argsort | C16 gives an element of the rank in the window; counting positions of a monotone window identifies its magnitude |
| C106 | Derivative.new, Integral.new, Fir.filter, Iir.filter | every table is a product of first derivatives of order 1, 2 or 4 (table_factors), each of which shifts the phase by a quarter turn and has a gain at most the frequency; cascades by C80 and convolution of the tables; integrals by induction on the increment of C32 |
| C107 | fourier, psd, Window.new | C41 and C42 evaluate the sums; the tone factors out of the spectrum; triangle inequality for nonnegative windows, whose mean is one by C39 |
| C108 | The search of IirFilter for style Chebyshev, with the response of C89 at the design frequency (`Props/ChebyshevCutoff.lean`) | `C108_cutoff`: the scale factors fall monotonically to the cut-off because the response is Lipschitz there (`chebGain_over`, tables of the polynomials up to order 5), reach a deviation of 0.1 within 334 steps and contract afterwards (`chebGain_contracts`, tangent inequality); `C108_three_db` numbers; `C108_nyquist`, `C108_witness`: the scale factors stay below 12 |
| C109 | Polyphase (bank, loop, constructor), window design, Fir | output formula of C36; reindexing of the convolution with the expanded signal; mirror symmetry of the rows |
| C110 | Fir design (firwin formula, search loop), windows | windows as mixtures of centred rectangles: convexity in the squared distance from the centre, summation by parts twice against the partial sums of the sawtooth and square wave; invariant of the search for the cut-off; sign of the coefficients for short designs |
| C111 | `Iir.filter`, `Pid.filter` over an arbitrary type `F` of machine numbers with the error bounds `Rounded` (sums, differences, products, dot products); `Binary p` is an instance with round to nearest even, unbounded exponent, on integers | `perturbed_recursion` with the absolute sum of the reciprocal series over the signal instead of over all time gives a bound with G² (`iir_rounding`, from which C79 is now derived); the response to one error is determined by its recursion (`recip_coeff`), it is constantly 1 for the integral. PID: induction over the running sum. The stall: 2^p + 1 is a tie which rounds to 2^p. |
| C112 | The models of FirFilter, IirFilter, GoertzelFilter, PidFilter and RankFilter instantiated with the numbers with nan (`Spec.Num`: absorbing operations, false comparisons, `0*nan = nan`); `nanFir` etc. only embed an existing object; numpy's argsort puts nan last (key `⊤`) | For FIR the window of an output is compared with the window of any filled signal; for IIR the invariant "a nan is in the delay line" is kept by every step because the recursion adds `a·s`, nan whatever the coefficient; Goertzel from IIR per block; PID by an induction in which the integral stays a number; rank from C16 |
| C113 | FirFilter and IirFilter statement by statement on a heap of arrays with references, `Model/Heap.lean` (`FirRef`, `IirRef`); a caller with several objects and arrays, `Spec/Caller.lean` | Simulation: each command on the heap does what the command on values (`Fir`, `Iir` of the other properties) does, results are new arrays, only the state of the called object changes (`C113_step`); by induction any list of commands (`C113_refines`), frame (`C113_unchanged`), independence of objects (`C113_independent`). The limits are shown by `C113_witness_own_state` and `C113_witness_setter`. The other properties use values; this one shows that nothing is lost by that for these two classes. |
| C114 | White noise as a sequence of square integrable random variables, `Spec/Noise.lean`; the filters of C01, C07, C32, C22, C102 and the transform of C42 applied to every outcome | Each output sample is a linear combination of the noisy samples (C01, `Iir.filter_split`, C32, C22, C102); integrals of products of sums (`Lemmas/Noise.lean`). A pair of coins is a concrete noise. |
| C115 | `Verif/Model/PolyphaseThreads.lean`: the constructor as a machine with a step per statement, a step per divided row, a heap of arrays and the reference `PolyphaseRateFilter.B`; any number of threads | Inductive invariant over schedules: an array which is being divided is referred to by its thread only and is not `B`; `C115_whole`, `C115_kept` (no array is written after `B` has referred to it), `C115_finishes` (a measure which every own statement decreases and no other statement changes). |
| C116 | as C56; of sklearn's `GaussianMixture.fit` the documented refusal of fewer samples than components, and success for at least as many (and at least two) with positive regularisation (`ComponentsSpec`) | the loop over the sorted labels stops at the least label with too few samples (`C116_needs`, `C116_refused`); counting (`C116_batch`). Disagreement: the documented example raises (`C116_example`) |
| C117 | Both loops with a function `fl` applied to the result of every operation on times (Model/RateRounded.lean); `fl = id` is proved to give the models of C33-C38. Fits, weights and sums of products are exact here. | Invariant relating interval, output count and time with the accumulated error `(i + 2 k) delta`; if outputs were missing the time would have passed the end of the signal by more than the error allows. Corollaries for a relative error of 2^-53. |
| C118 | Model/Refused.lean: the loops with a sample whose store raises, statement by statement, so that the exception leaves what was assigned before it. Rows of two dimensional arrays have at least two elements. | Loop lemmas for the samples before the refused one; the remaining state is identified with that of an ordinary call; C36 gives the outputs of the polyphase filter after the exception. Empty coefficients raise before the loop. |
| C119 | `reset` as inherited by PidFilter, GoertzelFilter and ComplexBandpassFilter (Verif/Model/Reset.lean); `Fir.reset`, `Iir.reset`, `Rank.reset`, `FreqF.reset` | Rank: the state is constant, so the chosen member is v. Derivative: every table entry sums to zero (with C04). Integral: by cases over the table. PID: closed form of the unlimited loop. Goertzel: the state after reset equals that after one sample v, and the inner filter has the impulse response exp(j*pi*f*n). Bandpass: induction over sequences of calls of reset and filter. Frequency: induction with the state x E^k. |
| C120 | `Fir.setB`, `Iir.setA/setB`, `Rank.setS` on values; `FirRef.setS`, `IirRef.setS` on the heap of C113 | The state of both filters evolves independently of `b` (closed form of the FIR loop; induction for IIR). Broadcasting by the equality of the combined coefficients in every step. Restoring and sharing through the refinement of the heap programs by the value programs (`obj_filter` of C113). |
| C121 | PolynomialRateFilter.filter (Model/PolyRate.lean) applied to its own output | `C121_up`, `C121_down`: values at integer times; `C121_return`: both lengths round exactly; `C121_compose`: the output of the first filter, its extrapolated sample included, lies on the line of the interval of the signal which holds it, so the second interpolation is along the same line; `C121_lossy`: rate 1/2 then 2 on 0, 1, 0, 1 |
| C122 | DiversityModel.fit and clear (Model/Diversity.lean) in any order | `C122_shape`: refinement to two counters, by induction on the calls; `C122_accepts`; `C122_dead`: a state without rows is kept by the loop; `C122_twice`, `C122_order` |
| C123 | `Verif/Model/FilterThreads.lean`: filter and reset as programs with an atomic step per statement on a heap of arrays, in the interleaving semantics of C59 | `C123_fir_alone`, `C123_iir_alone`, `C123_reset_alone`: without interference the programs compute Fir.filter, Iir.filter and Fir.reset, by induction on the loop; `C123_fir_touches`, `C123_iir_touches`, `C123_reset_touches`: footprints; `C123_separate`: the outcome of each thread is invariant under every step; `C123_fir`; `C123_shared`: an interleaving of two calls; `C123_locked`: the invariant of C59 |
| C124 | the setter of PolyphaseRateFilter.rate, with numpy.isclose, and filter (Model/Polyphase.lean) | `C124_keeps`, `C124_restarts`: cases of the test, then C36; `C124_drift`: induction on the factors 1 + 1e-5 between the rates; `C124_asymmetric`: the greatest rate which is close |
| C125 | `Verif/Model/DiversityNan.lean`: fit and the distances on numbers with nan (`Spec.Num`); `max` of Python compares from the left | `C125_distance_nan`, `C125_distance_chebyshev`: induction on the columns; `C125_numbers`: refinement of Model/Diversity.lean; `C125_passed_over`: the least distance with such a row is that without the row; `C125_observation`, `C125_two`, `C125_stuck`, `C125_poisoned`; `C125_kept`: the places filled, over two calls |
| C126 | the three complex filters over numbers with nan (Verif/Model/ComplexNan.lean); a complex number with a nan part is nan; the Hilbert transform is a parameter | the models without nan are shown to be those of Verif/Model/Adaptive.lean; induction over the signal, splitting it at the first nan; induction over the sequence of later operations with the invariant that the coefficient (or the phase inside) is nan |
| C127 | base64.b85decode on all texts (Verif/Model/Serial.lean); the library is modelled, not trusted, for this part | induction over groups of five against a specification by positional values (`groupValue`), independent of the padding character and the dropping of bytes in the model |
| C128 | `Fir.newInts`, `Iir.newInts`, `Pid.newInts` (type of the arrays, float after padding), conversions of Fir/Iir/Pid, `Rank.filterAs`; spec: `conv`, `Recursion`, order statistic, truncation characterised by `C128_conversion` | a filter with coefficients in the image of a ring homomorphism and conversion by a left inverse is the filter over the smaller ring (`fir_hom`, `iir_hom`, simulation of loops); zero states are fixed points for small samples; the state of a rank filter consists of samples and reset values |
| C129 | Verif/Model/NanParameter.lean: rates and frequencies in `Spec.Num`, the search with deviations which may be nan, `firwin` and `_evaluate` of nan; PID and Goertzel are the polymorphic models at `Num` | refinement of the models for numbers (`C129_polyphase_numbers`, `C129_search`); induction over the calls between two assignments, over the samples and over the candidates of the search; every output of the Goertzel recursion is a product with a coefficient nan |
| C130 | Verif/Model/IirDesign.lean (`iir.evaluate`, `iir.design`), the search of C15 | partial fractions and roots of the Bessel polynomial (C100), unique up to the order; a bound of the magnitude of 1 - e^w as an integral; the search of order one ascends to its solution without passing it, with a slope in [0.24, 2] (mean value theorem) |
| C131 | as C47 | energy of both channels over all integer times, by parity classes: aliases cancel and what remains is the autocorrelation at even shifts, bounded by its value at zero (C48 bounds the coefficients); synthesis is the adjoint of analysis, so its bound follows by Cauchy-Schwarz; levels by induction on `count` |
| C132 | Diversity.new and fit with the exact distances of the four styles | A zigzag of points at increasing distances, each no farther from the next but one, makes the model keep the last two points and rows far away (invariant by induction on the number of points from C51_greedy_partial and C51_batches), while the first and the last get arbitrarily far apart in every style; for two rows a general induction over the three outcomes of an observation gives the bounds on the line (hull of all observations against hull of the rows) and under the triangle inequality (proved for three styles). |
| C133 | construction with element types and `response`, `roots`, `delay` over complex coefficients (Verif/Model/ComplexFilter.lean), which agree with the models for real ones (`C133_real`); no rounding to single precision | simulation of the filter which keeps real parts; roots of the denominator and absolutely summable impulse response; modes by induction over samples |
| C134 | the filter and the bank of C36, C37 and C109, exact arithmetic | from C109 (expansion, FIR filter, decimation): a signal with L - 1 zeros after each sample is the mean of L sinusoids (sums of roots of unity), and the FIR filter of a sinusoid has the gain of its response; the L phases of the coefficients have the sum one (C37), hence H(0) = L and H(2m / L) = 0, and H changes by no more than pi times the change of frequency times the absolute moment of the coefficients about any centre |
| C135 | `FreqF.filter` of C28 and C103, exact arithmetic | `arg_one_add_le`: 1 + w with magnitude of w at most eps has an angle of at most arcsin eps; hence instantaneous frequencies within 2 arcsin(eps) / pi (`instantaneous_noise`, no wrap); the average of C103 split into what precedes the tone (weight (1 - rate)^(n - 1)) and the rest, and the three linear inequalities of a sector; `C135_sharp` gives the worst noise at rate one |
| C136 | signals as a type flag with complex samples; the check of `scipy.signal.hilbert` and that of `numpy.fmod` as exceptions (Verif/Model/ComplexType.lean) | case analysis; reduction to the untyped models; C25 for the tone of frequency zero |
| C137 | C01 and C07 over `BitVec 64` (Verif/Model/Int64.lean) | ring homomorphism from the integers; uniqueness of the recursion and of the wrapped value; telescoping sum for the comb |
| C138 | as C27, C28, C25 | the coefficient is an exponentially weighted average (C102, C103), whose distance from what it averages contracts by 1 - rate and grows by the change per step; closed form of the recursion for a linear sweep; angle of a number near a phasor |
| C139 | FirFilter, IirFilter and GoertzelFilter over any type with rounded complex operations (`RoundedC`, Spec/RoundingC.lean) | recursion for the error with the response of `1 / (1 - a)` as its gain; for Goertzel the response is a sum of `n + 1` products of unit roots, also bounded by `1 / sin`; coefficient errors by the identity `R' - R = (c' - c) z R R'`; complex fixed point as instance |
| C140 | the three filters over machine numbers with rounded operations (Model/ComplexRounded.lean, Spec/MachineC.lean) | induction on the phase; one step of the adaptation within 125 u (b + M) + 59 η of the exact step, which contracts by 1 - rate/2; binary rounding of the growing phase; complex fixed point as instance |
| C141 | `Pid.filter` called with single samples (`Controls` relates states, errors and answers); plant and characteristic function in Spec/Plant.lean | `C141_mean`, `C141_no_offset`: the recursion of the state gives the sum of the errors from the control. `C141_settles`: power series of errors and controls, a polynomial without zeros in the unit disk has an absolutely summable inverse; `C141_first_order`: the Jury conditions of a quadratic. `C141_proportional`, `C141_limit`: limits of the recursion. `C141_stuck`: witness against the documented limit |
| C142 | `psd` and, with any integer as index, `psdInt` (`pyRange`: the range of psd_transform.py:103) | `C142_power`: Parseval for the frames and the mirror symmetry of the spectra of real signals; `C142_unseen`: the frames as sums; `C142_negative`: orthogonality; `C142_index`: the range of a positive, zero and negative step |
| C143 | `Fir.filter`, `Iir.filter`, `Pid.filter` over `Ext` (numbers, two infinities, nan; `Spec/Ext.lean`), `Rank.filter` over the extended reals | Taking the infinities for nan is a homomorphism, so the loops project onto those of C112; `C143_fir_infinite` evaluates the sum of products with one infinite factor; `C143_rank` counts. Not covered: complex infinities (GoertzelFilter), overflow of finite results |
| C144 | `Window.new`, `window.value`, `psd`; spec: `lobe`, `pedestal` (amplitude of the spectrum about the centre of the window) | geometric sums of three phasors over one denominator (`lobe_core`); Jordan's inequality for the bounds; `N sin(c/N)` tends to `c` for the limits; comparison of limits for `C144_compare` |
| C145 | `Iir.setA`, `Iir.setB`, `Fir.setB`, `filter`; spec: a caller which assigns before each sample (`iirSchedule`, `firSchedule`), what it remembers (`Remembered`) and gives out (`scheduledOutput`) | invariant: the delay line holds the last sample and before it what is remembered; strong induction for existence and for the bound; sign invariant for the growth (`C145_unstable`), quadratic formula for the stability of each filter (`C145_each_stable`) |
| C146 | `Window.new`, `Window.filter`; spec: `overlapAdd`, `frameEnergy` | cosines at equal steps over full turns cancel, whatever the phase (`turn_sum_phase`); counting of the frames which meet a sample (`overlap_core`), the edges apart; exchange of sums for the energy |
| C147 | Model/Pid, Model/Iir, Model/Fir, Model/Tables, Model/Rank | Props/Equivalence: the PID formula (C20) satisfies the difference equation of the IIR filter, which has one solution; the loop of the IIR filter with zero recursive coefficients is simulated step by step by the loop of the FIR filter |
| C148 | Model/Iir, Model/Response (roots) | Props/Bibo: the signal (1 - A)w makes the filter answer Bw (power series); w is p^n outside the circle, n p^n on it, its real or its imaginary part; with C13 and C66 |
| C149 | `zt.transformRef` on buffers and views, `Model/ZTransformRef.lean`; spec: valid, apart, owned cells, `Spec/Views.lean` | Props/ZTransformRef: frame conditions of allocation and in-place division, agreement with `zt.transform` of the values; induction on the number of calls; the slice by computation |
| C150 | ComplexTransform on real three-phase arrays, and the same lines on complex arrays (Model/ComplexTransformC) | sample by sample from the explicit form with the cube root of unity: `C150_power`, `C150_reactive`, `C150_parts`, `C150_analytic`, `C150_lost` |
| C151 | `Fir`, `Iir`, `Pid`, `Rank.filterAs` with the conversion of a real array (`ElemType.real.store`); Model/ComplexSignal.lean: `Window.filterC`, `PolyRate.filterC`, `Polyphase.filterC`, `Wavelet.transformC` for complex arguments | `C151_fir`, `C151_iir`, `C151_pid`, `C151_rank`, `C151_polyphase`: a simulation relating the complex run to the run on the real parts, by induction on the signal and the calls; `C151_pid_limit`: the limit compares the complex magnitude; `C151_window`, `C151_rate_linear`: both parts are kept; `C151_rate_order`: the fit of complex data (Spec/ComplexRate.lean) splits into the fits of the parts, and the assignment keeps the real one; `C151_wavelet`, `C151_wavelet_refused`: induction on the levels; `C151_wavelet_one` |
| C152 | `Wavelet.new`, `Wavelet.transform` for arrays and for two levels of a signal | `C152_array`: linear maps of rows and of columns commute (`rows_cols`, by their matrices), so that the round trip is that of the rows followed by that of the columns, each bounded by C48; `C152_two_levels`: the approximation comes back delayed, the details do not, and the sums of squares of the table entries are computed by the kernel (`digits_even`); `C152_no_delay` |
| C153 | `fourier`, `Fir.new`, `Fir.filter`, `Fir.responseC`, `Iir.filter`, `Iir.responseC` in exact arithmetic; `periods R p` repeats `p` | Sum over a period of a delayed periodic signal by induction on the delay; FIR exact by the difference equation, IIR by the impulse response split at the start of the last period and absolute summability |
| C154 | `fourier` in exact arithmetic; `IsCircular c x z` states circular convolution by its sum | Sums of `fourier_forward` compared term by term; conjugates where the indices add up to a multiple of N; delay and convolution by `block_shift`; the fast convolution by the round trip of C40 |
| C155 | `Iir.new`, `Iir.filter`, `callChunks` in exact arithmetic; `undoA b`, `undoB a b` are the formulas of the statement | The recursion of C07 solved for the signal, uniqueness of its solution, C08 for the calls; C13 and C148 applied to the errors by linearity |
| C156 | `Rank.filter`, `Rank.reset` for every `argsort` which sorts; magnitudes in the reals | Two windows in succession share all but one sample: counting shows that the output moves towards the new sample and not beyond; the variation by induction over the samples; `rank_shift` compares ranks of windows which differ by at most epsilon |
| C157 | `Wavelet.transform` with a storage function `cast` (`truncInt` for integers) | `C157_gain`, `C157_gain_haar`, `C157_stored_mat`, `C157_stored_vec` (induction on the levels with the error growth `grown`), `C157_integers_vec`, `C157_integers_mat`, `C157_exact_vec`, `C157_exact_mat`, `C157_inverse_vec`, `C157_inverse_mat`, `C157_roundtrip`, `C157_reconstructed`, `C157_lost` |
| C158 | `GaussMix.predictWith`: predict with the exponential function as a parameter (underflow) | a positive definite form is bounded below on the unit sphere by compactness (`posDef_lower`), so all exponents pass the threshold beyond some radius: `C158_far`; `C158_exact`, `C158_near`, `C158_wrong` (witness) |
| C159 | `Machine ρ t` (Spec/FloatingPoint.lean): the reals m 2^k with abs m <= 2^p and k >= e, sums and products rounded to a nearest such number (ties in any way), dot products by any `DotOrder` (tree of rounded sums, products rounded or fused); `Fir`, `Iir` at that type. No largest exponent: overflow excluded | existence of ties-to-even rounding (grid `lastDigit`, `np.round`) and that it is nearest; half-ulp error; sums never underflow; induction over the order of summation for the error, exactness and monotonicity of dot products; `C159_rounded` gives the hypotheses of C78, C79, C111; exact IIR by induction over the signal on the pair of runs |
| C160 | IirFilter.filter on silence in any arithmetic with relative error u and absolute error η per operation, and in binary floating point with p bits and smallest number 2^e | exact fade by the summable impulse response, perturbation bound of C79 over one block, then induction over blocks (C160_fade, C160_float_fade); one pole: no value above 2^(e-1) is rounded to 0 (C160_stuck), a rounding at most doubles (C160_dies) |
| C161 | `Rank.filterAs` with the rounding of Verif/Spec/FloatingPoint.lean where a sample is stored in the state; `out = id` | a rank by a key is a rank by every increasing function of the key, and samples of one rank have one key; counts of samples below and from a threshold; `2^p + 1` is not a floating point number of `p` bits |
| C162 | Iir.new, Iir.filter, Fir.new, Fir.filter over the reals with two sets of coefficients; Nearest rounding of the coefficients only, the arithmetic of the filters being exact | the characteristic polynomial is the product over its poles, hence at least c times its leading term outside the unit circle, which a small perturbation cannot cancel; the difference of the outputs satisfies the same recursion driven by the coefficient errors, bounded by the summable impulse response and strong induction; the accumulator is computed |
| C163 | Fir.new and Fir.filter in exact arithmetic, called on a signal and on the reversed result, both times from the initial state; the reversals are those of the caller | the outputs of C01 for both calls; the two double sums are matched by a bijection of index pairs (adjoint), extended by zeros to all integers (autocorrelation), flipped (reversal) and evaluated on powers of z (tones); counterexample computed |
| C164 | Rank.new, Rank.filter on new instances (rankRun), the output of one being the input of the next; any argsort | every output is the minimum or maximum over a window of the two sided signal (C16, C19); windows add (erode_erode, dilate_dilate), an opened signal erodes to the delayed erosion (erode_open), and of 2 k + 1 samples the k + 1 of a smaller window cannot all be above (below) the median: counting |
| C165 | Gauss.fit and Gauss.predict over the reals with any regularize > 0 and any argsort | the squared distance is the largest value of 2 v a - v M v, which decreases in M (monotone both ways); the bounds of C104 for two classes; finitely many pairs of classes and observations have a common threshold; the counterexample is computed for all regularize up to 10 |
| C166 | DiversityModel on a heap of arrays (`Verif/Model/DiversityRef.lean`): property `s`, its setter, `clear`, `fit` with an argument that may be the state itself; views on parts of arrays not modelled | `C166_heap`: refinement of the model of C50 to C52 with the frame condition, by induction over the observations; `C166_reference`, `C166_list`, `C166_restart`, `C166_measure` (replacing any other row by a copy gives distance zero), `C166_restored`, `C166_stale`, `C166_shared`; witness `C166_stale_witness` `C166_own`: `__init__` and `clear` are those of the model by values, on an array of their own. |
| C167 | `Rank.filter` on new instances (`rankRun`, `rankRepeat`), exact comparisons | thresholds (C161) turn medians into majorities of places; from a constant end the places which no further majority changes grow by one or by a block of k + 1 with every pass, from both ends (reflection); all thresholds together give the samples |
| C168 | `Gauss.fit` and `Gauss.predict` with the training set or the samples of one class repeated (`times`) | The mean of copies is the mean and the matrix of m copies is m times the matrix of regularize / m (`C168_repeat`), so the squared distances are divided by m (`C168_distance`) and the rows of predict rank by those of regularize / m (`C168_scaled`). One class repeated: `C168_nearer` by the concave function of C165; `C168_attract` bounds the squared distance by K / m, solving with the scatter, which is invertible when the samples do not lie in a hyperplane; `C168_majority` takes m large enough for finitely many observations and classes. |
| C169 | The class attributes `B`, their constructors and the setters on the heap of C113 (`Verif/Model/ClassTables.lean`); `numpy.flip` is a view; setters are given arrays | `C169_step` and `C169_tables`: every command writes to states of filters, arrays of wavelet transforms and new arrays only, whatever is shared (frame lemmas over the loops), so the tables are kept by induction over the program; `C169_new` and `C169_last`: constructors on the heap give the values of C31, C32 and C48 on arrays of their own; `C169_view`; `C169_exists`: a heap with all the tables |
| C170 | FirFilter and IirFilter in exact arithmetic from the zero state, with the responses of C65 and C133 and the designs of C88 and C89 (`Props/Energy.lean`; energy: `Spec/Energy.lean`) | upper bound: discrete Fourier transform long enough not to wrap around, Parseval, and the truncated impulse response in the limit (`Lemmas/Energy.lean`); sharpness: tones of growing length and the mean of a convergent sequence, a cosine and a sine for real filters; designs: bounds of the closed forms, extended to zero frequency and Nyquist by continuity |
| C171 | IirFilter and FirFilter in exact arithmetic in any state (models of C01, C02 and C133), delay() as in C71 (`Props/Ramp.lean`; `rampDelay`: `Spec/Ramp.lean`) | the impulse response of a stable recursion has a summable first moment, by differentiating the power series identity; hence the response may be differentiated term by term and the answer to a growing tone converges to the response minus its first moment (`Lemmas/Ramp.lean`); FIR by finite sums; the step from the ramp, which is its running sum |
| C172 | designs of IirFilter as in C11 to C15 and C88, delay() as in C71, filter() as in C02 (`Props/DesignDelay.lean`) | the forward coefficients of a design are those of zeros at -1 (with complement at 1), the recursive ones factor over the poles, all inside the circle; the logarithmic derivative of the product; a zero on the circle counts 1/2, a pole inside more than -1/2; the integral by the logarithm as antiderivative; ramps by C171 |
| C173 | designs of IirFilter as in C88, filter() as in C02, energy as in C170 (`Lemmas/EnergyTwo.lean`, `Props/Crossover.lean`, on noise `Props/CrossoverNoise.lean`) | both responses in closed form (C88_shape); each is at most 1/sqrt 2 of the gain at the design frequency (C88_cutoff), whence the product of the two constants is at least one; energies by the transform of a signal padded with zeros, in the limit of long kernels; noise by the limits of the mean powers (C175), between which the bounds hold at every length |
| C174 | response() as in C65, filter() as in C02 and C07 (`Props/Identify.lean`, `Props/IdentifyComplex.lean`) | equal samples make the cross products of the polynomials agree at distinct points of the circle, more than their degree, so they are the same polynomial and the same power series; the converse by the sum of the impulse response |
| C175 | response() as in C65, noise as in C114 (`Spec/MeanPower.lean`, `Props/MeanPower.lean`, `Props/MeanPowerComplex.lean`) | the rotation of the samples does not change their sum; Parseval's identity of the discrete transform for as many samples as coefficients; for IirFilter the response of the impulse response cut off differs by the rest of its sum |
| C176 | GoertzelFilter as in C22 (`Props/GoertzelBank.lean`) | the value of a block by C22; inversion and Parseval's identity of the discrete transform with shifted frequencies; for real signals the tones of frequencies f and -f are conjugate |
| C177 | psd as in C42, filter() as in C01 with complex coefficients, response as in C133 (`Props/PsdPeriodic.lean`) | the sum over a frame of a periodic signal turns by the carrier when the frame moves by one sample, so that its magnitude does not change; a filtered periodic signal is a weighted sum of such frames; for IirFilter from C153 and the equality of the density of one frame with the squared magnitude of FourierTransform |
| C178 | filter() as in C07, designs as in C88 (`Props/PeakGain.lean`, `Props/PeakGainChebyshev.lean`, `Props/PeakGainComplex.lean`) | output as convolution with the impulse response, worst signal its signs ( or conjugate phases ) reversed in time; the sum of real magnitudes is the magnitude of the sum only with one sign, by induction; were G the gain, the impulse response would have one sign ( alternating with complement ), and two values of one sign bend the response quadratically at its maximum, which the flat response of order two excludes; a Chebyshev response reaches the gain at two frequencies, and would then repeat itself with their distance, but it vanishes at one frequency only |

## Disagreements between code and documented behaviour found while modelling

Properties which the code violates are kept in full in `properties.jsonl`; the negation is proved with a witness, what
does hold is proved under the suffix `_partial`, and the claim is marked `partial`.

### Violated properties

* **C10** An `IirFilter` constructed with a state longer than `a` and `b` is accepted, but every later `filter` raises:
  `C10_long_state_unusable`, `C10_long_state_witness`.
* **C24** Assigning `GoertzelFilter.frequency` changes the reported frequency only; the resonator and the correction keep
  the old one: `C24_frequency_setter_does_not_retune`, `C24_retune_witness`.
* **C30** `ComplexFrequencyFilter(frequency=f)` ignores `f` for its coefficient; the first estimate does not depend on it:
  `C30_constructor_ignores_frequency`, `C30_constructor_witness`.
* **C38** `PolyphaseRateFilter.filter` can return before it has consumed the last samples of a chunk; they are lost, so
  chunking matters: `C38_drops_sample`, `C38_violation`. `C38_consumed` says exactly which samples are lost (fewer than
  1 / (2 rate) + 1 per call); none is when len * rate is not rounded down, and then chunking does not matter.
* **C51** The replacement that ends the filling phase can decrease the minimum pairwise distance: `C51_violation`.
* **C52** `DiversityModel.clear` builds a new state whose order is taken from the dimension: `C52_violation`.
* **C122** A DiversityModel which is cleared before its first observations, or twice in succession, has a state without rows: it accepts observations, keeps none and
  reports a diversity of zero for all of them, until it is cleared once more: `C122_dead`, `C122_twice`.
* **C125** DiversityModel.fit takes a distance of nan for an infinite one: observations with nan are preferred to numbers, and in a model of two rows one of them
  makes the diversity infinite and ends learning: `C125_observation`, `C125_poisoned`, `C125_stuck`. The Chebyshev distance notices nan in the first column only.
* **C91** `predict` of the Gaussian models compares exponents without the determinants, so that the first class is not always the one
  of greatest density: `C91_violation`, `C91_mixture_violation`. It is when the determinants of all the classes are equal.

### Documentation or contracts which the code does not meet (proved where a name is given)

* DiversityModel: the setter of `s` is typed `list | numpy.ndarray`, but a list makes every later call raise AttributeError (`C166_list`), and an assigned array
  leaves the diversity of the former state in place (`C166_stale`, `C166_stale_witness`).
* GaussianMixtureModel: "the initial prediction is the most likely class". The scores are sums of exponentials and underflow to zero; all observations beyond some
  distance have one and the same prediction, and of two observations between two narrow classes one is wrong (`C158_far`, `C158_wrong`).
* The filters accept complex signals (the type hints do not name an element type, and `reset` of FirFilter and IirFilter names `complex`), but with real coefficients
  the imaginary part is discarded on assignment to a real array, with only a numpy warning; PolynomialRateFilter keeps it for order one and discards it for every other
  order, WaveletTransform keeps it for one element only, and the limit of PidFilter still looks at it (`C151_fir`, `C151_rate_linear`, `C151_rate_order`, `C151_wavelet`,
  `C151_wavelet_one`, `C151_pid_limit`).
* `ComplexTransform.transform` documents a real three-phase signal but accepts a complex array of three rows, and then returns zeros
  for phasors of negative sequence (`C150_lost`, `C150_analytic`).
* IirFilter: `filter` does the recursive update of a sample only when the next sample arrives, so coefficients `a` assigned between two
  calls change how the last sample before is remembered, although its output used the old ones (`C145_iir`).
* PidFilter: the limit is documented as clipping the sum, the code drops samples; a loop can stay at a nonzero error for ever
  although the integral it needs is below the limit (`C141_stuck`).
* ComplexBandpassFilter, ComplexFrequencyFilter: "Signals are Hilbert transformed to complex as necessary", but an array of complex type whose
  imaginary parts are all zero, such as a tone of frequency zero, raises ValueError (`C136_refused`, `C136_zero`, `C136_cut`).
* PolyphaseRateFilter: "An incident signal is filtered to reduce aliasing and decimated".  The filters of the bank do not depend on the rate (cut-off 0.85 of the incident Nyquist frequency), so a decimation by D leaves what is above the new Nyquist frequency nearly unchanged (`C134_alias`: the sinusoid of frequency 2 / D becomes a constant, with a gain of at least 1 - K / D).
* The description of DiversityModel says that observations are kept "to maximize a minimum distance". Improving step by step does not do so, nor
  come within any factor of the maximum (`C132_unbounded`).
* IirFilter promotes its arrays when a coefficient is a `complex`; `numpy.complex64` is not one, so with real forward coefficients the imaginary parts of
  complex64 recursive coefficients are ignored, unless padding has made them complex128 (`C133_dropped`).
* The inherited `reset` does not suit every subclass. In IntegralFilter and PidFilter it sets the integral to the value given
  (`C119_integral`, `C119_pid`); in GoertzelFilter it adds an error of that magnitude to the next block (`C119_goertzel`); in
  ComplexBandpassFilter, whose documented example calls it, it does nothing (`C119_bandpass`).
* Integer coefficients make a filter truncate: `PidFilter([1, 1, 0])` never integrates samples below one (`C128_pid_small`), the response of
  `IirFilter(a=[0, 0.5], b=[1, 1])` to an impulse ends after two samples (`C128_iir_impulse`), while `b=[1]` is padded and exact (`C128_padded`).
  A filter of real coefficients drops the imaginary part of the signal (`C128_fir_complex`); after `reset(0.5)` a RankFilter returns a value which
  is not in its window for an integer signal (`C128_rank_truncated`).
* IIR `reset` is steady for unity gain only (`C09_nonunity_not_steady`). Integer coefficient arrays truncate the signal
  (`C03_integer_dtype_not_linear`).
* FIR designs: the frequency is documented as -3 dB. A design with too few coefficients for its frequency misses it; with one
  instance this is so whenever order * frequency < 1/2, as for Kaiser, order 32, frequency 0.01 (`C110_too_short`, `C110_miss`).
* IIR Butterworth designs: the frequency is documented as -3 dB. The search for the scale of the frequency takes at most 500 steps of
  at most 0.03 / 2^{1/2}, so the scale stays below 12 and designs near Nyquist (with complement: near zero frequency) miss it by far
  (`C88_nyquist`; `C88_witness`: a high pass of order 4 at 0.01 has a response below 0.021 there); up to half of Nyquist they meet it
  (`C88_three_db`). The same holds of Chebyshev designs (`C108_nyquist`, `C108_witness`; up to half of Nyquist and order 5 they meet it,
  `C108_three_db`).  Bessel designs miss it for another reason: the zeros at Nyquist bound the response whatever the scale, so orders
  one and two are below -3 dB for every frequency from half of Nyquist on (`C130_half`, `C130_nyquist`); order one meets it up to a quarter
  of Nyquist (`C130_three_db`).
* DerivativeFilter: the documentation of b_{3,6} ends in +1 where the code has -1. The documented array sums to 1/4, so it is no
  derivative; the code is right (C31).
* GaussianMixtureModel: the documented example raises ValueError unless at most three labels occur, and a refused fit leaves a
  model of the classes before the refused one, which predicts without a sign of the others (C116).
* The documented examples of ComplexFrequencyFilter, GoertzelFilter, FourierTransform, PsdTransform and the models use names which
  they do not import (`ComplexFrequencyFilter`, `WindowFilter`, `numpy`), and that of RankFilter passes `rank`, which the constructor
  calls `index`; read only, not modelled.
* RankFilter: the documentation exchanges the indices of erosion and dilation.
* PidFilter: documented as clamping the integral; the code holds it (`C21_hold_is_not_clamp`). The inherited `reset` sets
  the integral and the derivative to `x`.
* ComplexFrequencyFilter: samples of magnitude at most 1e-8 are not normalised, so the coefficient can exceed magnitude 1
  (`C29_unit_bound_fails`).
* FourierTransform, response, delay: for odd length the frequency axis is off by 1/N (`C41_fourier_axis_odd`,
  `C65_response_odd`) and the Fourier round trip multiplies by a phase (`C40_fourier_roundtrip_odd`). PSD: same axis defect
  (`C42_psd_axis_odd_witness`), and `index <= 0` is not validated: a
  negative index returns nan (`C142_index`). The documented exponents miss a factor 2. A Hann window of
  length 2 divides by zero.
* ComplexTransform: a two dimensional array of shape (1, n) raises.
* ZTransform: changes the caller's arrays in place (`C149_apart`): an array of forward coefficients used again and again with a list of
  recursive coefficients is divided by the last of them each time (`C149_repeated`), and when `v` is a slice of `u`, as in `v = u[-1:]`,
  the result is wrong (`C149_overlap`); integer lists raise TypeError; a constant denominator raises TypeError;
  a numerator which vanishes at zero frequency gives inf or nan (`C44_zero_dc_not_finite`);
  the bilinear method maps zeros at infinity to z = 0 instead of z = -1 (`C85_gain`, `C85_nyquist`); the impulse invariant
  method takes the terms of a repeated pole for simple poles (`C86_repeated`).
* WindowFilter: Hann and Blackman of order 1 are zero at both points, so `normal=True` divides by zero
  (`C39_window_degenerate`), and the FIR design of that order raises ValueError (`C14_design_degenerate`).
* PolynomialRateFilter: orders of at least 4 do not reproduce affine signals (`C34_order_four`); rate 0 is accepted and
  raises ZeroDivisionError for orders above 1 (`C33_zero_rate`).
* Log.write: the frames in the message are those of the exception which the thread handles, not those of the entry passed;
  a frame with an empty file name raises IndexError (`C98_no_file`).
* DerivativeFilter: a higher order is not more accurate within the same degree of exactness (`C99_higher_is_worse`).
* Two dimensional signals are refused by the filters only when the first row is stored. By then FirFilter, IirFilter and GoertzelFilter
  have shifted their states, PolyphaseRateFilter has advanced its time and ComplexBandpassFilter its oscillator (C118).
* PidFilter: the integral is held, not clamped as the formula in the class text says (`C21_hold_is_not_clamp`), and an
  integral which a lowered limit leaves beyond the limit by the largest sample never changes again (`C97_stuck`).
* WaveletTransform: `b[1][0]` is a view on `b[0][0]`, so that changing one in place changes the other (`C169_view`).
* WaveletTransform: the tables of Coiflet 5 and Daubechies 11 have a wrong entry, their reconstruction error is large
  (`C48_defect`); integer arrays truncate (`C47_integers`, `C157_lost`); more than one level of a style other than Haar does not reconstruct,
  because the delays of the levels differ (`C87_levels_witness` for Daubechies 3, `C152_no_delay` for two levels of every style and order but Haar and every length).  Wrong digits (`C95_misprints`):
  Daubechies 7 has 0.7148465715529154 and 0.6308807679398587 for 0.7148465705529154 and 0.6308807679298587, Daubechies 9 has
  0.0775714930400459 for 0.0775714938400459, Daubechies 11 has -0.001073010853085 for -0.0010773010853085, and Coiflet 5 is
  wrong from the fourth or fifth digit on.
* Range checks let nan pass: rate filters which raise in every call (`C129_polyphase_nan`, `C129_polynomial`), a frozen integral (`C129_pid`), a Goertzel
  filter which returns nan only (`C129_goertzel`), and IirFilter failing with IndexError or ZeroDivisionError (`C129_iir`).
* Complex filters: nan passes every range check (`C126_parameters`); one nan in a signal, or one call with frequency nan, makes all later
  outputs nan, and for ComplexBandpassFilter nothing documented brings numbers back (`C126_bandpass_after`, `C126_bandpass_frequency`).
* DiversityModel: order 0 gives an infinite diversity; observations near the largest float are taken for vacant rows.
* GaussianModel: the matrix is divided by the dimension, not by the number of samples (`C68_violation`), so that a class attracts every observation when its samples
  are repeated often enough (`C168_majority`); `predict` returns
  positions and not labels (`C69_violation`), and ignores determinant and prior although documented as maximising the
  posterior (`C91_violation`); a fit that raises leaves a partial model (`C53_singular`, `C56_fit`).
* Log: entries are lost silently after the application removed the handler of Log, or after a refused stream
  (`C57_lost`, `C58_refused`); the traceback of an exception entry is that of the exception being handled, not of the entry; the
  default handler writes to stderr while the documentation says stdout.
* RestClient: `live` is true for error statuses and leaves the response open (`C70_left_open`); a None URL raises TypeError
  (`C60_none`).
* Serial: an encoding with a byte order mark cannot be decoded (`C63_mark`); when unpickling decompressed data raises,
  the exception reported is that of unpickling the compressed bytes (`C63_detect`); a character left over at the end of a text is not
  noticed (`C127_serial`).
