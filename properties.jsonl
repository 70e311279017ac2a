{"id": "C01", "title": "FIR output is the difference equation", "statement": "For a FirFilter built from forward coefficients b (float or complex dtype) with state s, the n-th sample returned by filter(x) is the sum of b[i]*x[n-i] over i<=n plus the sum of b[i]*s[i-n-1] over i>n; with the default zero state it is exactly the causal convolution of b and x. The output has the length of x.", "quantifier": "every nonempty coefficient list, every state list of the same length, every nonempty signal, every sample index", "why_tests_cant": "a test fixes one coefficient array and one signal; the claim is over all lengths and values", "anchors": ["diamondback/filters/fir_filter.py:FirFilter.filter", "diamondback/filters/fir_filter.py:FirFilter.__init__"]}
{"id": "C02", "title": "FIR streaming: chunk boundaries are invisible", "statement": "Splitting a signal into any sequence of nonempty chunks and calling FirFilter.filter once per chunk returns, concatenated, exactly what one call on the whole signal returns, and leaves the same state; this holds for whatever arithmetic (including rounding) the dot product uses.", "quantifier": "every filter instance, every signal, every way of cutting it into nonempty chunks, every arithmetic", "why_tests_cant": "the number of chunkings is exponential in the length, and it must hold bit-exactly for floating point", "anchors": ["diamondback/filters/fir_filter.py:FirFilter.filter"]}
{"id": "C03", "title": "FIR is linear", "statement": "With float or complex dtype and zero state, filter(p*x + q*z) equals p*filter(x) + q*filter(z) sample by sample, for signals of equal length.", "quantifier": "all coefficients, signals, scalars p and q in a commutative ring", "why_tests_cant": "superposition quantifies over pairs of signals", "anchors": ["diamondback/filters/fir_filter.py:FirFilter.filter"]}
{"id": "C04", "title": "FIR reset removes the edge transient", "statement": "After FirFilter.reset(x), filtering any run of the constant x returns x*sum(b) at every sample: there is no start-up transient.", "quantifier": "every coefficient list, every x, every run length", "why_tests_cant": "holds for every length and coefficient vector, tests look at one", "anchors": ["diamondback/filters/fir_filter.py:FirFilter.reset", "diamondback/filters/fir_filter.py:FirFilter.filter"]}
{"id": "C05", "title": "FIR rejects bad calls without changing state", "statement": "filter of an empty signal and reset of a non-scalar raise ValueError and leave b and s as they were. When the caller has assigned nonempty b and s of different lengths, filter raises ValueError after having already shifted exactly one sample into s.", "quantifier": "every instance, every empty or malformed call, every mismatched nonempty b and s", "why_tests_cant": "exception safety is about every state and every failing call", "anchors": ["diamondback/filters/fir_filter.py:FirFilter.filter", "diamondback/filters/fir_filter.py:FirFilter.reset", "diamondback/filters/fir_filter.py:FirFilter.s", "diamondback/filters/fir_filter.py:FirFilter.b"]}
{"id": "C06", "title": "FIR construction always yields a usable filter", "statement": "Whatever nonempty b and whatever s (shorter, equal, longer) the caller passes, the constructed FirFilter has len(b)=len(s)=max of the two, keeps the given values padded with zeros, and filter never raises on a nonempty signal for the life of the instance under filter and reset.", "quantifier": "all coefficient and state lists, all later histories of filter and reset calls", "why_tests_cant": "ranges over all lengths and all call histories", "anchors": ["diamondback/filters/fir_filter.py:FirFilter.__init__", "diamondback/filters/fir_filter.py:FirFilter.filter", "diamondback/filters/fir_filter.py:FirFilter.reset"]}
{"id": "C07", "title": "IIR output is the recursive difference equation", "statement": "For an IirFilter built from a (a[0]=0) and b with zero state, every output satisfies y[n] = sum_{i>=1} a[i]*y[n-i] + sum_i b[i]*x[n-i], with terms before time zero equal to zero.", "quantifier": "every coefficient pair of every length, every signal, every sample index", "why_tests_cant": "the implementation is direct form II with a delayed state update: equality with the documented recursion is an algebraic identity over all inputs", "anchors": ["diamondback/filters/iir_filter.py:IirFilter.filter", "diamondback/filters/iir_filter.py:IirFilter.__init__"]}
{"id": "C08", "title": "IIR streaming: chunk boundaries are invisible", "statement": "Filtering a signal in any nonempty chunks equals filtering it in one call, output and final state, for any arithmetic.", "quantifier": "every instance, signal, chunking and arithmetic", "why_tests_cant": "exponentially many chunkings", "anchors": ["diamondback/filters/iir_filter.py:IirFilter.filter"]}
{"id": "C09", "title": "IIR reset is a steady state for unity DC gain", "statement": "For an IirFilter with unity DC gain (sum(b) = 1 - sum(a)), sum(a) != 1 and b[0] != 1, after reset(x) filtering any run of the constant x returns exactly x at every sample. For non-unity gain this can fail.", "quantifier": "every such coefficient pair, every x, every run length; a concrete witness for the failure", "why_tests_cant": "tests use one design and allclose", "anchors": ["diamondback/filters/iir_filter.py:IirFilter.reset", "diamondback/filters/iir_filter.py:IirFilter.filter"]}
{"id": "C10", "title": "IIR construction always yields a usable filter", "statement": "An IirFilter accepted by the constructor has a, b and s of equal length, and filter never raises on a nonempty signal; a[0] nonzero is always rejected.", "quantifier": "all a, b, s lists accepted by the constructor", "why_tests_cant": "ranges over all length combinations (the unchanged code violates it when s is longer than a and b)", "anchors": ["diamondback/filters/iir_filter.py:IirFilter.__init__", "diamondback/filters/iir_filter.py:IirFilter.filter"]}
{"id": "C11", "title": "IIR designs are stable", "statement": "For each style (Bessel, Butterworth, Chebyshev), every order >= 1 and every frequency > 0 the recursive coefficients produced by the design have all poles strictly inside the unit circle.", "quantifier": "all three styles, every order, every positive frequency", "why_tests_cant": "infinitely many orders and frequencies", "anchors": ["diamondback/filters/iir_filter.py:IirFilter._evaluate", "diamondback/transforms/z_transform.py:ZTransform.transform"]}
{"id": "C12", "title": "IIR designs have the requested DC gain", "statement": "An IirFilter designed from style, frequency, order, count with gain g and no complement has sum(b) = g*(1-sum(a)), i.e. DC gain g; with complement the gain at Nyquist is g.", "quantifier": "all styles, orders, frequencies, counts, gains", "why_tests_cant": "continuum of designs", "anchors": ["diamondback/filters/iir_filter.py:IirFilter.__init__", "diamondback/filters/iir_filter.py:IirFilter._evaluate"]}
{"id": "C13", "title": "IIR designs are BIBO stable", "statement": "A bounded incident signal through a designed IirFilter gives a bounded reference signal, with a bound that does not depend on the signal length.", "quantifier": "every design, every bounded signal of every length", "why_tests_cant": "unbounded horizon", "anchors": ["diamondback/filters/iir_filter.py:IirFilter.filter", "diamondback/filters/iir_filter.py:IirFilter._evaluate"]}
{"id": "C14", "title": "FIR designs have the requested gain and linear phase", "statement": "A FirFilter designed with gain g has sum(b)=g (with complement: alternating sum equal to g), and for even order b is symmetric, so the response has linear phase.", "quantifier": "all styles, frequencies, orders, counts, gains", "why_tests_cant": "continuum of designs", "anchors": ["diamondback/filters/fir_filter.py:FirFilter.__init__"]}
{"id": "C15", "title": "Design search returns the best candidate tried", "statement": "The iterative FIR/IIR design keeps the candidate with the smallest deviation from -3 dB among all candidates it evaluated, it evaluates at most 500, and it never returns an empty coefficient array.", "quantifier": "every sequence of candidate errors the search can meet", "why_tests_cant": "the search trajectory depends on continuous parameters", "anchors": ["diamondback/filters/fir_filter.py:FirFilter.__init__", "diamondback/filters/iir_filter.py:IirFilter.__init__"]}
{"id": "C16", "title": "Rank filter returns the order statistic of the window", "statement": "RankFilter.filter returns at each sample an element of the window (the current and previous order samples, the initial state before that) whose magnitude is the index-th smallest magnitude: index 0 gives the smallest, index=order the largest.", "quantifier": "every index, order, state, signal over a linear order", "why_tests_cant": "all windows and ties", "anchors": ["diamondback/filters/rank_filter.py:RankFilter.filter", "diamondback/filters/rank_filter.py:RankFilter.__init__"]}
{"id": "C17", "title": "Rank filter streaming and window content", "statement": "Filtering in any nonempty chunks equals filtering in one call, and the state after a call is the newest sample followed by the last order samples, newest first.", "quantifier": "every instance, signal, chunking", "why_tests_cant": "exponentially many chunkings", "anchors": ["diamondback/filters/rank_filter.py:RankFilter.filter"]}
{"id": "C18", "title": "Rank filter index stays in range", "statement": "Construction accepts exactly 0<=index<=order, assignment to index accepts exactly 0<=index<=len(s)-1, rejected values leave the index unchanged, and filter never raises an index error after any history of accepted assignments.", "quantifier": "all histories of index assignments and filter calls", "why_tests_cant": "history property", "anchors": ["diamondback/filters/rank_filter.py:RankFilter.index", "diamondback/filters/rank_filter.py:RankFilter.__init__"]}
{"id": "C19", "title": "Rank filter close and open are idempotent", "statement": "On nonnegative signals, erosion (index 0) followed by dilation (index=order) with the same order, applied twice, equals applying it once up to the filter delay; open never exceeds, close never falls below, the delayed signal.", "quantifier": "all orders and nonnegative signals", "why_tests_cant": "all signals and all orders", "anchors": ["diamondback/filters/rank_filter.py:RankFilter.filter"]}
{"id": "C20", "title": "PID output formula", "statement": "With no limit and zero state, PidFilter.filter returns b0*x[n] + b1*(x[0]+...+x[n]) + b2*(x[n]-x[n-1]) (x[-1]=0), across any chunking of the signal.", "quantifier": "every b, signal, chunking", "why_tests_cant": "all signals and chunkings", "anchors": ["diamondback/filters/pid_filter.py:PidFilter.filter"]}
{"id": "C21", "title": "PID anti-windup bound", "statement": "With a limit L >= 0 the integral state never leaves the open interval (-L, L) once inside, and it changes by exactly x[n] or not at all; it is held precisely when |integral + x[n]| >= L. Assigning a negative limit is rejected and changes nothing.", "quantifier": "every history of filter calls and limit assignments", "why_tests_cant": "invariant over histories", "anchors": ["diamondback/filters/pid_filter.py:PidFilter.filter", "diamondback/filters/pid_filter.py:PidFilter.limit"]}
{"id": "C22", "title": "Goertzel evaluates the DFT", "statement": "Each value returned by GoertzelFilter.filter equals, up to a unit-magnitude phase factor e^{j pi f (N-1)}, the windowed DFT sum (g/N) sum_k w[k] x[k] e^{-j pi f k} of its block of N samples, with g=2 for real and 1 for complex input.", "quantifier": "every window, frequency, block of samples, any number of blocks", "why_tests_cant": "algebraic identity over all lengths", "anchors": ["diamondback/filters/goertzel_filter.py:GoertzelFilter.filter"]}
{"id": "C23", "title": "Goertzel output count and window independence", "statement": "filter returns exactly floor((i+len(x))/N) values where i is the number of samples already buffered, never overruns its buffer, each value depends only on its own N samples, and chunking does not matter.", "quantifier": "every window length, every history of calls", "why_tests_cant": "history property", "anchors": ["diamondback/filters/goertzel_filter.py:GoertzelFilter.filter"]}
{"id": "C24", "title": "Goertzel frequency assignment retunes the filter", "statement": "Assigning frequency changes the frequency at which later blocks are evaluated.", "quantifier": "every pair of frequencies and signals (the unchanged code violates it)", "why_tests_cant": "needs all later signals; refuted by a witness", "anchors": ["diamondback/filters/goertzel_filter.py:GoertzelFilter.frequency"]}
{"id": "C25", "title": "Complex exponential has unit magnitude and accumulates phase", "statement": "ComplexExponentialFilter.filter returns y[n]=exp(j pi (phase + x[0]+...+x[n-1])), so |y[n]|=1.", "quantifier": "every starting phase in [-1,1], every signal with |x|<=1", "why_tests_cant": "all signals", "anchors": ["diamondback/filters/complex_exponential_filter.py:ComplexExponentialFilter.filter"]}
{"id": "C26", "title": "Complex exponential phase is contiguous and bounded", "statement": "After any history of calls the phase property is in [-1,1] (the internal assignment is never rejected), equals the accumulated phase modulo 2, and chunked calls produce the same output as one call; rejected signals leave the phase unchanged.", "quantifier": "all histories of accepted and rejected calls", "why_tests_cant": "history property with wrap-around", "anchors": ["diamondback/filters/complex_exponential_filter.py:ComplexExponentialFilter.filter", "diamondback/filters/complex_exponential_filter.py:ComplexExponentialFilter.phase"]}
{"id": "C27", "title": "Complex bandpass converges geometrically to the tone", "statement": "When the primary signal is A*e^{j pi (f n)} at the filter frequency, the returned forward coefficient satisfies b[n]-A=(1-rate)^n (b[0]-A), e[n]=d[n]-y[n] always, and the error magnitude is (1-rate)^n |A-b0|.", "quantifier": "every amplitude, frequency, rate in [0,1], signal length, chunking", "why_tests_cant": "all amplitudes, frequencies and lengths", "anchors": ["diamondback/filters/complex_bandpass_filter.py:ComplexBandpassFilter.filter"]}
{"id": "C28", "title": "Complex frequency filter locks to a tone", "statement": "For a unit tone of frequency f, after the first sample, b[n+1]-e^{j pi f}=(1-rate)(b[n]-e^{j pi f}), so with 0<rate<=1 the coefficient converges to e^{j pi f}; with coefficient exactly there the returned frequency is f for f in (-1,1].", "quantifier": "every frequency, rate, starting coefficient, length", "why_tests_cant": "all parameters", "anchors": ["diamondback/filters/complex_frequency_filter.py:ComplexFrequencyFilter.filter"]}
{"id": "C29", "title": "Complex frequency filter is bounded for every signal", "statement": "At a fixed rate, for every history of signals, resets and frequency assignments, the coefficient magnitude stays at most 1 + rate*1e-8 and every returned frequency lies in (-1,1]; it stays at most 1 when no sample has a magnitude in (0, 1e-8] (such samples are not normalised), and the bound 1 can be exceeded otherwise.", "quantifier": "every signal, every rate in [0,1], all histories", "why_tests_cant": "adversarial signals of any length", "anchors": ["diamondback/filters/complex_frequency_filter.py:ComplexFrequencyFilter.filter"]}
{"id": "C30", "title": "Complex frequency filter starts at the specified frequency", "statement": "A new ComplexFrequencyFilter(frequency=f) reports f as its first estimate, as documented (b_0 = e^{j pi f_0}).", "quantifier": "every f (the unchanged code violates it unless f = 0)", "why_tests_cant": "refuted by a witness; holds after assigning frequency", "anchors": ["diamondback/filters/complex_frequency_filter.py:ComplexFrequencyFilter.__init__", "diamondback/filters/complex_frequency_filter.py:ComplexFrequencyFilter.frequency"]}
{"id": "C31", "title": "Derivative filter is exact on polynomials", "statement": "For every supported (derivative d, order N) DerivativeFilter returns, once its window is full, exactly the d-th derivative at sample time n-N/2 of every polynomial signal up to the degree of accuracy of the table entry.", "quantifier": "all table entries, all polynomials of bounded degree, all times", "why_tests_cant": "infinitely many polynomials and times", "anchors": ["diamondback/filters/derivative_filter.py:DerivativeFilter.B", "diamondback/filters/derivative_filter.py:DerivativeFilter.filter"]}
{"id": "C32", "title": "Integral filter accumulates", "statement": "For every supported order, IntegralFilter output satisfies y[n]-y[n-1]=sum_i B[i] x[n-i] with weights summing to one, so order 0 is the running sum and a constant c grows by exactly c per sample once the window is full.", "quantifier": "all table orders, all signals, all times", "why_tests_cant": "all signals", "anchors": ["diamondback/filters/integral_filter.py:IntegralFilter.B", "diamondback/filters/integral_filter.py:IntegralFilter.filter"]}
{"id": "C33", "title": "Polynomial rate filter output length", "statement": "PolynomialRateFilter.filter returns exactly round(len(x)*rate) samples for every order when rate>0; rate=0 gives an empty result for order 1 and a ZeroDivisionError for higher order.", "quantifier": "all lengths, rates, orders", "why_tests_cant": "all real rates", "anchors": ["diamondback/filters/polynomial_rate_filter.py:PolynomialRateFilter.filter"]}
{"id": "C34", "title": "Polynomial rate filter reproduces affine signals", "statement": "If x[n]=p+q*n then the k-th output is exactly p+q*k/rate, including at both edges, for orders 1 to 3 (the default is 1). For order 4 the fit through four samples is underdetermined and the claim is false. A constant signal gives the same constant for every order, and for every order an offset of the signal is the same offset of the output.", "quantifier": "all p, q, lengths >= 2, rates > 0, orders 1 to 3", "why_tests_cant": "continuum of signals and rates", "anchors": ["diamondback/filters/polynomial_rate_filter.py:PolynomialRateFilter.filter"]}
{"id": "C35", "title": "Linear rate filter interpolates", "statement": "With order 1 and rate 1 the output is the input; in general every output lies between the two neighbouring samples of the (linearly extended) signal, and outputs that fall on integer times equal the sample. The last holds for every order of at least 3 too.", "quantifier": "all signals and rates", "why_tests_cant": "all signals", "anchors": ["diamondback/filters/polynomial_rate_filter.py:PolynomialRateFilter.filter"]}
{"id": "C36", "title": "Polyphase rate filter terminates within bounds", "statement": "PolyphaseRateFilter.filter terminates for every accepted rate and signal, never indexes outside the filter bank or the signal, and returns at most round(len(x)*rate) samples.", "quantifier": "all rates in [0,256], all signals, all reachable states", "why_tests_cant": "termination of a nested while loop on a real-valued accumulator", "anchors": ["diamondback/filters/polyphase_rate_filter.py:PolyphaseRateFilter.filter"]}
{"id": "C37", "title": "Polyphase rate filter has unity DC gain", "statement": "After reset(x), filtering the constant x returns exactly x at every output sample for every rate, because each phase of the bank is normalised to sum one. No raw phase of the designed prototype sums to zero, so construction succeeds at every rate in [0, 256], leaves a bank of 256 rows of 15 coefficients, and keeps a bank which exists already.", "quantifier": "all rates, lengths, constants, call histories", "why_tests_cant": "all rates", "anchors": ["diamondback/filters/polyphase_rate_filter.py:PolyphaseRateFilter.filter", "diamondback/filters/polyphase_rate_filter.py:PolyphaseRateFilter.__init__"]}
{"id": "C38", "title": "Polyphase streaming keeps every sample", "statement": "Filtering in chunks consumes every incident sample and gives the same output as one call.", "quantifier": "every chunking (the unchanged code violates it: trailing samples of a chunk can be dropped)", "why_tests_cant": "needs all chunkings; refuted by a witness", "anchors": ["diamondback/filters/polyphase_rate_filter.py:PolyphaseRateFilter.filter"]}
{"id": "C39", "title": "Window filter multiplies, normalises and is symmetric", "statement": "WindowFilter.filter returns b[n]*x[n] and rejects any other length; with normal=True the mean absolute coefficient is one whenever some raw coefficient is nonzero; every style is symmetric: b[n]=b[N-n].", "quantifier": "all styles, orders, signals", "why_tests_cant": "all orders", "anchors": ["diamondback/filters/window_filter.py:WindowFilter"]}
{"id": "C40", "title": "Fourier transform round trip", "statement": "For even window length and a window with no zero coefficient, inverse(forward(x)) returns x exactly; with a window that is zero exactly at both ends the interior samples are returned. For odd length the round trip multiplies sample n by a unit phase instead.", "quantifier": "all lengths, windows, complex signals", "why_tests_cant": "all lengths: parity of the half rotation matters", "anchors": ["diamondback/transforms/fourier_transform.py:FourierTransform.transform"]}
{"id": "C41", "title": "Fourier transform evaluates the spectrum at its frequency axis", "statement": "For even length the k-th returned value is (1/N) sum_n b[n] x[n] e^{-j pi f_k n} with f_k=-1+2k/N the k-th returned frequency; values obey Parseval.", "quantifier": "all even lengths, windows, signals (odd lengths violate it)", "why_tests_cant": "all lengths", "anchors": ["diamondback/transforms/fourier_transform.py:FourierTransform.transform"]}
{"id": "C42", "title": "PSD is a nonnegative mean of periodograms", "statement": "PsdTransform.transform returns len(b)//2 nonnegative values, the average over floor((len(x)-len(b))/index)+1 frames of |DFT/N|^2, the spectrogram rows average to it, and scaling x by c scales the result by |c|^2.", "quantifier": "all signals, windows, positive indices", "why_tests_cant": "all signals", "anchors": ["diamondback/transforms/psd_transform.py:PsdTransform.transform"]}
{"id": "C43", "title": "Z transform maps stable to stable", "statement": "ZTransform.transform maps s-domain poles with negative real part to z-domain poles strictly inside the unit circle, for both the bilinear and the impulse invariant method, for every frequency > 0, and the recursive coefficients are real with a[0]=0.", "quantifier": "all stable real s-domain polynomials, all frequencies", "why_tests_cant": "all polynomials", "anchors": ["diamondback/transforms/z_transform.py:ZTransform.transform"]}
{"id": "C44", "title": "Z transform normalises DC gain", "statement": "The returned coefficients satisfy sum(b)=1-sum(a) whenever the unnormalised forward sum is nonzero.", "quantifier": "all inputs accepted", "why_tests_cant": "continuum", "anchors": ["diamondback/transforms/z_transform.py:ZTransform.transform"]}
{"id": "C45", "title": "Complex transform is reversible", "statement": "complex -> three-phase -> complex is the identity for both neutral settings; three-phase -> complex -> three-phase is the identity exactly on signals whose phases sum to zero, and otherwise subtracts the mean; a three-phase result always sums to zero.", "quantifier": "all signals and lengths", "why_tests_cant": "continuum", "anchors": ["diamondback/transforms/complex_transform.py:ComplexTransform.transform"]}
{"id": "C46", "title": "Neutral setting converts line to phase quantities", "statement": "Transforming line-to-line signals (a-b, b-c, c-a) with neutral=False gives the same complex signal as transforming (a, b, c) with neutral=True.", "quantifier": "all three-phase signals", "why_tests_cant": "continuum", "anchors": ["diamondback/transforms/complex_transform.py:ComplexTransform.transform", "diamondback/transforms/complex_transform.py:ComplexTransform.GAIN"]}
{"id": "C47", "title": "Haar wavelet reconstructs perfectly", "statement": "For Haar, transform(transform(x,count),count,inverse) returns x exactly for every one or two dimensional real signal whose dimensions are 1 or multiples of 2**count.", "quantifier": "all counts, shapes, signals", "why_tests_cant": "recursion depth and size unbounded", "anchors": ["diamondback/transforms/wavelet_transform.py:WaveletTransform.transform"]}
{"id": "C48", "title": "Other wavelets reconstruct with a delay up to table accuracy", "statement": "For every supported style and order, one analysis/synthesis level returns the signal delayed by order-1 samples, up to an error bounded by a constant of the coefficient table times the largest sample.", "quantifier": "all table entries, all signals", "why_tests_cant": "all signals; table accuracy", "anchors": ["diamondback/transforms/wavelet_transform.py:WaveletTransform.B", "diamondback/transforms/wavelet_transform.py:WaveletTransform.transform"]}
{"id": "C49", "title": "Wavelet transform preserves shape and rejects bad sizes", "statement": "The result has the shape of the argument; sizes that are neither 1 nor multiples of 2**count and counts <= 0 are rejected; every accepted recursion stays accepted at the inner levels.", "quantifier": "all shapes and counts", "why_tests_cant": "all sizes", "anchors": ["diamondback/transforms/wavelet_transform.py:WaveletTransform.transform"]}
{"id": "C50", "title": "Diversity never decreases", "statement": "The values returned by DiversityModel.fit are nondecreasing within a call and across calls, start at zero while the state fills, and the last value is a lower bound of every pairwise distance in the state once it has become positive.", "quantifier": "all histories of fit calls, all observations, all four distances", "why_tests_cant": "history property", "anchors": ["diamondback/models/diversity_model.py:DiversityModel.fit"]}
{"id": "C51", "title": "Diversity state consists of observations and is greedily optimal", "statement": "Every row of a filled state is an observation that was passed to fit; an observation replaces a row only if that strictly increases the minimum pairwise distance, and then the replaced row is one with the best resulting diversity.", "quantifier": "all histories", "why_tests_cant": "history property", "anchors": ["diamondback/models/diversity_model.py:DiversityModel.fit"]}
{"id": "C52", "title": "Diversity clear restores the initial model", "statement": "After clear() the model behaves as a newly constructed one with the same style and order.", "quantifier": "all histories (the unchanged code violates it: the order is replaced by the dimension)", "why_tests_cant": "refuted by a witness", "anchors": ["diamondback/models/diversity_model.py:DiversityModel.clear"]}
{"id": "C53", "title": "Gaussian model fit always succeeds with regularisation", "statement": "With regularize > 0 every class covariance plus regularisation is positive definite, hence invertible, and squared distances are nonnegative, zero only at the class mean.", "quantifier": "all data sets, labels, dimensions", "why_tests_cant": "all data", "anchors": ["diamondback/models/gaussian_model.py:GaussianModel.fit", "diamondback/models/gaussian_model.py:GaussianModel.predict"]}
{"id": "C54", "title": "Gaussian predictions are rankings", "statement": "Each row returned by predict is a permutation of 0..K-1 (K the number of distinct labels) ordered by nondecreasing distance, so its first entry is a nearest class; predict before fit raises ValueError.", "quantifier": "all models and inputs", "why_tests_cant": "all data", "anchors": ["diamondback/models/gaussian_model.py:GaussianModel.predict"]}
{"id": "C55", "title": "Gaussian fit ignores sample order", "statement": "Permuting the training samples together with their labels gives the same model, and translating all data by a constant leaves predictions unchanged.", "quantifier": "all permutations, translations, data sets", "why_tests_cant": "factorially many permutations", "anchors": ["diamondback/models/gaussian_model.py:GaussianModel.fit"]}
{"id": "C56", "title": "Gaussian mixture predictions are rankings by score", "statement": "Each row returned by GaussianMixtureModel.predict is a permutation of 0..K-1 ordered by nonincreasing mixture score, whatever the fitted mixtures are; invalid order, index, regularize are rejected.", "quantifier": "all fitted mixtures, inputs", "why_tests_cant": "all data", "anchors": ["diamondback/models/gaussian_mixture_model.py:GaussianMixtureModel.predict"]}
{"id": "C57", "title": "Log writes exactly the entries at or above the level", "statement": "After any history of level, stream and write calls an entry is delivered to the current stream exactly once if its level number is at least the current level, and not at all otherwise. After Log.level(a), Log.write(b, text) writes text exactly if b is a or stands before it in the documented order from Critical to Trace; names are accepted in upper and lower case.", "quantifier": "all histories of calls", "why_tests_cant": "history property", "anchors": ["diamondback/commons/log.py:Log.write", "diamondback/commons/log.py:Log.level", "diamondback/commons/log.py:Log.stream"]}
{"id": "C58", "title": "Log owns at most one handler and never touches others", "statement": "Whatever the history, Log has at most one live handler of its own, handlers added by the application directly to loguru are never removed, except the default handler 0 on first use.", "quantifier": "all histories interleaving Log calls and direct loguru calls", "why_tests_cant": "history property", "anchors": ["diamondback/commons/log.py:Log.stream"]}
{"id": "C59", "title": "Log is thread safe", "statement": "Any interleaving of Log calls from any number of threads is equivalent to some sequential order of the calls, and no call deadlocks on the lock it already holds.", "quantifier": "all interleavings of any number of threads", "why_tests_cant": "schedules", "anchors": ["diamondback/commons/log.py:Log._rlock"]}
{"id": "C60", "title": "REST URL composition", "statement": "The requested URL is the base URL without leading and trailing slashes, followed by one slash and the API without leading and trailing slashes when the API is nonempty.", "quantifier": "all URL and API strings", "why_tests_cant": "all strings", "anchors": ["diamondback/commons/rest_client.py:RestClient.request", "diamondback/commons/rest_client.py:RestClient.url"]}
{"id": "C61", "title": "REST validation precedes the network", "statement": "A request with an unsupported method, or with both data and json, raises ValueError and performs no network operation; otherwise exactly one request is issued, its response is closed exactly once whether or not the status is an error, and error statuses raise.", "quantifier": "all methods in any case, bodies, server behaviours", "why_tests_cant": "all server behaviours", "anchors": ["diamondback/commons/rest_client.py:RestClient.request"]}
{"id": "C62", "title": "Base-85 round trip", "statement": "Decoding an encoded byte string returns it; encoding is injective and uses only the 85 documented characters.", "quantifier": "all byte strings of all lengths", "why_tests_cant": "unbounded inputs", "anchors": ["diamondback/commons/serial.py:Serial.encode", "diamondback/commons/serial.py:Serial.decode"]}
{"id": "C63", "title": "Serial round trip with compression detection", "statement": "decode(encode(x, compress)) returns x for both settings of compress: decode never needs to be told whether compression was used.", "quantifier": "all instances that pickle round-trips, both compress settings", "why_tests_cant": "all values", "anchors": ["diamondback/commons/serial.py:Serial.encode", "diamondback/commons/serial.py:Serial.decode"]}
{"id": "C64", "title": "Serial rejects empty arguments", "statement": "code and decode of an empty string, and any call with an empty encoding, raise ValueError; code is a function of the text only.", "quantifier": "all arguments", "why_tests_cant": "all arguments", "anchors": ["diamondback/commons/serial.py:Serial.code", "diamondback/commons/serial.py:Serial.decode", "diamondback/commons/serial.py:Serial.encode"]}
{"id": "C65", "title": "Frequency response of FIR and IIR", "statement": "For even length response(length,count) returns at index k the count-th power of H(e^{j pi f_k}) with f_k=-1+2k/length, which is the response of count cascaded copies; a nonpositive length or count is rejected.", "quantifier": "all coefficients, even lengths, counts", "why_tests_cant": "all lengths", "anchors": ["diamondback/filters/fir_filter.py:FirFilter.response", "diamondback/filters/iir_filter.py:IirFilter.response"]}
{"id": "C66", "title": "Reported roots are the poles and zeros", "statement": "FirFilter.roots and IirFilter.roots return exactly the zeros and poles of the transfer function with multiplicity times count, ordered by magnitude; an IIR filter is stable exactly when every reported pole is inside the unit circle. A negative count raises ValueError, unless the filter has a single coefficient and therefore no roots.", "quantifier": "all coefficients, counts", "why_tests_cant": "all coefficients", "anchors": ["diamondback/filters/fir_filter.py:FirFilter.roots", "diamondback/filters/iir_filter.py:IirFilter.roots"]}
{"id": "C67", "title": "Delay of a symmetric FIR filter", "statement": "FirFilter.delay of a symmetric filter is count*order/2 at every frequency of the axis where the response does not vanish (and at the first sample, which is extrapolated).", "quantifier": "all symmetric coefficients, lengths, counts", "why_tests_cant": "all coefficients", "anchors": ["diamondback/filters/fir_filter.py:FirFilter.delay"]}
{"id": "C68", "title": "The learnt matrix is not an average over samples", "statement": "GaussianModel.fit divides the scatter of a class by the dimension, not by the number of samples: the training set repeated once more gives the same means and twice the scatter term, and this can reverse a prediction.", "quantifier": "all data sets and regularize values", "why_tests_cant": "tests check shapes only, all data", "anchors": ["diamondback/models/gaussian_model.py:GaussianModel.fit", "diamondback/models/gaussian_model.py:GaussianModel.predict"]}
{"id": "C69", "title": "Predictions are positions of labels, not labels", "statement": "predict of both models returns positions among the sorted distinct labels: changing the labels by any strictly increasing function changes neither the models nor the predictions, so labels which are not 0..K-1 are never returned.", "quantifier": "all data, labels, strictly increasing relabellings, mixtures", "why_tests_cant": "tests use labels 0..K-1", "anchors": ["diamondback/models/gaussian_model.py:GaussianModel.fit", "diamondback/models/gaussian_mixture_model.py:GaussianMixtureModel.fit"]}
{"id": "C70", "title": "REST liveness", "statement": "RestClient.live issues exactly one HEAD request to the base URL and is true exactly if any response arrives, whatever its status; the response is not closed.", "quantifier": "all base URLs and server behaviours", "why_tests_cant": "all server behaviours", "anchors": ["diamondback/commons/rest_client.py:RestClient.live"]}
{"id": "C71", "title": "Reported delay is the group delay", "statement": "For even length FirFilter.delay and IirFilter.delay report count times the group delay (minus the derivative of the phase of the frequency response by angular frequency) at each frequency of the axis where the response exists and is nonzero. Only edge samples differ: FIR replaces the first by linear continuation, IIR may shrink the six samples at either end towards zero, and does not when they are within a factor of ten.", "quantifier": "all real coefficients, even lengths, counts, frequencies", "why_tests_cant": "a test compares a few filters; the derivative identity is over all coefficients and frequencies", "anchors": ["diamondback/filters/fir_filter.py:FirFilter.delay", "diamondback/filters/iir_filter.py:IirFilter.delay"]}
{"id": "C72", "title": "IIR is linear and time invariant, cascades multiply", "statement": "IirFilter.filter is linear in signal and state together; leading zeros delay the output of a new instance; two new instances in cascade equal the instance whose numerator and denominator are the products, so their order is irrelevant.", "quantifier": "all coefficients, states, signals, scalars, delays", "why_tests_cant": "all coefficients and lengths", "anchors": ["diamondback/filters/iir_filter.py:IirFilter.filter", "diamondback/filters/iir_filter.py:IirFilter.__init__"]}
{"id": "C73", "title": "A stable IIR filter is bounded from any state and forgets it", "statement": "If all poles are inside the unit circle, then from any state bounded signals give bounded outputs with a gain independent of the state, and the outputs from any two states for the same signal approach each other uniformly in the signal. Only stable filters forget: with a pole on or outside the circle which no zero cancels there is a state whose output for zeros does not fade.", "quantifier": "all coefficients, states, signals of all lengths", "why_tests_cant": "asymptotic claim over infinitely many signals", "anchors": ["diamondback/filters/iir_filter.py:IirFilter.filter"]}
{"id": "C74", "title": "IIR steady state is the frequency response", "statement": "A stable IirFilter in any state given a complex exponential of frequency u approaches response(u) times that exponential; given a constant it approaches the DC gain times that constant, which for a designed filter is the requested gain (zero for complement).", "quantifier": "all stable coefficients, all designs, states, frequencies, constants", "why_tests_cant": "asymptotic claim", "anchors": ["diamondback/filters/iir_filter.py:IirFilter.filter", "diamondback/filters/iir_filter.py:IirFilter.response", "diamondback/filters/iir_filter.py:IirFilter._evaluate"]}
{"id": "C75", "title": "Order properties of the rank filter", "statement": "RankFilter is monotone in signal, state and index (by magnitude); if all but at most min(index, order-index) samples of a window have magnitudes within bounds then so has the output; the filter commutes with every map acting on magnitudes by a strictly increasing function.", "quantifier": "all argsort implementations, indices, orders, states, signals", "why_tests_cant": "all signals and tie breaking choices", "anchors": ["diamondback/filters/rank_filter.py:RankFilter.filter"]}
{"id": "C76", "title": "Streaming of the adaptive filters", "statement": "For ComplexBandpassFilter and ComplexFrequencyFilter any division of a complex signal into chunks, each with a sample of nonzero imaginary part, gives the outputs, errors and coefficients of one call on the whole signal, and leaves an equivalent object.", "quantifier": "all reachable objects, signals, divisions", "why_tests_cant": "all divisions of all signals", "anchors": ["diamondback/filters/complex_bandpass_filter.py:ComplexBandpassFilter.filter", "diamondback/filters/complex_frequency_filter.py:ComplexFrequencyFilter.filter"]}
{"id": "C77", "title": "Real signals in the adaptive filters", "statement": "A real signal given to ComplexBandpassFilter or ComplexFrequencyFilter is replaced by its analytic signal: same length, real part the signal. A cosine with a whole number of periods per call is replaced by the complex tone of the same amplitude, frequency and phase, so the bandpass coefficient approaches the amplitude and the frequency estimate the frequency geometrically.", "quantifier": "all real signals; all amplitudes, phases, periods, lengths, rates, numbers of calls", "why_tests_cant": "tests use one tone; the claim is for all lengths and frequencies", "anchors": ["diamondback/filters/complex_bandpass_filter.py:ComplexBandpassFilter.filter", "diamondback/filters/complex_frequency_filter.py:ComplexFrequencyFilter.filter"]}
{"id": "C78", "title": "FIR rounding errors do not accumulate", "statement": "In any arithmetic whose dot products have relative error u and absolute error e, each output of FirFilter.filter differs from the exact convolution by at most u times the same sum of absolute values plus e, independent of position and signal length; a dot product of n rounded products summed in any order has u at most (1+eps)^n - 1.", "quantifier": "all arithmetics with such bounds, coefficients, states, signals, summation orders", "why_tests_cant": "float tests use tolerances on short signals; the bound is for all lengths, inputs and evaluation orders", "anchors": ["diamondback/filters/fir_filter.py:FirFilter.filter"]}
{"id": "C79", "title": "Stable IIR rounding errors stay bounded", "statement": "For stable coefficients there are constants K and u0 depending only on the coefficients so that in any arithmetic with relative error u at most u0 and absolute error e at most 1 each output of IirFilter.filter is within K(uM+e(1+M)) of the exact one, for all signals and states bounded by M, however long. Without stability it can drift without bound.", "quantifier": "all stable coefficients, arithmetics, states, signals of all lengths", "why_tests_cant": "accumulation over unbounded time cannot be tested", "anchors": ["diamondback/filters/iir_filter.py:IirFilter.filter"]}
{"id": "C80", "title": "FIR as a linear system", "statement": "A new FirFilter answers an impulse with b, delays its output by leading zeros, and has gain exactly sum|b| on bounded real signals (an upper bound, attained); two in cascade are one with convolved coefficients; from any two states outputs agree after len(b)-1 samples; an IirFilter without a is the FirFilter.", "quantifier": "all coefficients, signals, delays, states", "why_tests_cant": "all coefficients and lengths; attainment of the bound", "anchors": ["diamondback/filters/fir_filter.py:FirFilter.filter", "diamondback/filters/fir_filter.py:FirFilter.__init__", "diamondback/filters/iir_filter.py:IirFilter.filter"]}
{"id": "C81", "title": "Goertzel, Fourier and PSD agree", "statement": "For even windows: a GoertzelFilter at a frequency of the FourierTransform axis yields for every block that bin times a phase of magnitude one; a PSD spectrogram row is the squared magnitude of the nonnegative half of the FourierTransform of its frame on the same axis, and the mean PSD sums to at most the mean windowed power. FourierTransform is linear, maps an on-axis tone to its amplitude in its bin and zero elsewhere, and is conjugate symmetric for real signals.", "quantifier": "all even windows, signals, frequencies of the axis, strides, divisions into calls", "why_tests_cant": "relates three classes over all inputs", "anchors": ["diamondback/filters/goertzel_filter.py:GoertzelFilter.filter", "diamondback/transforms/fourier_transform.py:FourierTransform.transform", "diamondback/transforms/psd_transform.py:PsdTransform.transform"]}
{"id": "C82", "title": "Diversity model follows translations, scalings and column orders of its observations", "statement": "A DiversityModel fitted from new keeps the same observations when every observation is translated by one vector, multiplied by one non-zero number, or has its columns reordered, in each of the four distance styles.  Reported diversities are unchanged by translation and column order and are multiplied by |c| when the observations are multiplied by c.  In general, any map of rows that transforms distances by a strictly increasing map fixing zero and infinity carries the fitted state and the reported diversities along.", "quantifier": "all orders, all styles, all non-empty collections of observations of any number of columns (not containing the vacancy marker), all translations, all non-zero scales, all column permutations", "why_tests_cant": "Equivariance relates two whole runs over arbitrary observation sequences, and a wrong comparison or a dependence on absolute position shows only for particular orders of arrival and ties.", "anchors": ["diamondback/models/diversity_model.py:DiversityModel.fit", "diamondback/models/diversity_model.py:DiversityModel.DISTANCE"]}
{"id": "C83", "title": "Gaussian model follows linear maps of its observations", "statement": "An invertible linear map P applied to the training samples and to the observations leaves the outcome of GaussianModel.fit and every prediction unchanged, provided the regularisation is mapped as well (r' I = r P P^T).  Hence rotations, reflections and column orders never matter, any invertible map is irrelevant when regularize is zero, and a change of unit by c is irrelevant when regularize is multiplied by c^2.  With regularize kept, a change of unit can reverse a prediction.", "quantifier": "all numbers of columns, all samples, labels and observations, all invertible matrices, all regularisations, all implementations of argsort", "why_tests_cant": "The statement relates two fits over all data sets and all matrices; the failure for a kept regularize appears only at particular scales.", "anchors": ["diamondback/models/gaussian_model.py:GaussianModel.fit", "diamondback/models/gaussian_model.py:GaussianModel.predict"]}
{"id": "C84", "title": "Complex transform separates symmetrical components", "statement": "For three phases Re(a_k exp(i theta)) ComplexTransform (neutral) returns P exp(i theta) + conj(N exp(i theta)), with P and N the positive and negative sequence components; the zero sequence has no effect.  A balanced system of amplitude A gives A exp(i theta), in the opposite phase order A exp(-i theta).  The squared magnitude is two thirds of the squared deviations of the phases from their mean, the transform is linear over the reals in both directions, exchanging two phases conjugates the result and a cyclic change turns it by a third of a turn.", "quantifier": "all amplitudes, angles and phasors, all signals of any length, both settings where stated", "why_tests_cant": "Tests check one round trip of one signal; a sign error in a coefficient row can survive a round trip and shows only as a wrong direction of rotation.", "anchors": ["diamondback/transforms/complex_transform.py:ComplexTransform.transform"]}
{"id": "C85", "title": "Bilinear transform of a transfer function", "statement": "If ZTransform.transform returns finite coefficients under the bilinear method, the discrete transfer function b(z) / (1 - a(z)) is the continuous transfer function v(s) / u(s) at s = 2 / (pi frequency) (z - 1) / (z + 1), divided by its gain at zero frequency, times ((1 + 1/z) / 2) to the power deg v - deg u. For equal degrees the discrete response at 2/pi atan(pi frequency omega / 2) is exactly the continuous response at omega; for a numerator of lower degree the gain exceeds the continuous gain, and the response at Nyquist is never zero.", "quantifier": "all coefficient arrays with non-zero leading coefficients, all frequencies, all z except 0 and -1, all omega", "why_tests_cant": "The relation holds between rational functions on the whole complex plane; tests compare finitely many frequencies of finitely many designs, and do not separate a zero at the origin from a zero at Nyquist when the caller replaces the numerator.", "anchors": ["diamondback/transforms/z_transform.py:67-131"]}
{"id": "C86", "title": "Impulse invariance", "statement": "For a denominator with simple roots and a numerator of lower degree, ZTransform.transform with bilinear = False returns coefficients whose IirFilter responds to an impulse with a constant multiple of the samples g(n pi frequency) of the continuous impulse response g, the function whose Laplace transform is v / u; the constant is not zero for a stable denominator. For a repeated root this is false: 1 / (s + 1)^2 gives a filter whose impulse response is no multiple of t exp(-t) at the sampling instants.", "quantifier": "all coefficient arrays with simple roots and a numerator of lower degree, all frequencies, all sample indices", "why_tests_cant": "The claim relates an integral transform to every sample of an infinite response; a test compares a finite prefix for one design and a tolerance hides a wrong pairing of poles and residues.", "anchors": ["diamondback/transforms/z_transform.py:114-131"]}
{"id": "C87", "title": "Wavelet transform is linear and Haar keeps energy", "statement": "WaveletTransform.transform, analysis or synthesis, with any wavelet, any count and any acceptable shape of one or two dimensions, maps a linear combination of floating point arrays to the same combination of the results. For Haar the energy of the incident array is the weighted energy of the coefficients: a coefficient which is the result of k levels counts 2^k times for a signal and 4^k times for an array. Several levels of other wavelets do not reconstruct any delayed copy (Daubechies 3, two levels).", "quantifier": "all wavelets, counts, shapes, arrays, scalars", "why_tests_cant": "A test samples a few arrays and counts; an offset, a clipped block or a wrong scale of one level at a depth not exercised passes.", "anchors": ["diamondback/transforms/wavelet_transform.py:515-590"]}
{"id": "C88", "title": "Butterworth designs are maximally flat with the documented cut-off", "statement": "An IirFilter of style Butterworth with any valid frequency, order, count, complement and gain has the response |gain| / sqrt(1 + (k tan(pi x / 2))^(2 order)) for some k > 0, at distance x from zero frequency (from Nyquist with complement); it is strictly decreasing in x. For orders up to 66 the response of count instances at the design frequency, relative to the gain, is never above 2^(-1/2) and within a stated geometric bound of it after the 500 steps of the search; for one instance, orders up to 8 and distances up to one half of Nyquist, within 0.0024. For distances up to one quarter of Nyquist, two instances of order up to 8, three of order 2 to 8 and four of order 3 to 6 have together 2^(-1/2) within 0.031. For a design frequency at distance d from the far end of the band the response is at most |gain| (38 d)^order, so that the documented -3 dB is not met there.", "quantifier": "all frequencies, orders, counts, complement, gains and evaluation frequencies", "why_tests_cant": "Tests compare the coefficients of one design; a wrong pole angle or prewarping, or a search which stops early for other frequencies, is not visible in them.", "anchors": ["diamondback/filters/iir_filter.py:160-205", "diamondback/filters/iir_filter.py:208-252"]}
{"id": "C89", "title": "Chebyshev designs are equiripple with 0.125 dB", "statement": "An IirFilter of style Chebyshev with any valid frequency, order, count, complement and gain has the squared response gain^2 (1 + e T(0)^2) / (1 + e T(k tan(pi x / 2))^2) for some k > 0, with e = 10^0.0125 - 1 and T the Chebyshev polynomial of the order, at distance x from zero frequency (from Nyquist with complement). Up to an edge the response stays between two values which differ by exactly 0.125 dB and takes them alternately at order + 1 frequencies, the smaller one at the edge; beyond the edge it falls strictly. For odd orders the larger value is the gain, for even orders the smaller one.", "quantifier": "all frequencies, orders, counts, complement, gains and evaluation frequencies", "why_tests_cant": "Tests compare the coefficients of one design; a wrong pole ellipse or ripple constant for other orders is not visible in them.", "anchors": ["diamondback/filters/iir_filter.py:160-205", "diamondback/filters/iir_filter.py:245-254"]}
{"id": "C90", "title": "Complement is the mirror image", "statement": "FirFilter and IirFilter designed with complement at the frequency f have the coefficients of the design without complement at 1 - f with alternating signs. The frequency response at 1 - x is the complex conjugate of the other response at x, and filtering a signal with alternating signs gives the output of the other filter with alternating signs.", "quantifier": "all styles, frequencies, orders, counts, gains, evaluation frequencies and signals", "why_tests_cant": "Tests design one complement filter and look at its shape; that it agrees with the other design for all frequencies and signals is not sampled.", "anchors": ["diamondback/filters/fir_filter.py:169-197", "diamondback/filters/iir_filter.py:169-191"]}
{"id": "C91", "title": "Predictions maximise the posterior probability", "statement": "GaussianModel.predict and GaussianMixtureModel.predict rank the classes by nonincreasing posterior probability of the learnt normal distributions, or mixtures of them, at equal prior probabilities.", "quantifier": "all training sets, regularizations, learnt mixtures and observations", "why_tests_cant": "Tests use well separated random clusters of similar spread, for which the missing determinants do not matter.", "anchors": ["diamondback/models/gaussian_model.py:89-119", "diamondback/models/gaussian_mixture_model.py:116-152"]}
{"id": "C92", "title": "Polynomial rate filter is linear and has the weights of local interpolation", "statement": "PolynomialRateFilter is linear for every order and rate. For orders 2 and 3 each output is a sum of the four samples about its place, with the weights of the least squares parabola or of cubic interpolation; away from the first and the last interval order 2 reproduces parabolas and order 3 cubics, and order 3 amplifies by at most 5/4. Order 2 does not pass through the samples.", "quantifier": "all signals, rates, orders and output samples; all least squares fits", "why_tests_cant": "Tests compare lengths and a few resampled random signals.", "anchors": ["diamondback/filters/polynomial_rate_filter.py:93-138"]}
{"id": "C93", "title": "Polynomial rate filter approximates the sampled function", "statement": "If the signal consists of the samples g(n h) of a smooth function, every output sample of PolynomialRateFilter is g at its place up to an error of the order of the interpolation: order 1: M h^2/8 with |g''| at most M, before the last sample; order 2: 13 M h^3/60 with |g'''| at most M; order 3: 3 M h^4/128 with |g''''| at most M, the last two away from the first and the last interval.", "quantifier": "all smooth functions, all sampling intervals, all rates, all lengths, all positions", "why_tests_cant": "all functions; an inequality between derivatives and results", "anchors": ["diamondback/filters/polynomial_rate_filter.py:PolynomialRateFilter.filter"]}
{"id": "C94", "title": "Diversity distances are the named ones", "statement": "Chebyshev, Euclidean and Manhattan are the metrics of the supremum norm, the Euclidean norm and the sum norm: zero only between equal rows, symmetric, with triangle inequality. Geometric is the geometric mean of the coordinate differences, is zero exactly when two rows agree in one place, and is therefore no metric. For n columns: n Geometric <= Manhattan <= n Chebyshev and Chebyshev <= Euclidean <= Manhattan.", "quantifier": "all rows of every size, all four styles", "why_tests_cant": "all pairs and triples of rows", "anchors": ["diamondback/models/diversity_model.py:DiversityModel.DISTANCE"]}
{"id": "C95", "title": "Wavelet details of polynomials vanish", "statement": "One level of analysis returns a constant as its approximation exactly, and detail coefficients of zero where the signal is a polynomial of degree less than the number of vanishing moments of the style (Haar 1, Daubechies and Symmlet (order+1)/2, Coiflet (order+1)/3), up to the accuracy of the coefficient table: 2.9e-12 relative to the size of the polynomial on the window, except for four entries with wrong digits. The next power is not annihilated.", "quantifier": "all styles and orders, all signals, all positions with a full window, all polynomials", "why_tests_cant": "all signals and polynomials; accuracy of a table", "anchors": ["diamondback/transforms/wavelet_transform.py:WaveletTransform.B", "diamondback/transforms/wavelet_transform.py:WaveletTransform.transform"]}
{"id": "C96", "title": "Shape and gain of the windows", "statement": "The coefficients of WindowFilter rise from the edge to the centre. Without normalisation Hann is the squared sine, Hamming a squared sine on a pedestal of 0.08, Blackman the sum of three cosines, Kaiser the Bessel quotient; their sums are order/2, 0.54 order + 0.08 and 0.42 order, which gives the factors of the normalisation.", "quantifier": "all styles, all orders, all positions", "why_tests_cant": "all orders; trigonometric sums", "anchors": ["diamondback/filters/window_filter.py:WindowFilter.__init__"]}
{"id": "C97", "title": "The PID control law with a limit, and boundedness", "statement": "A new PidFilter with the limit L returns, however the signal is cut into calls, y_n = b0 x_n + b1 I_n + b2 (x_n - x_{n-1}), where the integral I_n takes the next sample only while the magnitude of the sum stays below L. For signals of magnitude at most X the output is therefore at most |b0| X + |b1| L + 2 |b2| X, whereas without a limit, and b1 not zero, the constant signal one drives it beyond every bound. A sample of the sign opposite to the integral, and below L, is always taken. If the limit is lowered so that the integral is beyond it by X, signals of magnitude at most X never change the integral again.", "quantifier": "all coefficients, limits, signals and partitions into calls", "why_tests_cant": "The bound is over all signals and lengths; a test sees one signal. Absence of a bound without a limit, and an integral which never moves again, cannot be observed in finite runs.", "anchors": ["diamondback/filters/pid_filter.py:41-89"]}
{"id": "C98", "title": "Text of a logged exception", "statement": "An exception written at or above the level, after any history in which the handler of Log stands, adds exactly one line to the current stream: the name of the type, the message, and for each frame of the handled exception, outermost first, the file name without its directory and the line. Without a handled exception there are no frames. A frame whose file name is empty makes Log.write raise IndexError and nothing is written.", "quantifier": "all histories, levels, exception names, messages and tracebacks", "why_tests_cant": "Tests write an exception or two with the paths of the test files; the statement is about tracebacks of every depth and all paths, after every history.", "anchors": ["diamondback/commons/log.py:134-159"]}
{"id": "C99", "title": "Derivative and integral filters approximate the derivative and integral of the sampled function", "statement": "Samples of a smooth function g are taken with the frequency r. Once its window is full, and after any earlier calls, the output of DerivativeFilter(d, N) times r^d differs from the d-th derivative of g at the middle of the window by at most c M / r^(p+1-d), where M bounds the derivative of order p+1 of g, p is the degree of exactness and c a constant listed for each pair; the power of r is the best possible. The output of a new IntegralFilter(N), N in 1..4, over r changes between the samples k and n by the mean of the N integrals of g over the intervals from k-j to n-j, j < N, up to (n-k) c M / r^(q+2).", "quantifier": "all smooth functions, sampling frequencies, signal lengths, histories, supported derivatives and orders", "why_tests_cant": "An error bound over all smooth functions and frequencies cannot be tested; tests evaluate one function at one rate.", "anchors": ["diamondback/filters/derivative_filter.py:103-149", "diamondback/filters/integral_filter.py:82-117"]}
{"id": "C100", "title": "IirFilter, Bessel style: reverse Bessel polynomial, maximally flat group delay and poles", "statement": "The denominator built for the style Bessel and order n is the reverse Bessel polynomial, whose coefficient i (highest power first) is (n+i)!/(i!(n-i)!2^i). The continuous prototype has the group delay 1 - w^(2n)/|u(iw)|^2 at the angular frequency w: it is positive, at most one, one at w = 0 only, and (1 - delay)/w^(2n) tends to 1/((2n-1)!!)^2 as w tends to 0, so the delay is maximally flat. The digital filter evaluated for a frequency f has all zeros at z = -1, one pole exp(pi f p) for each root p of the polynomial, and the response one at frequency zero.", "quantifier": "every order n >= 1, every frequency, every angular frequency, every correct residue routine", "why_tests_cant": "Tests sample a few orders and frequencies; flatness is a limit statement, and the closed form of the coefficients and of the delay is over all orders.", "anchors": ["diamondback/filters/iir_filter.py:223-229", "diamondback/filters/iir_filter.py:250-254", "diamondback/transforms/z_transform.py:113-131"]}
{"id": "C101", "title": "Arguments out of range raise ValueError and leave the instance unchanged; all others are accepted", "statement": "For ComplexExponentialFilter, ComplexBandpassFilter, ComplexFrequencyFilter, GoertzelFilter, IirFilter, IntegralFilter, PidFilter, PolynomialRateFilter, RankFilter, DiversityModel, FourierTransform, PsdTransform and ZTransform: an empty signal, a reset by something other than a scalar, a phase or frequency outside [-1, 1], a rate outside [0, 1] (or negative for the rate filter), an order or window out of the documented range raises ValueError; a refused call leaves the instance exactly as it was; a setter given any value in the closed documented range stores that value and changes nothing else it does not document; constructors given values in the range succeed and hold them.", "quantifier": "every instance state, every argument", "why_tests_cant": "Tests try one or two bad values per class and rarely compare the whole state after the exception, or the closed ends of a range.", "anchors": ["diamondback/filters/complex_exponential_filter.py:49-93", "diamondback/filters/complex_bandpass_filter.py:64-133", "diamondback/filters/complex_frequency_filter.py:67-155", "diamondback/filters/goertzel_filter.py:76-127", "diamondback/filters/iir_filter.py:288-327", "diamondback/filters/integral_filter.py:90-100", "diamondback/filters/pid_filter.py:PidFilter.filter", "diamondback/filters/polynomial_rate_filter.py:60-91", "diamondback/filters/rank_filter.py:69-91", "diamondback/models/diversity_model.py:96-113", "diamondback/transforms/fourier_transform.py:57-100", "diamondback/transforms/psd_transform.py:68-107", "diamondback/transforms/z_transform.py:90-99"]}
{"id": "C102", "title": "ComplexBandpassFilter is a linear bandpass around its frequency", "statement": "The output of ComplexBandpassFilter is the convolution of the signal with the causal impulse response rate (1-rate)^(k-1) exp(j pi f k), delayed by one sample, plus a start-up term that decays like (1-rate)^n. For a rate strictly between 0 and 1 its frequency response is the geometric series in closed form, has gain one at the frequency f and a strictly smaller gain at every other frequency, of magnitude rate / sqrt(rate^2 + 2 (1-rate) (1 - cos pi (g-f))). A tone at any frequency g gives in the limit the tone scaled by that response; two signals within delta of each other give outputs within delta; and the sum of the squares of the impulse response, the gain for white noise, is rate / (2 - rate).", "quantifier": "every rate, frequency, initial coefficient and signal", "why_tests_cant": "A test on one tone at the centre frequency cannot show the gain at every other frequency, the effect of every signal, or the noise gain.", "anchors": ["diamondback/filters/complex_bandpass_filter.py:98-133"]}
{"id": "C103", "title": "The frequency estimate averages instantaneous frequencies and stays within their range", "statement": "Each coefficient of ComplexFrequencyFilter is the exponentially weighted average of the unit phasors of the instantaneous frequencies (the angle from each sample to the next, in half turns) up to the previous sample, whatever the amplitudes, and the estimate is its angle. If the instantaneous frequencies and the starting angle all lie in an interval shorter than half a turn, every estimate lies in that interval; this bound on the width is needed, as alternate steps of plus and minus three quarters give the estimate one.", "quantifier": "every signal with samples above the magnitude threshold, every rate in [0, 1], every state", "why_tests_cant": "Tests feed stationary tones; they do not show what a signal of varying frequency and amplitude gives, or that no overshoot is possible.", "anchors": ["diamondback/filters/complex_frequency_filter.py:101-139"]}
{"id": "C104", "title": "Training samples and near observations are predicted to be of their own class", "statement": "After GaussianModel.fit with regularize r > 0 on samples of n columns, the squared distance of every training sample from its own class is less than n, however far the sample lies from the mean; the squared distance of any observation from a class is at most its squared Euclidean distance from the mean divided by r, and at least that divided by r + s/n where s, the spread, is the sum of the squared Euclidean distances of the samples of the class from their mean. Hence predict puts first the class of every training sample whose squared Euclidean distance from the mean of each other class is at least n r + s, and the class of every observation whose squared Euclidean distance from its mean over r is less than that from every other mean over r + s/n. Without such a condition it fails: sample 0 of the class {0, 4} is predicted to be of the class {0}.", "quantifier": "all regularize > 0, all training sets of at least one sample and column, all labels, all observations, all sorting algorithms", "why_tests_cant": "The bounds compare an inverse covariance with Euclidean geometry for every data set; a test can only try particular clusters.", "anchors": ["diamondback/models/gaussian_model.py:63-119"]}
{"id": "C105", "title": "Rank filter delays monotone stretches and keeps edges", "statement": "Where the magnitudes of the current and the previous order samples do not decrease, RankFilter outputs a sample of the magnitude of the one order - index before; where they do not increase, of the one index before. Hence a median filter (order = 2 index) delays by index samples every signal each stretch of order + 1 samples of which is of monotone magnitude, edges included.", "quantifier": "all indices and orders, all states, all signals, all positions from order on, all tie breaking choices of argsort", "why_tests_cant": "Every monotone stretch of every length and every choice among equal magnitudes.", "anchors": ["diamondback/filters/rank_filter.py:69-91"]}
{"id": "C106", "title": "Derivatives of cosines, derivatives in cascade, and integrals of differences", "statement": "On samples of a cosine of frequency w in (0, 1] DerivativeFilter gives, once its window is full and after any history, the exact derivative of the cosine in the middle of the window, N/2 samples before, times a factor from 0 to 1 that depends only on derivative, order and w: no phase error, never too large; the factor is positive below Nyquist and zero at Nyquist unless order equals derivative. Two derivatives in cascade, in either order, are the derivative whose derivative and order are the sums, for the pairs (1,1)+(1,1), (1,2)+(1,2), (1,2)+(1,4), (1,4)+(1,4), (1,2)+(2,2), (1,2)+(2,4), (1,2)+(2,6), (1,4)+(2,4), for every signal; it is not for (1,4)+(2,2). IntegralFilter after DerivativeFilter(1, 1), or before it, is the weighted average by the coefficients of the integral: for order 0 the signal itself.", "quantifier": "all supported derivatives and orders, frequencies, amplitudes, phases, histories; all signals", "why_tests_cant": "A continuum of frequencies and all signals; the tests compare a few waveforms.", "anchors": ["diamondback/filters/derivative_filter.py:103-135", "diamondback/filters/integral_filter.py:82-100", "diamondback/filters/fir_filter.py:242-264"]}
{"id": "C107", "title": "Spectra of tones through any window, and unit gain of normalised windows", "statement": "For a tone A exp(j pi (p + f n)) of any frequency f, and any window of even length N, the k-th value of FourierTransform is A exp(j pi p) W(f_k - f), where W(u) = (1/N) sum_n b_n exp(-j pi u n) is the spectrum of the window; every row of the spectrogram of PsdTransform and its mean are |A|^2 |W(f_k - f)|^2, whatever the phase, the length of the signal and the stride. With a window of WindowFilter(style, order, normal=True) of odd order (not Blackman or Hann of order 1) the value at the frequency of the tone, if it is on the axis, is exactly A exp(j pi p), and |A|^2 in the power spectral density; no value for any tone exceeds |A|, or |A|^2.", "quantifier": "all windows, amplitudes, frequencies, phases, signal lengths and strides; all window styles and odd orders", "why_tests_cant": "Continuum of frequencies and phases and all lengths; ties three classes together.", "anchors": ["diamondback/transforms/fourier_transform.py:57-100", "diamondback/transforms/psd_transform.py:68-107", "diamondback/filters/window_filter.py:68-88"]}
{"id": "C108", "title": "Chebyshev designs: the \u22123 dB cut-off", "statement": "A Chebyshev IirFilter with one instance, an order of at most 5 and a design frequency within half of Nyquist of zero frequency (with complement: of Nyquist) has at that frequency a response of at least 2^(-1/2) and at most 2^(-1/2)+0.00025, for gain 1; for larger distances, as long as the prewarped frequency K is at most 1, the response is at least 2^(-1/2) and the excess at most 0.1\u00b7(1-0.0073/K)^165. Near the other end of the band the cut-off is missed for every order and count: at a distance \u03b4 of at most 1/237 from Nyquist (with complement: from zero frequency) the response is at most 6\u00b7(237\u00b7\u03b4)^order, however small.", "quantifier": "all frequencies, orders up to 5 for the approach and all orders and counts for the failure near the band end, either complement, any gain and any residue procedure meeting its specification", "why_tests_cant": "The frequency is found by up to 500 corrections of a nonlinear recursion; that no correction passes the cut-off and that every one shrinks the deviation has to be shown for a continuum of frequencies.", "anchors": ["diamondback/filters/iir_filter.py:160-254"]}
{"id": "C109", "title": "Polyphase rate filter is expansion, FIR filter and decimation", "statement": "At a rate L/D with L a divisor of 256, a new PolyphaseRateFilter returns every D-th sample of what FirFilter returns for the signal with L-1 zeros after each sample; the coefficients are every (256/L)-th of one symmetric prototype of 3840 coefficients, each of whose 256 phases sums to one. Output samples are bounded by the largest absolute row sum times the bound of the samples.", "quantifier": "all signals, divisors L, decimations D; all banks, states and rates for the bound", "why_tests_cant": "equality of two algorithms for all rational rates and signals; the prototype is the result of an iterative design", "anchors": ["diamondback/filters/polyphase_rate_filter.py:PolyphaseRateFilter.filter", "diamondback/filters/polyphase_rate_filter.py:PolyphaseRateFilter.__init__", "diamondback/filters/fir_filter.py:FirFilter.filter"]}
{"id": "C110", "title": "FIR designs are low-pass (with complement: high-pass) filters near the frequency asked for, unless too short", "statement": "For every window style, a design by one FirFilter with order*frequency at least 40 has a cut-off c within 10/order + 0.0434*frequency of the frequency such that the magnitude response is at most 13/d^2 + 1/(8d) at d/order above c, up to Nyquist, and within 26/d^2 + 1/(4d) of one at d/order below c, down to zero; with complement the mirror image holds (frequency replaced by its distance to Nyquist). A design which is too short for its frequency misses the documented -3 dB: whenever order*frequency is at most 1 and cos(pi*frequency*order/2)^count exceeds 2^(-1/2), unless the window is a Blackman or Hann window of order 1 (which is zero), for instance order*frequency < 1/2 with one instance, the response at the frequency exceeds 2^(-1/2), and is at least that cosine per instance.", "quantifier": "all window styles, all orders and frequencies within the stated products, all frequencies of the response; all counts for the designs which are too short", "why_tests_cant": "the bounds hold for unboundedly many orders and a continuum of frequencies, and for whatever the iterative search returns", "anchors": ["diamondback/filters/fir_filter.py:FirFilter.__init__", "diamondback/filters/window_filter.py:WindowFilter"]}
{"id": "C111", "title": "Rounding errors of accumulating filters grow with the length of the signal", "statement": "The rounding error of IirFilter.filter on a signal of N samples bounded by M is at most K G^2 (u M + eta (1 + M)), where G bounds the absolute sum of the response of the recursion to one unit error over N samples, whether or not the filter is stable; K and the condition u G <= c depend on the coefficients only. For IntegralFilter G = N. The n-th output sample of PidFilter without a limit differs from the exact control law by at most ((1 + u)^(n+2) - 1) times the absolute proportional, integral and derivative terms, plus a multiple of eta. In binary floating point with p significant bits and round to nearest even, the integral of a constant signal of ones stops at 2^p.", "quantifier": "all coefficients with a[0] = 0, all signals, states and lengths, all arithmetics with the stated error bounds; for the last part all precisions p >= 2 and all lengths", "why_tests_cant": "The growth over arbitrary lengths and every arithmetic within the error bounds cannot be sampled; the stall of float64 sums begins after 2^53 samples.", "anchors": ["diamondback/filters/iir_filter.py:IirFilter.filter", "diamondback/filters/integral_filter.py:IntegralFilter.filter", "diamondback/filters/pid_filter.py:PidFilter.filter"]}
{"id": "C112", "title": "How long a nan sample is remembered", "statement": "Every arithmetic operation with nan yields nan (0*nan too) and every comparison with nan is false. FirFilter: an output is nan exactly when one of the len(b) samples it covers is nan, every other output is what it is with any number written in place of the nans, and after len(b) further numbers the object is as if the nan had been any number. IirFilter (and IntegralFilter) with at least two coefficients: outputs before the first nan are unaffected, and from the first nan on every output, of this call and of all later calls, is nan; with one coefficient exactly the nan samples give nan. GoertzelFilter: exactly the blocks that contain a nan yield nan, all other blocks are unaffected. PidFilter: exactly the output of the nan sample and the next one are nan, since the comparison of the sum with the limit (also the initial inf) fails and the integral is held; every other output is the formula with the integral of the numbers received so far. RankFilter: the output is nan exactly when the window holds at most index numbers, otherwise it is the number of rank index among the numbers of the window.", "quantifier": "for all filter objects, all arithmetics (any rounding), all positions and numbers of nan samples, all call boundaries", "why_tests_cant": "The claim is about every pattern of nans in every signal and about all later calls; a test sees one nan at one place in a short signal.", "anchors": ["diamondback/filters/fir_filter.py:FirFilter.filter", "diamondback/filters/iir_filter.py:IirFilter.filter", "diamondback/filters/goertzel_filter.py:GoertzelFilter.filter", "diamondback/filters/pid_filter.py:PidFilter.filter", "diamondback/filters/rank_filter.py:RankFilter.filter"]}
{"id": "C113", "title": "Filters share no arrays with the caller or with one another", "statement": "FirFilter and IirFilter copy the coefficient and state arrays they are constructed from, and every array returned by filter is new. Consequently any sequence of constructions, filter and reset calls and changes to the caller's own arrays, with the same arrays passed to several objects, returns exactly what it would return if every argument were a value: calls of one object never influence another, and the arrays passed as arguments (signals, tables of coefficients) and the arrays returned earlier are never modified. Two limits: a signal that is the state array of the same object (f.filter(f.s)) is overwritten while it is read, and the setter g.s = f.s makes two objects share their state.", "quantifier": "Every list of commands of a caller with any number of FirFilter and IirFilter objects and any number of arrays, every arithmetic, every dtype conversion.", "why_tests_cant": "Aliasing faults only show when the same array is passed twice or changed after a call; the combinations are unbounded, and tests almost always pass fresh literals.", "anchors": ["diamondback/filters/fir_filter.py:FirFilter.__init__", "diamondback/filters/fir_filter.py:FirFilter.filter", "diamondback/filters/fir_filter.py:FirFilter.reset", "diamondback/filters/iir_filter.py:IirFilter.__init__", "diamondback/filters/iir_filter.py:IirFilter.filter", "diamondback/filters/iir_filter.py:IirFilter.reset"]}
{"id": "C114", "title": "White noise through the filters and transforms", "statement": "For a signal plus white noise of power sigma^2 (mean zero, uncorrelated samples, any distribution): the mean of the output of FirFilter and IirFilter, from any state, is the output for the signal alone, and the deviation has the correlation sigma^2 sum_i h[i+k] conj(h[i]) of the impulse response h; for FirFilter its power is sigma^2 sum |b|^2 once len(b) samples have passed. For a stable IirFilter the power of the noise rises to a finite multiple of sigma^2. Noise through an IntegralFilter of order N is a random walk, of power at least sigma^2 (n + 1 - N) at sample n. PsdTransform gives in the mean the density of the signal alone plus the same sigma^2 sum |b|^2 / len(b)^2 at every frequency. GoertzelFilter deviates from the value without noise with power sigma^2 g^2 sum |w|^2 / len(w)^2 at every frequency (g = 2 for real, 1 for complex signals). ComplexBandpassFilter passes noise of power at most sigma^2 rate / (2 - rate).", "quantifier": "Every probability space, every white noise on it, every signal, all coefficients, windows, states, frequencies, rates and lengths.", "why_tests_cant": "Statements about expectations need infinitely many runs; tests can only check samples within wide tolerances.", "anchors": ["diamondback/filters/fir_filter.py:FirFilter.filter", "diamondback/filters/iir_filter.py:IirFilter.filter", "diamondback/filters/integral_filter.py:IntegralFilter", "diamondback/filters/goertzel_filter.py:GoertzelFilter.filter", "diamondback/filters/complex_bandpass_filter.py:ComplexBandpassFilter.filter", "diamondback/transforms/psd_transform.py:PsdTransform.transform"]}
{"id": "C115", "title": "Polyphase filters may be constructed by several threads at once", "statement": "PolyphaseRateFilter.B, which the first constructor builds for the whole process, is safe when any number of threads construct filters at the same time: whatever the order in which their statements run, and even between the divisions of two rows, B is at every moment either the zero array of the import or the whole bank of 256 rows which sum to one, the same bank as in a program with one thread; it is the whole bank as soon as one constructor has returned. An array which B has referred to is never written afterwards. No constructor waits for another: after 260 statements of its own it has returned, or raised ValueError when its rate is outside [0, 256].", "quantifier": "every number of threads, every assignment of rates to threads, every schedule of their statements", "why_tests_cant": "a test meets a handful of interleavings, and a fault in the order of assignment and normalisation shows only when a thread is suspended between two rows of the first construction", "anchors": ["diamondback/filters/polyphase_rate_filter.py:PolyphaseRateFilter.__init__", "diamondback/filters/polyphase_rate_filter.py:PolyphaseRateFilter.B"]}
{"id": "C116", "title": "Samples needed by the mixture model, and what a refused fit leaves", "statement": "With order two or more and positive regularisation, GaussianMixtureModel.fit succeeds exactly when every label of the batch occurs at least order times, and raises ValueError otherwise; in particular whenever the batch has fewer than order samples per different label. So the documented example (order 10, 32 samples, labels from 0 to 9) raises whenever more than three different labels occur. A refused fit is not undone: the model learnt before is lost, and the model then consists of the classes below the least label which occurs too seldom; predict ranks those only, without a sign of the missing classes, or raises ValueError when there are none.", "quantifier": "every batch, labels, order, earlier model; every estimator which refuses fewer samples than components and accepts the others", "why_tests_cant": "tests use large balanced batches; which labels are missing after an exception depends on the order of the labels and the size of each class", "anchors": ["diamondback/models/gaussian_mixture_model.py:GaussianMixtureModel.fit", "diamondback/models/gaussian_mixture_model.py:GaussianMixtureModel.predict"]}
{"id": "C117", "title": "Rate filters keep their times in floating point", "statement": "When every operation on times in the rate filters is rounded with an error of at most delta, filter raises no exception, its loops end, every access is within the bank and the extended signal, and output k is evaluated at a time within (i + 2k) delta of k / rate, i being the interval of the signal it falls in.  While that error is below half an output period all of the allocated outputs are computed; in double precision this covers rates from 2^-40 to 256 and signals of up to 10^10 samples.", "quantifier": "all rates, signals, banks, starting times in range, fits and roundings with the stated error", "why_tests_cant": "The times are accumulated by repeated floating point additions and subtractions, so comparisons near the end of an interval can go either way and the count of outputs could fall short; tests see a few rates and short signals.", "anchors": ["diamondback/filters/polynomial_rate_filter.py:PolynomialRateFilter.filter", "diamondback/filters/polyphase_rate_filter.py:PolyphaseRateFilter.filter"]}
{"id": "C118", "title": "What filter leaves when it raises because of a sample which is no number", "statement": "If a sample cannot be stored as a number (a row of a two dimensional array, None, a text), filter raises the exception of the store after the samples before it have been processed.  RankFilter and PidFilter keep nothing of the refused sample and ComplexExponentialFilter and ComplexFrequencyFilter do not change; FirFilter is left as if the latest sample had been repeated and IirFilter and GoertzelFilter as if the recursive sum had been a sample, and reset gives FirFilter and IirFilter the state it would give without the call; PolyphaseRateFilter is left one output period late and ComplexBandpassFilter with its oscillator moved by the number of rows, which reset does not undo. With empty coefficients assigned to FirFilter or IirFilter every call raises IndexError and changes nothing. With an empty state assigned to FirFilter, IirFilter or RankFilter a refused first sample raises IndexError instead of its own exception. An array without rows raises ValueError and changes nothing.", "quantifier": "all states with matching lengths, all signals before the refused sample, all coefficients, all numbers of rows", "why_tests_cant": "Tests check that an exception is raised, not what a caller who catches it and carries on will hear afterwards; the damage depends on where in the loop body the store is.", "anchors": ["diamondback/filters/fir_filter.py:FirFilter.filter", "diamondback/filters/iir_filter.py:IirFilter.filter", "diamondback/filters/rank_filter.py:RankFilter.filter", "diamondback/filters/pid_filter.py:PidFilter.filter", "diamondback/filters/goertzel_filter.py:GoertzelFilter.filter", "diamondback/filters/polyphase_rate_filter.py:PolyphaseRateFilter.filter", "diamondback/filters/complex_bandpass_filter.py:ComplexBandpassFilter.filter", "diamondback/filters/complex_exponential_filter.py:ComplexExponentialFilter.filter", "diamondback/filters/complex_frequency_filter.py:ComplexFrequencyFilter.filter"]}
{"id": "C119", "title": "What the inherited reset does in the other filters", "statement": "`reset(v)` is documented to minimise edge effects by assuming that the signal has been v all along. In RankFilter a following run of v is returned as v from the first sample on. In DerivativeFilter a following run of v gives zero from the first sample on. In IntegralFilter and PidFilter it does not clear the integral but sets it to v: the integral filter is left as though v(1-b0), zeros and v had been filtered, after which its output is v, and the PID filter without a limit returns b0*v + b1*(k+2)*v for sample k of a run of v. In GoertzelFilter it adds v*exp(j*pi*f*N), of magnitude |v|, to the value of the next block (f not 0). In ComplexBandpassFilter it has no effect on any later call of filter. In ComplexFrequencyFilter with the frequency set, a reset with the sample preceding a tone of that frequency makes every error zero; a reset with the first sample of the signal itself leaves the first error x0*(1-b).", "quantifier": "all filters of these classes (all table entries, all gains, windows and frequencies), all values v, all run lengths and, for the block and frequency filters, all signals", "why_tests_cant": "The existing tests call reset and look at shapes; that the integral, or the block value, is offset by the reset value shows only against the closed form, for every v and every filter.", "anchors": ["diamondback/filters/fir_filter.py:FirFilter.reset", "diamondback/filters/iir_filter.py:IirFilter.reset", "diamondback/filters/rank_filter.py:RankFilter", "diamondback/filters/derivative_filter.py:DerivativeFilter", "diamondback/filters/integral_filter.py:IntegralFilter", "diamondback/filters/pid_filter.py:PidFilter", "diamondback/filters/goertzel_filter.py:GoertzelFilter", "diamondback/filters/complex_bandpass_filter.py:ComplexBandpassFilter", "diamondback/filters/complex_frequency_filter.py:ComplexFrequencyFilter.reset"]}
{"id": "C120", "title": "Assigning the coefficients and the state of a filter", "statement": "Coefficients `b` of the same length assigned between two calls of filter act at once, on the samples before as well: later outputs of FirFilter and IirFilter are exactly those of a filter which had the new `b` from the start. Coefficients of another length are accepted by the setters; filter then raises ValueError (FirFilter with the first sample already in its state, IirFilter with `a` of another length before anything has changed), except that IirFilter takes a single `b` as that many equal coefficients; with an empty `b` it raises IndexError before anything has changed. A copy of `s` assigned back after any other signals restores the filter exactly; without the copy `s` is the live state, so that nothing is saved. Two FirFilters of one length assigned the same state array act as though each had filtered the signals of both. A RankFilter with a state of any length assigned filters if and only if its index is within it.", "quantifier": "all filters, states, coefficients, signals and arithmetics; all heaps of arrays for the statements about sharing", "why_tests_cant": "Aliasing and the moment at which a setter takes effect are properties of call sequences; a test sees single cases.", "anchors": ["diamondback/filters/fir_filter.py:FirFilter.b", "diamondback/filters/fir_filter.py:FirFilter.s", "diamondback/filters/iir_filter.py:IirFilter.a", "diamondback/filters/fir_filter.py:FirFilter.filter", "diamondback/filters/iir_filter.py:IirFilter.filter", "diamondback/filters/rank_filter.py:RankFilter.filter"]}
{"id": "C121", "title": "Polynomial rate filters one after another", "statement": "With order 1 or at least 3, PolynomialRateFilter at an integer rate k returns every sample of the signal with k - 1 values between one and the next, and at rate 1/k it returns every k-th sample; raising the rate by k and lowering it again, with the same or another such order, therefore returns the signal exactly.  With order 1, rate k followed by any rate r is the filter of rate k r, up to and including the extrapolated end.  Lowering the rate first loses samples.", "quantifier": "for all signals of two or more samples, all integers k of at least one, all positive rates r and all orders but two, in exact arithmetic", "why_tests_cant": "a test round-trips a few signals at a few rates and allows a tolerance; the equality of two filters with one holds at every length and rate, and depends on the extrapolation at the end of the signal and on how both lengths are rounded", "anchors": ["diamondback/filters/polynomial_rate_filter.py:PolynomialRateFilter.filter"]}
{"id": "C122", "title": "Calls of fit and clear on a diversity model in any order", "statement": "After any sequence of fit and clear, whether or not calls raised, the state of a DiversityModel has the shape given by two counters: clear leaves as many rows as there were columns and no columns, and the first observations after it set the columns.  Observations of the dimension in force, or of any dimension after construction or clear, are accepted.  Clearing a model which has no columns, so one which has not observed anything or has just been cleared, leaves no rows: from then on it accepts every observation, keeps none, and reports a diversity of zero.  Clearing after observations of n numbers gives the model constructed with order n - 1.", "quantifier": "for all distances, orders, histories of calls and observations", "why_tests_cant": "tests call clear once, after observations and with a dimension near to the order, and look at the diversity; that the order is lost and that a second clear makes the model deaf shows only over sequences of calls and dimensions", "anchors": ["diamondback/models/diversity_model.py:DiversityModel.clear", "diamondback/models/diversity_model.py:DiversityModel.fit"]}
{"id": "C123", "title": "Filters in several threads", "statement": "FirFilter.filter, IirFilter.filter and FirFilter.reset, taken step by step on the arrays of the process, read the coefficients, the state, the signal and the result only and change the state and the result only.  Threads whose calls change no array which another thread uses, as threads do which have filters of their own, get in every interleaving the results which they would get alone, also where they share signals and coefficients.  Threads which share one filter do not: two calls of one sample each can return results which no order of the calls returns.  With one lock held around each call, results and arrays are always those of the calls in some order which keeps that of each thread.", "quantifier": "for all arrays, dtype conversions, arithmetics, numbers of threads, sequences of calls and interleavings", "why_tests_cant": "the tests have one thread, and a test with several would meet a handful of interleavings, with the interpreter switching threads rarely", "anchors": ["diamondback/filters/fir_filter.py:FirFilter.filter", "diamondback/filters/fir_filter.py:FirFilter.reset", "diamondback/filters/iir_filter.py:IirFilter.filter"]}
{"id": "C124", "title": "Rates assigned to a polyphase filter between calls", "statement": "Assigning PolyphaseRateFilter.rate keeps the samples in the state.  A rate r which differs from the last by at most 1e-8 + 1e-5 r keeps the phase too, so that the next call goes on where the last one left off; any other rate begins anew, so that the next call takes its first sample at the first of the signal and returns round(len(x) r) samples.  Rates may drift: from each positive rate each other is reached by assignments which all keep the phase.  The test is not symmetric: from each rate below the greatest there is one which can be assigned with the phase kept, while assigning the former again begins anew.", "quantifier": "for all banks, reachable states, rates and signals", "why_tests_cant": "no test assigns a rate; whether the phase is kept shows in no attribute and depends on both rates, in an order", "anchors": ["diamondback/filters/polyphase_rate_filter.py:PolyphaseRateFilter.rate", "diamondback/filters/polyphase_rate_filter.py:PolyphaseRateFilter.filter"]}
{"id": "C125", "title": "Observations with nan in a diversity model", "statement": "DiversityModel.fit accepts observations with nan.  Distances of the styles Euclidean, Geometric and Manhattan are nan exactly if a row has a nan; the Chebyshev distance is nan if the first column of a row is, and passes over nans in other columns.  A distance which is nan counts as infinite, so that a row at a distance of nan from all others counts for nothing: a full model takes on such an observation exactly if the other rows, without one, are further apart than the diversity, and in place of the row without which they are furthest apart.  In a full model of two rows the diversity then becomes infinite, and from an infinite diversity on no observation changes the model any more.  As long as there are places, observations with nan in whatever column take them in order, over several calls.  Observations without nan give what the other properties say.", "quantifier": "for all states, observations and distance functions", "why_tests_cant": "a test with nan would show one case; that a nan is preferred to numbers and that one nan ends learning are statements about all states", "anchors": ["diamondback/models/diversity_model.py:DiversityModel.fit", "diamondback/models/diversity_model.py:DiversityModel.DISTANCE"]}
{"id": "C126", "title": "nan in the complex filters", "statement": "The range checks of ComplexExponentialFilter, ComplexBandpassFilter and ComplexFrequencyFilter accept nan for phase, frequency and rate, and store it there ( and in the coefficient computed from a frequency assigned to ComplexFrequencyFilter ) and nowhere else. With nan in the signal, ComplexExponentialFilter returns up to and including the first nan what it returns for any number in its place, nan afterwards and in all later calls, until phase is assigned. The other two, for a complex signal, return before the first nan what they return for numbers, at the nan still a number for y and b but nan for e, and nan afterwards; their coefficient is nan from then on and every later output is nan, whatever is filtered or assigned to rate (and, for the bandpass filter, to frequency) or passed to reset. ComplexFrequencyFilter is one of numbers again after assigning frequency and calling reset with a number; assigning frequency alone is not enough when the nan was the last sample. A call of ComplexBandpassFilter while frequency is nan makes y and e nan for ever, also after frequency and coefficient are assigned numbers. Without nan, the filters do what the other properties say.", "quantifier": "for all instances, all signals with any number of nan at any places, and all sequences of later operations", "why_tests_cant": "A test would have to try every place of the nan and every later sequence of calls; that no sequence brings numbers back is a statement about infinitely many programs.", "anchors": ["diamondback/filters/complex_exponential_filter.py:ComplexExponentialFilter.filter", "diamondback/filters/complex_bandpass_filter.py:ComplexBandpassFilter.filter", "diamondback/filters/complex_frequency_filter.py:ComplexFrequencyFilter.filter", "diamondback/filters/complex_frequency_filter.py:ComplexFrequencyFilter.reset"]}
{"id": "C127", "title": "Texts Serial.encode never produced", "statement": "Serial.decode reads a text of the 85 documented characters in groups of five, the last one filled up with the greatest digit. If each group has a value below 2^32 it gives the four bytes of that value in base 256, the last group one byte less than it has characters; if any group has a greater value ValueError is raised. A single character after complete groups therefore adds nothing: if it is not one of the last three of the alphabet the text is decoded to the same object as without it, so different texts decode alike.", "quantifier": "for all texts of the documented characters, of every length", "why_tests_cant": "The behaviour on texts which encode does not produce is seen by no round trip test, and there are infinitely many of them.", "anchors": ["diamondback/commons/serial.py:Serial.decode"]}
{"id": "C128", "title": "Samples which the type of a filter's arrays cannot hold", "statement": "FirFilter, IirFilter and PidFilter keep their state and return their reference signal in the type of the forward coefficients, RankFilter returns it in the type of the incident signal. With integer coefficients each sample is therefore truncated toward zero before it is filtered: a FirFilter returns the convolution of the truncated samples, off by at most the sum of the magnitudes of the coefficients; an IirFilter is the integer recursion on the truncated samples if a is integer as well; an IirFilter or a PidFilter returns nothing but zeros for samples below one, however many there are (no integral builds up). Integer samples lose nothing in a FirFilter, nor in a PidFilter or an IirFilter of integers. Coefficients padded to the length of a or s become float and lose nothing. With real coefficients only the real parts of complex samples are filtered. A RankFilter returns the order statistic truncated for an integer signal, which changes nothing unless a fraction was filtered or assigned by reset before.", "quantifier": "every coefficient list, signal, length, limit, history of calls of a RankFilter; any ordered field with floor", "why_tests_cant": "the type of the coefficients is invisible in a test which passes floats; the loss depends on all samples and accumulates in recursions of any length", "anchors": ["diamondback/filters/fir_filter.py:200-211", "diamondback/filters/fir_filter.py:258-263", "diamondback/filters/iir_filter.py:192-204", "diamondback/filters/iir_filter.py:304-311", "diamondback/filters/pid_filter.py:82-88", "diamondback/filters/rank_filter.py:85-90"]}
{"id": "C129", "title": "nan as a parameter of the rate, PID and Goertzel filters and of filter design", "statement": "The range checks let nan pass. PolyphaseRateFilter: assigning nan to rate succeeds, keeps the samples and drops the phase; until a number is assigned every call of filter raises ValueError, and a number then begins anew. PolynomialRateFilter: nan is taken by the constructor and the setter, and every call raises ValueError until a number is assigned. PidFilter: with nan for limit the integral is frozen, each output is b0 x + b1 I + b2 (x - last x) with the integral I at the time of the assignment, in all calls. GoertzelFilter: with nan for frequency the constructor succeeds, and each block, as many as with a number, is nan for ever. FirFilter with nan for frequency raises ValueError; IirFilter does not notice, keeps none of its 500 candidates and fails with IndexError, or ZeroDivisionError with complement. With numbers the models are those of the other properties.", "quantifier": "all banks, states, windows, coefficients, signals, sequences of calls between the assignments, styles, orders and counts", "why_tests_cant": "no test passes nan; what becomes of it depends on the way a comparison is written and on all later calls", "anchors": ["diamondback/filters/polyphase_rate_filter.py:97-103", "diamondback/filters/polyphase_rate_filter.py:152", "diamondback/filters/polynomial_rate_filter.py:70-91", "diamondback/filters/pid_filter.py:45-49", "diamondback/filters/pid_filter.py:85-86", "diamondback/filters/goertzel_filter.py:89-93", "diamondback/filters/fir_filter.py:164-195", "diamondback/filters/iir_filter.py:163-191"]}
{"id": "C130", "title": "Bessel designs of IirFilter: response at all frequencies and at the cut-off", "statement": "For every valid frequency, order, count, complement and gain, IirFilter(style='Bessel', ...) succeeds, and with some kappa > 0 and the roots p of the reverse Bessel polynomial of that order the squared magnitude of its response at theta (at 1 - theta with complement) is gain^2 cos(pi theta/2)^(2 order) times the product of (cosh(pi kappa Re p) - cos(pi kappa Im p)) / (cosh(pi kappa Re p) - cos(pi kappa Im p - pi theta)). It is at most |gain| C cos(pi theta/2)^order for all theta in [0, 1], with C the product of |p|/|Re p|, whatever the search for the scale returns; so at the design frequency it is at most |gain| C' delta^order, delta being the distance from Nyquist (with complement: from zero), and the documented -3 dB is missed near Nyquist. For orders one and two it is strictly below -3 dB for every frequency from half of Nyquist on. For order one and one instance up to a quarter of Nyquist it is between -3 dB - 0.002 and -3 dB.", "quantifier": "all frequencies in (0, 1), orders, counts, complements and gains; all frequencies of evaluation; all residue functions meeting the contract of scipy.signal.residue", "why_tests_cant": "a test evaluates a few designs on a grid; that no outcome of a search of up to 500 steps can reach the documented gain is a statement about all scale factors", "anchors": ["diamondback/filters/iir_filter.py:160-254", "diamondback/filters/iir_filter.py:40-47"]}
{"id": "C131", "title": "Wavelet transforms do not amplify, whatever the wavelet", "statement": "With any style and order of WaveletTransform, any count of levels and any acceptable shape, let a coefficient which is the result of k levels count 2^k times for a signal and 4^k times for an array. The weighted energy of the coefficients of analysis is at most F^count (signals) or F^(2 count) (arrays) times the energy of the incident array, and the energy of a synthesised array is at most the same factor times the weighted energy of its coefficients; F is 1 for Haar, at most 1.000000033 for all other entries of the table but two, and at most 1.000105 for all. One level of analysis keeps the energy of a signal which ends in order - 1 zeros, within F - 1; otherwise energy is lost at the end (three quarters of that of a final impulse, Daubechies 3).", "quantifier": "all styles and orders of the table, all counts, shapes and arrays", "why_tests_cant": "a test transforms a few arrays; a bound of the gain is a statement about the worst array of every length, and grows with the number of levels", "anchors": ["diamondback/transforms/wavelet_transform.py:515-590", "diamondback/transforms/wavelet_transform.py:WaveletTransform.B"]}
{"id": "C132", "title": "How far the diversity of a model falls short of the best choice", "statement": "A DiversityModel does not retain a near-optimal selection: for each of the four styles, each order from one up and each factor R there are observations of two numbers such that, fitted from new, the model ends with a positive diversity while order + 1 of the observations are more than R times that far apart.  Of single numbers, in each style, a model of order one does better: its diversity is the distance of two of its observations, at least half of the range of all of them, and short of the range by at most the distance by which the third observation lies inside the interval of the first two, so equal to the range when it lies outside.  In the Chebyshev, Euclidean and Manhattan styles, which meet the triangle inequality, n >= 3 observations of any dimension spread no farther than 2 (n - 1) times the diversity of a model of order one.", "quantifier": "all styles, orders >= 1, factors, observations, counts of columns", "why_tests_cant": "Tests compare the diversity of a few random observations with itself or with zero; a drift in which every replacement is an improvement while the selection gets arbitrarily worse than the best one needs a sequence built for the purpose, of a length that grows with the factor.", "anchors": ["diamondback/models/diversity_model.py:2", "diamondback/models/diversity_model.py:121-166", "diamondback/models/diversity_model.py:80-85"]}
{"id": "C133", "title": "Filters with complex coefficients", "statement": "FirFilter and IirFilter accept complex coefficients. IirFilter follows the documented recursion over the complex numbers when the forward coefficients are complex, the recursive ones are complex128, or the recursive ones are complex64 and fewer than the forward ones; with recursive coefficients of complex64, not fewer than real forward ones, their imaginary parts are silently ignored. response(length, count) holds at index k the count-th power of H(exp(j pi f_k)), undefined exactly where the denominator vanishes; roots(count) are the poles and zeros with their multiplicities, sorted by magnitude; FirFilter.delay is count * order / 2 where the coefficients are the conjugates of each other from both ends. A filter is stable if and only if every reported pole is inside the unit circle; then, from any state, bounded signals give bounded outputs, the state is forgotten, and a complex exponential of frequency u gives H(u) times it in the limit. A pole z other than zero has a state from which the output for zeros is the powers of z times the numerator at z, so a filter with a pole on or outside the circle, which no zero cancels, does not forget.", "quantifier": "all complex coefficients, states, signals, lengths, counts and frequencies; element types float, complex64, complex128", "why_tests_cant": "Complex coefficients, their conjugate-free root sets, unsymmetric responses and limits over all states and signals cannot be enumerated, and the type dependent branch shows only for complex64 arrays of one relation of lengths.", "anchors": ["diamondback/filters/iir_filter.py:192-205", "diamondback/filters/iir_filter.py:288-373", "diamondback/filters/fir_filter.py:211-318"]}
{"id": "C134", "title": "PolyphaseRateFilter produces a sinusoid at the new rate, with images of bounded gain", "statement": "At a rate L / D with L a divisor of 256, the first PolyphaseRateFilter produces of every sinusoid A cos(pi u n + phi), once its window holds only samples of the signal, exactly the sum of L sinusoids at the new rate: the sinusoid itself with the gain H(u / L) / L, and images at the frequencies u + 2 m of the incident rate with the gains H((u + 2 m) / L) / L, where H is the response of the coefficients taken from one symmetric prototype. The gain of the sinusoid tends to one and the gain of each image to zero in proportion to the frequency u; at u = 0 the gain is exactly one and there is no image. The filters do not depend on the rate, so decimation does not reduce aliasing as documented: at the rate 1 / D the sinusoid of frequency 2 / D, twice the new Nyquist frequency, becomes a constant, with a gain that tends to one as D grows.", "quantifier": "for all rates L / D with L a divisor of 256, all sinusoids of any amplitude, frequency, phase and length", "why_tests_cant": "The claim is about all frequencies, phases and lengths; tests filter a few signals and cannot separate a sinusoid from its images for each of them.", "anchors": ["diamondback/filters/polyphase_rate_filter.py:filter", "diamondback/filters/polyphase_rate_filter.py:__init__"]}
{"id": "C135", "title": "ComplexFrequencyFilter estimates the frequency of a tone in noise", "statement": "Let every sample of a tone of frequency f be wrong by at most the fraction eps < 1 of its amplitude, arbitrarily and adversarially. From any state with a coefficient of magnitude at most one, as soon as (1 - rate)^(n - 1) <= s / (1 + s) with s = sin(pi eta), every estimate of ComplexFrequencyFilter is within 2 arcsin(eps) / pi + eta of f, provided this bound is below 1/2 and does not reach beyond Nyquist; hence for 0 < rate <= 1 the estimates settle to within 2 arcsin(eps) / pi of f after a number of samples which depends on the rate only. The bound is attained.", "quantifier": "for all frequencies, amplitudes, phases, noise sequences, rates, starting states and lengths", "why_tests_cant": "The noise is any sequence within the bound; tests draw a few random ones and never the worst case.", "anchors": ["diamondback/filters/complex_frequency_filter.py:filter"]}
{"id": "C136", "title": "Signals of complex type in the complex filters", "statement": "ComplexBandpassFilter.filter and ComplexFrequencyFilter.filter treat a signal with some non-zero imaginary part, or of real type, independently of its type; a signal of complex type whose imaginary parts are all zero raises ValueError and changes nothing. So the output of ComplexExponentialFilter at phase and frequency zero is refused, and a complex signal accepted in one call may be refused when cut into several. ComplexExponentialFilter.filter accepts no signal of complex type: it raises TypeError if the values are real and of magnitude at most one, ValueError otherwise, with the phase unchanged.", "quantifier": "all signals of either type, all states of the filters, any Hilbert transform", "why_tests_cant": "tests use either real lists or tones whose imaginary parts are not all zero; the case between, complex arrays of real values, depends on the type and not on the values", "anchors": ["diamondback/filters/complex_bandpass_filter.py:116-122", "diamondback/filters/complex_frequency_filter.py:119-125", "diamondback/filters/complex_exponential_filter.py:82-92"]}
{"id": "C137", "title": "Integer filters wrap around", "statement": "With coefficients, state and signal of type int64, each output sample of FirFilter and IirFilter is the value of the difference equation over the integers wrapped around to an int64: the only number in [-2^63, 2^63) congruent to it modulo 2^64. So the output is exact wherever the exact output fits, even if sums or the state overflow before; in particular an integrator IirFilter(a=[0,1], b=[1,0]) followed by a comb FirFilter yields the moving sum exactly however often the integrator wraps around.", "quantifier": "all integer coefficients, states and signals of any length", "why_tests_cant": "overflow needs values near 2^63 or very long signals, which tests do not use", "anchors": ["diamondback/filters/fir_filter.py:200-211", "diamondback/filters/fir_filter.py:254-264", "diamondback/filters/iir_filter.py:192-205", "diamondback/filters/iir_filter.py:300-312"]}
{"id": "C138", "title": "Signals of changing frequency in the complex filters", "statement": "ComplexBandpassFilter: if each sample of the signal is the one before turned by the frequency of the filter up to kappa, the n-th error is at most (1 - rate)^n times the first error plus kappa / rate; so a signal of ComplexExponentialFilter of amplitude A whose frequencies stay within delta of that of the filter is followed up to pi delta A / rate. ComplexFrequencyFilter: if the frequency from one sample to the next changes by at most sigma at a time, the estimate follows it within arcsin(2 (1 - rate)^(n+1) + (1 - rate) pi sigma / rate) / pi, from any state. For a linear sweep by sigma per sample the coefficient has a closed form, and the estimate settles to a constant lag of arctan((1 - rate) sin(pi sigma) / (1 - (1 - rate) cos(pi sigma))) / pi, which is at most (1 - rate) sigma / rate for an upward sweep; all of this as long as the values stay within Nyquist.", "quantifier": "all signals of changing frequency and amplitude, rates in (0, 1], states and lengths", "why_tests_cant": "the examples of the documentation sweep a frequency and look at the result; how far the filters fall behind depends on rate and sweep together, which no set of examples covers", "anchors": ["diamondback/filters/complex_bandpass_filter.py:28-40", "diamondback/filters/complex_bandpass_filter.py:116-133", "diamondback/filters/complex_frequency_filter.py:32-43", "diamondback/filters/complex_frequency_filter.py:119-139"]}
{"id": "C139", "title": "Rounding errors of complex filters and of GoertzelFilter are bounded uniformly in the frequency", "statement": "In any complex machine arithmetic whose additions, products and dot products are within u of the result relatively and \u03b7 absolutely: (1) an output sample of FirFilter with complex coefficients or signal is wrong by at most u times the sum of the magnitudes of the products in its window plus \u03b7, whatever the length of the signal; (2) an output sample of IirFilter with complex coefficients is wrong by at most K G\u00b2 (u M + \u03b7 (1 + M)), where M bounds signal and state and G the sum of the magnitudes of the response of the recursion over the length of the signal; (3) every value GoertzelFilter returns, over any sequence of calls, differs from the spectral sum of the weighted samples of its block by at most 11080 N\u2074 (u M + \u03b7 (1 + M) + \u03b5 M) at every frequency, and by at most 11080 N\u00b2 / \u03c3\u00b2 (u M + \u03b7 (1 + M) + \u03b5 M) where |sin(\u03c0 frequency)| \u2265 \u03c3, with N the length of the window and \u03b5 the error of the two coefficients.", "quantifier": "every arithmetic with those error bounds, every window, frequency, coefficient list, signal and sequence of calls", "why_tests_cant": "Tests run one arithmetic on a few signals; they cannot show that the error near frequency zero, where the recursion has a double pole, stays polynomial in the block length for all signals.", "anchors": ["diamondback/filters/goertzel_filter.py:76-127", "diamondback/filters/iir_filter.py:192-205", "diamondback/filters/iir_filter.py:288-312", "diamondback/filters/fir_filter.py:200-211"]}
{"id": "C140", "title": "Rounding errors of the complex filters: the oscillator drifts, the adaptation does not", "statement": "ComplexExponentialFilter.filter in machine arithmetic with relative error u: within one call the phase of sample n is wrong by at most ((1 + u)^n - 1)(n + 1), since the phase is reduced to [-1, 1] only at the end of the call; over several calls the bounds at their ends add up, up to full turns; in binary arithmetic with p bits one long call at the frequency 2^-k returns the same sample ever after the first 2^p. ComplexBandpassFilter.filter: coefficient and output stay within a constant times (u (W + M) + \u03b7) / rate of the exact adaptation to the values of the oscillator, where M bounds the signal and W the coefficient, whatever the length of the signal, if 500 u <= rate. ComplexFrequencyFilter: so does its coefficient on normalised samples.", "quantifier": "every arithmetic with those error bounds, every signal, rate in (0, 1], initial coefficient and sequence of calls", "why_tests_cant": "A test sees the drift only after millions of samples, and cannot show that the errors of the adaptation never accumulate.", "anchors": ["diamondback/filters/complex_exponential_filter.py:68-93", "diamondback/filters/complex_bandpass_filter.py:98-133", "diamondback/filters/complex_frequency_filter.py:101-139"]}
{"id": "C141", "title": "PidFilter in a control loop", "statement": "When PidFilter.filter is called with one error at a time and its answers drive a plant: (a) for every plant, with b[1] != 0 and no limit, bounded errors and controls imply that the sum of the errors stays bounded, so their mean vanishes like 1/n, and an error which settles settles at zero. (b) For a linear plant of any order with any set point, constant disturbance, initial values and filter state, if the characteristic function of the loop has no zero in the unit disk, the errors are absolutely summable and the control settles at the value which holds the plant at the set point; for a plant of the first order and no derivative term three inequalities suffice. (c) Without integral term the error settles at the value the proportional term needs; with a limit L the integral term of a settled loop is at most abs(b[1]) * L. (d) The limit as coded (a sample which would exceed it is dropped) can hold a loop at a nonzero error for ever although the integral it needs is below the limit, where the documented law (the sum, clipped) settles at zero.", "quantifier": "all plants (a, c), all linear plants, set points, disturbances, initial values, coefficients and states (b), unbounded number of calls", "why_tests_cant": "Statements about limits of infinite executions of a loop over all plants; tests see finitely many samples of a few plants.", "anchors": ["diamondback/filters/pid_filter.py:7-17", "diamondback/filters/pid_filter.py:66-89"]}
{"id": "C142", "title": "What PsdTransform keeps of the power of a signal, and any integer as its index", "statement": "For real signals and windows, twice the sum of PsdTransform.transform less its value at zero frequency is the mean power of the windowed frames, except for the power in the bin len(b)//2, which the transform leaves out (once for even, twice for odd length). Samples which no frame covers (between frames when index exceeds len(b), and after the last frame) have no influence on the result. Complex tones at the negative frequencies of the axis and at Nyquist (such as 1, -1, 1, -1, ...) give a power spectral density of zero with the rectangular window. index = 0 raises ValueError; a negative index raises ValueError with spectrogram and otherwise returns nan. An empty signal, a window whose values are all close to zero and a signal shorter than the window are refused for every index.", "quantifier": "all signals, windows, integer indices, lengths, amplitudes and phases", "why_tests_cant": "Identities between sums over all frames and bins, for all signals and lengths; tests compare a few spectra.", "anchors": ["diamondback/transforms/psd_transform.py:68-107"]}
{"id": "C143", "title": "Infinite samples in the filters", "statement": "With the arithmetic of IEEE 754 for infinities and nan (finite results exact): FirFilter gives a finite output exactly when all samples under its coefficients are finite; an infinite sample gives nan under a zero coefficient and elsewhere the infinity with the sign of the product; outputs whose samples are finite do not depend on it, and after len(b) finite samples no trace is left. IirFilter with at least two coefficients gives no finite output from the first infinite sample on, in this call and all later calls. PidFilter never adds an infinite sample to its integral, even with the initial limit inf, since inf < inf is false, and only the output of the sample and the next one are not finite. RankFilter gives -inf exactly when the window holds more than index of them and +inf exactly when at most index values of the window are below +inf.", "quantifier": "all filter objects, signals of numbers, infinities and nans, positions and call boundaries", "why_tests_cant": "The claim covers every pattern of infinities in every signal and all later calls; a test sees one pattern.", "anchors": ["diamondback/filters/fir_filter.py:FirFilter.filter", "diamondback/filters/iir_filter.py:IirFilter.filter", "diamondback/filters/pid_filter.py:PidFilter.filter", "diamondback/filters/rank_filter.py:RankFilter.filter"]}
{"id": "C144", "title": "Spectral leakage of the Hann, Hamming and Blackman windows", "statement": "The spectrum of a normalised WindowFilter has the known closed form. For Hann and Hamming of order N it is the sum of a pedestal and one lobe, for Blackman the sum of two lobes. Hann has zeros at every whole number of steps 2k/N but the nearest ones. A tone that lies d steps from a bin leaks into the bin of PsdTransform with a Hann window at most the fraction (pi/4 / (d(d^2-1)))^2 of its power. For long windows the leakage at distance d tends to an explicit limit. Compared there, Hamming leaks less than 0.41 of Hann between two and three steps (the nearest side lobe of the documentation) but more than Hann beyond four steps, and Blackman less than 0.43 of Hann beyond three steps.", "quantifier": "for all orders, all distances, all tones (amplitude, frequency, phase), all signal lengths and shifts", "why_tests_cant": "Leakage is a statement about a continuum of frequencies and about the limit of long windows; a test sees single bins of single windows.", "anchors": ["diamondback/filters/window_filter.py:10", "diamondback/filters/window_filter.py:68", "diamondback/transforms/psd_transform.py:60", "diamondback/transforms/fourier_transform.py:50"]}
{"id": "C145", "title": "Coefficients which change while the signal passes", "statement": "When a caller assigns new coefficients (of the same length) before each sample, FirFilter gives the sum of the coefficients of now times the last samples. IirFilter gives b[0] times the recursion with the coefficients of now plus the other b times what it remembers. It remembers each sample through the recursion with the coefficients that are in force at the next sample, so a sample given out just before an assignment is remembered differently. If the moduli of the recursive coefficients always add up to at most rho < 1, the outputs stay below sum(abs(b)) * max(abs(x)) / (1 - rho) under every schedule. Stability of each single filter is not enough: two stable filters of second order, assigned in turn, answer one impulse with outputs that grow like 1.8^n.", "quantifier": "for all schedules of coefficients of any length, all signals, all lengths of signals, all commutative rings (normed ones for the bound)", "why_tests_cant": "The schedules and signals are unbounded sequences; instability under switching shows only for particular schedules of filters that all pass single tests.", "anchors": ["diamondback/filters/fir_filter.py:112", "diamondback/filters/fir_filter.py:242", "diamondback/filters/iir_filter.py:115", "diamondback/filters/iir_filter.py:288"]}
{"id": "C146", "title": "Overlapping frames through WindowFilter add up to the signal", "statement": "Cut a signal into frames of m*h+1 samples that start h samples apart, pass each through WindowFilter of order m*h, and add the results at their places. Where the frames meet the signal fully, the sum is a constant times the signal. For Hann this holds for m >= 2 and for Blackman for m >= 3, with the factor (m*h+1)/h for normalised windows. With Hamming the samples at multiples of h come out too large, because the ends of two frames fall on them and are not zero. The energy of Hann frames weights all samples equally for m >= 3. For half overlap (m = 2) the weight of sample n is 1 - sin(pi n/h)^2/2, so it varies between one half and one.", "quantifier": "for all hops h, all overlaps m, all numbers of frames, all signals, normalised or not", "why_tests_cant": "The identity must hold at every sample of signals of any length for every order and hop; it fails by small amounts when the hop does not fit the order, which a tolerance in a test hides.", "anchors": ["diamondback/filters/window_filter.py:68", "diamondback/filters/window_filter.py:90", "diamondback/transforms/psd_transform.py:101"]}
{"id": "C147", "title": "Filters of different classes which are the same filter", "statement": "In exact arithmetic, on every signal and however it is cut into calls: PidFilter([p, i, d]) without a limit gives the outputs of IirFilter(a=[0, 1, 0], b=[p+i+d, -p-2d, d]); its outputs are p times the signal plus i times the outputs of IntegralFilter(order 0) plus d times the outputs of DerivativeFilter(derivative 1, order 1); IirFilter(b=b) without recursive coefficients gives the outputs of FirFilter(b=b), from every state and with the same state afterwards; RankFilter(rank=0, order=0) returns the signal.", "quantifier": "all gains, all coefficient lists, all signals, all divisions of the signal into calls, all initial states (FIR against IIR), every sorting function", "why_tests_cant": "The tests never compare classes with one another, and the equality concerns every coefficient and signal.", "anchors": ["diamondback/filters/pid_filter.py:51", "diamondback/filters/iir_filter.py:192", "diamondback/filters/integral_filter.py:90", "diamondback/filters/derivative_filter.py:122", "diamondback/filters/fir_filter.py:200", "diamondback/filters/rank_filter.py:55"]}
{"id": "C148", "title": "An IIR filter is bounded exactly when the reported poles which no zero cancels are inside the unit circle", "statement": "A new IirFilter with a pole p, |p| >= 1, at which the forward polynomial does not vanish has a signal with samples within [-1, 1] for which its outputs exceed every bound.  Hence, if no zero reported by roots equals a reported pole on or outside the unit circle, every bounded signal gives bounded outputs exactly when every reported pole is inside the unit circle.  The condition on the zeros is needed: a=[0, 1], b=[1, -1] returns every signal unchanged although it has a pole at one.", "quantifier": "all recursive coefficients with a[0] = 0, all forward coefficients which are not all zero, all signals without end", "why_tests_cant": "An output that grows slowly (a pole on the circle) or a particular signal is needed; no finite set of finite signals shows boundedness.", "anchors": ["diamondback/filters/iir_filter.py:192", "diamondback/filters/iir_filter.py:288", "diamondback/filters/iir_filter.py:356"]}
{"id": "C149", "title": "What ZTransform does to the arrays of its caller", "statement": "When u and v share no element, ZTransform.transform returns what it returns for lists of the same values; afterwards exactly the elements of those array arguments whose first element is not zero have been divided by the last element of u, and nothing else in the memory of the caller has changed (nothing at all when ValueError is raised).  A second call with the same two such arrays returns the same and changes nothing.  With a list u and an array v, n calls with the bilinear method all return the same and leave v divided by u[-1]**n.  One array passed for both is harmless.  A v which is a slice of u gives a wrong result: for u = [1.0, 2.0] and v = u[1:] the coefficient of a pole at -1 instead of -2.", "quantifier": "all memories, all views (positions in buffers) as arguments, all values, frequencies, both methods where stated, all numbers of calls", "why_tests_cant": "Sharing of memory depends on how the caller made the arrays, and the damage appears in the caller's arrays after the call, not in the result.", "anchors": ["diamondback/transforms/z_transform.py:90", "diamondback/transforms/z_transform.py:100", "diamondback/transforms/z_transform.py:104"]}
{"id": "C150", "title": "Power of three-phase signals through the complex transform", "statement": "For three-phase voltages v and currents i, the power (the sum over the phases of v*i) is 3/2 of the real part of V*conj(I), with V and I the complex signals from ComplexTransform, plus (sum of v)(sum of i)/3, which the complex signals do not contain; with neutral=False the factor is 9/2. Where the currents sum to zero 3/2*V*conj(I) is the power plus j times the instantaneous reactive power. A complex three-phase array, which is not documented, is not refused: the result is the transform of the real parts plus j times that of the imaginary parts. With rotating phasors as phases it is twice the positive sequence, and every complex array of negative and zero sequence gives zeros.", "quantifier": "all voltages and currents of any number of samples, both settings; all complex three-phase arrays", "why_tests_cant": "Power invariance is an identity in six real variables for each sample; a test of one balanced signal can not see a zero sequence term or a factor which depends on the setting.", "anchors": ["diamondback/transforms/complex_transform.py:ComplexTransform.transform", "diamondback/transforms/complex_transform.py:ComplexTransform.COEFFICIENT", "diamondback/transforms/complex_transform.py:ComplexTransform.GAIN"]}
{"id": "C151", "title": "Complex signals in classes with real coefficients", "statement": "A complex signal given to an instance with real coefficients silently loses its imaginary part: FirFilter, IirFilter, PidFilter without limit, RankFilter and PolyphaseRateFilter return over any sequence of calls what they return for the real part of the signal, PolynomialRateFilter does so for every order other than one, and WaveletTransform does so in both directions for every acceptable array with more than one element. WindowFilter and PolynomialRateFilter of order one keep both parts, processed independently, and WaveletTransform returns an array of one element as it is and refuses exactly the complex arrays whose real parts it refuses, with the same exception. A PidFilter with limit decides on the magnitude of the complex integral, so its output differs from the output for the real part.", "quantifier": "every coefficient and state array, every order, rate, index and window, every sequence of complex signals, every acceptable shape, style and level count of the wavelet transform", "why_tests_cant": "It relates two runs over all complex signals, and depends on numpy's conversion of complex values on assignment to real arrays, which tests with real signals never reach.", "anchors": ["diamondback/filters/fir_filter.py:filter", "diamondback/filters/iir_filter.py:filter", "diamondback/filters/pid_filter.py:filter", "diamondback/filters/rank_filter.py:filter", "diamondback/filters/polyphase_rate_filter.py:filter", "diamondback/filters/polynomial_rate_filter.py:filter", "diamondback/filters/window_filter.py:filter", "diamondback/transforms/wavelet_transform.py:transform"]}
{"id": "C152", "title": "One wavelet level delays an array in both dimensions, two levels do not reconstruct", "statement": "For every style and order of WaveletTransform and every array of acceptable shape, one level of analysis followed by one level of synthesis returns the array delayed by order - 1 elements in every dimension of more than one element, with an error of at most (1 + e)^2 - 1 times the largest element, e being the error of the coefficient table. Two levels reconstruct no delayed copy for any style and order other than Haar: for every signal length 4 M of at least the order, the impulse comes back with an element between 1/4 and 3/4 at position order - 1, hence differs by more than 1/4 from every delayed impulse.", "quantifier": "all styles and orders of the table, all acceptable shapes and arrays; all signal lengths", "why_tests_cant": "It is a bound for all arrays and all entries of the table; the second part shows for every entry and every length that the documented inverse is none, which a test with Haar does not show.", "anchors": ["diamondback/transforms/wavelet_transform.py:transform", "diamondback/transforms/wavelet_transform.py:__init__"]}
{"id": "C153", "title": "The spectrum of a filtered periodic signal is the response times the spectrum of the signal", "statement": "For a periodic signal, FourierTransform of a period of the output of FirFilter (once len(b) - 1 samples have passed, whatever the initial state) equals FirFilter.response of the length of the period times FourierTransform of a period of the signal, element by element on one frequency axis, for even and odd periods. For a stable IirFilter in any state the spectrum of the last period tends to that product as the number of periods grows.", "quantifier": "All complex coefficients and states, all periods of at least two samples, all numbers of periods; for IirFilter every stable filter, every tolerance and every number of periods from some number on.", "why_tests_cant": "Tests compare neither class with the other; a shift of an axis by half a bin for odd lengths, a wrong scale or a conjugated exponent in one of the classes shows only when both are used together, and for IirFilter the claim is a limit.", "anchors": ["diamondback/transforms/fourier_transform.py:transform", "diamondback/filters/fir_filter.py:response", "diamondback/filters/fir_filter.py:filter", "diamondback/filters/iir_filter.py:response", "diamondback/filters/iir_filter.py:filter"]}
{"id": "C154", "title": "The Fourier transform obeys the laws of the discrete Fourier transform", "statement": "FourierTransform is linear in the signal; of real signals and windows the elements at opposite frequencies are conjugates and those at frequencies -1 and 0 are real (even lengths; for odd lengths the frequencies of conjugate elements add up to 2 / N, not to zero, since the axis is ahead by 1 / N); a circular delay by s samples multiplies the element at frequency f by exp(-j pi (f - e) s), where e is zero or, for odd lengths, 1 / N; multiplication by an exponential of m turns moves the spectrum by m places round the ends; with a window of ones the spectrum of a circular convolution is N times the product of the spectra, and for even lengths the inverse transform of that product is the circular convolution.", "quantifier": "All complex signals, windows, factors, delays and shifts of any length (at least two samples for delay and convolution).", "why_tests_cant": "Each law relates the results of several calls for all lengths and all signals, and depends on the order of the elements after the shift, which differs between even and odd lengths.", "anchors": ["diamondback/transforms/fourier_transform.py:transform"]}
{"id": "C155", "title": "An IIR filter is undone by another one", "statement": "For IirFilter(a, b) with b[0] not zero, a new IirFilter with recursive coefficients [0, -b[1]/b[0], ...] and forward coefficients [1/b[0], -a[1]/b[0], ...] returns from the output of the first exactly the signal, without delay, however the signal and the output are cut into calls; the two may be applied in either order. With b[0] = 0 the output does not depend on the last sample, so no function of the output returns the signal. If every zero of the first filter is inside the unit circle, errors of size M in its output change the returned signal by at most K M for one constant K; with a zero on or outside the circle which is not also a pole there are errors within [-1, 1] for which, whatever the signal, the returned signal is off by more than every bound.", "quantifier": "All coefficients over any field with a[0] = 0, all signals, all divisions into calls; all error sequences and lengths (real coefficients) for the bounds.", "why_tests_cant": "Exact recovery, independence of the length of the signal and growth without bound are claims on all signals of all lengths; a test shows only that one short signal is recovered.", "anchors": ["diamondback/filters/iir_filter.py:filter", "diamondback/filters/iir_filter.py:__init__"]}
{"id": "C156", "title": "Rank filter adds no variation and does not amplify changes", "statement": "Each output of RankFilter after the first lies, in magnitude, between the output before it and the new sample. Hence the total variation of the magnitudes of the output, plus the distance of the last output from the last sample, is at most that of the signal plus the distance of the first output from the first sample; after reset to the first sample the output varies no more than the signal. If signal and state change by at most epsilon in magnitude so do the outputs, and once the window is full each step of the output is at most the largest step of the signal within the window.", "quantifier": "All indices, orders, states, signals, positions and sorting functions.", "why_tests_cant": "The bound on the variation is a sum over a signal of any length, and holds whatever the sort does with equal magnitudes; tests see a few windows.", "anchors": ["diamondback/filters/rank_filter.py:filter", "diamondback/filters/fir_filter.py:reset"]}
{"id": "C157", "title": "Wavelet transforms of stored types lose a bounded amount", "statement": "WaveletTransform.transform stores the result of each line in the type of the signal. If storing changes a value by at most eta, the transform of a signal of count levels, against the transform in real numbers of a signal which differs by at most e, differs by at most g^n e + eta (1 + g + ... + g^(n-1)), with n = count for one dimension and 2 count for two dimensions, where g is the sum of the magnitudes of the low pass analysis filter (between 1 and 1.79 for every style and order, 1 for Haar), and twice that for the inverse. For integer signals and Haar the coefficients are thus within count of the exact ones (2 count for arrays); they are exact integers when the samples are multiples of 2^count (4^count for arrays); the inverse of integers is exact; multiples of 2^count are reconstructed exactly and any integer signal within count 2^count. In general integers lose information: [1, 0] and [0, 0] have the same coefficients.", "quantifier": "all styles, orders, counts, acceptable shapes, directions, signals and storage errors; Haar for the statements on integers", "why_tests_cant": "needs all signals, all depths of recursion and all storage types; a test sees one array", "anchors": ["diamondback/transforms/wavelet_transform.py:transform"]}
{"id": "C158", "title": "Observations far from the classes in the mixture model", "statement": "GaussianMixtureModel.predict adds exponentials, which underflow to zero for observations far from the components. For every fitted model whose precisions are positive definite there is a distance beyond which all observations have one and the same prediction, whatever class they are nearest to. With the exponential function of real numbers the ranking is by the score; where no exponent underflows the prediction is that one. For two classes of equal shape with the means 0 and 100 and unit variance the observations 41 and 59 belong to the first and the second class, but have the same prediction, so one of the two is wrong, whatever argsort does with equal scores.", "quantifier": "all fitted mixtures with positive definite precisions, all functions which are zero below a threshold, all batches of observations, all sorting functions", "why_tests_cant": "needs all fitted models and an unbounded set of observations; a test with observations of the training range never underflows", "anchors": ["diamondback/models/gaussian_mixture_model.py:predict"]}
{"id": "C159", "title": "Filters in IEEE floating point: error bounds, exact cases, order", "statement": "In binary floating point with p significant bits, gradual underflow below 2^e and round to nearest (binary64: p = 53, e = -1074), with the terms of every dot product summed in any order, with or without fused multiply-add: (1) each output of FirFilter.filter with n <= 2^26 coefficients in binary64 is within (n+1) 2^-53 times the same sum of absolute values, plus n 2^-1074, of the exact convolution; (2) for stable coefficients the output of IirFilter.filter approaches the exact one as p grows and e falls, uniformly over all bounded signals; (3) when coefficients and samples are multiples of powers of two and the absolute sums fit into p bits, FirFilter and IirFilter (integer a) are exact, so that 16 bit samples and 16 bit coefficients, or the integral of integers below 2^52, have no rounding error; (4) with non-negative coefficients raising samples or states never lowers an output of FirFilter, rounding included.", "quantifier": "all precisions and smallest exponents, all ways to break ties, all orders of summation, all coefficients, states, signals of all lengths", "why_tests_cant": "Tests run one BLAS on one machine with one order of summation, and compare with a tolerance; they cannot show that a bound or exactness holds for every order and every signal.", "anchors": ["diamondback/filters/fir_filter.py:filter", "diamondback/filters/iir_filter.py:filter"]}
{"id": "C160", "title": "Tail of an IirFilter in machine arithmetic", "statement": "Once the signal has ended, the output and the state of a stable IirFilter fall at least exponentially, at a rate depending on the coefficients alone, until they are of the order of the absolute error of one operation; in floating point with gradual underflow that is a multiple of the smallest positive number. There the tail may stay: with one recursive coefficient of magnitude above 1/2 a state which is not zero never becomes zero, and neither does the output of a filter without zeros, so that every further silent sample is computed on subnormal numbers. With a magnitude below 1/2 the state and the output become exactly zero after finitely many samples.", "quantifier": "all stable coefficients, all machine arithmetics of sufficient precision (all rounding rules to nearest, all orders of summation), all states and all lengths of the silence", "why_tests_cant": "Whether a tail ends depends on rounding at the very bottom of the number range, reached only after thousands of silent samples; a test over finitely many samples sees small numbers in both cases.", "anchors": ["diamondback/filters/iir_filter.py:filter"]}
{"id": "C161", "title": "Rank filter commutes with thresholds, clipping and the rounding of its state", "statement": "The output of a RankFilter reaches a magnitude if and only if at least order + 1 - index of the current and previous samples reach it. So the filter commutes with every map of samples which acts on magnitudes by an increasing function, even one which is constant in places: clipping, quantisation, conversion to another type. In particular, when the floating point state cannot hold the samples exactly, each output has the magnitude of the exact output rounded once, whatever the order and however many samples went before; signals of floating point numbers of that precision, and of integers up to 2**53 in magnitude, are filtered exactly. Larger integers need not be returned as they are: a filter of order zero returns 2**53 for 2**53 + 1, so that its output is not one of the samples of its window.", "quantifier": "every order, index, state, signal, increasing map, threshold, sorting method, and every precision and way of rounding to nearest which treats both signs alike", "why_tests_cant": "Tests with small integers or floating point samples never meet a sample which the state rounds, and show the commutation for single maps and signals only.", "anchors": ["diamondback/filters/rank_filter.py:filter", "diamondback/filters/fir_filter.py:__init__"]}
{"id": "C162", "title": "Small errors of the coefficients of a stable filter do small damage", "statement": "A stable IirFilter stays stable when every recursive coefficient is off by at most some positive tolerance. Within a tolerance the outputs of the filters with the true and the inexact coefficients differ by at most K times the coefficient error times the largest input sample, with one K for inputs of any length and content; in particular coefficients rounded to p bits (p large enough) give a stable filter whose outputs are off by at most K 2^-p times the input. For a FirFilter the difference is at most the sum of the absolute coefficient errors times the largest sample, with no condition. Without stability it can fail: for the accumulator a = [0, 1] every positive error, however small, moves the outputs by more than any bound.", "quantifier": "For all real coefficient lists a, b with a[0] = 0 and all poles inside the unit circle, all inexact lists of the same lengths, all rounding rules to nearest, and all input signals.", "why_tests_cant": "Tests compare a few designs at one precision over a finite signal; the claim is uniform in the input, its length and all perturbations of all coefficients at once.", "anchors": ["diamondback/filters/iir_filter.py:filter", "diamondback/filters/iir_filter.py:__init__", "diamondback/filters/fir_filter.py:filter"]}
{"id": "C163", "title": "Filtering forwards and then backwards with a FirFilter has no phase", "statement": "Reversing a signal, filtering it with a new FirFilter and reversing the result is the adjoint of filtering: sum of filter(x)[n] w[n] equals sum of x[n] backward(w)[n] for all signals of equal length. Filtering forwards and then backwards gives, for a signal which ends with at least len(b) - 1 zeros, the input weighted by the autocorrelation of the coefficients; with as many zeros at both ends the operation commutes with reversing time, so a symmetric signal stays symmetric about the same sample. Away from the ends a tone comes out multiplied by the squared magnitude of the frequency response, a real number, so that no frequency is delayed. Without the zeros the symmetry fails for a concrete signal.", "quantifier": "For all coefficient lists and signals over any commutative semiring (tones: all real coefficients, complex amplitudes and frequencies), all signal lengths.", "why_tests_cant": "Tests look at one filter and one signal; the adjoint identity and the absence of phase concern every pair of signals and every frequency at once.", "anchors": ["diamondback/filters/fir_filter.py:filter", "diamondback/filters/fir_filter.py:__init__"]}
{"id": "C164", "title": "Rank filters one after another, and the median between opening and closing", "statement": "For nonnegative signals and new RankFilter instances: two minimum filters (index 0) of orders p and q one after another equal one of order p + q, and likewise two maximum filters (index = order); k equal ones equal one of order k times as large. Opening (minimum then maximum) of order p followed by opening of order q, p <= q, equals the opening of order q alone, late by p samples. The median filter (index k, order 2 k) lies between the opening and the closing of order k at every sample, with no delay between the three.", "quantifier": "For all orders, all numbers of filters, all nonempty nonnegative signals over any linearly ordered group and every sorting function numpy.argsort may be.", "why_tests_cant": "A test fixes the orders and a signal; composition laws hold for all orders and the sandwich for all signals and all ways ties are sorted.", "anchors": ["diamondback/filters/rank_filter.py:filter", "diamondback/filters/rank_filter.py:__init__"]}
{"id": "C165", "title": "What regularize does to the predictions of GaussianModel", "statement": "A larger regularize makes the squared distance of every observation from every class smaller, but less than in proportion: regularize times the distance grows. A class whose mean is nearer in the Euclidean sense has the smaller squared distance as soon as regularize (E' - E) exceeds E times the spread of the other class divided by the number of columns, E and E' being the squared Euclidean distances from the two means. Hence for any training set and observations there is a regularize above which every row of predict is ordered by the Euclidean distances from the class means. With a small regularize this fails: in a concrete training set a widely spread class comes first although the mean of the other class is nearer.", "quantifier": "For all training sets with at least one row and column, all labels, all observations, all regularize > 0 and all sorting functions numpy.argsort may be.", "why_tests_cant": "Tests fit one data set with one value; the claim relates all values of the parameter to each other and holds for every data set.", "anchors": ["diamondback/models/gaussian_model.py:fit", "diamondback/models/gaussian_model.py:predict", "diamondback/models/gaussian_model.py:regularize"]}
{"id": "C166", "title": "State of a diversity model read and assigned through its property s", "statement": "DiversityModel.s gives out and takes the array itself. Once observations have given the state columns, fit keeps the array and writes into it only, so that t = model.s followed by any calls of fit and model.s = t changes nothing, and two models given one array replace each other's rows while their diversities stay apart. Assigning a copy of an earlier state restores the rows but not the diversity: an observation is then passed over unless it exceeds the diversity of the later state. Assigning a list, as the signature allows, makes fit and clear raise AttributeError. What works: clear() followed by s = zeros((order + 1, 0)) gives a model equal to a new one; model.fit(model.s) on a full state leaves the rows and makes the diversity the least distance of two rows (unless it was greater); and a new instance of any order with a copy of the rows of a model which has replaced a row, fitted once to that copy, is equal to that model.", "quantifier": "all heaps of arrays, all instances, all distances (zero from a row to itself where fit(s) is used), all sequences of calls with lists, other arrays or the state itself", "why_tests_cant": "aliasing and stale fields show only in sequences of reads, calls and assignments, of which there are unboundedly many", "anchors": ["diamondback/models/diversity_model.py:88-94", "diamondback/models/diversity_model.py:115-119", "diamondback/models/diversity_model.py:121-166"]}
{"id": "C167", "title": "Medians of medians reach a root", "statement": "For nonnegative samples which are equal from sample len on, any k and any p with 2 p >= len: after p RankFilters of order 2 k and index k, one after another and each new, a further one only delays the signal by k samples, and q further ones delay it by q k samples. The bound is sharp for five samples and k = 1. Without equal samples at the end there may be no root: of the signal 1, 0, 1, 0, ... each median of three is the same signal after its beginning, and never a delayed copy of the one before.", "quantifier": "all nonnegative signals over a linearly ordered group, all k, p, q, every argsort which sorts; for the alternating signal all lengths and numbers of passes", "why_tests_cant": "convergence of an iteration is a statement about all signals and all numbers of passes", "anchors": ["diamondback/filters/rank_filter.py:54-67", "diamondback/filters/rank_filter.py:69-91"]}
{"id": "C168", "title": "Repeating training samples moves the predictions of GaussianModel", "statement": "GaussianModel.fit divides the scatter of a class by the length of a sample and not by the number of samples. Hence (a) a training set given m times over with regularize r predicts what the set itself predicts with regularize r / m; (b) the more copies of its samples a class has, the smaller its squared distance from every observation; (c) if the samples of a class do not lie in one hyperplane then, once enough copies of them are added, every observation which is not exactly the mean of another class is predicted to be of that class, however near the other mean is.", "quantifier": "All training sets, labels, regularize > 0, numbers of copies m >= 1, observations and all classes whose samples do not lie in one hyperplane; exact arithmetic.", "why_tests_cant": "A test compares a few balanced training sets; that the predicted class is decided by how often samples are repeated is a limit over all numbers of copies and all observations.", "anchors": ["diamondback/models/gaussian_model.py:63-120"]}
{"id": "C169", "title": "The coefficient tables of the classes are copied, not shared", "statement": "DerivativeFilter.B, IntegralFilter.B and WaveletTransform.B are class attributes whose arrays are shared by the whole program. Whatever is done with instances (constructing, filtering, resetting, assigning arrays to b, a and s, overwriting the arrays which the properties give out, passing a table as signal or as coefficients), the tables remain as the classes define them, so a new instance is always as the first one was. Within a WaveletTransform the low pass of synthesis is a view on the low pass of analysis: overwriting one overwrites the other backwards, while the high passes are separate.", "quantifier": "All programs of constructor calls, filter, reset, setters and writes, in which only direct writes to a table (or to a filter whose state has been made a table) are excluded; all arrays, shared in any way.", "why_tests_cant": "Sharing of arrays shows only in long programs which mix instances; a test of one instance cannot see that another one has been changed.", "anchors": ["diamondback/filters/derivative_filter.py:103-135", "diamondback/filters/integral_filter.py:82-100", "diamondback/transforms/wavelet_transform.py:481-513", "diamondback/filters/fir_filter.py:103-122", "diamondback/filters/iir_filter.py:111-117"]}
{"id": "C170", "title": "Energy gain of a filter is the largest magnitude of its response", "statement": "A FirFilter or a stable IirFilter without a past, given any signal, puts out at most M^2 times the energy of the signal, where M bounds the magnitude of its frequency response between zero frequency and Nyquist (with complex coefficients: at all frequencies). No smaller factor will do: if the energy of no signal is multiplied by more than M^2, the response is at most M at every frequency. Hence a Butterworth design multiplies the energy of no signal by more than the square of its gain, whatever frequency, order, count and complement; a Chebyshev design of odd order likewise; one of even order exceeds that by up to 0.125 dB and no more, and comes as near to it as one likes.", "quantifier": "all coefficients with poles inside the unit circle, all signals of every length, all designs of the two styles", "why_tests_cant": "Tests filter a few signals; the supremum over all signals and the agreement with the supremum over all frequencies is not sampled.", "anchors": ["diamondback/filters/fir_filter.py:FirFilter.filter", "diamondback/filters/fir_filter.py:FirFilter.response", "diamondback/filters/iir_filter.py:IirFilter.filter", "diamondback/filters/iir_filter.py:IirFilter.response", "diamondback/filters/iir_filter.py:160-254"]}
{"id": "C171", "title": "Reported delay is the delay of slowly growing signals", "statement": "A stable IirFilter in any state, given a tone whose amplitude grows linearly, c + d n, puts out in the long run that tone times the response at its frequency with the amplitude c + d (n - tau); the real part of tau is the group delay at that frequency, which is what delay() reports. A ramp c + d n comes out as the gain at frequency zero times c + d (n - tau), with tau the group delay at frequency zero, and delay() over an even number of more than 12 frequencies holds count times that tau in its middle. FirFilter does the same exactly from sample len(b) - 1 on, with tau the mean index of the coefficients for ramps: half the order when they are symmetric. What the answer of a new stable IirFilter to a unit step falls short of the gain at frequency zero, added up over all samples, tends to that gain times tau.", "quantifier": "all coefficients with poles inside the unit circle, all states, all frequencies at which the response is not zero, all amplitudes and slopes, all lengths", "why_tests_cant": "Tests look at the shape of delay() for a few designs and do not compare it with what the filter does to a signal.", "anchors": ["diamondback/filters/iir_filter.py:IirFilter.filter", "diamondback/filters/iir_filter.py:IirFilter.delay", "diamondback/filters/fir_filter.py:FirFilter.filter", "diamondback/filters/fir_filter.py:FirFilter.delay"]}
{"id": "C172", "title": "Every IIR design delays, on average by half its order", "statement": "For every valid style, frequency, order, count, complement and gain, the IirFilter designed has a positive group delay at every frequency at which its response is not zero, namely half the order plus the sum over the poles q of the real part of q w / (1 - q w), w = exp(-j pi theta). So delay() reports no negative number there, and positive ones but perhaps in the six samples at either end. The mean of the group delay over all frequencies is exactly half the order, whatever the style, frequency, count and complement: a delay saved at one frequency is spent at another. A low pass design in any state follows a ramp c + d n as gain (c + d (n - tau)) in the long run with a positive tau.", "quantifier": "all styles, frequencies in (0, 1), orders, counts, complements and gains, all frequencies of evaluation, all even lengths, all states and ramps; all residue functions meeting the contract of scipy.signal.residue", "why_tests_cant": "Tests plot or print the delay of a few designs on a grid; positivity for all designs and the integral over all frequencies are not sampled.", "anchors": ["diamondback/filters/iir_filter.py:160-254", "diamondback/filters/iir_filter.py:IirFilter.delay", "diamondback/filters/iir_filter.py:IirFilter.filter"]}
{"id": "C173", "title": "A low pass and a high pass Butterworth filter divide a signal between them", "statement": "The low pass and the high pass ( complement ) Butterworth IirFilter of one frequency, one order of at most 66, count 1 and one gain: at every frequency from zero to Nyquist the powers of the two responses sum to no more than the square of the gain, and to no less than twice the smaller of their powers at the frequency of the design. So the two filters, given any signal, together give out no more energy than the square of the gain times that of the signal, although each alone may come close to it. White noise given to both comes out with powers which at every sample sum to no more than the square of the gain times the power of the noise, and after some samples to no less than the lower bound above times it. At half the Nyquist frequency and up to order 8 the sum is between 0.993 and 1 everywhere.", "quantifier": "all frequencies in (0, 1), all orders up to 66, all gains, all frequencies of evaluation, all signals; for two arbitrary stable IirFilters the bound of the energies by the largest sum of powers; all residue functions meeting the contract of scipy.signal.residue", "why_tests_cant": "Tests filter a few signals with one filter; how two designs, each found by its own search, add up over all frequencies and signals is not sampled.", "anchors": ["diamondback/filters/iir_filter.py:160-254", "diamondback/filters/iir_filter.py:IirFilter.filter"]}
{"id": "C174", "title": "The reported response determines the filter", "statement": "Two FirFilters for which response() of a length not less than either filter returns the same have the same coefficients, but for zeros at the end; a response one sample shorter than the filter does not tell a delay from none. Two new IirFilters for which response() returns the same, with at least as many samples as the two have coefficients together less one, return the same from filter() for every signal, stable or not, although their coefficients may differ. Conversely two stable IirFilters which answer an impulse in the same way report the same response of every length and count. All of this holds with complex coefficients also.", "quantifier": "all pairs of filters with real or complex coefficients, all lengths of the response as stated, all signals", "why_tests_cant": "Tests evaluate the response of single designs; that a response identifies a filter is a statement about all pairs of filters.", "anchors": ["diamondback/filters/fir_filter.py:FirFilter.response", "diamondback/filters/iir_filter.py:IirFilter.response", "diamondback/filters/iir_filter.py:IirFilter.filter"]}
{"id": "C175", "title": "The mean power of the reported response is the noise gain of a filter", "statement": "The mean of the squared magnitudes returned by FirFilter.response, of any length not less than that of the filter, is exactly the sum of the squared magnitudes of the coefficients, and the factor by which the power of white noise is multiplied once the filter is full. For a stable IirFilter it tends to a limit as the length grows; the power of white noise which has passed through the filter, in whatever state it was, never exceeds that of the noise times this limit and comes arbitrarily close to it.", "quantifier": "all FirFilters and all stable IirFilters with real or complex coefficients in any state, all lengths, all deterministic signals and all white noise in the sense of correlations", "why_tests_cant": "Tests compare the response of a few designs at single frequencies and do not relate it to random signals.", "anchors": ["diamondback/filters/fir_filter.py:FirFilter.response", "diamondback/filters/iir_filter.py:IirFilter.response", "diamondback/filters/fir_filter.py:FirFilter.filter", "diamondback/filters/iir_filter.py:IirFilter.filter"]}
{"id": "C176", "title": "A bank of Goertzel filters determines the signal", "statement": "As many GoertzelFilters as their common window has samples, at equidistant frequencies from -1 on: for every block of the signal, however the signal is divided between calls, the tones with the amplitudes and phases which the filters put out sum to the windowed block ( to twice the windowed block for real samples, for which the amplitudes are doubled ), the phases being those at the last sample of the block. The powers put out sum to the mean power of the windowed block ( four times as much for real samples ). For a real signal and a real window of even length 2 h the h + 1 filters from zero to Nyquist suffice: the real parts of their tones sum to the windowed block, the first and the last one counted half.", "quantifier": "all windows accepted by the constructor, of even and odd length, all complex or real signals, all divisions of the signal into calls, all blocks and all samples", "why_tests_cant": "Tests look at the magnitude of one filter for one tone; that nothing of an arbitrary signal is lost or counted twice between the filters of a bank is a statement about all filters and all signals together.", "anchors": ["diamondback/filters/goertzel_filter.py:GoertzelFilter.__init__", "diamondback/filters/goertzel_filter.py:GoertzelFilter.filter"]}
{"id": "C177", "title": "The power spectral density of a periodic signal, also when filtered", "statement": "With a rectangular window as long as the period, PsdTransform of a signal of any number of periods equals PsdTransform of one period, whatever the index (the distance of the frames) and wherever the frames start, and so does every row of the spectrogram. The output of FirFilter for such a signal, without its first len(b) - 1 samples and whatever the initial state, has that density times the squared magnitude of the response which the filter reports for as many frequencies: entry k of the density belongs to entry k + (N + 1)//2 of the response, for even and odd periods N. For a stable IirFilter in any state the density of the last period of the output tends to that product as the number of periods grows.", "quantifier": "all periods, all numbers of periods, all index > 0, all complex coefficients and states of the filter; for IirFilter every stable filter, periods of at least two samples and every tolerance", "why_tests_cant": "Tests transform one signal with one index; that the distance of the frames does not matter and that filtering multiplies by the power of the response holds for all lengths, distances and coefficients.", "anchors": ["diamondback/transforms/psd_transform.py:68-107", "diamondback/filters/fir_filter.py:242-302"]}
{"id": "C178", "title": "The largest amplification of bounded signals by an IirFilter", "statement": "A stable IirFilter without a past whose answers to an impulse have magnitudes that sum to G: for every signal bounded by M every output is bounded by G M, no smaller factor than G will do, and the magnitude of the frequency response is nowhere larger than G, with real and with complex coefficients. For a new FirFilter with real or complex coefficients the factor is the sum of their magnitudes, and some signal of magnitude at most one attains it; with real coefficients it equals the magnitude of the gain of constant signals exactly if no two coefficients have different signs. For a Butterworth or Chebyshev design of order two or more, low pass or high pass, G exceeds the magnitude of the gain: some signal with samples between -1 and 1 has an output whose magnitude is larger than the gain, although with Butterworth no signal gains energy beyond the square of the gain ( C170 ).", "quantifier": "all stable real or complex coefficients, all signals; all real or complex FirFilter coefficients; all Butterworth and Chebyshev designs with frequency in (0, 1), order at least 2, count at least 1, with or without complement, gain not zero; all residue functions meeting the contract of scipy.signal.residue", "why_tests_cant": "The worst signal depends on the whole impulse response and is not among the signals a test would choose; that every maximally flat design overshoots on some signal is a statement about all designs.", "anchors": ["diamondback/filters/iir_filter.py:IirFilter.filter", "diamondback/filters/iir_filter.py:160-254"]}
