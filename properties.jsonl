{"id": "C01", "title": "tau_generator only emits usable averaging factors", "statement": "Every call of tau_generator that returns gives a strictly increasing list of integer averaging factors m with 1 <= m < len(data) (and m <= maximum_m when one is given, and m even when even=True), and the returned tau list is exactly m/rate, in the same order.", "quantifier": "all data lengths, all non-zero rates, all tau arguments (keyword, list, array, None), all maximum_m, both values of even", "why_tests_cant": "The set of tau requests is unbounded (any real list, unsorted, with duplicates, negative or too large values); tests only sample a few lists.", "anchors": ["allantools/allantools.py:tau_generator"]}
{"id": "C02", "title": "tau_generator honours exactly the requested taus", "statement": "For an explicit tau list, m is returned if and only if some requested tau rounds (half to even) to m = round(tau*rate) and m is in the admissible range; order and duplicates in the request do not matter.", "quantifier": "all real tau lists, all rates, all data lengths", "why_tests_cant": "Completeness quantifies over all requested values; tests check a handful of tau lists.", "anchors": ["allantools/allantools.py:tau_generator"]}
{"id": "C03", "title": "tau keywords mean the documented averaging factors", "statement": "taus='all' yields exactly 1..N-1; taus='octave' (and None and []) exactly the powers of two below N; taus='decade' exactly the numbers 1,2,4 times powers of ten below N; taus='log10' the rounded values of N^(i/(K-1)), K=int(10*log10 N), below N. The rate does not influence the averaging factors.", "quantifier": "all data lengths N, all non-zero rates", "why_tests_cant": "Tests fix N=128 and rate 1; the claim is for every N including powers of two and ten and the degenerate lengths 0 and 1.", "anchors": ["allantools/allantools.py:tau_generator"]}
{"id": "C04", "title": "result arrays are aligned and only contain points with n > 1", "statement": "Every deviation function that returns gives four arrays (two error arrays for gradev) of the same length, entry i of each belongs to the same averaging factor, no entry has n <= 1, no admissible averaging factor with n > 1 is missing, taus are strictly increasing for positive rate, and the call raises UserWarning exactly when no such factor exists.", "quantifier": "all datasets, rates, tau arguments and all deviation functions", "why_tests_cant": "Needs all dataset lengths and tau lists simultaneously, including those where every point is dropped.", "anchors": ["allantools/allantools.py:remove_small_ns", "allantools/allantools.py:adev", "allantools/allantools.py:oadev", "allantools/allantools.py:mdev", "allantools/allantools.py:hdev", "allantools/allantools.py:ohdev", "allantools/allantools.py:totdev", "allantools/allantools.py:theo1", "allantools/allantools.py:mtie", "allantools/allantools.py:tierms", "allantools/allantools.py:pdev"]}
{"id": "C05", "title": "a zero rate and an unknown data_type are always rejected", "statement": "With rate == 0 no deviation function returns a result; with an unknown data_type every deviation function raises; with an unrecognised tau keyword every deviation function raises.", "quantifier": "all datasets, tau arguments and deviation functions", "why_tests_cant": "A rejection claim is about all inputs of the bad class.", "anchors": ["allantools/allantools.py:tau_generator", "allantools/allantools.py:input_to_phase", "allantools/allantools.py:frequency2phase", "allantools/allantools.py:htotdev"]}
{"id": "C06", "title": "adev is the non-overlapping Allan deviation", "statement": "For every kept averaging factor m, adev returns sqrt( 1/(2 n tau^2) * sum_k (x[(k+2)m]-2x[(k+1)m]+x[km])^2 ) over all k with (k+2)m < N, n the number of terms, tau=m/rate, and the error dev/sqrt(n).", "quantifier": "all finite phase series, all positive rates, all m", "why_tests_cant": "The formula must hold for every length and stride; tests compare a few reference datasets to a few digits.", "anchors": ["allantools/allantools.py:adev", "allantools/allantools.py:calc_adev_phase"]}
{"id": "C07", "title": "oadev is the overlapping Allan deviation", "statement": "For every kept m, oadev returns sqrt( 1/(2 (N-2m) tau^2) * sum_{i<N-2m} (x[i+2m]-2x[i+m]+x[i])^2 ), n=N-2m and the error dev/sqrt(n).", "quantifier": "all finite phase series, positive rates, all m", "why_tests_cant": "Same as C06: an all-lengths, all-m identity.", "anchors": ["allantools/allantools.py:oadev", "allantools/allantools.py:calc_adev_phase"]}
{"id": "C08", "title": "mdev's loop-unrolled recursion equals the modified Allan double sum", "statement": "For every kept m, mdev returns sqrt( 1/(2 m^2 tau^2 n) * sum_{j<n} ( sum_{i=j}^{j+m-1} x[i+2m]-2x[i+m]+x[i] )^2 ), n=N-3m+1, although it is computed by a cumulative-sum recursion; n=1 results are dropped.", "quantifier": "all finite phase series, positive rates, all m", "why_tests_cant": "The recursion is an unbounded loop whose correctness is an induction over the series length.", "anchors": ["allantools/allantools.py:mdev"]}
{"id": "C09", "title": "hdev and ohdev are the Hadamard deviations", "statement": "For every kept m, hdev/ohdev return sqrt( 1/(6 n tau^2) * sum (x[i+3m]-3x[i+2m]+3x[i+m]-x[i])^2 ) over i = 0,m,2m,.. (hdev) or every i (ohdev) with i+3m<N, with n the number of terms and error dev/sqrt(n).", "quantifier": "all finite phase series, positive rates, all m", "why_tests_cant": "All-lengths, all-m identity.", "anchors": ["allantools/allantools.py:hdev", "allantools/allantools.py:ohdev", "allantools/allantools.py:calc_hdev_phase"]}
{"id": "C10", "title": "totdev is the total deviation on the doubly reflected series", "statement": "For every kept m, totdev returns sqrt( 1/(2 tau^2 (N-2)) * sum_{i=1}^{N-2} (X(i-m)-2X(i)+X(i+m))^2 ) where X is the phase extended by odd reflection about both end points; no index outside the extended series is read and the internal length assertion never fires; series shorter than 2 points are rejected.", "quantifier": "all finite phase series, positive rates, all m < N", "why_tests_cant": "Index safety and the reflection identity for all N and m.", "anchors": ["allantools/allantools.py:totdev"]}
{"id": "C11", "title": "mtotdev's running sums equal the direct modified total variance, and ttotdev rescales it", "statement": "For every kept m, mtotdev equals the square root of the mean over all 3m-point windows of (1/(2 tau^2)) * mean over 6m offsets of (second difference of m-point averages of the detrended, evenly reflected window)^2; no assertion fires for the factors mtotdev uses; ttotdev = tau*mtotdev/sqrt(3).", "quantifier": "all finite phase series, positive rates, all m with 3m <= N", "why_tests_cant": "The incremental running sums and window loops need an induction over window size; tests check rounded literature values.", "anchors": ["allantools/allantools.py:mtotdev", "allantools/allantools.py:calc_mtotdev_phase", "allantools/allantools.py:ttotdev"]}
{"id": "C12", "title": "htotdev is the Hadamard total deviation on frequency data", "statement": "For m=1 htotdev returns the overlapping Hadamard deviation of the phase; for m>1 it returns sqrt of the mean over all 3m-point frequency windows of (1/6) * mean over 6m offsets of (second difference of m-point averages of the detrended, evenly reflected window)^2.", "quantifier": "all finite series, positive rates, all m with 3m <= number of frequency points", "why_tests_cant": "Same as C11.", "anchors": ["allantools/allantools.py:htotdev", "allantools/allantools.py:calc_htotdev_freq"]}
{"id": "C13", "title": "theo1 evaluates the Theo1 double sum over even averaging factors only", "statement": "For every kept m (always even), theo1 returns sqrt( 1/(0.75 (N-m) tau^2) * sum_{i<N-m} sum_{d<m/2} 1/(m/2-d) * ((x[i]-x[i-d+m/2])+(x[i+m]-x[i+d+m/2]))^2 ), n=(N-m)m/2; no index is out of range and no assertion fires.", "quantifier": "all finite phase series, positive rates, all tau requests", "why_tests_cant": "Index safety and exact double sum for all N, m.", "anchors": ["allantools/allantools.py:theo1"]}
{"id": "C14", "title": "tierms is the RMS time interval error", "statement": "For every kept m, tierms returns sqrt( mean_i (x[i+m]-x[i])^2 ) with n=N-m.", "quantifier": "all finite phase series, all m", "why_tests_cant": "All-lengths identity.", "anchors": ["allantools/allantools.py:tierms"]}
{"id": "C15", "title": "mtie is the maximum peak-to-peak excursion in any window of m+1 points", "statement": "For every kept m, mtie returns exactly the largest |x[i]-x[j]| over all pairs with |i-j| <= m; it is non-decreasing in tau and never below tierms at the same tau.", "quantifier": "all finite phase series, all m", "why_tests_cant": "A maximum over all windows; monotonicity compares different m for every dataset.", "anchors": ["allantools/allantools.py:mtie", "allantools/allantools.py:mtie_rolling_window"]}
{"id": "C16", "title": "mtie's low-memory path agrees with its normal path", "statement": "When the rolling-window array cannot be built, mtie falls back to a sliding max/min loop that must give the same value as the normal path.", "quantifier": "all finite phase series, all m", "why_tests_cant": "The fallback is only reached on memory failure, so no test executes it; equality must hold for all series.", "anchors": ["allantools/allantools.py:mtie"]}
{"id": "C17", "title": "mtie_phase_fast computes windowed peak-to-peak values by binary decomposition", "statement": "For a series truncated to 2^K points mtie_phase_fast reports, for each k, the maximum peak-to-peak excursion over all windows of 2^(k+1) points, and its values agree with mtie at the same tau.", "quantifier": "all phase series of length at least 2", "why_tests_cant": "Correctness of the doubling recursion for all k; tests do not exercise it against mtie.", "anchors": ["allantools/allantools.py:mtie_phase_fast"]}
{"id": "C18", "title": "pdev is the parabolic deviation", "statement": "pdev equals oadev at m=1 and for m>1 returns sqrt( 72/(M m^4 tau^2) * sum_{i<M} ( sum_{k<m} ((m-1)/2-k)(x[i+k]-x[i+k+m]) )^2 ), M=N-2m, n=M.", "quantifier": "all finite phase series, positive rates, all m", "why_tests_cant": "All-lengths identity.", "anchors": ["allantools/allantools.py:pdev", "allantools/allantools.py:calc_pdev_phase"]}
{"id": "C19", "title": "gcodev is a symmetric covariance that reduces to oadev", "statement": "gcodev(x,x)=oadev(x); gcodev(x,y)=gcodev(y,x) for equal lengths; its square is |sum v_x v_y|/(2 n tau^2) with v the overlapping second differences; gcodev(x,y)^2 <= oadev(x)*oadev(y).", "quantifier": "all pairs of equal-length phase series, positive rates, all m", "why_tests_cant": "Quantifies over all pairs of series.", "anchors": ["allantools/allantools.py:gcodev", "allantools/allantools.py:calc_gcodev_phase"]}
{"id": "C20", "title": "gradev ignores gaps and nothing else", "statement": "With NaN gaps in the phase, gradev at m averages exactly the squared second differences whose three samples are all present, n is their number; without gaps gradev equals oadev.", "quantifier": "all phase series with any pattern of NaN gaps, all m", "why_tests_cant": "2^N gap patterns per dataset.", "anchors": ["allantools/allantools.py:gradev", "allantools/allantools.py:calc_gradev_phase"]}
{"id": "C21", "title": "gradev error bars are the requested confidence interval", "statement": "The two error arrays of gradev are the chi-square confidence bounds of the deviation for the requested confidence level and the equivalent degrees of freedom of the requested noise type (wp, wf, fp, ff, rf).", "quantifier": "all datasets, confidence levels and noise types", "why_tests_cant": "A data-flow claim for every edf value; existing tests never look at the error bars.", "anchors": ["allantools/allantools.py:calc_gradev_phase", "allantools/ci.py:confidence_interval", "allantools/ci.py:edf_simple"]}
{"id": "C22", "title": "tdev is mdev rescaled to time", "statement": "tdev returns the same taus and n as mdev and tdev = tau*mdev/sqrt(3), error tdev/sqrt(n); it fails exactly when mdev fails.", "quantifier": "all datasets, rates, taus, both data types", "why_tests_cant": "Relational property of two functions over all inputs.", "anchors": ["allantools/allantools.py:tdev", "allantools/allantools.py:mdev"]}
{"id": "C23", "title": "a constant phase offset or constant frequency offset never changes a frequency-stability statistic", "statement": "Adding a + b*i to the phase (constant time offset plus constant frequency offset) leaves adev, oadev, mdev, tdev, hdev, ohdev, pdev, totdev, mtotdev, ttotdev, htotdev, theo1 unchanged, in all four returned arrays.", "quantifier": "all finite phase series, all offsets a and b, all rates and tau arguments", "why_tests_cant": "Metamorphic relation over all data and offsets.", "anchors": ["allantools/allantools.py:adev", "allantools/allantools.py:oadev", "allantools/allantools.py:mdev", "allantools/allantools.py:hdev", "allantools/allantools.py:ohdev", "allantools/allantools.py:pdev", "allantools/allantools.py:totdev", "allantools/allantools.py:mtotdev", "allantools/allantools.py:htotdev", "allantools/allantools.py:theo1", "allantools/allantools.py:tdev", "allantools/allantools.py:ttotdev"]}
{"id": "C24", "title": "Hadamard statistics ignore linear frequency drift; Allan statistics respond to it exactly", "statement": "Adding c*i^2 to the phase leaves hdev, ohdev and htotdev unchanged; for pure drift x[i]=c*i^2, adev, oadev and mdev return exactly sqrt(2)*|c|*m*rate.", "quantifier": "all finite phase series, all drifts, rates, taus", "why_tests_cant": "Metamorphic relation over all data and drift rates.", "anchors": ["allantools/allantools.py:hdev", "allantools/allantools.py:ohdev", "allantools/allantools.py:htotdev", "allantools/allantools.py:adev", "allantools/allantools.py:oadev", "allantools/allantools.py:mdev"]}
{"id": "C25", "title": "deviations are absolutely homogeneous in the data", "statement": "Multiplying the phase by c multiplies every deviation and every error by |c| and leaves taus and n unchanged (adev, oadev, mdev, tdev, hdev, ohdev, pdev, totdev, mtotdev, ttotdev, htotdev, theo1, tierms, mtie).", "quantifier": "all finite phase series, all real c, rates, taus", "why_tests_cant": "Metamorphic relation over all data.", "anchors": ["allantools/allantools.py:adev", "allantools/allantools.py:oadev", "allantools/allantools.py:mdev", "allantools/allantools.py:tdev", "allantools/allantools.py:hdev", "allantools/allantools.py:ohdev", "allantools/allantools.py:pdev", "allantools/allantools.py:totdev", "allantools/allantools.py:mtotdev", "allantools/allantools.py:htotdev", "allantools/allantools.py:theo1", "allantools/allantools.py:tierms", "allantools/allantools.py:mtie"]}
{"id": "C26", "title": "time reversal does not change overlapping statistics", "statement": "Reversing the phase series leaves oadev, mdev, tdev, ohdev, pdev, totdev, tierms and mtie unchanged.", "quantifier": "all finite phase series, rates, taus", "why_tests_cant": "Metamorphic relation over all data.", "anchors": ["allantools/allantools.py:oadev", "allantools/allantools.py:mdev", "allantools/allantools.py:ohdev", "allantools/allantools.py:pdev", "allantools/allantools.py:totdev", "allantools/allantools.py:tierms", "allantools/allantools.py:mtie"]}
{"id": "C27", "title": "the sampling rate only rescales", "statement": "For the same phase samples and the same averaging factors, frequency-stability deviations at rate r are r times those at rate 1 and taus are 1/r times; tdev, tierms and mtie do not depend on the rate.", "quantifier": "all finite phase series, all positive rates, all keyword tau arguments", "why_tests_cant": "Relation between two runs for all data and rates.", "anchors": ["allantools/allantools.py:oadev", "allantools/allantools.py:adev", "allantools/allantools.py:mdev", "allantools/allantools.py:hdev", "allantools/allantools.py:ohdev", "allantools/allantools.py:tdev", "allantools/allantools.py:tierms", "allantools/allantools.py:mtie"]}
{"id": "C28", "title": "at tau0 the two-sample statistics coincide", "statement": "At m=1 oadev, adev, mdev, pdev and totdev return the same deviation, and htotdev and hdev equal ohdev.", "quantifier": "all finite phase series, positive rates", "why_tests_cant": "Equality of five algorithms on all data.", "anchors": ["allantools/allantools.py:adev", "allantools/allantools.py:oadev", "allantools/allantools.py:mdev", "allantools/allantools.py:pdev", "allantools/allantools.py:totdev", "allantools/allantools.py:ohdev", "allantools/allantools.py:htotdev"]}
{"id": "C29", "title": "frequency input means mean-removed integration", "statement": "For data_type='freq' every deviation function returns what it returns for data_type='phase' on frequency2phase(data, rate); consequently a constant added to all frequency samples never changes any result, including mtie and tierms.", "quantifier": "all frequency series without interior NaN, offsets, rates, taus", "why_tests_cant": "Relation over all data.", "anchors": ["allantools/allantools.py:input_to_phase", "allantools/allantools.py:frequency2phase"]}
{"id": "C30", "title": "frequency2phase and phase2frequency invert each other up to the mean", "statement": "frequency2phase returns len+1 points starting at 0 and (for gap-free data) ending at 0; phase2frequency(frequency2phase(y)) = y - mean(y); frequency2phase(phase2frequency(x)) = x minus its end-point line; NaNs at both ends are dropped first; interior NaNs make every later phase sample NaN.", "quantifier": "all frequency and phase series, all non-zero rates", "why_tests_cant": "Round trip for every series.", "anchors": ["allantools/allantools.py:frequency2phase", "allantools/allantools.py:phase2frequency"]}
{"id": "C31", "title": "trim_data removes exactly the NaN margins", "statement": "trim_data returns the unique contiguous slice that starts and ends with a number and whose complement is only leading and trailing NaNs, keeps interior NaNs, is idempotent, and raises IndexError when the input has no number.", "quantifier": "all arrays with any NaN pattern", "why_tests_cant": "All NaN patterns.", "anchors": ["allantools/allantools.py:trim_data"]}
{"id": "C32", "title": "unit conversions are exact and linear", "statement": "phase2radians multiplies every sample by 2*pi*v0; frequency2fractional with an explicit mean mu != 0 returns (f-mu)/mu, by default uses the arithmetic mean so that the result has zero mean.", "quantifier": "all series", "why_tests_cant": "All inputs.", "anchors": ["allantools/allantools.py:phase2radians", "allantools/allantools.py:frequency2fractional"]}
{"id": "C33", "title": "three-cornered hat returns the individual clock variance", "statement": "With phases ab=a-b, bc=b-c, ca=c-a and oadev as the statistic, three_cornered_hat_phase returns at each tau the square root of max(0, var_a - cov_ab - cov_ca + cov_bc) where var and cov are Allan (co)variances; hence exactly oadev(a) when the three clocks are pairwise Allan-uncorrelated; it never returns an imaginary or negative deviation.", "quantifier": "all triples of equal-length clock phases, rates, taus", "why_tests_cant": "Algebraic identity over all triples of series.", "anchors": ["allantools/allantools.py:three_cornered_hat_phase"]}
{"id": "C34", "title": "streaming OADEV equals batch OADEV after every sample", "statement": "With fixed averaging factors, after any sequence of add_phase calls oadev_realtime.devs()[i] equals the batch oadev deviation of all samples seen so far at af_i, and is 0 while fewer than 2*af+1 samples were seen.", "quantifier": "all sample streams, all averaging-factor lists, all tau0 > 0, at every point of the stream", "why_tests_cant": "A history property: must hold after every prefix of every stream.", "anchors": ["allantools/realtime.py:oadev_realtime", "allantools/allantools.py:oadev"]}
{"id": "C35", "title": "streaming OHDEV equals batch OHDEV after every sample", "statement": "With fixed averaging factors, after any sequence of add_phase calls ohdev_realtime.devs()[i] equals the batch ohdev of all samples so far, and 0 while fewer than 3*af+1 samples were seen.", "quantifier": "all sample streams, afs, tau0 > 0", "why_tests_cant": "History property.", "anchors": ["allantools/realtime.py:ohdev_realtime", "allantools/allantools.py:ohdev"]}
{"id": "C36", "title": "streaming TDEV/MDEV equal batch TDEV/MDEV after every sample", "statement": "With fixed averaging factors, after any sequence of add_phase calls tdev_realtime.devs()[i] equals the batch tdev formula (and mdev() the batch mdev) of all samples so far, and 0 while fewer than 3*af samples were seen; the internal assertion never fires.", "quantifier": "all sample streams, afs, tau0 > 0", "why_tests_cant": "History property with two accumulation phases.", "anchors": ["allantools/realtime.py:tdev_realtime", "allantools/allantools.py:tdev", "allantools/allantools.py:mdev"]}
{"id": "C37", "title": "feeding frequency equals feeding the integrated phase", "statement": "After feeding f_1..f_n with add_frequency the statistics are those of feeding phases 0, f_1, f_1+f_2, ...; they agree with the batch statistic of the same frequency data at rate 1/tau0.", "quantifier": "all frequency streams, all tau0, all three real-time classes", "why_tests_cant": "History property; tests use tau0=1 only.", "anchors": ["allantools/realtime.py:add_frequency"]}
{"id": "C38", "title": "auto-AF streaming gives the batch statistic for every automatically added averaging factor", "statement": "In auto_afs mode the list of averaging factors, the deviations and the accumulators stay aligned, averaging factors are only ever appended, and every reported deviation equals the batch value for the samples so far.", "quantifier": "all sample streams", "why_tests_cant": "History property; the tests only print the results.", "anchors": ["allantools/realtime.py:update_af", "allantools/realtime.py:add_af"]}
{"id": "C39", "title": "Dataset results always belong to the last successful compute", "statement": "After any sequence of set_input and compute calls, out holds the four result arrays and stat_id of the last successful compute evaluated on the inputs in force at that call; set_input and failed computes never change out; compute returns the same four arrays it stores.", "quantifier": "all call sequences", "why_tests_cant": "History property.", "anchors": ["allantools/dataset.py:Dataset"]}
{"id": "C40", "title": "Dataset.compute only runs deviation functions", "statement": "compute(name) raises AttributeError for names not defined in allantools and RuntimeError for names that neither end in 'dev' nor are theo1, mtie, tierms; only then does it evaluate anything.", "quantifier": "all strings", "why_tests_cant": "Infinite set of names.", "anchors": ["allantools/dataset.py:compute"]}
{"id": "C41", "title": "write_results writes one faithful line per result and never loses an existing file", "statement": "write_results writes a header and one line per tau with the averaging factor, tau, n and the deviation; when it cannot complete (e.g. nothing was computed) an existing file keeps its content.", "quantifier": "all dataset states, all file-system states", "why_tests_cant": "Crash-point property over all states.", "anchors": ["allantools/dataset.py:write_results"]}
{"id": "C42", "title": "confidence_interval is ordered, scales with the deviation and nests with the confidence level", "statement": "For edf>0, dev>=0 and a confidence level ci in (0,1): lower <= upper; multiplying dev by c>=0 multiplies both bounds by c; a larger confidence level gives a containing interval; the bounds are sqrt(edf*dev^2/chi2 quantile) at (1-ci)/2 and (1+ci)/2.", "quantifier": "all dev, edf, ci", "why_tests_cant": "Real-valued quantifier over three parameters.", "anchors": ["allantools/ci.py:confidence_interval"]}
{"id": "C43", "title": "edf_greenhall never uses placeholder table entries and rejects only documented combinations", "statement": "For integer alpha in -4..2, d in 1..3 with alpha+2d>1, m>=1 and enough data, edf_greenhall returns a value from one of Greenhall's formulas; the (-1,-1) placeholder table rows are never used; combinations with alpha+2d<=1 raise AssertionError.", "quantifier": "all alpha, d, m, N, overlapping, modified", "why_tests_cant": "Unbounded m, N with a branching decision procedure.", "anchors": ["allantools/ci.py:edf_greenhall", "allantools/ci.py:greenhall_table1", "allantools/ci.py:greenhall_table2", "allantools/ci.py:greenhall_table3"]}
{"id": "C44", "title": "Greenhall kernel functions are even central differences", "statement": "greenhall_sz(t,F,alpha,d) is the 2d-th order central difference with binomial weights of greenhall_sx, and all kernels sw, sx, sz are even in t.", "quantifier": "all t, F, alpha in -4..2, d in 1..3", "why_tests_cant": "Real-valued quantifier.", "anchors": ["allantools/ci.py:greenhall_sz", "allantools/ci.py:greenhall_sx", "allantools/ci.py:greenhall_sw"]}
{"id": "C45", "title": "simple edf formulas are positive and defined for usable data", "statement": "edf_simple, edf_totdev and edf_mtotdev return the documented NIST SP1065 formulas and are positive for every dataset length and averaging factor for which at least one estimate exists; unknown alpha gives N-1 (edf_simple) or AssertionError (edf_mtotdev).", "quantifier": "all N, m, alpha", "why_tests_cant": "Unbounded N, m.", "anchors": ["allantools/ci.py:edf_simple", "allantools/ci.py:edf_totdev", "allantools/ci.py:edf_mtotdev"]}
{"id": "C46", "title": "lag-1 autocorrelation stays strictly inside (-1,1)", "statement": "For every non-constant series lag1_acf lies strictly between -1 and 1, hence rho=r1/(1+r1) is well defined and below 1/2; it is unchanged by offset and non-zero scaling.", "quantifier": "all series", "why_tests_cant": "Inequality over all series.", "anchors": ["allantools/ci.py:lag1_acf"]}
{"id": "C47", "title": "autocorr_noise_id terminates and returns a noise type the edf functions accept", "statement": "The noise identification loop terminates after at most max(dmin,dmax) differentiations, returns d with dmin<=d<=max(dmin,dmax), alpha = alpha_int up to rounding, and alpha_int lies in the range -4..2 of known noise types; series with fewer than 30 decimated points raise NotImplementedError.", "quantifier": "all series, averaging factors, data types, dmin, dmax", "why_tests_cant": "Termination and range for all inputs.", "anchors": ["allantools/ci.py:autocorr_noise_id"]}
{"id": "C48", "title": "B1 and R(n) theory functions are consistent", "statement": "b1_theory's special cases mu in {2,1,-1,-2} equal its general formula and mu=0 is the formula's limit; b_to_mu covers exactly b in -6..0; rn_theory is 1/af for b=0 and 1 for b<=-2; b1_boundary lies between its two neighbouring theory values.", "quantifier": "all N, mu, af", "why_tests_cant": "Unbounded N; limit statement.", "anchors": ["allantools/ci.py:b1_theory", "allantools/ci.py:b_to_mu", "allantools/ci.py:b1_boundary", "allantools/ci.py:rn_theory", "allantools/ci.py:rn_boundary"]}
{"id": "C49", "title": "ITU masks are positive, bounded and non-decreasing in tau", "statement": "Each of the eight masks is positive, equals its piecewise definition, respects its end values and is non-decreasing in the observation interval.", "quantifier": "all tau > 0", "why_tests_cant": "Real-valued quantifier.", "anchors": ["allantools/mask.py:prc_tdev", "allantools/mask.py:prc_mtie", "allantools/mask.py:eprtc_tdev", "allantools/mask.py:eprtc_mtie", "allantools/mask.py:prtcA_tdev", "allantools/mask.py:prtcB_tdev", "allantools/mask.py:prtcA_mtie", "allantools/mask.py:prtcB_mtie"]}
{"id": "C50", "title": "Kasdin noise is the causal power-law filter of the white samples", "statement": "The FFT-based generateNoise output is exactly the linear convolution of the nr white samples with h_k = prod_{i<k} (i-b/2)/(i+1), without wrap-around, and has length nr; b=0 returns the white samples, b=-2 their running sum, b=-4 their double running sum.", "quantifier": "all white-noise draws, all nr >= 1, all b", "why_tests_cant": "All random draws; needs the convolution theorem.", "anchors": ["allantools/noise_kasdin.py:generateNoise"]}
{"id": "C51", "title": "Kasdin PSD and deviation predictions are mutually consistent", "statement": "frequency_psd_from_qd = (2 pi)^2 * phase_psd_from_qd for all b; predicted adev/mdev scale as tau^(c/2) and as sqrt(qd); phase and frequency exponents obey a=b+2.", "quantifier": "all qd>0, tau0>0, tau>0, b", "why_tests_cant": "Real-valued quantifier.", "anchors": ["allantools/noise_kasdin.py:phase_psd_from_qd", "allantools/noise_kasdin.py:frequency_psd_from_qd", "allantools/noise_kasdin.py:adev", "allantools/noise_kasdin.py:mdev", "allantools/noise_kasdin.py:c_avar", "allantools/noise_kasdin.py:c_mvar"]}
{"id": "C52", "title": "the pink-noise generator never fails and always sums its current values", "statement": "For every depth >= 1 and every random source, iterpink yields forever without an index error, and every sample is the sum of the current `depth` values plus one smoothing value; pink(n) returns n samples.", "quantifier": "all depths, all random sources, all numbers of samples", "why_tests_cant": "Infinite generator state space.", "anchors": ["allantools/noise.py:iterpink", "allantools/noise.py:pink"]}
{"id": "C53", "title": "brown and violet noise are the integral and derivative of white noise with matching PSD scaling", "statement": "white/brown/violet return num_points samples; differencing brown gives back white; violet is the first difference of white noise; amplitudes scale with the square root of the PSD coefficient.", "quantifier": "all lengths, coefficients, rates and random draws", "why_tests_cant": "All random draws.", "anchors": ["allantools/noise.py:white", "allantools/noise.py:brown", "allantools/noise.py:violet"]}
{"id": "C54", "title": "Timmer-Koenig synthesis accepts every n >= 4 and uses the PSD segment each frequency falls in", "statement": "timmer_koenig_from_psd returns n=int(duration/timestep) samples for every n>=4, and the PSD at each grid frequency is that of the segment containing it.", "quantifier": "all durations, timesteps, node lists", "why_tests_cant": "Unbounded sizes.", "anchors": ["allantools/noise.py:timmer_koenig_from_psd"]}
{"id": "C55", "title": "deviation-to-PSD reconstruction is continuous and inverts", "statement": "adev2psd_piecewise_approx rejects invalid input, the reconstructed piecewise PSD is continuous at the returned nodes, and psd_piecewise_to_adev of a single-slope reconstruction returns the original deviations.", "quantifier": "all valid (adev, taus) inputs", "why_tests_cant": "Real-valued quantifier.", "anchors": ["allantools/allantools.py:adev2psd_piecewise_approx", "allantools/allantools.py:psd_piecewise_to_adev"]}
{"id": "C56", "title": "psd_piecewise_to_adev integrates the PSD segment by segment", "statement": "The result is non-negative, scales with sqrt of the PSD coefficients, and does not change when a segment is split at an additional node with the same coefficient and exponent.", "quantifier": "all segment lists and taus", "why_tests_cant": "Real-valued quantifier.", "anchors": ["allantools/allantools.py:psd_piecewise_to_adev"]}
{"id": "C57", "title": "noise-ID ratios are evaluated at the requested averaging factor", "statement": "rn(x,af,rate) and b1(x,af,rate) use the Allan and modified Allan variance at averaging factor af for every rate.", "quantifier": "all series, af, rates", "why_tests_cant": "Quantifies over rates; tests use rate=1.", "anchors": ["allantools/ci.py:rn", "allantools/ci.py:b1"]}
{"id": "C58", "title": "confidence_interval_noiseID dispatches on the deviation type", "statement": "It returns confidence_interval(dev, edf, ci) with edf_greenhall evaluated for the identified noise type and the d/overlapping/modified flags of the named deviation (adev, oadev, mdev, tdev, hdev, ohdev), and raises NotImplementedError for any other name.", "quantifier": "all strings, all data", "why_tests_cant": "Infinite set of names and data.", "anchors": ["allantools/ci.py:confidence_interval_noiseID"]}
{"id": "C59", "title": "tau_reduction keeps a sub-list with at most n_per_decade factors per decade", "statement": "For a contiguous list 1..M, tau_reduction returns a strictly increasing sub-list that never contains the last element, with at most n_per_decade values in every decade [10^k,10^(k+1)), and taus = m/rate.", "quantifier": "all M, n_per_decade >= 1, rates", "why_tests_cant": "Unbounded M.", "anchors": ["allantools/allantools.py:tau_reduction"]}
{"id": "C60", "title": "deviations are non-negative and errors are dev/sqrt(n)", "statement": "For positive rates every returned deviation is >= 0 and, for all functions with simple error bars, error = dev/sqrt(n) (0 for tierms; N-m in place of n for theo1).", "quantifier": "all datasets", "why_tests_cant": "All data.", "anchors": ["allantools/allantools.py:calc_adev_phase", "allantools/allantools.py:calc_hdev_phase", "allantools/allantools.py:mdev", "allantools/allantools.py:totdev", "allantools/allantools.py:theo1", "allantools/allantools.py:tierms", "allantools/allantools.py:mtie"]}
{"id": "C61", "title": "predicted deviations of Kasdin noise are the integrals of its spectrum", "statement": "Noise.adev, Noise.mdev and Noise.pdev_from_qd (times tau^(c/2)) are the square roots of the integrals over all frequencies of the frequency PSD h_a f^a times the transfer function of the Allan, modified Allan (limit tau0 -> 0) and parabolic variance; and Noise.adev equals psd_piecewise_to_adev of the same PSD.", "quantifier": "all five noise types b = 0..-4, all qd >= 0, all tau0, tau > 0", "why_tests_cant": "Closed forms of improper integrals; an error of a fraction of a percent in a coefficient is invisible in simulated noise.", "anchors": ["allantools/noise_kasdin.py:adev_from_qd", "allantools/noise_kasdin.py:mdev_from_qd", "allantools/noise_kasdin.py:pdev_from_qd", "allantools/allantools.py:psd_piecewise_to_adev"]}
{"id": "C62", "title": "psd2allan integrates the spectrum with the transfer function at the documented factors", "statement": "psd2allan returns, for the documented averaging factors k (octave: the powers of the base up to n = (S-1)/2 and n itself; base <= 1: all factors below n), tau = k tau0 with tau0 = 1/f_max, and the square root of twice the Simpson sum on the four times oversampled grid of S_y(f) |sin(pi f tau)^(e+1)/(pi f tau)^e|^2, e = 1 for adev and 2 for mdev. For white PM the result is exactly sqrt(3 h f_max/(4 pi^2 tau^2)). Deviations are non-negative for non-negative interpolated spectra and scale with sqrt(c) when the spectrum is multiplied by c.", "quantifier": "all spectra of at least 4 values, all df > 0, all bases, both kinds", "why_tests_cant": "All sizes and bases; the exact value for white PM is a trigonometric identity over all grid sizes; the missing power of two is hidden by the appended last factor in small tests.", "anchors": ["allantools/allantools.py:psd2allan"]}
{"id": "C63", "title": "numpy_psd is the periodogram: values, frequencies and total power", "statement": "numpy_psd returns 2/(N f_s)|X_k|^2 for k = 0..N/2, on the axis k f_s/N; its integral is the mean square of the data; data c times as large give values c^2 times as large.", "quantifier": "all non-empty data of any length, even or odd, all f_s > 0", "why_tests_cant": "Holds for every length; total power is Parseval's identity for all data; the axis is only wrong for odd lengths.", "anchors": ["allantools/noise.py:numpy_psd"]}
{"id": "C64", "title": "edf_greenhall returns a positive number whenever it accepts its arguments", "statement": "For integer alpha in -4..2, d in 1..3 with alpha+2d>1, m>=1 and enough data, whenever edf_greenhall does not raise it returns a finite positive number: the normalising kernel value sz(0) never vanishes for any noise type and filter factor, and each of the table, basic-sum and truncated-sum formulas is positive.", "quantifier": "all alpha, d, m, N, overlapping, modified; all filter factors F>0 and F=inf", "why_tests_cant": "Unbounded m and N, a real filter factor; positivity of the logarithmic kernels needs a spectral argument.", "anchors": ["allantools/ci.py:edf_greenhall", "allantools/ci.py:greenhall_sz", "allantools/ci.py:greenhall_BasicSum"]}
{"id": "C65", "title": "rn_theory is the ratio of the modified and plain Allan variance of power-law noise", "statement": "For noise with a power-law spectrum rn_theory(af,b) equals MVAR(af tau0)/AVAR(af tau0) computed from the spectrum with cut-off 1/(2 tau0): 1/af for white PM, the logarithmic formula for flicker PM up to a remainder vanishing with 1/af, and the constant ratios for the frequency noise types.", "quantifier": "all af, b in 0..-4, noise levels, tau0", "why_tests_cant": "Statement about improper integrals with Euler's constant, for all real tau.", "anchors": ["allantools/ci.py:rn_theory"]}
{"id": "C66", "title": "rounding errors do not change averaging factors", "statement": "In double precision tau_generator selects the same averaging factors as in exact arithmetic for the keywords all, octave and decade, taus returned by one call select the same factors in the next call, and the averaging factors written by write_results are those that were used.", "quantifier": "all rates, all data lengths up to 2^47, all roundings with relative error 2^-53", "why_tests_cant": "Whether a quotient such as 0.3/0.1 lands below an integer depends on the rate and the factor; tests try a few rates.", "anchors": ["allantools/allantools.py:tau_generator", "allantools/dataset.py:write_results", "allantools/noise.py:timmer_koenig_from_psd"]}
{"id": "C67", "title": "rounding errors of the Allan, Hadamard and modified Allan deviations are bounded", "statement": "In double precision adev, oadev, hdev, ohdev and mdev of phase data fail exactly when they fail in exact arithmetic, and otherwise return the same numbers of terms, the taus up to one rounding, and deviations whose error is at most a relative part proportional to the number of terms plus an absolute part proportional to the largest phase value over tau (times N^2/m for mdev, whose running sum collects errors). The relative error alone is not bounded.", "quantifier": "all finite phase data of up to 2^47 values, all positive rates, taus given by keyword other than log10 or within a quarter of a multiple of the sampling interval, every rounding with relative error 2^-53, every order of summation", "why_tests_cant": "Tests compare a few data sets with stored results to a tolerance; the worst case over all data and all summation orders cannot be sampled.", "anchors": ["allantools/allantools.py:calc_adev_phase", "allantools/allantools.py:calc_hdev_phase", "allantools/allantools.py:mdev"]}
{"id": "C68", "title": "Plot draws the last computed result and matplotlib accepts it", "statement": "After any sequence of set_input and compute calls on a Dataset, if some compute succeeded then Plot.plot, with or without error bars and grid, succeeds and adds to the axes the taus, deviations and error bars of the last successful compute, labelled with the name of that function.", "quantifier": "all call histories with positive rates, all data, all axes contents", "why_tests_cant": "The tests plot one result; lengths and signs of the error bars depend on the function and the data of every earlier call.", "anchors": ["allantools/plot.py:Plot.plot", "allantools/dataset.py:Dataset.compute"]}
{"id": "C69", "title": "scipy_psd is Welch's estimate: segments, frequencies and total power", "statement": "scipy_psd returns the Hann-windowed, half-overlapping Welch estimate with segments of N // nr_segments values on the axis k f_s/n; every segment lies inside the data and fewer than one step of values is left over; the integral of the estimate is the window-weighted variance averaged over segments for even and odd n; a constant added to the data changes nothing and a factor b multiplies the density by b^2; it raises ZeroDivisionError for nr_segments = 0 and ValueError when nr_segments is negative or exceeds N.", "quantifier": "all data of any length, all sampling frequencies other than 0, all numbers of segments", "why_tests_cant": "The function is only used in examples; even and odd segment lengths treat the last bin differently and the power identity holds for every length only if that is right.", "anchors": ["allantools/noise.py:scipy_psd"]}
{"id": "C70", "title": "Deviations of white noise have the right expected square", "statement": "For white phase noise and for white frequency noise of any distribution, mean and length the expected square of what adev, oadev, hdev, ohdev, mdev, tdev, pdev, tierms (phase only) and theo1 return at a factor m is the theoretical variance of that noise at m tau0: 3 s2/tau^2, 10/3 s2/tau^2, 3 s2/(m tau^2), s2/m, 12 (m^2-1)/m^3 s2/tau^2, 2 s2 for phase noise; s2/m, s2 (m^2+1)/(2 m^3), 6/5 (1 - 1/m^4) s2/m for frequency noise; theo1 for frequency noise is the Allan variance at 3/4 of the averaging time it reports; for random walk frequency noise with increments of variance s2 the Allan, Hadamard and modified Allan variances are s2 (2m^2+1)/(6m), s2 (m^2+1)/(6m), s2 (11m^4+5m^2+4)/(40m^3). The normalisations are thus unbiased for every data length.", "quantifier": "all probability spaces, all uncorrelated sample sequences of equal mean and variance, all lengths, all positive rates, all taus arguments, all factors reported", "why_tests_cant": "A simulation estimates an expectation with an error that falls only with the square root of the number of runs; a bias of one part in N - 2m cannot be seen.", "anchors": ["allantools/allantools.py:calc_adev_phase", "allantools/allantools.py:calc_hdev_phase", "allantools/allantools.py:mdev", "allantools/allantools.py:tdev", "allantools/allantools.py:pdev", "allantools/allantools.py:tierms", "allantools/allantools.py:theo1", "allantools/allantools.py:frequency2phase"]}
{"id": "C71", "title": "Simulated power law noise has the predicted deviation", "statement": "If the draws in noise_kasdin.Noise.generateNoise are uncorrelated with mean 0 and variance 1, the expected squared adev, oadev and mdev of the generated time_series at m tau0 equal the squares of what the adev and mdev methods of the same object predict.", "quantifier": "all lengths, all qd, all tau0, all averaging factors, all five noise types, all taus arguments, all distributions of the draws", "why_tests_cant": "The tests compare one random series per noise type with the prediction to a tolerance of tens of percent; a discrepancy of a few percent at small m is inside the scatter.", "anchors": ["allantools/noise_kasdin.py:Noise.generateNoise", "allantools/noise_kasdin.py:Noise.adev", "allantools/noise_kasdin.py:Noise.mdev", "allantools/noise_kasdin.py:Noise.adev_from_qd", "allantools/noise_kasdin.py:Noise.mdev_from_qd"]}
{"id": "C72", "title": "Coloured noises have the Allan deviation that their PSD implies", "statement": "If the draws are uncorrelated with mean 0 and variance 1, the expected squared adev and oadev of white(b0) as frequency is b0/(2 tau) and as phase 3 h2 fh/(4 pi^2 tau^2) with h2 = 4 pi^2 b0 and fh = fs/2; of brown(b) as phase h0/(2 tau) with h0 = 4 pi^2 b and as frequency (2 pi^2/3) b tau (1 + 1/(2 m^2)); of violet(b) as frequency 3 b fh/(4 pi^2 tau^2).", "quantifier": "all numbers of points, all densities b >= 0, all fs > 0, all averaging factors, all taus arguments, all distributions of the draws", "why_tests_cant": "The tests and examples draw one series and compare by eye or to a loose tolerance; a missing factor 2 or a wrong power of fs at fs != 1 is not seen.", "anchors": ["allantools/noise.py:white", "allantools/noise.py:brown", "allantools/noise.py:violet", "allantools/allantools.py:adev", "allantools/allantools.py:oadev"]}
{"id": "C73", "title": "The PSD estimates of the coloured noises have the documented density", "statement": "If the draws are uncorrelated with mean 0 and variance 1, the expected value of numpy_psd and of scipy_psd of white(b0), brown(b_minus2) and violet(b2) at the frequency f is b0, b_minus2 f^-2 and b2 f^2.", "quantifier": "all numbers of points, all numbers of segments that leave three points or more, all densities, all fs > 0, all frequencies of the estimate, all distributions of the draws", "why_tests_cant": "An estimate from one series scatters by its own size at every frequency, so a factor 2 is not seen without averaging over many series; the test only draws the curves.", "anchors": ["allantools/noise.py:white", "allantools/noise.py:brown", "allantools/noise.py:violet", "allantools/noise.py:numpy_psd", "allantools/noise.py:scipy_psd"]}
{"id": "C74", "title": "edf_greenhall returns the equivalent degrees of freedom for normally distributed white noise", "statement": "If the phase is a constant phase and frequency offset plus independent normal samples (alpha = 2), or the frequency is a constant plus independent normal samples (alpha = 0), the value of edf_greenhall called with the order of the difference, the averaging factor and the number of phase points is 2 E[D^2]^2 / Var[D^2], where D is the deviation that adev, oadev, hdev, ohdev, mdev or tdev reports.", "quantifier": "all numbers of points, all variances, all offsets, all rates > 0, all averaging factors that the function reports, all taus arguments", "why_tests_cant": "The tests compare with printed values of another program; the variance of the estimator is a fourth moment that no single series shows.", "anchors": ["allantools/ci.py:edf_greenhall", "allantools/ci.py:greenhall_BasicSum", "allantools/ci.py:greenhall_sz", "allantools/allantools.py:oadev", "allantools/allantools.py:mdev"]}
{"id": "C75", "title": "The deviations of normally distributed white noise settle at their textbook values as the record gets longer", "statement": "If the phase is a constant phase and frequency offset plus independent normal samples, or the frequency is a constant plus independent normal samples, then for every deviation function except mtie and totdev the expected square of the reported deviation does not depend on the number of data points, the relative variance of that square is at most 2 (1 + 2 L) / n, where n is the number of terms that are averaged and L the number of following terms that share samples with a term, and for a fixed averaging factor the reported deviation converges in probability to the root of the expected square; adev, oadev, hdev, ohdev, mdev, tdev, pdev, tierms and theo1 converge to the textbook values for white noise.", "quantifier": "all numbers of points, all variances, all offsets, all rates > 0, all averaging factors, all taus arguments", "why_tests_cant": "Convergence in probability is about all record lengths and the whole distribution of the noise.", "anchors": ["allantools/allantools.py:adev", "allantools/allantools.py:oadev", "allantools/allantools.py:mdev", "allantools/allantools.py:hdev", "allantools/allantools.py:ohdev", "allantools/allantools.py:pdev", "allantools/allantools.py:mtotdev", "allantools/allantools.py:htotdev", "allantools/allantools.py:theo1", "allantools/allantools.py:tierms"]}
{"id": "C76", "title": "The total deviation of white noise: exact bias of the reflected ends, and convergence", "statement": "For averaging factors m with 2m < N the expected square of totdev is that of adev times 1 + 4 (m - 1 + [m even]) / (3 (N - 2)) for white phase noise and times 1 + (m - [m odd]) / (m (N - 2)) for white frequency noise (N phase points). For normally distributed noise and a fixed averaging factor the reported total deviation converges in probability to the Allan deviation of the noise.", "quantifier": "all numbers of points N, all variances and means, all rates > 0, all averaging factors m with 2m < N, all taus arguments; for the expected values all distributions of uncorrelated samples", "why_tests_cant": "The bias is a property of the expected value over all noise realisations; the code carries a FIXME about it and no test measures it.", "anchors": ["allantools/allantools.py:totdev"]}
{"id": "C77", "title": "The variances of independent noises add, and the deviations of the sum settle at the root of the sum", "statement": "For phase data that is a phase and frequency offset plus any finite sum of independent noises, each white phase noise, white frequency noise (random walk of the phase) or random walk frequency noise with its own amplitude, the expected square of the reported deviation is the sum of the squares of the amplitudes times the values of the parts for amplitude one, it does not depend on the number of data points, and the deviation converges in probability to the root of that sum as the record gets longer. This holds for every deviation but mtie and totdev (for tierms without frequency offset and random walk frequency noise). For adev, oadev, hdev, ohdev, mdev and tdev the values of the parts are the textbook values.", "quantifier": "all finite families of normal noise sources, all amplitudes, offsets, rates > 0, averaging factors, numbers of points and taus arguments", "why_tests_cant": "Convergence in probability is about all record lengths and the whole distribution; the number of sources is unbounded.", "anchors": ["allantools/allantools.py:adev", "allantools/allantools.py:oadev", "allantools/allantools.py:mdev", "allantools/allantools.py:tdev", "allantools/allantools.py:hdev", "allantools/allantools.py:ohdev", "allantools/allantools.py:pdev", "allantools/allantools.py:mtotdev", "allantools/allantools.py:htotdev", "allantools/allantools.py:theo1", "allantools/allantools.py:tierms"]}
{"id": "C78", "title": "What the three-cornered hat and the Groslambert codeviation measure, with and without counter noise", "statement": "Three clocks A, B, C, each with a phase and frequency offset and a sum of noises of its own, are compared by counters that add their own noise, all sources independent. As the record gets longer, three_cornered_hat_phase converges in probability to the root of max(0, V_A + (V_ab + V_ca - V_bc)/2), where V is the square at which the deviation of a clock or counter on its own settles; without counter noise that is the deviation of clock A. gcodev of the data AB and BC converges in probability to the Allan deviation of clock B whatever the noise of the counters and of the other clocks, as its docstring says.", "quantifier": "all finite families of normal noise sources and owners, all amplitudes, offsets, rates > 0, averaging factors; for the hat all deviation functions but mtie and totdev", "why_tests_cant": "The claim of the docstring is about the limit of the estimate over all noise realisations; tests compare single data files.", "anchors": ["allantools/allantools.py:gcodev", "allantools/allantools.py:calc_gcodev_phase", "allantools/allantools.py:three_cornered_hat_phase"]}
{"id": "C79", "title": "The lag-1 autocorrelation identifies white phase noise, white frequency noise and random walk frequency noise", "statement": "For phase data that are normal white phase noise, white frequency noise or a random walk of the frequency, with any quadratic trend, autocorr_noise_id with dmin=0 and dmax large enough returns the exponent 2, 0 or -2 of the noise, after exactly 0, 1 or 2 differences, with a probability that tends to 1 with the length of the record; the estimate before rounding tends to the exponent, except for the random walk, where it tends to -2 - 2(m^2-1)/(5m^2+1) for the averaging factor m. Frequency data of the same noises with any linear trend give the same with one difference less. confidence_interval_noiseID then returns the interval for the true noise.", "quantifier": "all averaging factors, noise levels, trends, dmax at least the order of the noise, least squares fits, tolerances, error probabilities; record length tending to infinity", "why_tests_cant": "Tests run the identification on single realisations from a random generator and accept a tolerance; they cannot show that it succeeds with probability tending to one, nor reveal the bias of the unrounded estimate.", "anchors": ["allantools/ci.py:autocorr_noise_id", "allantools/ci.py:lag1_acf", "allantools/ci.py:detrend", "allantools/ci.py:confidence_interval_noiseID"]}
{"id": "C80", "title": "The ratios R(n) and B1 of long noise series fall on the right side of their decision boundaries", "statement": "For phase data that are normal white phase noise, white frequency noise or a random walk of the frequency, with any offset of phase and frequency, sampled at rate 1: rn at the averaging factor m tends in probability to 1/m, (m^2+1)/(2m^2) and 3(11m^4+5m^2+4)/(20m^2(2m^2+1)); b1 tends to 2/3 for white phase noise and to 1 for white frequency noise. With a probability that tends to 1, b1 falls between the values of b1_boundary that delimit the noise type, and rn falls on the side of rn_boundary that belongs to the noise type.", "quantifier": "all averaging factors, noise levels, offsets, tolerances, error probabilities; record length tending to infinity", "why_tests_cant": "The package only has example scripts that plot the ratios of single simulated series against the boundaries; that the boundary of R(n) takes white frequency noise for flicker phase noise at averaging factors up to 19 is a statement on probabilities for all long records.", "anchors": ["allantools/ci.py:rn", "allantools/ci.py:rn_theory", "allantools/ci.py:rn_boundary", "allantools/ci.py:b1", "allantools/ci.py:b1_theory", "allantools/ci.py:b1_boundary"]}
{"id": "C81", "title": "NaN in the data reaches exactly the values that use the NaN samples", "statement": "Let phase data contain NaN and replace them by arbitrary numbers. adev, oadev, mdev, tdev, hdev, ohdev, tierms and mtie raise on the data with NaN the exception they raise on the completed data, or return the same averaging times and counts; in the row of averaging factor m deviation and error bar are the same numbers if no sample that enters the statistic at m is NaN, and NaN otherwise (the error bar of tierms is 0 in any case). adev and hdev at m use only samples at multiples of m; the other functions use every sample, oadev, ohdev and tierms at least for 3m, 4m, 2m <= N. Frequency data with a NaN between two numbers give NaN for every averaging time of oadev, ohdev, mdev, tdev, tierms and mtie.", "quantifier": "all data with any set of NaN, all completions, rates, taus arguments", "why_tests_cant": "The tests contain gaps only for gradev; positions of NaN relative to the sampling pattern of each averaging factor are combinatorially many.", "anchors": ["allantools/allantools.py:calc_adev_phase", "allantools/allantools.py:mdev", "allantools/allantools.py:tdev", "allantools/allantools.py:calc_hdev_phase", "allantools/allantools.py:tierms", "allantools/allantools.py:mtie", "allantools/allantools.py:frequency2phase", "allantools/allantools.py:remove_small_ns"]}
{"id": "C82", "title": "Rounding errors for inexact phase data, for frequency data and for the time deviation", "statement": "In double precision adev, oadev, hdev, ohdev and mdev of phase data that differ by at most delta from other data with any frequency offset agree with the exact results on the latter up to the bounds of C67 plus 3.1 delta/tau (Allan) or 3.5 delta/tau (Hadamard). frequency2phase of N values in double precision is exact up to a frequency offset and 6 N^2 roundings of F/rate, where F is the largest distance of a value from the mean plus the possible error 2 N u Y of the computed mean. So adev, oadev, hdev, ohdev, mdev and tdev of frequency data fail exactly when they fail in exact arithmetic and otherwise return the same numbers of terms, the taus up to one rounding, and deviations with a relative error proportional to the number of terms and an absolute error proportional to F: a large mean frequency costs no precision. tdev of phase data has the corresponding bound.", "quantifier": "all data up to 2^46 values, rates, safe taus arguments, orders of summation, roundings with unit roundoff 2^-53", "why_tests_cant": "The tests compare with reference values to a few digits for single data sets; the comment in the code claims that subtracting the mean avoids precision issues, which is a statement on all data.", "anchors": ["allantools/allantools.py:frequency2phase", "allantools/allantools.py:calc_adev_phase", "allantools/allantools.py:calc_hdev_phase", "allantools/allantools.py:mdev", "allantools/allantools.py:tdev"]}
{"id": "C83", "title": "Histories of Noise and Plot objects", "statement": "After any sequence of set_input and generateNoise calls a Noise object has the settings of the last set_input (or of the constructor), and time_series is empty if every generateNoise was called with nr = 0, and otherwise the noise filtered by the power-law filter of the last generateNoise with another nr, with the settings in force at that call; set_input and a failing generateNoise leave the old series. A new Plot object on which any sequence of data sets with drawable results is plotted has logarithmic axes and shows all results in order, each with its label, error bars and grid as asked for.", "quantifier": "all sequences of calls, settings, random draws and data sets", "why_tests_cant": "The tests make one noise object per setting and one plot per figure; the number of call sequences is infinite.", "anchors": ["allantools/noise_kasdin.py:Noise.set_input", "allantools/noise_kasdin.py:Noise.generateNoise", "allantools/plot.py:Plot.__init__", "allantools/plot.py:Plot.plot"]}
{"id": "C84", "title": "Deviations of long simulated noise of all five types, and the predictions for large averaging factors", "statement": "Let the random draws be independent standard normal numbers, qd >= 0, tau0 > 0 and b one of 0, -1, -2, -3, -4. As the number of points grows, adev, oadev, hdev, ohdev, mdev and tdev of the series that generateNoise makes settle (in probability) at explicit values for every averaging factor m; for flicker noise these are given by the partial sums of 1 + 1/3 + 1/5 + ... . The ratio of the Allan variance to the square of what adev of the object predicts tends to 1 as m grows, for all five types; for flicker phase noise the difference times pi m^2 tau0^2 / qd tends to the constant 6 ln 2 - 3 ln pi (up to the digits of Euler's constant in the code). The same holds for mdev except for flicker frequency noise, where the ratio tends to 5 (27 ln 3 - 32 ln 2)/(54 ln 2) = 0.9994.", "quantifier": "all probability spaces with such draws, qd, tau0, averaging factors, record lengths", "why_tests_cant": "A test compares one seeded record of finite length with wide tolerances; it cannot see a limit, nor a deviation of 0.06 % in the variance.", "anchors": ["allantools/noise_kasdin.py:Noise.generateNoise", "allantools/noise_kasdin.py:Noise.adev", "allantools/noise_kasdin.py:Noise.mdev", "allantools/noise_kasdin.py:Noise.adev_from_qd", "allantools/noise_kasdin.py:Noise.mdev_from_qd", "allantools/allantools.py:calc_adev_phase", "allantools/allantools.py:mdev"]}
{"id": "C85", "title": "Which simulated noise autocorr_noise_id identifies: all five types", "statement": "Let the driving samples be independent normal numbers of equal variance and b one of 0, -1, -2, -3, -4. For phase data made by Kasdin's filter with any quadratic trend, and for frequency data made from it with any linear trend, autocorr_noise_id with dmin = 0 and dmax at least the order of the noise returns, with a probability that tends to 1 as the record grows, an estimate near an explicit limit, the exponent of that limit rounded, and the number of differences of the noise type. The rounded exponent is b + 2 for every averaging factor, except that flicker phase noise is taken for white phase noise from averaging factor 18 on; there confidence_interval_noiseID uses the degrees of freedom of white phase noise.", "quantifier": "all probability spaces with such samples, noise types, trends, averaging factors, tolerances", "why_tests_cant": "Tests identify a few seeded records at small averaging factors; they do not see a limit in probability, nor that the answer changes at averaging factor 18.", "anchors": ["allantools/ci.py:autocorr_noise_id", "allantools/ci.py:confidence_interval_noiseID", "allantools/noise_kasdin.py:Noise.generateNoise"]}
{"id": "C86", "title": "R(n) and B1 of long simulated noise of all five types", "statement": "Let the driving samples be independent normal numbers of equal positive variance and b one of 0, -1, -2, -3, -4. For phase data made by Kasdin's filter, with any offset of phase and frequency, and averaging factor m >= 2, as the record grows: rn settles in probability at the ratio of the modified to the Allan variance of that noise at m; it lies below rn_boundary(m, 0) for white PM, between rn_boundary(m, 0) and rn_boundary(m, -1) for flicker PM and above rn_boundary(m, -1) for frequency noise, except that white FM with m <= 19 and flicker FM with m = 2 lie between the two boundaries, where flicker PM is. b1 lies below b1_boundary(-1) for white and flicker PM and between b1_boundary(b+1) and b1_boundary(b) for white FM, flicker FM and random walk FM, with the boundaries for the number of groups of the record.", "quantifier": "all probability spaces with such samples, noise types, offsets, averaging factors, probabilities", "why_tests_cant": "Tests compute the ratios of a few seeded records at a few averaging factors; they do not see a limit in probability, nor for which averaging factors the limit is on the wrong side of a boundary.", "anchors": ["allantools/ci.py:rn", "allantools/ci.py:rn_theory", "allantools/ci.py:rn_boundary", "allantools/ci.py:b1", "allantools/ci.py:b1_theory", "allantools/ci.py:b1_boundary", "allantools/noise_kasdin.py:Noise.generateNoise"]}
{"id": "C87", "title": "Rounding errors of totdev, pdev, theo1, tierms, mtie and gcodev", "statement": "With every operation rounded to double precision and sums in any order, totdev, pdev, theo1 (up to 2^26 values), tierms, mtie and gcodev on phase data raise the same error as exact arithmetic, or return the same numbers of terms, the same taus up to one rounding and deviations within an explicit bound: a multiple of u times the deviation plus, except for tierms and mtie, a multiple of u B/tau for phase values up to B, with u = 2^-53. Error bars are those of the computed deviation up to a few roundings. For gcodev the second part is of the order of sqrt(u) B/tau, and this is needed: for two lists of four doubles of size 1 the codeviation is 2^-31 and the program returns 0.", "quantifier": "all rounding functions with relative error u (for theo1 exact on integers up to 2^53), summation orders, phase data, rates, tau lists near multiples of the sampling interval", "why_tests_cant": "Tests compare a few data sets to some digits; a bound for every data set, rounding and order of summation cannot be tested.", "anchors": ["allantools/allantools.py:totdev", "allantools/allantools.py:pdev", "allantools/allantools.py:calc_pdev_phase", "allantools/allantools.py:theo1", "allantools/allantools.py:tierms", "allantools/allantools.py:mtie", "allantools/allantools.py:gcodev", "allantools/allantools.py:calc_gcodev_phase"]}
{"id": "C88", "title": "How far edf_greenhall is from the degrees of freedom of white frequency noise", "statement": "Let the frequencies be a constant plus independent normal numbers of equal positive variance. At every averaging factor m that adev or hdev reports, and at those that oadev, ohdev, mdev and tdev report and for which the basic sum has at most 100 terms, edf_greenhall called with alpha = 0, the order of the difference, m and the number of phase points returns a positive number whose square root differs from that of the equivalent degrees of freedom 2 E[D^2]^2/Var[D^2] of the squared deviation D by a relative error of at most 5/(4m) for second differences, 7/(5m) for third differences and 6/(m^2+1) for mdev and tdev.", "quantifier": "all probability spaces with such samples, rates, offsets, record lengths, averaging factors", "why_tests_cant": "Tests compare edf_greenhall with a few published numbers; the degrees of freedom of an estimate are a property of its distribution, for every record length and averaging factor.", "anchors": ["allantools/ci.py:edf_greenhall", "allantools/ci.py:greenhall_BasicSum", "allantools/ci.py:greenhall_sz", "allantools/ci.py:greenhall_sx", "allantools/ci.py:greenhall_sw", "allantools/allantools.py:oadev", "allantools/allantools.py:ohdev", "allantools/allantools.py:mdev"]}
{"id": "C89", "title": "Degrees of freedom of white noise in closed form, and the tables of edf_greenhall", "statement": "Let the data be white frequency noise (frequencies: a constant plus independent normal numbers) or white phase noise (phases: a line plus independent normal numbers). The equivalent degrees of freedom of oadev, ohdev, mdev and tdev of white frequency noise and of mdev and tdev of white phase noise are explicit rational functions of the averaging factor m and the number M of summands, if M >= 2m (3m for third differences and modified variances). Where edf_greenhall uses its tables (more than 100 terms in the basic sum and M > (d+1) m) the square root of its result has a relative error of at most 3/(2 m^2) for oadev, 2/m^2 for ohdev and for mdev and tdev of white phase noise, and 1/2000 + 1/m^2 for mdev and tdev of white frequency noise.", "quantifier": "all probability spaces with such samples, rates, offsets, record lengths, averaging factors", "why_tests_cant": "Tests look up a few entries of the tables; that the entries are the coefficients of the degrees of freedom holds for all record lengths or not at all.", "anchors": ["allantools/ci.py:edf_greenhall", "allantools/ci.py:greenhall_table1", "allantools/ci.py:greenhall_table2", "allantools/allantools.py:oadev", "allantools/allantools.py:ohdev", "allantools/allantools.py:mdev", "allantools/allantools.py:tdev"]}
{"id": "C90", "title": "edf_greenhall is close to the degrees of freedom of white noise at every averaging factor", "statement": "Let the data be white frequency noise (frequencies: a constant plus independent normal numbers of equal positive variance) or white phase noise (phases: a line plus such numbers). At every averaging factor m that the function reports, edf_greenhall called with the exponent of the noise, the order of the difference, m and the number of phase points returns a positive number whose square root differs from that of the equivalent degrees of freedom of the squared deviation by a relative error of at most 5/(4m) + 1/50 (oadev, white frequency noise), 7/(5m) + 3/50 (ohdev, white frequency noise), 6/(m^2+1) + 1/50 (mdev and tdev, white frequency noise) and 1/40 (mdev and tdev, white phase noise), whether the code sums over all lags, uses its tables or a sum of 100 terms.", "quantifier": "all probability spaces with such samples, rates, offsets, record lengths, averaging factors", "why_tests_cant": "The code switches between three methods depending on the record length and the averaging factor; tests compare a few combinations with published values, not with the distribution of the estimate.", "anchors": ["allantools/ci.py:edf_greenhall", "allantools/ci.py:greenhall_BasicSum", "allantools/ci.py:greenhall_sz", "allantools/ci.py:greenhall_table1", "allantools/ci.py:greenhall_table2", "allantools/allantools.py:oadev", "allantools/allantools.py:ohdev", "allantools/allantools.py:mdev", "allantools/allantools.py:tdev"]}
{"id": "C91", "title": "Rounding errors of the streaming classes", "statement": "In double precision (no overflow or underflow) oadev_realtime, ohdev_realtime and tdev_realtime with fixed averaging factors raise no exception on any stream of up to 2^47 phase or frequency samples, report 0 while there are too few samples, and then report the deviations of all samples seen so far with an error of at most 2(n+14)u dev + 10u B/tau (oadev), 2(n+14)u dev + 15u B/tau (ohdev) and 2(n+9)u dev + 15/4 N(N+1)u B/m (tdev), where u = 2^-53, n is the number of terms, N the number of samples, B a bound of the phase values; the method mdev has the corresponding error. Frequency samples up to F count as phase values up to MF that carry the errors of M roundings.", "quantifier": "all roundings with relative error 2^-53, streams, averaging factors, tau0 > 0", "why_tests_cant": "The running sums of tdev_realtime carry every rounding error on to all later samples; tests feed short records and compare a few digits.", "anchors": ["allantools/realtime.py:oadev_realtime", "allantools/realtime.py:ohdev_realtime", "allantools/realtime.py:tdev_realtime", "allantools/realtime.py:dev_realtime.add_frequency"]}
{"id": "C92", "title": "How far edf_greenhall is from the degrees of freedom of random walk frequency noise", "statement": "Let the frequencies be a random walk with independent normal steps of equal positive variance and an arbitrary first value, or let the second differences of the phase be such numbers. At every averaging factor m that adev or hdev reports, and at those that oadev, ohdev, mdev and tdev report and for which the basic sum has at most 100 terms, edf_greenhall called with alpha = -2, the order of the difference, m and the number of phase points returns a positive number whose square root differs from that of the equivalent degrees of freedom 2 E[D^2]^2/Var[D^2] of the squared deviation D by a relative error of at most 12/(5 m^2) for second differences, 61/(10 m^2) for third differences and 5/(4 m^2) for mdev and tdev, and of at most 3/20 at m = 1.", "quantifier": "all probability spaces with such samples, rates, first values, record lengths, averaging factors", "why_tests_cant": "Tests compare edf_greenhall with a few published numbers; the degrees of freedom of an estimate are a property of its distribution, for every record length and averaging factor.", "anchors": ["allantools/ci.py:edf_greenhall", "allantools/ci.py:greenhall_BasicSum", "allantools/ci.py:greenhall_sz", "allantools/ci.py:greenhall_sx", "allantools/ci.py:greenhall_sw", "allantools/allantools.py:oadev", "allantools/allantools.py:ohdev", "allantools/allantools.py:mdev"]}
{"id": "C93", "title": "The confidence intervals contain the true deviation as often as asked for", "statement": "Let the phase be a line plus white phase noise, white frequency noise or a random walk of the frequency, or let the frequencies be a constant plus white noise or a random walk, driven by independent normal numbers of equal positive variance. Ask one of adev, oadev, mdev, tdev, hdev, ohdev for one averaging time m/rate, compute the degrees of freedom with edf_greenhall from the exponent of the noise, the parameters of the deviation and the number of phase points, and the interval with confidence_interval for a probability 1/2 <= ci < 1 and a ppf that gives chi-square quantiles. As the record grows, the probability that the interval contains the deviation sigma of the noise (given by a formula in m, rate and the variance) finally lies between ci/(1+eps) and ci/(1-eps) up to any positive margin, where eps is the bound of the relative error of the square root of the degrees of freedom (C74, C88, C90, C92, C94), if eps < 1. For white phase noise eps is 0 (up to m = 33 for mdev and tdev), so that the probability tends to ci. The same holds of confidence_interval_noiseID, which identifies the noise from the phase data. For white frequency noise, oadev and m = 1 the probability tends to a number below ci: the probability of the normal distribution between -sqrt(23/27) z and sqrt(23/27) z, where z is the bound that belongs to ci.", "quantifier": "all probability spaces with such samples, deviations, noises, rates, offsets, averaging factors, probabilities ci, quantile functions and least-squares fits", "why_tests_cant": "Tests compare a few intervals with published numbers; how often an interval contains the true deviation is a property of the distribution of the estimate, in the limit of long records.", "anchors": ["allantools/ci.py:confidence_interval", "allantools/ci.py:confidence_interval_noiseID", "allantools/ci.py:edf_greenhall", "allantools/allantools.py:adev", "allantools/allantools.py:oadev", "allantools/allantools.py:mdev", "allantools/allantools.py:tdev", "allantools/allantools.py:hdev", "allantools/allantools.py:ohdev"]}
{"id": "C94", "title": "edf_greenhall of random walk frequency noise at every averaging factor", "statement": "Let the frequencies be a random walk with independent normal steps of equal positive variance and an arbitrary first value, or let the second differences of the phase be such numbers. At every averaging factor m that oadev, ohdev, mdev and tdev report, whichever of the basic sum, the tables and the coarse sum of 100 terms it uses, edf_greenhall called with alpha = -2, the order of the difference, m and the number of phase points returns a positive number whose square root differs from that of the equivalent degrees of freedom 2 E[D^2]^2/Var[D^2] of the squared deviation D by a relative error of at most that of C92 (12/(5 m^2) for oadev, 61/(10 m^2) for ohdev, 5/(4 m^2) for mdev and tdev, 3/20 at m = 1) plus 1/100 for oadev, mdev and tdev and 1/40 for ohdev.", "quantifier": "all probability spaces with such samples, rates, first values, record lengths, averaging factors", "why_tests_cant": "Tests compare edf_greenhall with a few published numbers; a wrong entry of a table or a wrong step of the coarse sum shows only against the distribution of the estimate, for every record length and averaging factor.", "anchors": ["allantools/ci.py:edf_greenhall", "allantools/ci.py:greenhall_sz", "allantools/ci.py:greenhall_table1", "allantools/ci.py:greenhall_table2", "allantools/ci.py:greenhall_BasicSum", "allantools/allantools.py:oadev", "allantools/allantools.py:ohdev", "allantools/allantools.py:mdev", "allantools/allantools.py:tdev"]}
{"id": "C95", "title": "edf_simple against the degrees of freedom of the overlapping Allan variance", "statement": "Let the phase be a line plus white phase noise, white frequency noise or a random walk of the frequency (alpha = 2, 0, -2) made of independent normal samples of equal positive variance. At every averaging factor m that oadev reports for N phase points, edf_simple(N, m, alpha) is, relative to the equivalent degrees of freedom 2 E[D^2]^2/Var[D^2] of the squared deviation D, at least 3/4 and at most 5/4 for white phase noise, at least 9/10 and at most 6/5 for white frequency noise, at least 7/8 and at most 9/5 for the random walk with m >= 2, and exactly (N^2 - 5N + 8)/(N - 3)^2 for the random walk with m = 1 (four times too many for N = 4). The same holds for frequency data (N+1 phase points) that are a constant plus white noise or a random walk. For fixed m and N to infinity the ratio tends to 35/36, to 1, and to (45 + 49 m^2 + 70 m^4 + 151 m^6)/(35 m^2 (2 m^2 + 1)^2). The probability that the confidence interval computed from the reported deviation and edf_simple contains the deviation of the noise tends to the normal probability of [-z/sqrt(rho), z/sqrt(rho)], where rho is that limit and z the normal bound that belongs to the probability asked for; for white frequency noise it tends to the probability asked for, at every averaging factor.", "quantifier": "all probability spaces with such samples, rates, lines, record lengths, averaging factors, probabilities ci and quantile functions", "why_tests_cant": "Tests compare edf_simple with published values of the same formula; whether the formula agrees with the distribution of the estimate, at every record length and averaging factor, shows in no example.", "anchors": ["allantools/ci.py:edf_simple", "allantools/ci.py:confidence_interval", "allantools/allantools.py:oadev"]}
{"id": "C96", "title": "How often the error bars contain the deviation of the noise", "statement": "adev, oadev, mdev, tdev, hdev and ohdev return with each deviation d an error bar d/sqrt(n), n the number of terms. Let the phase be a line plus white phase noise, white frequency noise or a random walk of the frequency, or let frequency data be a constant plus white noise or a random walk, made of independent normal samples of equal positive variance. For each of the six functions, each noise and each averaging factor m, as the number of data grows the probability that d minus the deviation of the noise is at most the error bar in magnitude tends to the normal probability of [-sqrt(2 rho), sqrt(2 rho)], where rho is a rational function of m (for oadev: 18/35, 6m/(4m^2+5), 35m(2m^2+1)^2/(151m^6+70m^4+49m^2+45) for the three noises). For mdev and tdev, and for oadev and ohdev with white frequency noise or a random walk, that limit is below the normal probability of [-1, 1] for every m >= 3 and is at most 1.4/sqrt(m). In the other cases it lies between the normal probabilities of [-0.93, 0.93] and [-1.42, 1.42].", "quantifier": "all probability spaces with such samples, positive rates, lines, averaging factors, the six functions and three noises", "why_tests_cant": "Tests compare the error bars with the formula dev/sqrt(n) at most; what they say about the noise is a statement about probabilities over all records.", "anchors": ["allantools/allantools.py:adev", "allantools/allantools.py:calc_adev_phase", "allantools/allantools.py:calc_hdev_phase", "allantools/allantools.py:mdev"]}
{"id": "C97", "title": "No overflow and no underflow for moderate data", "statement": "In double precision, rounding to nearest is only correct for results in the range of the normal numbers. For phase or frequency data that are zero or between 2^-100 and 2^100 in magnitude, sampling rates between 2^-40 and 2^40, up to 2^47 phase or 2^46 frequency values (tdev: 2^46), and taus that are close to multiples of the sampling interval, no result computed inside adev, oadev, hdev, ohdev, mdev and tdev, nor (at most 2^45 values for totdev, 2^33 frequencies for pdev and 2^26 values for theo1) inside totdev, pdev, theo1, tierms, mtie and gcodev, leaves that range: with any arithmetic that rounds correctly in the normal range and does anything outside of it, each function raises the same error as with exact numbers or returns the same taus and numbers of terms, and deviations and error bars within the same bounds as without limits on the exponent. Outside such limits this fails: if results below 2^-1075 become zero, oadev of the phase 0, t, 0, t with t = 2^-600 is 0 and the exact deviation is positive.", "quantifier": "all roundings that are to nearest, ties to even, in the normal range; all orders of summation; all data, rates and taus within the limits", "why_tests_cant": "Tests use data of ordinary size and one arithmetic; they cannot show that no intermediate result of any admissible data set overflows or underflows.", "anchors": ["allantools/allantools.py:calc_adev_phase", "allantools/allantools.py:calc_hdev_phase", "allantools/allantools.py:mdev", "allantools/allantools.py:frequency2phase", "allantools/allantools.py:totdev", "allantools/allantools.py:calc_pdev_phase", "allantools/allantools.py:theo1", "allantools/allantools.py:tierms", "allantools/allantools.py:mtie", "allantools/allantools.py:calc_gcodev_phase"]}
{"id": "C98", "title": "How often the error bars and confidence intervals of totdev contain the deviation", "statement": "Let the data be a line or a constant plus white phase noise, white frequency noise or a random walk of the frequency, with normal increments, and let the averaging factor m be fixed. As the record grows, the error bar that totdev reports contains the Allan deviation of the noise with a probability that tends to that of the normal distribution within sqrt(2 r), where r is the ratio of degrees of freedom to terms of the overlapping Allan variance. The confidence interval computed with edf_totdev, called with the exponent of the noise, contains it with a probability that tends to that of the normal distribution within z / sqrt(rho), where z belongs to the probability asked for and rho is 35/36 for white phase noise, 1 + 5/(4 m^2) for white frequency noise and 0.93 (151 m^6 + 70 m^4 + 49 m^2 + 45) / (35 m^2 (2 m^2 + 1)^2) for the random walk. So for white frequency noise the interval is too short at every m (relative loss at most 5/(8 m^2)), and for the others the limit is between 0.998 and 1.06 times the probability asked for.", "quantifier": "all probability spaces with independent normal noise of any positive variance; all offsets and drifts of the phase; all rates > 0; all averaging factors m; all confidence levels in [1/2, 1)", "why_tests_cant": "A probability of covering is a statement about all records; tests compare single numbers with a reference program that uses the same formula for the degrees of freedom.", "anchors": ["allantools/allantools.py:totdev", "allantools/ci.py:edf_totdev", "allantools/ci.py:confidence_interval"]}
{"id": "C99", "title": "Rounding errors of totdev, pdev, theo1, tierms, mtie and gcodev for frequency data and for phase data with errors", "statement": "Let phase data of N points differ from exact phase data by a line b*i plus errors of at most delta. With every operation rounded to a relative error of u = 2^-53, the functions raise the same error, or keep the same averaging times and numbers of terms, and the deviations differ from the exact ones of the exact data by the rounding bound of phase data plus 6.1 delta/tau (totdev), 9.1 delta/tau (pdev), 21.1 delta/tau (theo1), 17/16 (2 delta + |b| m) (tierms, mtie), or 17/16 sqrt(8 (d1 B2 + d2 B1 + d1 d2))/tau (gcodev). For N frequencies of magnitude at most Y, within Z of their mean, F = Z + 2 N u Y, the error of a deviation with n terms is at most 2(n+12) u dev + 77 N^2 u F/(rate tau) for totdev, 2(n+18) u dev + (55 N^2 + 59 (m+6) N) u F/(rate tau) for pdev and 2(N+20) u dev + 195 N^2 u F/(rate tau) for theo1. tierms and mtie have a further error of 17/8 N u Y tau, the error of the rounded mean, that cannot be left out: for the frequencies 1 and 1 + 2^-52 the computed mtie is twice the exact one. The covariance function gcodev takes the square root of a sum with signs, so its error grows with sqrt(N^3 u F1 F2) / rate / tau.", "quantifier": "all roundings with relative error at most 2^-53, all orders of summation; all data with up to 2^46 frequencies (2^26 for theo1); all rates > 0; all taus arguments whose entries times the rate are far from or exactly half-integers as SafeTaus says", "why_tests_cant": "Tests compare a few data sets to 1e-4 or so with another program; an error bound is about all inputs and all orders of summation.", "anchors": ["allantools/allantools.py:frequency2phase", "allantools/allantools.py:totdev", "allantools/allantools.py:pdev", "allantools/allantools.py:theo1", "allantools/allantools.py:tierms", "allantools/allantools.py:mtie", "allantools/allantools.py:gcodev"]}
{"id": "C100", "title": "Rounding errors of mtotdev, ttotdev and htotdev", "statement": "The functions compute the sum over the first window of m mirrored values and update it 6m times, instead of computing each sum anew. With every operation rounded to a relative error of u = 2^-53, they nevertheless raise the same error, or keep the same averaging times and numbers of terms as the exact functions, and the deviations differ by a relative error of at most 2(n + 2N + 22)u (mtotdev), 2(n + 2N + 26)u (ttotdev), 2(n + 2N + 8)u (htotdev), plus 240(m+1)uB/tau (mtotdev), 144(m+1)uB (ttotdev), 170(m+1)uB rate (htotdev) for N phase values up to B. For frequency data within Z of their mean and up to Y, F = Z + 2NuY, the absolute parts are (56N^2+255(m+1)N)uF/rate/tau (mtotdev), (34N^2+153(m+1)N)uF/rate (ttotdev), and for htotdev 37N^2uF at m = 1 and 81(m+1)uY at m > 1, where the code does not remove the mean.", "quantifier": "all roundings with relative error at most 2^-53 that are exact on integers up to 2^53, all orders of summation; all data with up to 2^45 points; all rates > 0; all taus arguments whose entries times the rate are far from or exactly half-integers as SafeTaus says", "why_tests_cant": "Tests compare a few data sets with published values to about four digits; an error bound is about all inputs, all sizes and all orders of summation, and the running window sums could lose digits slowly with m.", "anchors": ["allantools/allantools.py:mtotdev", "allantools/allantools.py:calc_mtotdev_phase", "allantools/allantools.py:ttotdev", "allantools/allantools.py:htotdev", "allantools/allantools.py:calc_htotdev_freq", "allantools/allantools.py:phase2frequency"]}
{"id": "C101", "title": "The spectrum and the deviations of Timmer-Koenig noise", "statement": "timmer_koenig_from_psd with an even number n of samples makes a phase whose periodogram (numpy_psd) is on average (n-1)/n times the requested density S_y(f)/(2 pi f)^2, half of it at the Nyquist frequency and zero at zero frequency, but taken at the grid frequency f_k = k/(n dt) + (1-2k/n)/((n-1)dt) instead of k/(n dt). The expected squares of adev, oadev, hdev, ohdev, mdev and tdev are the corresponding sums over k. For a power law below f^2 every coefficient below the Nyquist frequency is too weak, in the limit of long series by ((k+1)/k)^(alpha-2). At a fixed averaging factor and with more and more samples the expected squares tend to the textbook integrals of S_y with the transfer functions 2 sin^4/(pi tau f)^2 (exponents from -2), (8/3) sin^6/(pi tau f)^2 (exponents from -4) and 2 sin^6/((pi tau f)^2 m^2 sin^2(pi dt f)).", "quantifier": "all nodes, non-negative coefficients and exponents, all durations and steps that give an even number of at least 4 samples, all standard white sources, all averaging times that the deviation keeps; limits as n grows", "why_tests_cant": "A test makes one series, or averages over some, and looks at it on a log-log plot; an average over all outcomes and a limit in n are out of reach, and a shift of the frequency grid by one step is invisible there except in the lowest few coefficients.", "anchors": ["allantools/noise.py:timmer_koenig_from_psd", "allantools/noise.py:numpy_psd", "allantools/allantools.py:oadev", "allantools/allantools.py:ohdev", "allantools/allantools.py:mdev"]}
{"id": "C102", "title": "The bias of mtotdev, ttotdev and htotdev", "statement": "mtotdev, ttotdev and htotdev are returned without bias correction. For white phase noise the expected squares of mtotdev and ttotdev are those of mdev and tdev times bias0(m); for white frequency noise they are those of mdev and tdev times bias1(m), and that of htotdev is, for m > 1, that of ohdev times bias0(m); for random walk frequency noise with any drift the expected square of htotdev is, for m > 1, that of ohdev times bias1(m). The two functions are explicit rational functions of m, different for even and odd m, between 1/2 (at m = 1) and 1, and do not depend on the length of the data. They tend to 4837/4860 and 4993/6480, which agree with the factors 0.995 (W FM) and 0.771 (RW FM) in the docstring of htotdev, but not with the factors 0.94 (WPM) and 0.73 (WFM) in the docstring of mtotdev: dividing by these would make the squares at least 5% too large.", "quantifier": "all series lengths, sampling rates, taus arguments and averaging factors, all white sources of any mean and variance; limits as m grows", "why_tests_cant": "A test compares one data set with another program; an expected value over all outcomes, for all averaging factors, cannot be tested, and the docstrings' factors are not used by the code.", "anchors": ["allantools/allantools.py:mtotdev", "allantools/allantools.py:calc_mtotdev_phase", "allantools/allantools.py:ttotdev", "allantools/allantools.py:htotdev", "allantools/allantools.py:calc_htotdev_freq"]}
{"id": "C103", "title": "The bias of mtotdev, ttotdev and htotdev for noises with white second differences", "statement": "For random walk frequency noise the expected squares of mtotdev and ttotdev are those of mdev and tdev times bias2(m). For random run frequency noise (frequencies with white second differences of variance s2) the expected squares of hdev and ohdev are s2 (11m^4 + 5m^2 + 4)/(120 m), and that of htotdev is, for m > 1, bias2(m) times it. bias2 is an explicit rational function of m, different for even and odd m, between 1/2 (at m = 1) and 7/10, independent of the length of the data. It tends to 2709331/3991680, which agrees with the factor 0.679 (RR FM) in the docstring of htotdev, but not with the factor 0.69 (RWFM) in the docstring of mtotdev, which is 1.5% too large.", "quantifier": "all series lengths, sampling rates, taus arguments and averaging factors, all zero-mean white sources of any variance, any starting phase and frequency; limit as m grows", "why_tests_cant": "A test compares one data set with another program; an expected value over all outcomes, for all averaging factors, cannot be tested, and the docstrings' factors are not used by the code.", "anchors": ["allantools/allantools.py:mtotdev", "allantools/allantools.py:calc_mtotdev_phase", "allantools/allantools.py:ttotdev", "allantools/allantools.py:htotdev", "allantools/allantools.py:calc_htotdev_freq"]}
{"id": "C104", "title": "totdev, theo1 and pdev of random walk frequency noise", "statement": "For N frequencies whose increments are white with mean 0 and variance s2: for 2m <= N the expected square of totdev is that of adev times 1 + (1 - 3 (m^4 + [m odd]) / (2m (2m^2 + 1))) / (N - 1), which lies between 1 - 0.75 m/(N-1) and 11/(8(N-1)) above it (0.75 is the bias of the reference named by the FIXME in the docstring); that of theo1 is s2 (5m^2 + 6m + 4)/(54 m), so that the Allan variance at 0.75 m is larger by a factor that tends to 2.7 (the bias in the reference SP1065; also a FIXME); that of pdev is s2 (13m^6 - 14m^4 + 7m^2 - 6)/(35 m^5) for m > 1 and s2/2 for m = 1, which tends to 39/35 of the Allan variance.", "quantifier": "all series lengths, sampling rates, taus arguments and averaging factors, all zero-mean white increments of any variance, any starting frequency", "why_tests_cant": "A test compares one data set with another program; an expected value over all outcomes, for all averaging factors and lengths, cannot be tested.", "anchors": ["allantools/allantools.py:totdev", "allantools/allantools.py:theo1", "allantools/allantools.py:pdev"]}
{"id": "C105", "title": "No overflow or underflow in mtotdev, ttotdev and htotdev", "statement": "For data that are zero or from 2^-100 to 2^100 in magnitude and rates from 2^-40 to 2^40, the rounding error bounds of C100 hold for mtotdev and ttotdev of at most 2^26 phases and for htotdev of at most 2^39 phases or frequencies when only the results in the range of the normal doubles are known to be rounded correctly: no step of the computation leaves that range. The same for mtotdev and ttotdev of fewer than 2^22 frequencies that are zero or from 2^-64 to 2^64 in magnitude, at rates from 2^-10 to 2^10.", "quantifier": "all such data of any length up to these limits, all such rates, all taus arguments whose products with the rate are in the normal range, all orders of summation, all behaviours of the arithmetic outside the normal range", "why_tests_cant": "An underflow in an intermediate product shows for extreme combinations of data, rate and averaging factor only; a test tries a few.", "anchors": ["allantools/allantools.py:calc_mtotdev_phase", "allantools/allantools.py:ttotdev", "allantools/allantools.py:calc_htotdev_freq"]}
{"id": "C106", "title": "No overflow or underflow in the streaming classes", "statement": "For phases or frequencies that are zero or from 2^-100 to 2^100 in magnitude and a sampling interval from 2^-40 to 2^40, the rounding error bounds of C91 for oadev_realtime, ohdev_realtime, tdev_realtime and the method mdev hold when only the results in the range of the normal doubles are known to be rounded correctly: in a stream of up to 2^45 samples no operation leaves that range, no divisor is rounded to zero and no exception is raised.", "quantifier": "all such streams of any length up to the limit, all such sampling intervals, all lists of averaging factors (factors up to 2^46 for mdev), all behaviours of the arithmetic outside the normal range", "why_tests_cant": "The running sums depend on the whole stream, and a range error appears for extreme combinations of data, interval, averaging factor and length only.", "anchors": ["allantools/realtime.py:oadev_realtime.update_S", "allantools/realtime.py:ohdev_realtime.update_S", "allantools/realtime.py:tdev_realtime.update_S", "allantools/realtime.py:tdev_realtime.mdev", "allantools/realtime.py:dev_realtime.add_frequency"]}
{"id": "C107", "title": "Streaming and batch results agree in double precision", "statement": "After any stream of phases the deviation that oadev_realtime, ohdev_realtime or tdev_realtime (or its method mdev) holds for an averaging factor and the deviation that oadev, ohdev, tdev or mdev computes from the same phases at the same averaging time, both with every operation rounded, differ by at most 4(n+17) roundings of the deviation (n terms) plus an absolute part proportional to the largest phase, when the sampling interval is the reciprocal of the rate up to one rounding. The same where only results in the range of the normal doubles are known to be rounded correctly, for phases that are doubles, zero or from 2^-100 to 2^100 in magnitude, and rates and sampling intervals from 2^-40 to 2^40.", "quantifier": "all streams of up to 2^46 phases of any size, all rates and sampling intervals with tau0*rate within one rounding of 1, all lists of averaging factors, all factors with more than one term, all orders of summation", "why_tests_cant": "The two computations round in a different order; how far they drift apart depends on every sample of the stream.", "anchors": ["allantools/realtime.py:oadev_realtime", "allantools/realtime.py:ohdev_realtime", "allantools/realtime.py:tdev_realtime", "allantools/allantools.py:oadev", "allantools/allantools.py:ohdev", "allantools/allantools.py:mdev", "allantools/allantools.py:tdev"]}
{"id": "C108", "title": "NaN in the data of pdev, totdev, theo1, mtotdev, ttotdev and htotdev", "statement": "Let phase data contain NaN and replace them by arbitrary numbers. pdev, totdev, theo1, mtotdev, ttotdev and htotdev raise on the data with NaN the exception they raise on the completed data, or return the same averaging times and counts; in each row deviation and error bar are the same numbers if no sample that enters is NaN, and NaN otherwise. Every sample enters at every averaging time, also where only running sums or reflected copies see it, except that pdev with m >= 2 never looks at the last sample. Of frequency data, NaN at the ends do not matter for any deviation but htotdev, where a single NaN anywhere makes every value with m >= 2 NaN; a NaN between two numbers makes every value of the other five NaN.", "quantifier": "all data with any set of NaN, all completions, rates, taus arguments", "why_tests_cant": "The tests contain gaps only for gradev; positions of NaN relative to windows, reflections and running sums are combinatorially many.", "anchors": ["allantools/allantools.py:calc_pdev_phase", "allantools/allantools.py:totdev", "allantools/allantools.py:theo1", "allantools/allantools.py:calc_mtotdev_phase", "allantools/allantools.py:ttotdev", "allantools/allantools.py:htotdev", "allantools/allantools.py:calc_htotdev_freq", "allantools/allantools.py:frequency2phase"]}
{"id": "C109", "title": "NaN in the stream of the streaming classes", "statement": "Feed a stream that contains NaN to oadev_realtime, ohdev_realtime or tdev_realtime. Nothing raises. With fixed averaging factors the value of a factor is 0 while there are too few samples, NaN if a sample that the batch function reads for this factor is NaN, and otherwise what it is for the stream with the NaN replaced by any numbers; so streaming and batch report the same numbers and the same NaN at the same averaging times, also through tdev_realtime.mdev(). A value that is NaN stays NaN whatever follows. With automatic factors the same holds for the samples used since the factor was added, which for oadev_realtime excludes the first sample for every factor but 1. After a NaN frequency sample every phase and hence every value with enough samples is NaN.", "quantifier": "all three classes, all streams with any set of NaN, all completions, all lists of positive factors, tau0 > 0, every number of factors per decade", "why_tests_cant": "A test feeds a few streams; whether a NaN is ever forgotten depends on the position of the NaN relative to every factor and on all later samples.", "anchors": ["allantools/realtime.py:dev_realtime", "allantools/realtime.py:oadev_realtime", "allantools/realtime.py:ohdev_realtime", "allantools/realtime.py:tdev_realtime"]}
{"id": "C110", "title": "Rounding errors of the three-cornered hat", "statement": "In double precision three_cornered_hat_phase raises the same exception as in exact arithmetic, or returns the same counts, taus within one rounding, error bars dev/sqrt(n) within three roundings, and deviations whose error is bounded by the errors of the three deviations it combines. Let E be the resulting error of the variance, half the sum of the three products error*(2 dev + error) plus a few roundings of the sum of squares. Then the deviation of clock A is within 17/16 sqrt(E) plus one rounding, and within 17/16 E/dev plus one rounding. The subtraction can lose every digit: with the deviations 1, 1, 2^-30 the result is 0 instead of 2^-30.5.", "quantifier": "all series, all deviation functions with a given error bound (oadev in particular), all summation orders, all roundings with relative error 2^-53", "why_tests_cant": "The error depends on the cancellation of three variances; a test with three generated clocks of similar noise never meets it.", "anchors": ["allantools/allantools.py:three_cornered_hat_phase"]}
{"id": "C111", "title": "Rounding errors of gradev", "statement": "In double precision gradev of phase data with gaps raises the same exception as in exact arithmetic, or returns the same averaging factors, the same counts, taus within one rounding, and deviations within the error bound of oadev for the number of complete second differences, wherever the gaps are.", "quantifier": "all phase data with any set of NaN and numbers bounded by B, rate > 0, up to 2^47 samples, all taus near multiples of 1/rate, all noise types and confidence levels, all summation orders", "why_tests_cant": "The set of terms depends on the gaps; no test covers the patterns of gaps times the orders of summation.", "anchors": ["allantools/allantools.py:gradev", "allantools/allantools.py:calc_gradev_phase"]}
{"id": "C112", "title": "NaN in the data of gcodev and of the three-cornered hat", "statement": "gcodev of two phase series of the same length with NaN, and three_cornered_hat_phase of three with any of the fourteen deviation functions: replace the NaN by any numbers; the call raises the same exception, or returns the same averaging times and counts, and in the row of factor m the same deviation and error if no sample used for m in any of the series is NaN, and NaN for both otherwise; a NaN variance is not set to 0. gcodev of frequency data removes the NaN at the ends of each series separately: two series that lack different ends are multiplied with a time shift, without a warning, and the result can be 0 for two records that agree wherever both have a value.", "quantifier": "all series, all sets of NaN, all rates and taus, all deviation functions", "why_tests_cant": "No test passes NaN to these functions, and the shift shows only when the two series lack different ends.", "anchors": ["allantools/allantools.py:gcodev", "allantools/allantools.py:calc_gcodev_phase", "allantools/allantools.py:three_cornered_hat_phase", "allantools/allantools.py:trim_data"]}
{"id": "C113", "title": "Automatic averaging factors in double precision", "statement": "With auto_afs and up to five points per decade, every operation rounded and a table of powers of ten that carries rounding errors, the streaming classes have after any stream exactly the averaging factors that they have in exact arithmetic (no product falls on the wrong side of a tie, so no factor is doubled, lost or added late); every deviation is within the bound of C91 of the one of exact arithmetic, and zero as long as there are too few samples. For ohdev_realtime this is the batch value. The method mdev of tdev_realtime adds at most five relative rounding errors.", "quantifier": "all streams of up to 2^40 phases or fewer than 2^40 frequencies, all sampling intervals, one to five points per decade, all tables with relative errors up to 2^-50, all rounding functions", "why_tests_cant": "A factor that is off by one because a product is rounded across a tie shows only at one position of the table, after up to 10^12 samples.", "anchors": ["allantools/realtime.py:update_af", "allantools/realtime.py:add_phase", "allantools/realtime.py:dev_realtime.__init__"]}
{"id": "C114", "title": "Rounding errors of mtie with its low-memory loop", "statement": "With every operation rounded to double precision, mtie on phase data raises the same error as the same computation in exact arithmetic, or returns the same counts, the same taus up to one rounding, each value up to one relative rounding error and its error bar up to four, whichever rolling windows fail for lack of memory and are replaced by the low-memory loop. The loop compares rounded differences and may settle on another window than in exact arithmetic, but its value is still within one rounding. Hence no value exceeds the true MTIE by more than one relative rounding error; at m = 1 the loop returns zero for all data, as it does in exact arithmetic (C16).", "quantifier": "all phase lists up to 2^47 values, all rates, all lists of taus away from ties and all keywords, all sets of failing windows, all rounding functions with relative error 2^-53", "why_tests_cant": "The loop runs only when numpy cannot allocate the windows, which no test arranges, and its comparisons involve rounded values.", "anchors": ["allantools/allantools.py:mtie"]}
{"id": "C115", "title": "NaN in the data of mtie when the windows do not fit in memory", "statement": "Let phase data contain NaN and replace them by arbitrary numbers. Whichever rolling windows fail for lack of memory, mtie raises on the data with NaN the exception it raises on the completed data, or returns the same averaging times and counts. Where the windows fit, the value is NaN if there is a NaN anywhere. Where the low-memory loop runs, it is NaN exactly if one of the first m samples is NaN; otherwise it is a number between 0 and the MTIE of any completion. The loop can then have ignored all samples after the NaN: the value stays the same whatever follows, however large the true MTIE is. Without NaN the loop is that of C16.", "quantifier": "all phase lists with NaN at any places, all completions, all rates and taus, all sets of failing windows", "why_tests_cant": "The loop runs only when numpy cannot allocate the windows, and the effect depends on where the NaN is in relation to the extremes.", "anchors": ["allantools/allantools.py:mtie"]}
{"id": "C116", "title": "mtie_phase_fast in double precision", "statement": "In double precision, on fewer than 2^40 samples and with a base-2 logarithm accurate to four units and exact for powers of two, mtie_phase_fast raises what it raises in exact arithmetic, or returns the same taus, error bars and counts and, as values, the exact values rounded once. A computed logarithm that is rounded up to the next integer makes the function raise AssertionError; with a correctly rounded logarithm this happens for 2^49 - 1 samples.", "quantifier": "all phase lists shorter than 2^40, all roundings with relative error 2^-53 (for the equality: round to nearest of 53 bits), all such logarithms", "why_tests_cant": "Tests compare with tolerances on a few series; the length at which the rounded logarithm is wrong cannot be allocated.", "anchors": ["allantools/allantools.py:mtie_phase_fast"]}
{"id": "C117", "title": "NaN in the data of mtie_phase_fast", "statement": "Let phase data contain NaN and replace them by arbitrary numbers. mtie_phase_fast raises on the data with NaN the exception it raises on the completed data, or returns the same taus, error bars and counts. The value for windows of 2^(k+1) points is NaN exactly if one of these windows starts with a NaN. Otherwise it is a number between 0 and the value of any completion, equal to it if the samples used have no NaN. A NaN can hide the samples after it: the value can stay 0 whatever follows the NaN.", "quantifier": "all phase lists with NaN at any places, all completions", "why_tests_cant": "Python's max and min of two numbers depend on the order of the arguments when one is NaN, so the effect depends on the place of the NaN in every window.", "anchors": ["allantools/allantools.py:mtie_phase_fast"]}
{"id": "C118", "title": "mtie with its low-memory loop and mtie_phase_fast with a limited range of exponents", "statement": "The bounds of C114 and C116 also hold for a rounding that is known only for results in the normal range of double precision (so overflow and underflow are not excluded by assumption), for samples that are 0 or between 2^-100 and 2^100 in magnitude and rates between 2^-40 and 2^40.", "quantifier": "all phase lists of moderate samples (up to 2^47, for mtie_phase_fast fewer than 2^40), all rates and taus in range, all sets of failing windows, all roundings that are round to nearest in the normal range", "why_tests_cant": "Whether an intermediate result overflows or underflows depends on all magnitudes that occur.", "anchors": ["allantools/allantools.py:mtie", "allantools/allantools.py:mtie_phase_fast"]}
{"id": "C119", "title": "three_cornered_hat_phase and gradev with a limited range of exponents", "statement": "The bounds of C110 for the three-cornered hat of oadev and of C111 for gradev of phase data (with or without NaN) also hold for a rounding that is known only for results in the normal range of double precision, for samples that are 0 or between 2^-100 and 2^100 in magnitude and rates between 2^-40 and 2^40: although the hat squares the deviations again, no result overflows or underflows.", "quantifier": "all series of up to 2^47 moderate samples, all rates and taus in range, all roundings that are round to nearest in the normal range, all orders of summation", "why_tests_cant": "Whether an intermediate result overflows or underflows depends on all magnitudes that occur.", "anchors": ["allantools/allantools.py:three_cornered_hat_phase", "allantools/allantools.py:gradev"]}
{"id": "C120", "title": "gradev without gaps in double precision", "statement": "For phase data without NaN, gradev in floating point fails exactly as oadev or returns the same taus, deviations and counts bit for bit, for every rounding and order of summation. For frequency data without NaN its deviations agree with those of exact arithmetic within the bound of oadev of frequency data, also with a limited range of exponents for moderate data.", "quantifier": "all phase lists up to 2^47 and frequency lists up to 2^46, positive rates, taus, confidence levels and noise types, all roundings with relative error at most 2^-53, all orders of summation", "why_tests_cant": "Bit equality for all data depends on every operation of both functions being the same; tests compare a few data sets with a tolerance.", "anchors": ["allantools/allantools.py:gradev", "allantools/allantools.py:calc_gradev_phase", "allantools/allantools.py:oadev", "allantools/allantools.py:frequency2phase"]}
{"id": "C121", "title": "Scaling by a power of two is exact in double precision", "statement": "If all samples are multiplied by 2^k or by -2^k, then adev, oadev, hdev, ohdev, mdev and tdev, computed in rounding to nearest even with 53 bits and unlimited exponents, return the same taus and counts, and deviations and error bars multiplied by exactly 2^k; or they fail with the same exception. This holds for phase and for frequency data.", "quantifier": "all lists of phase or frequency samples of any length, all integers k, all rates and taus including those on which the functions fail, all summations that commute with the scaling", "why_tests_cant": "Exact equality has to hold for all data and all exponents; tests compare a few scaled data sets with a tolerance.", "anchors": ["allantools/allantools.py:calc_adev_phase", "allantools/allantools.py:calc_hdev_phase", "allantools/allantools.py:mdev", "allantools/allantools.py:tdev", "allantools/allantools.py:frequency2phase"]}
{"id": "C122", "title": "Scaling by a power of two is exact in double precision, the other functions", "statement": "If all samples are multiplied by 2^k or by -2^k, then totdev, pdev, theo1, tierms, mtie, mtotdev, ttotdev, htotdev and gcodev (both data sets multiplied by the same number), computed in rounding to nearest even with 53 bits and unlimited exponents, return the same taus and counts, and deviations and error bars multiplied by exactly 2^k; or they fail with the same exception. This holds for phase and for frequency data.", "quantifier": "all lists of phase or frequency samples of any length, all integers k, all rates and taus including those on which the functions fail, all summations that commute with the scaling", "why_tests_cant": "Exact equality has to hold for all data and all exponents; tests compare a few scaled data sets with a tolerance.", "anchors": ["allantools/allantools.py:totdev", "allantools/allantools.py:calc_pdev_phase", "allantools/allantools.py:theo1", "allantools/allantools.py:tierms", "allantools/allantools.py:mtie", "allantools/allantools.py:calc_mtotdev_phase", "allantools/allantools.py:calc_htotdev_freq", "allantools/allantools.py:calc_gcodev_phase"]}
{"id": "C123", "title": "Another unit of time is exact in double precision", "statement": "If the rate is multiplied by 2^k and the given averaging times by 2^-k (keywords unchanged), then for phase data, computed in rounding to nearest even with 53 bits and unlimited exponents, the averaging times of the table are multiplied by exactly 2^-k; deviations and error bars of adev, oadev, hdev, ohdev, mdev, mtotdev, totdev, pdev and theo1 are multiplied by exactly 2^k; those of tdev, ttotdev, tierms and mtie do not change; counts and exceptions do not change.", "quantifier": "all lists of phase samples of any length, all integers k, all rates and taus (lists, arrays and keywords) including those on which the functions fail, all summations", "why_tests_cant": "Exact equality of the chosen averaging factors and of all results has to hold for all data, rates and averaging times; tests use a few rates.", "anchors": ["allantools/allantools.py:tau_generator", "allantools/allantools.py:calc_adev_phase", "allantools/allantools.py:calc_hdev_phase", "allantools/allantools.py:mdev", "allantools/allantools.py:tdev", "allantools/allantools.py:calc_mtotdev_phase", "allantools/allantools.py:totdev", "allantools/allantools.py:calc_pdev_phase", "allantools/allantools.py:theo1"]}
{"id": "C124", "title": "Another unit of time is exact in double precision for frequency data", "statement": "If the rate is multiplied by 2^k and the given averaging times by 2^-k (keywords unchanged), then for fractional frequency data, computed in rounding to nearest even with 53 bits and unlimited exponents, deviations and error bars of adev, oadev, hdev, ohdev, mdev, mtotdev, totdev, pdev and theo1 do not change; those of tdev, ttotdev, tierms and mtie are multiplied by exactly 2^-k, as are the averaging times of the table; counts and exceptions do not change.", "quantifier": "all lists of frequency samples of any length, all integers k, all rates and taus (lists, arrays and keywords) including those on which the functions fail, all summations that commute with powers of two", "why_tests_cant": "Exact equality through the conversion to phase and the deviations has to hold for all data, rates and averaging times; tests use a few rates.", "anchors": ["allantools/allantools.py:frequency2phase", "allantools/allantools.py:input_to_phase", "allantools/allantools.py:tau_generator", "allantools/allantools.py:calc_adev_phase", "allantools/allantools.py:calc_hdev_phase", "allantools/allantools.py:mdev", "allantools/allantools.py:tdev", "allantools/allantools.py:calc_mtotdev_phase", "allantools/allantools.py:totdev", "allantools/allantools.py:calc_pdev_phase", "allantools/allantools.py:theo1"]}
{"id": "C125", "title": "gcodev, htotdev and the three-cornered hat in other units are exact in double precision", "statement": "Computed in rounding to nearest even with 53 bits and unlimited exponents: if the rate is multiplied by 2^k and the given averaging times by 2^-k, deviations and error bars of gcodev and htotdev of phase data are multiplied by exactly 2^k and those of frequency data do not change. If the three tables a three-cornered hat is made of are multiplied by 2^j, so are its deviations and error bars; with oadev, this holds for data multiplied by 2^j and for the change of the rate.", "quantifier": "all lists of samples of any length, all integers j and k, all rates and taus including those on which the functions fail, all summations that commute with powers of two, for the hat all deviation functions", "why_tests_cant": "Exact equality, including the clipping of negative variances in the hat and the sign of the covariance in gcodev, has to hold for all data and rates; tests use a few.", "anchors": ["allantools/allantools.py:gcodev", "allantools/allantools.py:calc_gcodev_phase", "allantools/allantools.py:htotdev", "allantools/allantools.py:calc_htotdev_freq", "allantools/allantools.py:phase2frequency", "allantools/allantools.py:three_cornered_hat_phase"]}
{"id": "C126", "title": "gradev in other units is exact in double precision", "statement": "If all phases are multiplied by 2^j or -2^j (missing values stay missing), the rate by 2^k and the given averaging times by 2^-k, then gradev, computed in rounding to nearest even with 53 bits and unlimited exponents, returns averaging times multiplied by exactly 2^-k and deviations multiplied by exactly 2^(j+k); the error bars, computed from these in exact arithmetic, have the same factor; missing error bars, counts and exceptions do not change. For frequencies without missing values the factors are 2^-k and 2^j.", "quantifier": "all lists of phases of any length with any gaps and all lists of frequencies, all integers j and k, all rates, taus, confidence levels and noise types including those on which gradev fails, all summations that commute with powers of two, all quantile functions", "why_tests_cant": "Exact equality has to hold for all data, gaps and units; tests use a few records.", "anchors": ["allantools/allantools.py:gradev", "allantools/allantools.py:calc_gradev_phase", "allantools/ci.py:confidence_interval"]}
{"id": "C127", "title": "mtie_phase_fast scales exactly in double precision", "statement": "If all phases are multiplied by 2^k, mtie_phase_fast, computed in rounding to nearest even with 53 bits and unlimited exponents, returns the same taus, error bars (zeros) and counts and values multiplied by exactly 2^k, or fails with the same exception.", "quantifier": "all lists of phases of any length, all integers k, whatever the computed logarithm of the length is", "why_tests_cant": "Exact equality through all columns of the recursion has to hold for all data and lengths; tests use a few records.", "anchors": ["allantools/allantools.py:mtie_phase_fast"]}
