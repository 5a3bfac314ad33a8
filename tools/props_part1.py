import json
P=[]
def add(title, statement, quantifier, why, anchors):
    P.append(dict(id="C%02d"%(len(P)+1), title=title, statement=statement, quantifier=quantifier, why_tests_cant=why, anchors=anchors))

U="tftb/utils.py"
add("divider returns the closest factor pair",
 "For every integer N >= 1, divider(N) returns (a, b) with a*b = N, and no other factorisation c*d = N has |c-d| < |a-b|. divider(0) = (0, 0); a negative N raises ValueError.",
 "all integers N", "the search loop has a different number of iterations and a different exit point for every N; a test only samples N",
 [U+":divider"])
add("nearest_odd returns a nearest odd integer, scalars and arrays alike",
 "For every real number N, nearest_odd(N) is an odd integer and no odd integer is closer to N. For every array, the array form returns, element by element, the value the scalar form returns.",
 "all real N; all arrays of any length", "four-way case split on fractional part and parity, over an infinite domain",
 [U+":nearest_odd"])
add("modulo gives the representative in (0, N]",
 "For every real (in particular integer) array x and every modulus N > 0, modulo(x, N) has the length of x and its k-th entry y satisfies 0 < y <= N and x[k] - y is an integer multiple of N; this determines y uniquely.",
 "all arrays, all moduli", "infinite domain, including negative entries and exact multiples of N", [U+":modulo"])
add("nextpow2 is the least sufficient exponent",
 "For every integer n >= 1, nextpow2(n) is the least integer k >= 0 with n <= 2**k; for n <= 0 it raises ValueError.",
 "all integers n", "must hold between and at all powers of two", [U+":nextpow2"])
add("is_linear accepts every affine array and only almost-affine arrays",
 "For every array of at least two samples in arithmetic progression, is_linear(x, d) is True for every d. Whenever is_linear(x, d) is True, x has at least two samples and any two consecutive differences of x differ by at most 10**-d. Arrays with fewer than two samples give False.",
 "all arrays, all decimals d", "quantifies over arrays of every length and every rounding precision", [U+":is_linear"])
add("izak inverts the Zak transform and preserves energy",
 "For every complex n-by-m matrix X (n, m >= 1), izak(X) has n*m samples and the same energy (sum of squared moduli) as X; and izak applied to the Zak transform (the one gabor computes) of any signal of n*m samples gives back the signal. A one-dimensional input always raises IndexError.",
 "all shapes and all matrices", "an identity between infinitely many sums", [U+":izak", "tftb/processing/linear.py:gabor"])

A="tftb/generators/amplitude_modulated.py"
add("amplitude modulations are normalised envelopes around their time centre",
 "For every n_points >= 1, every centre t0 and every spread > 0, amgauss, amexpos (bilateral), amrect and amtriang return n_points samples in [0, 1]; the sample depends only on the distance d of its time to the centre, is 1 at d = 0, and never increases with d. (amgauss numbers its samples from 1, the others from 0.) Unilateral amexpos is 0 strictly before the centre, 1 at the centre and strictly decreasing after it.",
 "all lengths, centres and spreads", "infinite family of real parameters", [A+":amgauss", A+":amexpos", A+":amrect", A+":amtriang"])
add("amplitude modulations reject empty lengths",
 "amgauss, amexpos, amrect and amtriang never return for n_points <= 0: they raise TypeError when n_points = 0 or an explicit spread is given, and ValueError when n_points < 0 with the default spread. With a zero spread amtriang gives NaN and amrect keeps only the sample at the centre; amgauss and bilateral amexpos give NaN if a sample lies on the centre and zeros otherwise, unilateral amexpos NaN if a sample lies on or before the centre and zeros otherwise.",
 "all n_points <= 0, all other arguments", "infinite family of invalid lengths", [A+":amgauss", A+":amexpos", A+":amrect", A+":amtriang"])

F="tftb/generators/frequency_modulated.py"
add("fmconst is a unit-modulus pure tone of the requested frequency",
 "For every n_points >= 1, |fnorm| <= 0.5 and integer time centre 0 <= t0 < n_points (in particular the default), fmconst returns n_points samples of modulus 1 with value 1 at index t0 and each sample equal to the previous one rotated by 2*pi*fnorm, and the frequency law is constantly fnorm. It raises TypeError for n_points <= 0 or |fnorm| > 0.5, and IndexError for t0 >= n_points. A centre between two samples divides by the real part of the sample before it: the modulus is then not 1, and the result is NaN when that real part vanishes.",
 "all lengths, frequencies and centres", "real parameter space", [F+":fmconst"])
add("fmlin is a unit-modulus chirp whose law is the linear interpolation",
 "For every n_points >= 2, |fnormi|,|fnormf| <= 0.5 and integer 1 <= t0 <= n_points (in particular the default), fmlin returns n_points samples of modulus 1, with value 1 at index t0-1, a frequency law going linearly from fnormi (first sample) to fnormf (last), and the phase advance from sample k-1 to k+1 is exactly 2*2*pi*law[k]. n_points = 1 raises ZeroDivisionError.",
 "all lengths, frequencies and centres", "real parameter space", [F+":fmlin"])
add("fmodany integrates an arbitrary frequency law",
 "For every law of samples in [-0.5, 0.5] and every integer 1 <= t0 < len(law), fmodany returns unit-modulus samples with value 1 at index t0 and each sample is the previous one rotated by 2*pi*law[k]. Laws leaving [-0.5, 0.5], t0 = 0 and t0 > len raise TypeError; t0 = len(law), which the check admits, raises IndexError. A negative integer t0 counts from the end (the value 1 is at len(law) + t0; IndexError before the beginning). With a float t0, the documented type, fmodany never returns: IndexError if the checks pass. A law given as a column skips the range check; any other matrix raises TypeError.",
 "all laws of all lengths, all t0", "arbitrary-length input", [F+":fmodany"])
add("hyperbolic and power laws pass through the two requested points",
 "fmhyp(n, (t1,f1), (t2,f2)) with t1, t2 distinct positive sample times returns unit-modulus samples whose frequency law takes the value f1 at time t1 and f2 at time t2; fmpower with two points does the same for its power law at positive times. fmpower(n, k, (f0, c)) has law f0 + c t^-k and the primitive of that law as phase at t = 1, ..., n-1; its first sample is 1 for k < 1 and NaN for k > 1. The phase of fmhyp is a primitive of its law. Exponent one (fmpower), a reference time zero and equal reference times raise ZeroDivisionError. fmpower wants two numbers or four: with fewer than two it raises UnboundLocalError, with three IndexError, and it ignores those beyond four. With an even degree negative reference times count as positive ones; a negative reference time with a degree that is not an integer gives a complex law and samples that do not have unit modulus (points (-1, 0) and (1, 1), degree 1/2: the second sample has modulus exp(pi)).",
 "all lengths, points and degrees", "real parameter space", [F+":fmhyp", F+":fmpower"])
add("aliasing warning is exact",
 "fmhyp and fmpar warn about undersampling exactly when some sample of the returned frequency law is outside [0, 0.5]; fmpower when some sample is outside [0, 0.5] or infinite, the latter whenever k > 0 and c is not zero.",
 "all lengths and coefficients", "the warning depends on the extremes of a law over every sample", [F+":fmhyp", F+":fmpar"])
add("fmsin stays inside its band and hits fnorm0 at t0",
 "For fnormin < fnormax, fnorm0 in [fnormin, fnormax], pm1 = 1 or -1 and period > 0, every sample of fmsin's frequency law is in [fnormin, fnormax], the law is fnorm0 at time t0, it is periodic with the period, and the signal has modulus 1.",
 "all parameters", "real parameter space", [F+":fmsin"])
add("estimating the instantaneous frequency of a generated signal recovers its law",
 "inst_freq of a signal made by fmconst, fmlin or fmodany returns the generator's own frequency law: at time t it is law[t-1] for fmconst and fmlin, and the mean of law[t-1] and law[t] for fmodany, whenever the law lies in (0, 0.5]. This is unchanged by any strictly positive amplitude modulation of the signal.",
 "all lengths, laws, centres and positive amplitude envelopes", "composition of two modules over a continuum of laws", [F+":fmconst", F+":fmlin", F+":fmodany", "tftb/processing/freq_domain.py:inst_freq"])
add("inst_freq is always a frequency in (0, 0.5]",
 "For every complex signal and every vector of admissible time instants inst_freq returns one value in (0, 0.5] per instant; by default the instants are 2..len-1.",
 "all signals and instants", "arbitrary inputs", ["tftb/processing/freq_domain.py:inst_freq"])

G="tftb/generators/utils.py"
add("sigmerge mixes at exactly the requested energy ratio",
 "For all x1, x2 of equal length with x2 not zero and every ratio in dB, sigmerge returns x1 + h*x2 with h >= 0 (h > 0 unless x1 is zero) such that energy(x1) = 10**(ratio/10) * energy(h*x2); multiplying x2 by a positive number changes nothing and multiplying x1 by one multiplies the result. Lengths that differ raise ValueError unless one of them is 1, silent signals or not; a single sample is then used against every sample of the other signal, the ratio being that of the mean powers. A silent x2 gives NaN; an empty signal together with an empty signal or a single sample gives an empty one.",
 "all signals, lengths and ratios", "arbitrary inputs", [G+":sigmerge"])
N="tftb/generators/analytic_signals.py"
add("ASK and BPSK signals have the right length, alphabet and block structure for every random draw",
 "For every n_points >= 2, block length n_comp >= 1, carrier f0 in [0, 0.5] and every outcome of the random generator, anaask/anabpsk return n_points samples: the carrier of frequency f0 (phase zero at sample 1) times an amplitude law that is constant on consecutive blocks of n_comp samples, lies in [0,1) for ASK and is -1 or +1 for BPSK. So the modulus of the ASK signal is its amplitude law and the square of the BPSK signal is the squared carrier, whatever was drawn. A carrier outside [0, 0.5] raises TypeError; a single sample always raises; a negative block length raises ValueError.",
 "all lengths, block lengths, carriers and random outcomes", "random outputs cannot be enumerated", [N+":anaask", N+":anabpsk"])
add("FSK and QPSK alphabets and lengths",
 "For every random outcome anafsk uses on each block one of Nbf equally spaced frequencies, all strictly inside (1/8, 3/8), each for one Nbf-th of the range of the draw, with unit modulus and a phase that advances by 2 pi times the frequency of the sample; its length is ceil(n_points/n_comp)*n_comp, so it is n_points exactly when n_comp divides n_points (the default call on 128 points gives 130). anaqpsk, when n_comp divides n_points, returns n_points samples of the carrier turned by a multiple of pi/2 that is constant on blocks, so its fourth power is that of the carrier; when n_comp does not divide n_points (n_points > 1), as in the default call on 128 points, it raises ValueError. Negative block lengths raise ValueError, except that anafsk returns empty arrays when the block is longer than the signal. anaqpsk raises TypeError exactly when the carrier is outside [0, 1/2]; empty blocks (the default for at most two points) and an empty alphabet raise ZeroDivisionError; anaqpsk of one point with blocks of b samples returns b equal samples instead of one.",
 "all lengths, block lengths, alphabets and random outcomes", "random outputs cannot be enumerated", [N+":anafsk", N+":anaqpsk"])
add("the analytic projection keeps the real part and removes negative frequencies",
 "For every n_points >= 1 and every real ti, anapulse is the analytic signal of the unit impulse at ti and anastep that of the step which is 1 strictly after ti: the real part is the given signal, the strictly negative frequency bins are empty, and the bins at zero and (even lengths) at Nyquist are those of the real signal. These conditions determine the signal. The default ti is round(n_points/2); without points both raise ValueError.",
 "all lengths and positions", "every length needs its own DFT identity", [N+":anapulse", N+":anastep"])
O="tftb/generators/noise.py"
add("noise generators return n_points samples of an analytic signal for every draw, with variance at most one",
 "For every n_points >= 3 and every random draw that is not constant, noisecu and noisecg return exactly n_points samples: the last ones of the analytic signal of the draws, scaled to variance 1/2, on the next power of two. On a power of two of samples the empirical variance is exactly 1 - (alternating sum of the draws)^2 / (2 N^2 var(draws)), hence never above 1. Constant draws give NaN. For two points and fewer noisecu returns a column; noisecg raises TypeError for 1 and 2 points and AssertionError below.",
 "all lengths and random draws", "random outputs cannot be enumerated", [O+":noisecu", O+":noisecg"])
M="tftb/generators/misc.py"
add("atoms is an additive superposition",
 "For every n_points >= 1 and every list of atoms with non-zero spread and time centre rounding below n_points, atoms returns the sum of the Gaussian atoms described by the rows (centre clamped to [1, n_points] and rounded, frequency clamped to [0, 1/2]); hence concatenating atom lists adds signals. With a zero spread among them a sample is NaN. An atom whose centre rounds to n_points makes it raise IndexError whatever the others, as do fewer than four columns and every one-dimensional description. A negative n_points raises ValueError, n_points = 0 with atoms TypeError; an empty list gives zeros.",
 "all lists of atoms of any length", "arbitrary number of atoms", [M+":atoms"])
add("doppler has a unit-modulus carrier and a decreasing frequency law through f0 at closest approach",
 "For every admissible parameter set with s_freq > 0 and v_wave > 0, doppler's fm has modulus 1, its frequency law is the derivative of its phase, is non-increasing in time, equals f0/s_freq at t0 and differs from it by at most the fraction v_target/v_wave; the amplitude is one over the square root of the distance (the scalar 0 when f0 is below machine epsilon). Each violated precondition raises TypeError; with the default t0 a single sample is refused. Otherwise NaN or infinities are computed exactly when s_freq or v_wave is 0.",
 "all parameters", "real parameter space", [M+":doppler"])
add("klauder, altes and gdpower return unit-energy signals with the prescribed spectrum, chirp law and group delay",
 "klauder(n) for n >= 2 and 0 < f0 < 1/2 returns 2*floor(n/2) real samples of energy 1 and mean 0, symmetric about and largest at the middle sample, with the Klauder spectrum, whose peak is at f0 - 1/(4 pi a). altes (0 < fmin < fmax, alpha > 1) returns (unless the chirp vanishes at every sample) n samples of energy 1 of a chirp with envelope between 0 and 1, equal to 1/alpha at both ends, and hyperbolic frequency law from g*fmax to g*fmin, g = exp(log(fmax/fmin)^2 / (8 log alpha)). gdpower (degree not 1, rate not 0, n >= 3) returns n samples of mean 0 and energy 1 whose bins from ceil(n/2) on are empty and whose bin k holds the amplitude and phase of frequency (k+1)/(2 ceil(n/2)), and a group delay that is the derivative of the spectral phase at the frequencies returned (plus n+1 for a negative rate). A zero rate raises TypeError; no points raise ZeroDivisionError (degree below 1 and of the sign opposite to the rate) or ValueError.",
 "all lengths and parameters", "real parameter space", [M+":klauder", M+":altes", M+":gdpower"])
add("mexhat is an even wavelet with its extreme value in the middle",
 "For every 0 < nu <= 0.5, mexhat returns 2*ceil(1.5/nu)+1 samples of the Mexican hat, symmetric about the middle one, which alone attains the maximum nu*sqrt(pi)/2. A sample is positive exactly when its distance d from the middle satisfies (pi nu d)^2 < 1/2; the samples fall away from the middle as long as (pi nu d)^2 <= 3/2 and rise from there on, and none is below -exp(-3/2)*nu*sqrt(pi). Outside [0, 0.5] it raises AssertionError and at 0 ZeroDivisionError.",
 "all frequencies nu", "real parameter space", [M+":mexhat"])
B="tftb/processing/base.py"; L="tftb/processing/linear.py"; C="tftb/processing/cohen.py"
add("frequency axis labels",
 "For every even number of bins n the frequency axis of a representation object has n entries, entry k being the frequency of DFT bin k in [-0.5, 0.5). For every odd n it has only n-1 entries, one fewer than the representation has rows.",
 "all bin counts", "all n", [B+":BaseTFRepresentation.__init__"])
add("STFT is the windowed Fourier sum",
 "For every signal, window of odd length and bin count n with half-window < n/2, column m row k of ShortTimeFourierTransform.run is the sum over lags tau of x[m-1+tau]*conj(h[tau])*exp(-2i*pi*k*tau/n), samples outside the signal counting as zero. It never raises and does not depend on the timestamp values.",
 "all signals, windows, bin counts, timestamp vectors", "arbitrary-size inputs", [L+":ShortTimeFourierTransform.run"])
add("STFT is linear",
 "STFT(a*x + b*y) = a*STFT(x) + b*STFT(y) for all signals of equal length, all scalars and all windows and bin counts.",
 "all signals and scalars", "the unit test checks one pair", [L+":ShortTimeFourierTransform.run"])
add("STFT modulation shifts rows exactly",
 "Multiplying the signal by exp(2i*pi*m*t/n) (n the number of bins) moves the STFT rows by m cyclically, up to the phase exp(2i*pi*m*(t-1)/n) of column t; the squared modulus is just rolled.",
 "all signals, integer shifts m", "the unit test checks one approximately", [L+":ShortTimeFourierTransform.run"])
add("STFT and spectrogram conserve energy column by column",
 "For every column the mean over bins of |STFT|^2 is the energy of the windowed segment; the mean over bins of a Spectrogram column is the weighted average of |x|^2 with weights |h|^2 over the part of the window that fits in the signal and the bins, hence lies between any bounds on |x|^2, and equals 1 for every unit-modulus signal. For the spectrogram the window must not vanish on the whole of a segment in use (the code would divide 0 by 0); the default window never does.",
 "all signals, windows, bin counts, columns", "arbitrary inputs", [L+":ShortTimeFourierTransform.run", C+":Spectrogram.run"])
add("Spectrogram is non-negative, quadratic and modulation-covariant",
 "For every window that does not vanish on the whole of a segment in use: times the energy of the part of the window in use, each entry of the spectrogram is the squared modulus of the windowed Fourier sum. Every entry of a returned spectrogram is a non-negative real; scaling the signal by a scales it by |a|^2; modulating by an integer number of bins rolls the rows. For n_fbins > 0 a fresh object computes a NaN exactly when the window vanishes on the whole of a non-empty segment in use.",
 "all signals, scalars, windows", "arbitrary inputs", [C+":Spectrogram.run"])
add("Wigner-Ville run returns exactly for the right sizes",
 "With default parameters WignerVilleDistribution(x).run() returns for every signal with len(x) % 4 != 1 or len(x) = 1, and raises IndexError for every signal with len(x) % 4 = 1 and len(x) >= 5. With explicit n_fbins it returns exactly when no column lies in the Nyquist-lag zone.",
 "all signals and all bin counts", "depends on the residue of the length; a test uses a fixed length", [C+":WignerVilleDistribution.run"])
add("Wigner-Ville is the textbook lag sum and is real",
 "When it returns, entry (k, t) is sum over |tau| <= min(t, N-1-t, round(n/2)-1) of x[t+tau]*conj(x[t-tau])*exp(-2i*pi*k*tau/n), and this complex sum is real, so taking the real part loses nothing.",
 "all signals", "arbitrary inputs", [C+":WignerVilleDistribution.run"])
add("Wigner-Ville time marginal and energy",
 "For every signal (N >= 2, where run returns) the sum over bins of column t is n_fbins*|x[t]|^2 and the grand total is n_fbins times the signal energy.",
 "all signals", "the unit test checks one signal", [C+":WignerVilleDistribution.run"])
add("Wigner-Ville support and covariance",
 "If x vanishes before (after) an instant, so does its Wigner-Ville distribution; scaling x by a scales it by |a|^2; modulating x by exp(2i*pi*m*t/(2n)) rolls rows by m; conjugating x flips the frequency axis; reversing x in time reverses the columns and the frequency axis.",
 "all signals, scalars, shifts", "arbitrary inputs", [C+":WignerVilleDistribution.run"])
add("pseudo Wigner-Ville: real for Hermitian windows, exact time marginal",
 "For every signal and odd window with half-length < round(n/2), PseudoWignerVilleDistribution.run returns; for Hermitian-symmetric windows (the default Hamming window included) the complex sum is real; column t sums to n*Re(h[centre])*|x[t]|^2, which for the default window is n*|x[t]|^2.",
 "all signals, windows, bin counts", "arbitrary inputs", [C+":PseudoWignerVilleDistribution.run", B+":_make_window"])
add("smoothed pseudo Wigner-Ville time marginal",
 "Whenever smoothed_pseudo_wigner_ville returns for an instant ti, the column sum divided by freq_bins is the average of |x|^2 around sample ti-1 weighted by the (renormalised) time window; even-length windows raise ValueError. A time window whose available part has zero sum at the first instant makes it compute a NaN. With time weights of non-zero sum it returns exactly when no instant t has round(freq_bins/2) < t <= N - round(freq_bins/2) while the frequency window reaches round(freq_bins/2) samples to each side; otherwise it raises IndexError.",
 "all signals, windows, timestamps, bin counts", "arbitrary inputs", [C+":smoothed_pseudo_wigner_ville"])
add("Margenau-Hill closed form and time marginal",
 "With default parameters entry (k, t) of MargenauHillDistribution.run is Re(x[t]*exp(-2i*pi*k*t/N)*conj(sum over s = 1..N-1 of x[s]*exp(-2i*pi*k*s/N))); for t >= 1 the column sums to N*|x[t]|^2, but column 0 sums to 0 because lag 0 is missing there.",
 "all signals", "arbitrary inputs", [C+":MargenauHillDistribution.run"])
add("Page representation closed form",
 "With default parameters entry (k, t) of PageRepresentation.run is Re(sum over all s of x[t]*conj(x[s])*exp(-2i*pi*k*(t-1-s)/N)); in particular it is real, quadratic in x, and its column sum is N*Re(x[t]*conj(x[t-1 mod N])).",
 "all signals", "arbitrary inputs", [C+":PageRepresentation.run"])
add("repeatability of run()",
 "Calling run() again on the same representation object should give the same result. It does not: for every signal with x[0] != 0 (length >= 2, run returning) the second WignerVilleDistribution.run returns a different column 0, because the work matrix is not cleared.",
 "all signals; histories of calls", "needs call histories and all signals", [C+":WignerVilleDistribution.run", L+":ShortTimeFourierTransform.run"])
add("plotting changes the stored representation but repeated plotting is harmless where promised",
 "plot() replaces the stored representation by a thresholded (cropped, squared) version. For WignerVilleDistribution (sqmod False) and Spectrogram any number of further plot() calls leaves the stored representation unchanged; MargenauHillDistribution halves the number of rows at each call.",
 "all stored matrices, all numbers of plot calls", "needs call histories", [C+":WignerVilleDistribution.plot", C+":Spectrogram.plot", C+":MargenauHillDistribution.plot", L+":ShortTimeFourierTransform.plot"])
H="tftb/processing/ambiguity.py"
add("narrow-band ambiguity function: labels, symmetry, maximum at the origin",
 "For every signal and bin count n >= len, row with Doppler label xi and column with lag tau of narrow_band is sum over t of x[t+tau]*conj(x[t-tau])*exp(-2i*pi*xi*t); it is Hermitian: A(-xi,-tau) = conj A(xi,tau); its modulus is at most its value at the origin, which is the signal energy.",
 "all signals, lags, bin counts", "the unit test checks one signal; the symmetry test is skipped", [H+":narrow_band"])
add("narrow-band ambiguity volume",
 "For every signal the sum of |A|^2 over the default lags and all n Doppler bins is n*(E_even^2 + E_odd^2), E_even and E_odd being the energies of the even- and odd-indexed samples; so it is n/2*E^2 exactly when the two are equal.",
 "all signals", "the unit test asserts the n/2*E^2 form for one signal", [H+":narrow_band"])
add("loctime: centre inside the signal, exact on impulses, scale invariant, shift covariant",
 "For every non-zero signal loctime's centre is in [0, N-1] and its spread is >= 0; scaling the signal changes neither; a signal concentrated on sample k gives (k, 0); delaying a signal by d samples (zero padded) adds d to the centre and keeps the spread's variance.",
 "all signals", "arbitrary inputs", ["tftb/processing/time_domain.py:loctime"])
add("locfreq: bounded, scale and delay invariant, exact on tones; undefined sizes",
 "For every non-zero signal of even length N locfreq returns a centre in [-0.5, 0.5) and a bandwidth >= 0, unchanged by scaling and by circular delay; a pure tone on DFT bin k gives that bin's frequency and bandwidth 0. The same holds for N % 4 = 3, except that the bin labels then start at -(N+1)/(2N) instead of -(N-1)/(2N), so that the centre can fall below -0.5. For N % 4 = 1, N >= 5, it raises ValueError (for the zero signal too), and for N = 1 it is undefined (NaN). These, the empty signal (ValueError) and silence (NaN) are the only signals for which it does not return.",
 "all signals", "depends on the residue of the length", ["tftb/processing/freq_domain.py:locfreq"])
add("group_delay of an impulse and range",
 "For every signal with nowhere-vanishing spectrum, every group_delay value is 0 or in [1, N+3]; an impulse at sample k gives the constant k+1; a gain factor does not change it. It is undefined (NaN or infinity) exactly when the spectrum vanishes at one of the frequencies asked for.",
 "all signals, frequencies", "arbitrary inputs", ["tftb/processing/freq_domain.py:group_delay"])
V="tftb/processing/utils.py"
add("integrate_2d is the two-dimensional trapezoidal rule",
 "For every matrix with at least 2 columns, uniform time grid and any frequency grid, integrate_2d is the iterated trapezoidal rule: linear, exact on bilinear (affine-in-each) integrands, non-negative on non-negative matrices with increasing grids, and unchanged by translating the grids.",
 "all matrices and grids", "arbitrary inputs", [V+":integrate_2d"])
add("derive_window is the centred difference and is odd for even windows",
 "For every window of n >= 2 samples the interior of derive_window is (w[k+1]-w[k-1])/2; for symmetric windows the result is antisymmetric (hence 0 in the middle).",
 "all windows", "arbitrary inputs", [V+":derive_window"])
Q="tftb/processing/postprocessing.py"
add("Renyi information invariances",
 "renyi_information does not change when the distribution is multiplied by any non-zero constant (alpha != 1) or positive constant (alpha = 1), nor when the time axis is translated; for alpha = 1 a distribution with a negative value raises ValueError. On a uniform time axis the value is log2(I(p^alpha) + eps)/(1 - alpha), for alpha = 1 -I(p log2(p + eps)), I the trapezoidal integral with increasing frequencies and p the distribution divided by its integral; it is NaN or infinite exactly when the integral vanishes, or p is negative at a fractional order or zero at a negative one, or a logarithm has a non-positive argument.",
 "all distributions, grids and orders", "arbitrary inputs", [Q+":renyi_information"])
add("renyi_information mutates its arguments",
 "A call with time axis 0..n-1 leaves the caller's time array incremented by one, and any call sorts the caller's frequency array in place; a second identical call returns the same value.",
 "all arguments; call histories", "needs call histories", [Q+":renyi_information"])
add("ideal_tfr marks exactly the bins of the laws",
 "For every set of laws with values in [0, 0.5] and integer timestamps, ideal_tfr returns a 0/1 matrix with 1 at (row, column) exactly when some law at that instant rounds to the row's bin; each column has between 1 and (number of laws) ones. Two defects: a law equal to the returned frequency label of a row k > n/2 is marked in row k-1, and an undefined (NaN) law value is written with row and column exchanged, so for a single law all NaNs end up in column 0.",
 "all laws", "arbitrary inputs", [Q+":ideal_tfr"])
add("friedman_density is a probability distribution",
 "Whenever some entry of tfr exceeds half its mean (for a non-negative tfr: whenever it is not zero), friedman_density returns non-negative entries that sum to 1, entry (r, c) being the proportion of the entries above half the mean that are in column c and are reassigned to row r; otherwise every entry is NaN. A reassignment matrix that does not cover some entry above half the mean raises IndexError.",
 "all matrices", "arbitrary inputs", [Q+":friedman_density"])
add("Hough transform votes stay in range and conserve sign",
 "For every non-empty image and m, n >= 1, hough_transform never indexes outside its accumulator; cell (r, k) is the sum of the pixels above 5% of the maximum whose line at angle 2*pi*k/n has a non-negative distance rounding to r steps, so no vote is lost, non-negative images give non-negative accumulators, aligned pixels add up in one cell and a gain scales the result. Defect: the returned distance axis has n entries instead of m.",
 "all images and sizes", "real-valued rho/theta rounding over all pixels", [Q+":hough_transform"])
R="tftb/processing/reassigned.py"
add("reassignment conserves energy",
 "For every signal, window and timestamps for which reassigned spectrogram returns, the reassigned matrix has the same total as the spectrogram and is entrywise non-negative; for the reassigned pseudo Wigner-Ville every column keeps its sum (reassignment is along frequency only).",
 "all signals and windows", "scatter-add over data-dependent targets", [R+":spectrogram", R+":pseudo_wigner_ville"])
add("public functions that can never return",
 "Reassigned pseudo_margenau_hill, pseudo_page and smoothed_pseudo_wigner_ville (the latter exported), PseudoPageRepresentation.run (with at least one instant), scale, UnterbergerDistribution with form other than 'A' (two voices or more in a band 0 < fmin < fmax), gdpower(degree=1) and a cross (two-column) AffineDistribution raise for every input.",
 "all inputs", "a universally quantified failure", [R+":pseudo_margenau_hill", R+":pseudo_page", R+":smoothed_pseudo_wigner_ville", C+":PseudoPageRepresentation", G+":scale", M+":gdpower", "tftb/processing/affine.py:AffineDistribution"])
add("scalogram: what is computed, how it is normalised, which parameters work",
 "For every signal of n >= 2 samples and every band 0 < fmin < fmax <= 1 (given or found), Scalogram.run with n voices and a wavelet parameter above 1/2 returns n x n entries at the geometric frequencies fmin (fmax/fmin)^(p/(n-1)): entry (p, t) is a common non-negative factor times (f_p / fmax) |W_p(t)|^2, W the Morlet transform of the analytic signal of the centred real part, and the factor makes the trapezoidal integral over time and frequency equal to 1/n of the energy of the analytic signal in bins 1+round(fmin (n-2)) to 1+round(fmax (n-2)); the returned coefficients are delayed by the half length of the wavelet. With waveparams 0 and fmax <= 1/2 the same holds for the Mexican hat, but everything is stored one sample early. Multiplying the signal by a real c multiplies the result by c^2 and the coefficients by c; adding a real constant or an imaginary signal changes nothing; a constant real part gives NaN. More voices than samples raise IndexError, between 3 and n-1 voices raise ValueError, a wavelet parameter in (0, 1/2] raises IndexError, a negative one gives NaN, an array raises ValueError; a zero fmin or opposite edges raise ZeroDivisionError, other edges that are not positive ValueError, AssertionError or NaN according to the wavelet parameter. The Unterberger, D-Flandrin and Bertrand distributions are normalised the same way over bins one lower, whatever the interpolation produced.",
 "all signals, bands and parameters", "an integral identity over arbitrary inputs; claims for every length and every number of voices", ["tftb/processing/affine.py:Scalogram.run", "tftb/processing/affine.py:AffineDistribution._get_interpolated_tf"])
add("wide-band ambiguity: entries, reference value, number of voices and default band",
 "For every signal of n >= 2 samples, every band 0 < fmin < fmax <= 1 and every N >= 2, wide_band returns an N x n matrix with lags -round(n/2) ... and log-dilations (2r/(N-1) - 1) ln(fmax/fmin), whose entries are the inverse transform of the product of the Mellin transforms (negative half of the Mellin axis) of the analytic signal and of its delayed copy, halves exchanged, times a constant; the entry at row ceil(N/2)-1 and lag -1 (dilation 1 only for odd N) equals 1/N of the energy of the analytic signal in the band; NaN if that entry vanishes. Along lag 0 the modulus is largest at row N - ceil(N/2). Multiplying the signal by a real c multiplies the result by c^2; the imaginary part has no influence. Without N the number of voices is the least power of two not below the even part of ceil(fmax (n-1) ln(fmax/fmin)), and ValueError is raised when that even part is zero; N = 1 raises ZeroDivisionError. The default band is read off the time samples of the analytic signal instead of its spectrum: every tone of at least 22 samples, whatever its bin, gets [0.01, 0.5]; a silent real part raises ValueError. Given edges that are equal, opposite or with fmin = 0 raise ZeroDivisionError; other given edges without a positive ratio raise ValueError without N. When the default edges are degenerate (only the first place strong, or a single strong place on the grid of the edges), and for every signal of two samples, the default call raises ValueError. Two-dimensional arguments are refused unless one dimension is 1.",
 "all signals, bands and numbers of voices", "closed forms and inequalities over arbitrary inputs", [H+":wide_band"])
add("default analysis band of affine distributions",
 "For every signal of n >= 2 samples whose real part is not silent in the bins looked at, the default band of every affine distribution is fmin = max(0.01, 0.05 floor(f_lo/0.05)), fmax = 0.05 ceil(f_hi/0.05), f_lo and f_hi the outermost of the first round(n/2) bins of the real part (bin k labelled k / (2 round(n/2))) whose power exceeds 1% of the largest, so fmax is a multiple of 0.05 not above 0.5 and the band contains those of them at or above 0.01; the imaginary part has no influence. A given edge is used as it is. Fewer than two samples, and a real part that is silent in those bins, raise ValueError. A constant gets the reversed band fmin = 0.01, fmax = 0; a tone at bin k gets the multiples of 0.05 around its frequency, which is an empty band (fmin = fmax) when the frequency is itself a multiple of 0.05.",
 "all signals", "a claim about every spectrum, including the boundary spectra that no test uses", ["tftb/processing/affine.py:AffineDistribution.__init__"])
add("gabor computes an exact dual window on square-root lattices, and what it does without arguments",
 "For all Q, b >= 1, every real window of odd length that fits and every signal of Q b^2 samples, gabor(signal, n_coeff=Q b, q_oversample=Q, window) returns: the dual window depends on the window and lattice only and its Zak transform is that of the placed window divided by the power of its aliases; coefficient (r, n) is the inner product of the signal with the dual window moved by n b (and half the signal) and modulated by r / (Q b); the coefficients are linear in the signal, the representation is their squared modulus; and if the power nowhere falls under the threshold 2^-52, the signal is recovered exactly from the coefficients with the placed window. Even-length windows raise ValueError, a window of odd length that does not fit raises IndexError, and a lattice that does not tile the signal raises ValueError (m = Q*len//n_coeff does not divide the length, or len//m is neither len//n_coeff nor 1). Without arguments, gabor recovers exactly signals whose length is the square of an odd prime (up to 10^5), returns identically zero coefficients for every signal of odd prime length, and ZeroDivisionError for the empty signal. For every call with explicit arguments the exact outcome is determined: the order of the exceptions (ZeroDivisionError, ValueError, IndexError), a signal with fewer samples than n_coeff raises IndexError at the latest, and otherwise m x n_coeff coefficients are returned; when m equals the length, the returned dual window is constant on blocks of len//n_coeff samples whatever the window. Without arguments gabor returns exactly for lengths that are 1, a prime, the square of a prime, twice a prime other than 3, or 8, and raises ValueError for every other length.",
 "all signals, windows, lattices", "an inversion identity over all inputs; number-theoretic case analysis over all lengths", [L+":gabor", "tftb/utils.py:izak", "tftb/utils.py:modulo", "tftb/utils.py:divider"])
F="tftb/generators/frequency_modulated.py"
add("the phase of a frequency-modulated signal is the integral of its law",
 "For fmconst, fmlin, fmhyp and fmsin the phase of the returned signal is 2*pi times a function of time whose derivative at every sample time is the returned frequency law. This fails for fmpar: there are parameters for which the signal's phase is not a primitive of the returned law.",
 "all admissible parameters", "a statement about derivatives for all parameters", [F+":fmconst", F+":fmlin", F+":fmhyp", F+":fmsin", F+":fmpar"])
add("pseudo Margenau-Hill distribution: windowed lag product, one lag off",
 "For every signal, window of odd length 2L+1 short enough for the frequency grid and timestamps no longer than the signal, column c of a run of the pseudo Margenau-Hill distribution is the transform over |lag| <= L of h[L+lag] x[c] conj(x[c-1-lag]): the second factor is one sample late and the column index is used instead of the timestamp, so every column sums to n h[L] x[c] conj(x[c-1]) rather than |x[c]|^2; with default arguments it returns for every signal of at least three samples and raises for one or two.",
 "all signals, windows, timestamps", "an identity over all real-valued inputs", ["tftb/processing/cohen.py:PseudoMargenauHillDistribution.run"])
add("ridges returns only the last column, and ignores the threshold",
 "For every representation, reassignment matrix and timestamps of matching sizes, ridges returns the fixed points of the reassignment of one column only, the last one that has any, all at the instant of that column and with increasing frequencies; for 'rsp', 'type1' and 'rspwv' the result does not depend on the values of the representation (the energy threshold is never applied); with no fixed point at all it fails with UnboundLocalError, and an unknown method raises ValueError. Fewer timestamps, or fewer columns of the reassignment matrix, than the representation has columns raise IndexError.",
 "all matrices, timestamps and methods", "arbitrary inputs and loop histories", [Q+":ridges"])
add("where the reassigned spectrogram puts energy",
    "For every signal, odd window of at least three samples with non-zero centre, regular in-range timestamps and n_fbins >= 2, the reassigned spectrogram returns, its first result is the windowed power spectrum normalised by the window energy actually used, and its second result adds each entry to exactly one documented destination (the entry's own cell when it is below 1e-6 of the mean power). An impulse (not on the last sample) keeps everything above the threshold in its own column, for every window; a tone in bin k0 is moved to bin k0-1 and one column to the left - not to its own cell; and the call without a window raises ValueError for every non-zero signal of 2 to 7 samples. Unevenly spaced timestamps and windows of even length raise ValueError. With a window of at least three samples and n_fbins >= 2 a NaN is computed as soon as the window vanishes on the whole of a segment in use.",
    "all signals, windows, timestamps, bin counts", "data-dependent destinations; off-by-one only visible against the analytic reassignment operators",
    ["tftb/processing/reassigned.py:spectrogram"])

add("anasing is the analytic signal of a singularity of the requested strength",
 "For strength h > 0 and every n_points >= 1, the real part of anasing at t is M - |t - t0|**h with M such that it is non-negative and reaches zero. For h <= 0 and n_points >= 4 the real part has minimum zero and exceeds its mean by at most (and somewhere exactly) one, and the bins k of positive frequency hold nu**(-1-h) at the phase of the instant t0 - 1 up to a common positive factor, where nu = k/n_points when n_points is even. In both cases the spectrum is analytic. h <= 0 with fewer than four points has no finite answer.",
 "all lengths, instants (also between samples) and strengths", "real parameter space", [N+":anasing"])
add("dopnoise returns n_points - 1 samples of unit energy for every draw",
 "For every n_points >= 2, all non-degenerate parameters and every random draw whose filtered output is not identically zero on the returned samples (else NaN), dopnoise returns n_points - 1 samples of energy 1 and the Doppler law of the instants 2 ... n_points; the signal is, up to a positive factor, the analytic signal of the recursively filtered draws damped by the square root of the distance. A zero sampling frequency or wave velocity, or a source that meets the observer at one of the instants 3 - n_points ... n_points, gives NaN. For fewer than two points it raises ValueError.",
 "all lengths, parameters and random draws", "random outputs cannot be enumerated", ["tftb/generators/noise.py:dopnoise"])
A="tftb/processing/affine.py"
add("lambdak is the dilation function of each affine distribution",
 "For every real u, lambdak(u, k) is u / (1 - e^-u) for 'bertrand' (1 at u = 0), e^(u/2) for 'unterberger', 4 / (1 + e^(-u/2))^2 for 'd_flandrin' and 2 / (1 + e^-u) for 'aspwv'; the last three are NaN at u = 0, where the limit is 1. Each is positive and strictly increasing and satisfies lambda(-u) = e^-u lambda(u), the symmetry that makes the distributions covariant. Any other name raises KeyError.",
 "all real u, all names", "functional equations over a continuum", [A+":lambdak"])
add("umaxdfla_solve returns the dilation that spans the band",
 "For every ratio r >= 0, umaxdfla_solve(r) is 4 |sqrt r - 1| / (sqrt r + 1); for r >= 1 it lies in [0, 4), is strictly increasing in r, is the same for r and 1/r, and is the number u with ((1 + u/4) / (1 - u/4))^2 = r. For negative r it is 4.",
 "all real ratios", "the minimal-modulus root of a family of quadratics", [A+":umaxdfla_solve"])
add("what Unterberger, D-Flandrin and Bertrand runs compute",
 "For every signal, band 0 < fmin < fmax <= 1, number of voices >= 2, regular timestamps and admissible sizes, the representation computed by UnterbergerDistribution (active form), DFlandrinDistribution and BertrandDistribution before the interpolation has frequencies in geometric progression from fmin to fmax, and its entry (i, j) is f_i times the inverse Fourier transform over the dilations u of the product of the spectrum of the real part dilated by lambda(-u) with the conjugate of the spectrum dilated by lambda(u); every row sums to f_i |X(f_i)|^2. A run is, for whatever the spline routine answers, those rows interpolated at (t - (n-1)/2) f_i (one sample later for Unterberger), times one factor that makes the trapezoidal integral, times the number of voices, equal the energy of the analytic signal in the band; a zero integral gives NaN.",
 "all signals, bands, voice counts, timestamps and spline routines", "an identity over all real-valued inputs", [A+":UnterbergerDistribution.run", A+":DFlandrinDistribution.run", A+":BertrandDistribution.run", A+":AffineDistribution._geometric_sample", A+":AffineDistribution._mellin_transform", A+":AffineDistribution._get_interpolated_tf"])
add("constructors of the affine distributions choose enough dilations",
 "For every non-empty signal and band 0 < fmin < fmax, the constructors of the Unterberger, D-Flandrin and Bertrand distributions set umax with lambda(umax) / lambda(-umax) = fmax / fmin, and at least 4 m fmax umax dilations (m half the number of samples, rounded up), which avoids aliasing; the only exception is Bertrand with an odd number n = 2m - 1 of samples and 1/2 < fmax umax <= m / n, where there are always too few. Without n_voices, the number of voices is the least power of two not below the even part of ceil(fmax (2 m1 - 1) ln(fmax / fmin)), but AttributeError is raised whenever fmax umax <= 1/2 (for Bertrand: <= m / n). Bertrand's constructor raises ValueError whenever fmax > e^4 fmin. Equal edges: Bertrand's constructor raises ZeroDivisionError, the two others accept the band (with a given number of voices) but every run raises. Reversed edges: Bertrand's constructor raises ValueError, Unterberger's accepts them and every run raises. One voice raises ZeroDivisionError at the run, no voice ValueError (for negative edges too; ZeroDivisionError if an edge is 0).",
 "all signals and bands", "inequalities over a continuum of bands", [A+":UnterbergerDistribution.__init__", A+":DFlandrinDistribution.__init__", A+":BertrandDistribution.__init__", A+":AffineDistribution._get_nvoices"])
add("the affine smoothed pseudo Wigner distribution carries no frequency information",
 "For every signal and all arguments, whatever smoothed_pseudo_wigner returns has rank one: at each instant the values at two frequencies are in the ratio of the frequencies. A call returns only if both band edges are given, fmax ln(fmax/fmin) is not in [0, 1/2), nh0 is a Python integer equal to the number of voices and to the number of samples (or 2), the kernel is 'bertrand' and there are as many instants as samples; every other call raises. Without a band the error is TypeError (ValueError below two samples), with another number of instants ValueError; with as many instants and voices as samples in a band 0 < fmin < fmax, TypeError if nh0 is a float (as is its default) or the band is narrow, ValueError if nh0 is another integer than the number of samples. fmin = 0, opposite edges or a single voice raise ZeroDivisionError; other edges without a positive ratio raise ValueError, AssertionError or ZeroDivisionError according to the number of voices and nh0. When it returns with n voices for n samples in a band 0 < fmin < fmax <= 1, the entry is f_i S_t times a constant, where S_t is the sum over the dilations of the squared Mellin transforms, weighted by the smoothing window, of the delayed Morlet coefficients of the centred signal, and the constant makes n times the trapezoidal integral equal the energy of the analytic signal in the band; a zero integral gives NaN.",
 "all signals, timestamps, kernels, windows and bands", "rank and failure domain over all inputs", [A+":smoothed_pseudo_wigner"])
add("where the reassigned pseudo Wigner-Ville distribution puts the energy",
 "For every signal, odd window of at least three samples with non-zero centre, number of bins and non-negative timestamps (of which the smallest is a sample index), reassigned.pseudo_wigner_ville returns unless the window reaches half the bins and some instant is further than that from both borders, in which case it raises IndexError. Its first result at (k, t) is the real part of the windowed lag sum around sample t - 1 (not t), so that the column of instant 0 is zero; its second result adds every entry to exactly one bin of the same column, given by the ratio with the sum for the derived window and one bin too low. A tone of frequency k0/(2n) is moved from bin k0 to bin k0 - 1; an impulse at sample p gives |A|^2 in all the bins of instant p + 1 before and after reassignment, and zero elsewhere. The default call raises ValueError on signals of 2 to 7 samples unless all samples but the last are negligible. Windows of even length raise ValueError.",
 "all signals, windows, timestamps, bin counts", "data-dependent destinations over all real-valued inputs; one-off errors only visible against the analytic operator", ["tftb/processing/reassigned.py:pseudo_wigner_ville"])
B="tftb/processing/base.py"
add("what plots put at which frequency and instant, and what they change",
 "For every signal, timestamps and number of bins: the images of the short-time Fourier transform (first half of the rows, squared and thresholded) and of the Wigner-Ville distribution put every row within half a bin of its frequency; the Margenau-Hill image puts every row exactly half a bin too high; the pseudo Wigner-Ville contour puts row r at r/(2(n-1)) instead of r/(2n), and its image on an axis starting at -1/2; the panel of the spectrum shows bin ceil(N/2)-1-j at ordinate j of a downward axis, and raises ValueError when the caller gives coordinates of different lengths. The default plot of an affine distribution puts its geometrically spaced voices at linearly spaced ordinates, all but the outer two too high, and its spectrum upside down; with fewer voices than half the number of samples it raises; the scalogram is drawn on [0, 1/2] whatever its band. Surfaces raise ValueError unless there are as many bins as samples, and then show the moduli over the sample numbers and r/(2(N-1)), whatever the instants and the bins. Plotting an affine distribution erases in place every negative value of the array that run returned; plotting a spectrogram changes the lower half of it in place when the threshold is positive, and nothing at the default threshold. The Margenau-Hill plot raises TypeError when given an extent. A contour of a single instant, or with axes given by the caller that do not match the array, raises TypeError. Every plot with nothing to draw (no bin, no instant, or one bin where the first half is drawn) raises ValueError. plotifl shows [0, 1/2] exactly when no law is negative, else [-1/2, 1/2], and raises ValueError when there is no number to draw.",
 "all signals, timestamps, bin counts, thresholds and bands", "rendered figures are not compared by tests; relation between axes and rows over all sizes", [B+":BaseTFRepresentation.plot", B+":BaseTFRepresentation._plot_tfr", B+":BaseTFRepresentation._plot_spectrum", "tftb/processing/linear.py:ShortTimeFourierTransform.plot", "tftb/processing/cohen.py:WignerVilleDistribution.plot", "tftb/processing/cohen.py:PseudoWignerVilleDistribution.plot", A+":AffineDistribution.plot", "tftb/processing/plotifl.py:plotifl"])
add("the Wigner-Ville distribution determines the signal up to one phase for the even and one for the odd samples",
 "For every signal and number of bins for which the run returns, the matrix gives back, by an inverse Fourier sum down a column, the product x[a] conj(x[b]) of any two samples of equal parity. Two signals of the same length therefore have the same matrix exactly when they differ by one unit factor on the even samples and one on the odd samples. The scalar product of two matrices is n times the sum of the squared moduli of the scalar products of the even and of the odd samples (Moyal's formula with two terms). The matrix of narrow_band with default lags is the two-dimensional Fourier transform of the Wigner-Ville matrix at the returned labels.",
 "all signals, lengths, bin counts", "an equivalence over all pairs of signals", ["tftb/processing/cohen.py:WignerVilleDistribution.run", "tftb/processing/ambiguity.py:narrow_band"])
add("which samples the short-time Fourier transform keeps",
 "For every signal, window of length 2L+1 or 2L+2 with 2L < n_fbins and timestamps, the inverse Fourier sum of column m at lag s, |s| <= L, is x[m-1+s] conj(h[L+s]); two signals of the same length have the same transform exactly when they agree on every sample that some column sees with a non-zero window value. With default arguments the transform determines the signal from eight samples on; with fewer than eight, exactly the last sample is lost: it has no influence on the result.",
 "all pairs of signals, windows, timestamps and bin counts", "an equivalence over all pairs of signals", ["tftb/processing/linear.py:ShortTimeFourierTransform.run"])

add("morlet_scalogram sums wavelet coefficients and never reassigns",
    "For a positive tbp, at least one bin, at least two regular timestamps inside the signal, every coefficient of morlet_scalogram is an explicit sum: scale m (rows m and n-m, 1 <= m < n//2) uses the tabulated atom at places m*tau-1 for the samples from the instant on and m*tau before it, plus the last tabulated value times the previous sample (cyclically); row round(n/2) uses places m*tau and takes the current sample twice; every other row is zero. The call returns exactly when no squared coefficient exceeds one millionth of the mean power, and then the second result equals the first; otherwise it raises IndexError. Hence every impulse is refused (two bins or more, tbp up to 100000), one bin or a zero signal gives zeros, timestamps at or after the end raise IndexError, no bins or tbp = 0 raise ZeroDivisionError, a negative tbp never gives a finite answer (with two bins or more it raises IndexError exactly when the atom, of ceil(tbp*n*sqrt(2 ln 1000)) + round(n/2) + 1 samples, has at least two and fewer than round(n/2)), and irregular or fewer than two timestamps raise ValueError.",
    "all signals, timestamps, bin counts and time-bandwidth products",
    "The sums run over arbitrary signals and sizes; a test sees one scalogram, and the wrapped index that adds a sample from the end is invisible in it.",
    ["tftb/processing/reassigned.py:246-358"])

add("signals given as columns, rows or matrices",
    "locfreq, inst_freq and group_delay treat a column or a row of samples exactly like the one-dimensional signal and raise TypeError for any other matrix. loctime does not: of any column of n samples with non-zero energy it answers centre (n-1)/2 and spread 2 sqrt(pi (n^2-1)/12) whatever the samples, of any row of non-zero energy centre 0 and spread 0, of a square matrix the localisation of the column index; silent ones of these give NaN, and any other matrix, silent or not, raises ValueError. Representation objects analyse the concatenation of the rows of any matrix.",
    "all signals, columns, rows and matrices", "the wrong answers are plausible numbers; only a statement over all columns shows that the samples are ignored",
    ["tftb/processing/time_domain.py:loctime", "tftb/processing/freq_domain.py:locfreq", "tftb/processing/freq_domain.py:inst_freq", "tftb/processing/freq_domain.py:group_delay", B+":BaseTFRepresentation.__init__"])

add("Wigner-Ville distributions of chirps peak at the law the generator returns",
    "What fmlin(n, f0, f1, t0) returns, for every centre it accepts, is a chirp of modulus one whose instantaneous frequency at sample t is the returned law at t; what fmconst returns is a tone of constant modulus. The Wigner-Ville distribution of a chirp at row k and sample t is the Dirichlet kernel |A|^2 sin((2T+1) pi d)/sin(pi d) with d the distance from the label, T the number of available lags; no row exceeds |A|^2 (2T+1), and for T >= 1 exactly the rows whose label k/(2n) equals the law modulo 1/2 reach it. The same, with the sum of the window over the available lags, for the pseudo Wigner-Ville distribution with any non-negative window, the default one included.",
    "all lengths, frequencies, centres, numbers of bins, instants, rows and non-negative odd windows", "localisation on the law is checked on one plotted chirp; the exact peak value and the rows reaching it depend on every lag of every instant",
    ["tftb/generators/frequency_modulated.py:fmlin", "tftb/generators/frequency_modulated.py:fmconst", "tftb/processing/cohen.py:WignerVilleDistribution", "tftb/processing/cohen.py:PseudoWignerVilleDistribution"])

add("short-time Fourier transform and spectrogram of a tone peak at its frequency",
    "For a tone and a positive window, no bin of a column of the short-time Fourier transform has modulus above |A| times the sum of the window over the samples it covers, and (with two neighbouring samples available) exactly the bins k with f = k/n modulo 1 reach it; the spectrogram of the tone is at most |A|^2 (sum w)^2 / (sum w^2) with the same rows, and only those, reaching it.",
    "all tones, positive windows that fit the bins (STFT) or of any length (spectrogram), numbers of bins, rows, and columns whose instant lies in the signal", "an exact 'if and only if' over all frequencies and windows; a test sees that one peak is where it should be",
    ["tftb/processing/linear.py:ShortTimeFourierTransform", "tftb/processing/cohen.py:Spectrogram"])

add("the narrow-band ambiguity function of a chirp is concentrated on a line",
    "At lag j the modulus of narrow_band of a chirp of slope b is at most |A|^2 (N - 2|j|), and (when at least two products are available) exactly the Dopplers equal to 2 b j modulo 1 reach it; for what fmlin returns the slope is the increment of the returned law.",
    "all chirps, lags, numbers of bins, columns and rows", "the position of the ridge and the exact maximum depend on all lags at once; no finite sample of chirps decides the 'only if'",
    ["tftb/processing/ambiguity.py:narrow_band", "tftb/generators/frequency_modulated.py:fmlin"])

add("fmpower with an integer degree, the documented type",
    "fmpower(n, k, coefficients) with an integer k >= 1 raises for every n >= 1 and all coefficients; with two coefficients the error is ValueError for k >= 2 (NumPy refuses integer arrays to negative integer powers) and ZeroDivisionError for k = 1: with the documented type of k only k <= 0 ever returns. Then the law at sample t is f0 + c t^(-k), the samples have the primitive of the law as phase, the warning is issued exactly when the law leaves [0, 1/2], and the float degree gives the same. Four coefficients give a law through both reference points, negative times included; more are ignored; three raise IndexError, fewer than two UnboundLocalError; equal powers or a zero reference time ZeroDivisionError.",
    "all lengths, integer degrees and coefficient lists", "the unit test uses one float degree; that no positive integer degree can ever work is a statement over all of them",
    ["tftb/generators/frequency_modulated.py:fmpower"])

add("plotting the STFT without squaring",
    "ShortTimeFourierTransform.plot(sqmod=False) keeps a complex matrix, cropped to the first half of the rows, in which an entry survives exactly when it is above threshold times the maximum in NumPy's lexicographic order (real part first); so for every threshold >= 0, as soon as one coefficient has a non-negative real part all coefficients with negative real part are erased whatever their modulus. The default image of such an object is then always refused with TypeError.",
    "all signals, windows, sizes (n >= 2, at least one timestamp) and thresholds", "the option is documented but untested; which coefficients survive depends on the order NumPy puts on complex numbers",
    ["tftb/processing/linear.py:ShortTimeFourierTransform.plot", B+":BaseTFRepresentation.plot"])

add("affine distributions on their default band",
    "When the band computed from the signal is [a, b] with 0 < a < b, leaving it out of the constructors of the Unterberger, D-Flandrin and Bertrand distributions is the same as giving it; for an impulse of at least 22 samples it is [0.01, 0.5]. When b(b - a) <= a/2 the constructor without a number of voices raises AttributeError, and this is what all three do for every complex exponential at a Fourier frequency below 1/2, which therefore cannot be analysed with the defaults. Given edges of which the lower one or the sum is zero raise ZeroDivisionError. Equal given edges raise ZeroDivisionError (Bertrand) or AttributeError, and with a number of voices the object is built but run always raises. For a constant signal D-Flandrin raises AttributeError, Bertrand ValueError, and Unterberger's equation has no solution.",
    "all signals of the stated kinds, all lengths, amplitudes, frequencies, numbers of voices and spline routines, for a root finder that answers a root", "the unit tests construct these classes for one signal; failure for every tone is a statement over all lengths and bins",
    ["tftb/processing/affine.py:UnterbergerDistribution", "tftb/processing/affine.py:DFlandrinDistribution", "tftb/processing/affine.py:BertrandDistribution", "tftb/processing/affine.py:AffineDistribution"])

add("superposition in Cohen's class, and the interference of two tones",
    "For the Wigner-Ville, pseudo and smoothed pseudo Wigner-Ville distributions, the Margenau-Hill, pseudo Margenau-Hill and Page representations, the spectrogram and the narrow-band ambiguity function, running on a x + b y and on a x - b y returns whenever running on x does, and entry by entry D(ax+by) + D(ax-by) = 2|a|^2 D(x) + 2|b|^2 D(y). The (pseudo) Wigner-Ville distribution of a sum of two tones of frequencies f and g is |a|^2 times the one of the first plus |b|^2 times the one of the second plus 2 Re(a conj(b) e^(2 pi i (f-g) t)) times the one of the tone of frequency (f+g)/2.",
    "all pairs of signals of equal length, complex amplitudes, frequencies, windows, timestamps and numbers of bins in the domain of the closed forms", "relates four runs on independent signals; no unit test compares runs",
    ["tftb/processing/cohen.py:WignerVilleDistribution", "tftb/processing/cohen.py:PseudoWignerVilleDistribution", "tftb/processing/cohen.py:smoothed_pseudo_wigner_ville", "tftb/processing/cohen.py:MargenauHillDistribution", "tftb/processing/cohen.py:PageRepresentation", "tftb/processing/cohen.py:Spectrogram", "tftb/processing/ambiguity.py:narrow_band"])

add("moments of the Wigner-Ville distribution",
    "For every signal and number of bins (at least two) for which the run returns: the sum of row k over time is the mean of the spectral energy densities at the row's frequency k/(2n) and at the folded frequency k/(2n) + 1/2, so half the spectrum when the signal has nothing at the folded one. The value of inst_freq number j (labelled instant j+2) times two is the phase, in cycles, of the first circular moment over frequency of column j+1. loctime is the mean and the spread in time of the distribution.",
    "all signals of a non-zero number of samples, all numbers of bins, all rows and columns", "relates three functions of the library on every signal; tests compare no two of them",
    ["tftb/processing/cohen.py:WignerVilleDistribution", "tftb/processing/freq_domain.py:inst_freq", "tftb/processing/time_domain.py:loctime"])

add("what renyi_information counts",
    "For uniformly spaced instants and alpha > 0, alpha != 1: adding to a distribution a disjoint copy with the same integral and the same integral of the power (for instance itself d columns later, when it is confined to columns 1..d of at least 2d+2) never adds more than one bit, and adds exactly one up to the constant 2^-52 inside the logarithm, an explicit amount. The information of a constant distribution is log2 of the area spanned by the axes, within an explicit multiple of 2^-52. Leaving out the axes gives the same as passing the sample numbers.",
    "all distributions and axes (entries non-negative, or a natural alpha), all alpha other than 1", "counting is the purpose of the measure and is never tested; a statement over pairs of distributions",
    ["tftb/processing/postprocessing.py:renyi_information"])

add("which representations follow delays and frequency shifts",
    "Putting d zeros before the signal moves the short-time Fourier transform, the pseudo Wigner-Ville and the pseudo Margenau-Hill distribution by d columns, leaves the Page columns (at timestamps moved by d, with enough bins) unchanged, and the spectrogram where the window does not pass the first sample; elsewhere value times window energy is unchanged. Margenau-Hill changes by the term of sample 0, which it leaves out before the delay and not after. A shift by m (half) bins rolls the rows of the pseudo Wigner-Ville and Margenau-Hill distributions, and of the pseudo Margenau-Hill distribution up to a common phase; it does not for Page and smoothed pseudo Wigner-Ville: with n bins, n even, a shift by n/2 negates every Page entry after rolling, and turns the smoothed pseudo Wigner-Ville rows upside down about the smoothed energy of the instant. The modulus of narrow_band is invariant under both.",
    "all signals, delays, windows, timestamps, numbers of bins in the domain of the closed forms", "relates runs on different signals; a sign that depends on the shift is invisible on one signal",
    ["tftb/processing/linear.py:ShortTimeFourierTransform", "tftb/processing/cohen.py:PseudoWignerVilleDistribution", "tftb/processing/cohen.py:Spectrogram", "tftb/processing/cohen.py:MargenauHillDistribution", "tftb/processing/cohen.py:PageRepresentation", "tftb/processing/cohen.py:PseudoMargenauHillDistribution", "tftb/processing/cohen.py:smoothed_pseudo_wigner_ville", "tftb/processing/ambiguity.py:narrow_band"])

add("the same representation computed by two parts of the library",
    "Spectrogram.run at instant t is the squared modulus of column number t of the short-time Fourier transform with the same window, over the energy of the window inside the signal. The first result of the reassigned spectrogram equals Spectrogram.run in every column whose window does not pass the first sample; in the columns before, it has one more term: the last sample of the signal, taken as the one before the first. The first result of the reassigned pseudo Wigner-Ville distribution at instant t is column t-1 of PseudoWignerVilleDistribution with the window divided by its middle sample.",
    "all signals, odd windows with non-zero middle sample (half-length below half the bins), regular timestamps, numbers of bins", "cross-checks between modules for every signal; no test compares two implementations",
    ["tftb/processing/linear.py:ShortTimeFourierTransform", "tftb/processing/cohen.py:Spectrogram", "tftb/processing/reassigned.py:spectrogram", "tftb/processing/reassigned.py:pseudo_wigner_ville", "tftb/processing/cohen.py:PseudoWignerVilleDistribution"])

add("what a further run() of the same object computes",
    "run() of a used object keeps, in every column, the rows that no lag of that column reaches, and transforms them again: the new result is the fresh one plus the transform of these rows (pseudo Wigner-Ville, short-time Fourier and pseudo Margenau-Hill for all signals and windows; Wigner-Ville with the real parts of the lag products; Margenau-Hill for real signals; the modulus before squaring of the spectrogram for real signals and windows). Hence the pseudo Wigner-Ville column of sample 0 alternates for ever between a, a, ..., a and n*a, 0, ..., 0 with a = h(0)*|x[0]|^2, and so do the Wigner-Ville column of sample 0 (a = |x[0]|^2) and, with a one-sample window, the column m of the short-time Fourier transform (a = x[m-1]*conj(h[0])); the default Margenau-Hill column of sample 0 grows by the constant M1(0,0) at every run; and for non-negative signals and windows the square root of the zero-frequency row of the spectrogram grows by the sum of the rows not reached.",
    "all signals, windows, numbers of bins; histories of any number of runs", "histories of calls of any length",
    ["tftb/processing/cohen.py:PseudoWignerVilleDistribution.run", "tftb/processing/cohen.py:MargenauHillDistribution.run", "tftb/processing/cohen.py:Spectrogram.run", "tftb/processing/cohen.py:WignerVilleDistribution.run", "tftb/processing/cohen.py:PseudoMargenauHillDistribution.run", "tftb/processing/linear.py:ShortTimeFourierTransform.run"])

add("plots that square, repeated",
    "With sqmod=True (the default of the short-time Fourier transform, an option of the Wigner-Ville distribution) and a threshold in [0, 1), k plots leave in the object what one plot of the modulus raised to the power 2^k would leave: an entry v becomes |v|^(2^k), or 0 if that is at most the threshold times the largest; the signal, the timestamps, the window and the number of bins do not change, and the frequency axis is cut once. Hence with a positive threshold every entry below the maximum is 0 after enough plots.",
    "all objects with a non-empty array, all thresholds in [0, 1), any number of plots", "histories of calls of any length",
    ["tftb/processing/linear.py:ShortTimeFourierTransform.plot", "tftb/processing/cohen.py:WignerVilleDistribution.plot"])

add("the logarithmic scale of the Wigner-Ville plot",
    "scale='log' changes nothing (drawing, object, errors) except for a contour drawn with its panels. There, for a signal that is not zero and a threshold in (0, 1), the 65 levels form a geometric progression that ends at the largest value of the signed distribution and begins at the threshold times that value, or at the smallest value if that is larger, while what is drawn is the thresholded modulus: its top lies above the last level whenever a negative value is larger in modulus. For two samples of equal modulus all levels coincide and the plot raises ValueError. If the largest value is not positive (that of a silent signal), or the threshold is not positive while some value is not positive, the levels are not finite numbers. With scale=\"linear\", levels given by the caller are drawn unchanged when they increase strictly and raise ValueError otherwise.",
    "all signals for which the run returns, all thresholds in (0, 1), all kinds and options", "plots are only smoke-tested; the levels are never inspected",
    ["tftb/processing/cohen.py:WignerVilleDistribution.plot", "tftb/processing/base.py:BaseTFRepresentation.plot"])

add("a second run() folds negative frequencies onto positive ones",
    "Spectrogram, PageRepresentation, MargenauHillDistribution and WignerVilleDistribution leave a real array in the object, and a later run() stores its complex lag products into that array, losing their imaginary parts. Hence after two runs or more, for every signal (analytic or not), rows k and n-k are equal. The second Wigner-Ville run is the mean of rows k and n-k of the first, plus the cosine transform of the rows that the column does not reach; the first run does tell the two rows apart (the signal 1, 0, i has 2 and -2).",
    "all objects holding a real array, all signals, windows, timestamps and numbers of bins, histories of any number of runs", "histories of calls of any length, every signal",
    ["tftb/processing/cohen.py:Spectrogram.run", "tftb/processing/cohen.py:PageRepresentation.run", "tftb/processing/cohen.py:MargenauHillDistribution.run", "tftb/processing/cohen.py:WignerVilleDistribution.run"])

add("the number of frequency bins only chooses where the frequency axis is sampled",
    "For two numbers of bins n and n', rows k and k' of the same frequency (k n' = k' n) are equal in the short-time Fourier transform, the spectrogram, the Wigner-Ville, pseudo and smoothed pseudo Wigner-Ville, Margenau-Hill, pseudo Margenau-Hill and Page representations, and entries of the narrow-band ambiguity function under equal Doppler and delay labels are equal, as long as neither number of bins is too small to hold all the lags. With fewer bins than samples it is not so: Margenau-Hill and Page then read only the first n samples.",
    "all signals, windows, timestamps and pairs of numbers of bins large enough for the window (for the signal, without window)", "relates two runs with arbitrary parameters; tests use one number of bins",
    ["tftb/processing/linear.py:ShortTimeFourierTransform.run", "tftb/processing/cohen.py:Spectrogram.run", "tftb/processing/cohen.py:WignerVilleDistribution.run", "tftb/processing/cohen.py:PseudoWignerVilleDistribution.run", "tftb/processing/cohen.py:smoothed_pseudo_wigner_ville", "tftb/processing/cohen.py:MargenauHillDistribution.run", "tftb/processing/cohen.py:PageRepresentation.run", "tftb/processing/cohen.py:PseudoMargenauHillDistribution.run", "tftb/processing/ambiguity.py:narrow_band"])

add("conjugate signals are mirrored in frequency; real signals are symmetric",
    "Conjugating the signal (and the windows) moves row k of every quadratic representation (spectrogram, Wigner-Ville, pseudo, smoothed pseudo, Margenau-Hill, Page) to row n-k (row 0 stays), and conjugates the values as well for the short-time Fourier transform, the pseudo Margenau-Hill and the narrow-band ambiguity function; so all rows k and n-k of a real signal agree. loctime is unchanged. inst_freq f becomes 1/2 - f, except that 1/2 stays; of a real signal it is 1/2 where the two samples have the same sign and 1/4 where they have opposite signs. For even N the two locfreq centres add up to minus the share of the energy at frequency -1/2, and the centre of a real signal is minus half of it.",
    "all signals, windows, timestamps and numbers of bins for which the runs return", "relates two runs with arbitrary signals",
    ["tftb/processing/linear.py:ShortTimeFourierTransform.run", "tftb/processing/cohen.py:Spectrogram.run", "tftb/processing/cohen.py:WignerVilleDistribution.run", "tftb/processing/cohen.py:PseudoWignerVilleDistribution.run", "tftb/processing/cohen.py:smoothed_pseudo_wigner_ville", "tftb/processing/cohen.py:MargenauHillDistribution.run", "tftb/processing/cohen.py:PageRepresentation.run", "tftb/processing/cohen.py:PseudoMargenauHillDistribution.run", "tftb/processing/ambiguity.py:narrow_band", "tftb/processing/freq_domain.py:inst_freq", "tftb/processing/freq_domain.py:locfreq", "tftb/processing/time_domain.py:loctime"])

add("bounds and stability of the representations",
    "No entry of the Wigner-Ville distribution exceeds the energy of the signal in modulus, nor max|h| times the energy with a window h (pseudo Wigner-Ville); a tone of an odd number of samples reaches the energy at its centre. An entry of the short-time Fourier transform is at most the square root of the product of the energies of signal and window, and of the spectrogram between 0 and the energy of the signal; of Margenau-Hill and Page at most |x_t| times the sum of all |x_s|. Changing the signal from x to y moves Wigner-Ville entries by at most (|x| + |y|) |x - y| (Euclidean norms; times max|h| for the pseudo distribution); changing signal and window of the short-time Fourier transform from (x, h) to (y, g) moves its entries by at most |x - y| |h| + |y| |h - g|.",
    "all signals, windows, timestamps and numbers of bins for which the runs return the documented sums", "bounds over all signals, and over all pairs of signals",
    ["tftb/processing/cohen.py:WignerVilleDistribution.run", "tftb/processing/cohen.py:PseudoWignerVilleDistribution.run", "tftb/processing/linear.py:ShortTimeFourierTransform.run", "tftb/processing/cohen.py:Spectrogram.run", "tftb/processing/cohen.py:MargenauHillDistribution.run", "tftb/processing/cohen.py:PageRepresentation.run"])

add("which samples a column depends on",
    "Two signals that agree on a neighbourhood of an instant have equal columns there: samples m-1-L to m-1+L for column m of the short-time Fourier transform (one sample early) and for timestamp m of the spectrogram, t-L to t+L for the pseudo Wigner-Ville (windows of 2L+1 samples), sample c and samples c-1-L to c-1+L for the pseudo Margenau-Hill; for Wigner-Ville column t the samples at distance at most min(t, N-1-t), every one of which other than t does matter: changing it alone changes some column t. With the default timestamps and number of bins, columns 1, 2, ... of Margenau-Hill ignore sample 0, while in the Page distribution every sample matters in every column. inst_freq at t depends on samples t and t-2 only.",
    "all pairs of signals, all windows, timestamps and numbers of bins for which the runs return", "relates runs on arbitrary pairs of signals",
    ["tftb/processing/linear.py:ShortTimeFourierTransform.run", "tftb/processing/cohen.py:Spectrogram.run", "tftb/processing/cohen.py:PseudoWignerVilleDistribution.run", "tftb/processing/cohen.py:WignerVilleDistribution.run", "tftb/processing/cohen.py:PseudoMargenauHillDistribution.run", "tftb/processing/cohen.py:MargenauHillDistribution.run", "tftb/processing/cohen.py:PageRepresentation.run", "tftb/processing/freq_domain.py:inst_freq"])

add("how small and how large the spreads of loctime and locfreq are",
    "loctime returns spread 0 exactly for signals with a single non-zero sample (whose index is the centre), locfreq exactly for tones on a DFT bin (whose labelled frequency is the centre). So the product of the spreads is 0 for impulses and tones (there is no uncertainty principle), though no signal of two samples or more has both spreads 0. The spread in time is at most sqrt(pi) (N-1), reached by two samples of equal modulus at the two ends; the spread in frequency is at most sqrt(pi) (N-1)/N, their product at most pi (N-1)^2/N.",
    "all signals that are not zero (for locfreq, of N samples with N mod 4 not 1)", "bounds over all signals; characterises all signals with a given result",
    ["tftb/processing/time_domain.py:loctime", "tftb/processing/freq_domain.py:locfreq"])

add("signals played backwards",
    "Reversing the signal of N samples (and the windows) in time moves row k to row n-k (row 0 stays) and instant t of the spectrogram and of the smoothed pseudo Wigner-Ville distribution (real windows) to N+1-t, column t of the pseudo Wigner-Ville to N-1-t, but column m of the short-time Fourier transform to N+1-m, two columns late; no reversal of the window is needed for the default ones. The narrow-band ambiguity function goes to the opposite delay and Doppler shift with a phase. inst_freq f at t becomes 1/2 - f at N+1-t, except that 1/2 stays; the loctime centre t becomes N-1-t with the same spread; locfreq is that of the conjugate signal, for every length; a group delay g between 1 and N becomes N+1-g at the opposite frequency, and one beyond N becomes 0. Margenau-Hill, pseudo Margenau-Hill and Page do not follow the reversal (signals of two samples).",
    "all signals, windows of odd length, timestamps and numbers of bins for which the runs return", "relates two runs with arbitrary signals",
    ["tftb/processing/linear.py:ShortTimeFourierTransform.run", "tftb/processing/cohen.py:Spectrogram.run", "tftb/processing/cohen.py:PseudoWignerVilleDistribution.run", "tftb/processing/cohen.py:smoothed_pseudo_wigner_ville", "tftb/processing/cohen.py:MargenauHillDistribution.run", "tftb/processing/cohen.py:PageRepresentation.run", "tftb/processing/cohen.py:PseudoMargenauHillDistribution.run", "tftb/processing/ambiguity.py:narrow_band", "tftb/processing/freq_domain.py:inst_freq", "tftb/processing/freq_domain.py:locfreq", "tftb/processing/freq_domain.py:group_delay", "tftb/processing/time_domain.py:loctime"])

add("silence after the signal",
    "Zeros appended to the signal change nothing in the columns of the signal in the short-time Fourier transform, the Wigner-Ville, pseudo Wigner-Ville, pseudo Margenau-Hill, Margenau-Hill and Page representations (same number of bins, large enough for Wigner-Ville), in the narrow-band ambiguity function at equal labels, in inst_freq and in loctime; Wigner-Ville columns in the silence and short-time Fourier columns beyond N + L are zero. The spectrogram is unchanged where the window ends before the signal does and can only decrease elsewhere, as the energy of the window inside the signal grows. group_delay at given frequencies keeps every delay it reported, and can report more. locfreq is not invariant: (1, 0) has centre -1/4, (1, 0, 0, 0) has -1/8.",
    "all signals, any number of zeros, all windows, timestamps and numbers of bins for which the runs return", "relates two runs with arbitrary signals",
    ["tftb/processing/linear.py:ShortTimeFourierTransform.run", "tftb/processing/cohen.py:Spectrogram.run", "tftb/processing/cohen.py:WignerVilleDistribution.run", "tftb/processing/cohen.py:PseudoWignerVilleDistribution.run", "tftb/processing/cohen.py:MargenauHillDistribution.run", "tftb/processing/cohen.py:PageRepresentation.run", "tftb/processing/cohen.py:PseudoMargenauHillDistribution.run", "tftb/processing/ambiguity.py:narrow_band", "tftb/processing/freq_domain.py:inst_freq", "tftb/processing/freq_domain.py:locfreq", "tftb/processing/freq_domain.py:group_delay", "tftb/processing/time_domain.py:loctime"])

add("a signal multiplied by a constant",
    "Multiplying the signal by a complex constant a multiplies every result of the Wigner-Ville, pseudo Wigner-Ville, Margenau-Hill, pseudo Margenau-Hill and Page representations by |a|^2, call after call on the same object whatever its array held (times |a|^2, too) and with the same errors; likewise the spectrogram of a new object, the smoothed pseudo Wigner-Ville distribution and the narrow-band ambiguity function, whose labels do not change. For a != 0 the reassigned spectrogram and the reassigned pseudo Wigner-Ville move every entry to the same place (the same field of displacements, since their thresholds follow the power of the signal) with both matrices times |a|^2, and inst_freq, loctime, locfreq and group_delay do not change at all. With a = 0 loctime fails.",
    "all constants, signals, windows, timestamps, numbers of bins and object states, including those for which the call raises", "relates two runs with arbitrary signals",
    ["tftb/processing/cohen.py:WignerVilleDistribution.run", "tftb/processing/cohen.py:PseudoWignerVilleDistribution.run", "tftb/processing/cohen.py:MargenauHillDistribution.run", "tftb/processing/cohen.py:PseudoMargenauHillDistribution.run", "tftb/processing/cohen.py:PageRepresentation.run", "tftb/processing/cohen.py:Spectrogram.run", "tftb/processing/cohen.py:smoothed_pseudo_wigner_ville", "tftb/processing/ambiguity.py:narrow_band", "tftb/processing/reassigned.py:spectrogram", "tftb/processing/reassigned.py:pseudo_wigner_ville", "tftb/processing/freq_domain.py:inst_freq", "tftb/processing/freq_domain.py:locfreq", "tftb/processing/freq_domain.py:group_delay", "tftb/processing/time_domain.py:loctime"])

add("a signal multiplied by a real constant: affine and wide-band representations",
    "Multiplying the signal by a real constant r != 0 leaves the analysis band (given or found from the signal), the number of voices and dilations and all axes unchanged, multiplies the scalogram by r^2 and its wavelet coefficients by r, and multiplies wide_band, the affine smoothed pseudo Wigner distribution and the runs of the Unterberger, D-Flandrin and Bertrand distributions by r^2 (for a spline routine that is homogeneous in the interpolated values), with the same errors when the call fails. morlet_scalogram is multiplied by |a|^2 for every complex a != 0, accepted and refused alike. A complex factor does matter elsewhere: every real-valued signal times i is refused with ValueError by the scalogram, the constructors of the affine distributions and wide_band when a band edge is missing.",
    "all non-zero constants, signals, bands, voices, wavelets and kernels, including those for which the call raises", "relates two runs with arbitrary signals",
    ["tftb/processing/affine.py:AffineDistribution.__init__", "tftb/processing/affine.py:Scalogram.run", "tftb/processing/affine.py:UnterbergerDistribution.run", "tftb/processing/affine.py:DFlandrinDistribution.run", "tftb/processing/affine.py:BertrandDistribution.run", "tftb/processing/affine.py:smoothed_pseudo_wigner", "tftb/processing/ambiguity.py:wide_band", "tftb/processing/reassigned.py:morlet_scalogram"])

add("how generated signals combine",
    "With the same reference instant the product of two tones, of two chirps or of two fmodany signals is the tone, chirp or signal of the sum of the frequency laws, and the product of two Gaussian envelopes around the same centre is the Gaussian envelope with 1/s^2 = 1/s1^2 + 1/s2^2. Opposite frequencies give the conjugate signal. Another reference instant only multiplies the signal by a constant of modulus 1, which changes no matrix and no error of any Cohen-class, reassigned or ambiguity function. fmlin(f, f) and fmodany of a constant law are the tone f, but fmodany of the law of a chirp is that chirp times a tone at half the step of the law. A chirp played backwards is the chirp of the opposite frequencies in exchanged order, with the mirrored reference. Moving the centre of an envelope (or the reference of a tone) by d samples delays it by d samples.",
    "all lengths, frequencies, laws, spreads and reference instants accepted by the generators", "relates several runs with arbitrary arguments",
    ["tftb/generators/frequency_modulated.py:fmconst", "tftb/generators/frequency_modulated.py:fmlin", "tftb/generators/frequency_modulated.py:fmodany", "tftb/generators/amplitude_modulated.py:amgauss", "tftb/generators/amplitude_modulated.py:amexpos", "tftb/generators/amplitude_modulated.py:amrect", "tftb/generators/amplitude_modulated.py:amtriang", "tftb/processing/cohen.py:WignerVilleDistribution.run", "tftb/processing/cohen.py:Spectrogram.run", "tftb/processing/ambiguity.py:narrow_band", "tftb/processing/reassigned.py:spectrogram"])

add("ridges and Friedman density of reassigned representations",
    "Whenever reassigned.spectrogram returns (tfr, rtfr, tf2), each tf2 entry is infinite or names a row (from 0) and a column (from 1) of rtfr, and rtfr is tfr with every cell added to the cell named (the same cell if infinite); for reassigned.pseudo_wigner_ville tf2 names a row counted from 1 in the same column. postprocessing.ridges and friedman_density do not use these conventions: ridges(tfr, tf2, method='rsp') returns cells of one column, never the first, whose energy was moved one column to the left, never cells that keep their place, so with one instant it always raises UnboundLocalError, and so it does for the spectrogram of an impulse; ridges(..., method='rpwv') never returns frequency 0, and gives n-1 points for an impulse, which is in all n rows. friedman_density of a reassigned pseudo Wigner-Ville has an empty row 0 whatever the signal, its votes being in the last row (2/n instead of 1/n for an impulse); of a reassigned spectrogram it counts the new row but the old column. Infinite entries vote for the last row.",
    "all signals, windows, instants and numbers of bins for which the reassignment returns; all impulses", "composes two functions over arbitrary signals",
    ["tftb/processing/reassigned.py:spectrogram", "tftb/processing/reassigned.py:pseudo_wigner_ville", "tftb/processing/postprocessing.py:ridges", "tftb/processing/postprocessing.py:friedman_density"])

add("post-processing of an amplified signal",
    "friedman_density and ridges give the same result, or raise the same exception, when the representation is multiplied by a positive constant; hough_transform returns the accumulator multiplied by that constant and the same axes. Hence, from the signal on: ridges and Friedman density of the reassigned spectrogram and pseudo Wigner-Ville, and the Renyi information of any order of these and of the smoothed pseudo Wigner-Ville, are the same for a signal and for the signal multiplied by any non-zero complex constant, and the Hough accumulator of the smoothed pseudo Wigner-Ville is multiplied by the squared modulus. A negative constant can turn a density into NaN.",
    "all representations, reassignment matrices and positive constants; all signals, windows, instants, numbers of bins and non-zero constants", "relates executions on infinitely many pairs of inputs, exceptions included",
    ["tftb/processing/postprocessing.py:friedman_density", "tftb/processing/postprocessing.py:ridges", "tftb/processing/postprocessing.py:hough_transform", "tftb/processing/postprocessing.py:renyi_information", "tftb/processing/reassigned.py:spectrogram", "tftb/processing/reassigned.py:pseudo_wigner_ville"])

add("frequency shifts, conjugates and delays of reassigned representations",
    "Multiplying the signal by the exponential of frequency m/(2n) rolls the three matrices of reassigned.pseudo_wigner_ville by m of its n bins: the distribution, the reassigned distribution, and the rows named by the displacement field together with their targets. For reassigned.spectrogram and frequency m/n the same holds if n divides m times the length of the signal or if no instant is so close to the start that the last sample is used. Zeros put before the signal, the instants moving along, change none of the three matrices (short window; for the spectrogram no instant close to the start). For the conjugate signal the distributions are mirrored (bin k to bin -k) but their reassigned versions are not: a cell is moved to bin p exactly if the mirror cell of the signal is moved to bin -p-2, and a column whose cells all move is mirrored about bin -1. In particular the displacement field of a real signal is not symmetric: the frequency 0 of a constant goes to bin n-1.",
    "all signals, windows with non-zero centre, instants, numbers of bins, shifts and delays for which the functions return", "relates two runs with arbitrary signals",
    ["tftb/processing/reassigned.py:pseudo_wigner_ville", "tftb/processing/reassigned.py:spectrogram"])

add("bounds of the Renyi information and its dependence on the order",
    "For a non-negative distribution with positive integral on increasing axes (uniform instants) renyi_information returns a number for every order alpha > 0. It is at most log2 of the area spanned by the axes for alpha >= 1, and at least -log2 of the largest density for alpha < 1. An order above one never gives more than an order below one, and the Shannon value (alpha = 1) never more than an order below one. Within one side of 1 the value does not increase with the order, and orders above one do not exceed the Shannon value, but only up to explicit multiples of the constant 2^-52 added inside the logarithms: a constant distribution over an area of 1/2 has strictly more information of order 3 than of order 2.",
    "all non-negative distributions of positive integral, all frequency axes, all uniformly spaced increasing instants, all positive orders", "inequalities between values over a continuum of orders and all distributions",
    ["tftb/processing/postprocessing.py:renyi_information", "tftb/processing/utils.py:integrate_2d"])

add("what a Wigner-Ville distribution cannot tell apart",
    "Let two signals of the same length have the same Wigner-Ville matrix for one number of bins (at least 2). Then they have the same Wigner-Ville matrix (or failure) for every number of bins, the same pseudo Wigner-Ville distribution for all odd windows of half-length below round(n/2), the same smoothed pseudo Wigner-Ville distribution for all pairs of odd windows with which it is defined, the same narrow_band ambiguity function for all lags and bins, the same reassigned pseudo Wigner-Ville distribution with its field of displacements, the same inst_freq (instants 2 and later) and the same loctime. Conversely, equal narrow_band matrices with the default lags mean equal Wigner-Ville matrices. Such signals exist: a signal and its shift by half of the sampling frequency, in particular the tones of frequencies f and f - 1/2, although the shift exchanges the two halves of the rows of every spectrogram; for (1, 1) and (1, -1) locfreq gives 0 and -1/2, and the Margenau-Hill and Page matrices differ.",
    "all pairs of signals, all windows, lags, timestamps and numbers of bins", "a statement about pairs of signals that no finite set of inputs exhausts",
    ["tftb/processing/cohen.py:WignerVilleDistribution", "tftb/processing/cohen.py:PseudoWignerVilleDistribution", "tftb/processing/cohen.py:smoothed_pseudo_wigner_ville", "tftb/processing/ambiguity.py:narrow_band", "tftb/processing/reassigned.py:pseudo_wigner_ville", "tftb/processing/freq_domain.py:inst_freq", "tftb/processing/time_domain.py:loctime"])

add("amplitude-modulated tones and chirps peak at their frequency law, whatever the envelope",
    "Let x[t] = A g[t] exp(2 pi i (a t + b t^2 / 2)) with a non-negative envelope g. At every instant no row of the Wigner-Ville distribution exceeds |A|^2 times the sum over the available lags of g[t+j] g[t-j], and (when g is positive at the two neighbours) exactly the rows whose label equals the law a + b t modulo 1/2 reach it; the same for the pseudo Wigner-Ville distribution with any non-negative window. For a tone (b = 0) and positive g and window, exactly the bins of its frequency reach the bound sum w g in each column of the short-time Fourier transform, and (sum w g)^2 / sum w^2 in the spectrogram. At every lag j the modulus of narrow_band is largest on the line of Doppler 2 b j, and only there. In particular for amgauss(n, t0, s) * fmlin(n, ...)[0] and the law fmlin returns, for all centres and spreads. loctime of a signal whose modulus is proportional to any of the symmetric envelopes lies between the centre of the envelope (a multiple of half a sample inside the record) and the middle of the record; for the default amgauss it is between round(n/2) - 1 and (n-1)/2.",
    "all envelopes, chirps, windows, numbers of bins, instants, lags", "an extremum over all rows for a continuum of envelopes and laws",
    ["tftb/processing/cohen.py:WignerVilleDistribution", "tftb/processing/cohen.py:PseudoWignerVilleDistribution", "tftb/processing/linear.py:ShortTimeFourierTransform", "tftb/processing/cohen.py:Spectrogram", "tftb/processing/ambiguity.py:narrow_band", "tftb/processing/time_domain.py:loctime", "tftb/generators/amplitude_modulated.py:amgauss", "tftb/generators/frequency_modulated.py:fmlin"])

add("tones in the smoothed pseudo Wigner-Ville distribution",
    "smoothed_pseudo_wigner_ville stores the correlation of lag tau at lag tau + 1. For a tone of frequency f and modulus |A|, real windows (the time window positive) and more bins than the frequency window has samples, the entry of row k is |A|^2 (1 + sum over the lags of (h[tau+1] + h[1-tau]) cos(2 pi (tau+1)(2f - k/n) - 4 pi f)). The row of the tone's own frequency therefore holds |A|^2 (1 + W cos(4 pi f)), W being the sum of the weights: for f = 1/8 no more than the average of the column, and for f = 1/4 and a non-negative window the strict minimum of the column, also with the default windows (an even number of bins, at least 8, instants 2 to N-1). No entry exceeds max|x|^2 times one plus the weights of the lags. Where the windows stay inside the signal a column depends only on the samples at distance less than Lg + Lh of sample ti - 1, wherever these samples are and however long the signal is.",
    "all tones, amplitudes, lengths, real windows of odd lengths, instants and numbers of bins; the bound and the locality for all signals",
    "the unit tests only look at one signal whose frequency is low; that the peak moves with the frequency and becomes a trough is a statement over all frequencies",
    ["tftb/processing/cohen.py:smoothed_pseudo_wigner_ville"])

add("the arithmetic of group delays",
    "For a signal without spectral zero none of whose group delays is reported as 0, the mean of the values of group_delay over the bins, weighted by the power spectrum, is the centre given by loctime plus one. A signal that is Hermitian about its middle up to a constant factor (every symmetric real window or envelope) has group delay (N+1)/2 at every frequency where its spectrum is not zero. At given frequencies: shifting the signal by f moves the delays by f along the frequency axis; d zeros before the signal add d to every delay that is reported, and a delay below 1, reported as 0, appears once d is large enough; the delays of a convolution are the sums of the delays minus one, or 0 when this exceeds the length plus 3. By the symmetry, a tone of any frequency under an amgauss, two-sided amexpos, amrect or amtriang envelope centred in the middle of the N samples has group delay (N+1)/2 wherever its spectrum is not zero.",
    "all signals, lengths, frequencies, delays", "identities between results for all signals; the unit test looks at one chirp",
    ["tftb/processing/freq_domain.py:group_delay", "tftb/processing/time_domain.py:loctime"])

add("instantaneous frequencies of smooth laws",
    "On what fmhyp and doppler return, multiplied by any positive amplitude, with a law in (0, 1/2], each value of inst_freq at the default instants lies between the values of the returned law at the two samples it is computed from (for doppler the later one is the lower bound). On what fmsin returns for a band with 0 < fnormin < fnormax <= 1/2 and a positive period, every value of inst_freq lies in the band and differs from the law at the middle sample by at most pi (fnormax - fnormin) / period.",
    "all numbers of points, parameters, positive amplitudes", "the estimate is not exact on curved laws, and a bound valid for all parameters is not a finite check; the unit test of inst_freq looks at one linear chirp",
    ["tftb/generators/frequency_modulated.py:fmhyp", "tftb/generators/frequency_modulated.py:fmsin", "tftb/generators/misc.py:doppler", "tftb/processing/freq_domain.py:inst_freq"])

add("the ideal representation and the peaks of the Wigner-Ville distribution",
    "ideal_tfr of one law with values f in [0, 1/2] has exactly one mark in every column, and the returned label of its row differs from f by between -(1/2 + 2f)/(2n) and (1/2 - 2f)/(2n): the marks are low by the fraction 1/n, up to rounding. For the law of an fmlin signal, at every inner instant where the law equals the label k/(2n) of a row, the Wigner-Ville distribution of the signal with n bins has its only maximum over the column in row k, but ideal_tfr has its mark in row k only for frequencies below 1/4 (or equal to 1/4 with k even); otherwise the mark is in row k-1.",
    "all laws, numbers of samples and bins, chirps", "compares two parts of the library for all chirps and sizes; the unit test only counts the lines found in the ideal representation of two laws",
    ["tftb/processing/postprocessing.py:ideal_tfr", "tftb/generators/frequency_modulated.py:fmlin", "tftb/processing/cohen.py:WignerVilleDistribution.run"])

add("demodulating keyed signals with inst_freq",
    "For every random outcome, at the default instants: inst_freq of an anaask signal without zero level is the carrier frequency everywhere, jumps included (a carrier at 0 is reported as 1/2); of an anabpsk signal it is the carrier f0 in (0, 1/2] where the amplitude law has the same sign at the two samples used and f0 + 1/4 or f0 - 1/4 where it has not, so the changes of sign can be read from it; of an anaqpsk signal it is f0 plus one eighth per quarter turn modulo one half, so two instants have the same estimate exactly when the phase jumped by the same angle modulo a full turn; of an anafsk signal it is the mean of the frequencies of the last two samples, and inside a block the frequency of the block, which tells in which Nbf-th of the unit interval the draw was.",
    "all lengths, block lengths, carriers, alphabets and random outcomes", "random outputs cannot be enumerated, and each unit test looks at one draw",
    ["tftb/generators/analytic_signals.py:anaask", "tftb/generators/analytic_signals.py:anabpsk", "tftb/generators/analytic_signals.py:anaqpsk", "tftb/generators/analytic_signals.py:anafsk", "tftb/processing/freq_domain.py:inst_freq"])

add("what spectrograms and pseudo Wigner-Ville distributions keep of the phase",
    "Two signals of the same length, one of them without zero samples, have the same spectrogram (window of 2L+1 non-zero samples, 1 <= L, at least 4L+1 bins and 2L+1 samples, timestamps covering 1 to N-L) exactly when they differ by one constant factor of modulus one; so with default arguments from eight samples on. They have the same pseudo Wigner-Ville distribution (Hermitian window, non-zero at lags 0 and 1) exactly when they have the same Wigner-Ville distribution, that is, up to one factor for the even and one for the odd samples. Across 2L zero samples both lose the phase: multiplying everything after such a silence by a factor of modulus one changes neither.",
    "all signals, windows, timestamps and numbers of bins in these ranges",
    "It is a statement about all pairs of signals with equal outputs; a unit test computes the output of given signals.",
    ["tftb/processing/cohen.py:Spectrogram.run", "tftb/processing/cohen.py:PseudoWignerVilleDistribution.run"])

add("what the Margenau-Hill distributions and the Page representation keep of the signal",
    "Two signals of the same length N >= 2, the second sample of the first one not zero, have the same Margenau-Hill distribution over all instants with at least 2N-1 bins if and only if they differ by one phase factor. With the default N bins and nonzero samples (but possibly the first) this fails for the first sample: the distributions agree if and only if there are a phase factor a and a complex number z with y_i = a x_i for i >= 1, y_0 = a (x_0 + z) and z conj(x_s) + conj(z) x_(N-s) = 0 for 1 <= s < N; for a constant signal for example the imaginary part of the first sample is lost. The pseudo Margenau-Hill distribution of a signal without zeros determines it up to a phase factor as soon as the middle sample of the window and the one before it are not zero. The Page representation with more than 2N bins determines a signal whose sample 0 is not zero up to a phase factor from the column of sample 0 alone; with the default number of bins it does not: (1, i) and (1, -i) have the same.",
    "all pairs of signals, numbers of bins and windows of the stated kinds",
    "injectivity up to a phase over all pairs of signals; the unit tests look at the distribution of one signal",
    ["tftb/processing/cohen.py:MargenauHillDistribution.run", "tftb/processing/cohen.py:PseudoMargenauHillDistribution.run", "tftb/processing/cohen.py:PageRepresentation.run"])

add("moments of the Margenau-Hill distribution",
    "With default arguments, for every signal with some energy outside sample 0: the mean time of the Margenau-Hill distribution is the loctime centre times E/(E-|x[0]|^2), E the energy, because sample 0 is missing from the "
    "total (two equal samples: 1 instead of 1/2). For signals whose sample 0 is zero loctime (nonzero energy) and locfreq (accepted lengths) are mean and spread of the distribution in time and in frequency, and "
    "group_delay (no spectral zero) reports for every bin the mean one-based time of its row, or 0 if that mean lies outside [1, N+3]. Where the samples before and after instant t >= 2 have the same modulus, "
    "twice the phase of the first circular moment over frequency of column t is the phase whose half, in cycles, inst_freq reports with label t+1.",
    "all signals of all lengths with the stated condition on sample 0; all bins; all interior instants",
    "ties five functions (MargenauHillDistribution.run, loctime, locfreq, group_delay, inst_freq) together exactly, for every signal; tests compare each with recorded values",
    ["tftb/processing/cohen.py:MargenauHillDistribution.run", "tftb/processing/time_domain.py:loctime", "tftb/processing/freq_domain.py:locfreq", "tftb/processing/freq_domain.py:group_delay",
     "tftb/processing/freq_domain.py:inst_freq"])

add("Hough transforms of tones and impulses",
    "With default arguments hough_transform of an N x N image that is a positive constant A in one row (not the middle one) and 0 elsewhere is at most N A (N >= 4). The value N A is reached in exactly one cell: angle 0 for a row beyond the middle, "
    "angle pi for a row before it, in the row whose returned distance is within half a pixel of the distance of the line; for odd N and a row before the middle no cell reaches it. For one constant column (N >= 7) the cell is at "
    "angle 3 pi/2 or pi/2, and exists only if N is a multiple of four. For the law of fmconst(N, f), 0 <= f <= 1/2, ideal_tfr is the row p nearest to 2 (N-1) f and the transform finds it in this way.",
    "all N from 4 (rows, tones) or 7 (columns); all rows and columns except the middle one; all A > 0; all frequencies in [0, 1/2]",
    "states what the transform is for, that a line gives one maximum from which it can be read, for every size and line, and for which lines this fails; tests look at one image",
    ["tftb/processing/postprocessing.py:hough_transform", "tftb/processing/postprocessing.py:ideal_tfr", "tftb/generators/frequency_modulated.py:fmconst"])

add("The analytic impulse in time and frequency",
    "anapulse(N, p) at a sample p is 1 at p. At distance d != 0 from it the sample is imaginary: for even N, 0 for even d and 2 i cot(pi d/N)/N for odd d; for odd N, i (cos(pi d/N) - 1)/(N sin(pi d/N)) for even d "
    "and i (cos(pi d/N) + 1)/(N sin(pi d/N)) for odd d. Its modulus is at most 2/(pi D) for circular distance D, so p is the only sample of largest modulus. The energy is 2 - 2/N for even and 2 - 1/N for odd N (the real impulse has 1); "
    "the bins of positive frequency all have modulus 2. loctime of an impulse in the middle (p = N/2 or (N-1)/2) is p. locfreq for even N is (N-3)/(4(N-1)) wherever the impulse is. "
    "anastep(N, p) - anastep(N, p+1) is anapulse(N, p+1).",
    "all N, all samples p",
    "closed form of every sample for every length and position; tests compare a few samples of one signal or look at its real part",
    ["tftb/generators/analytic_signals.py:anapulse", "tftb/generators/analytic_signals.py:anastep", "tftb/processing/freq_domain.py:locfreq", "tftb/processing/time_domain.py:loctime"])

add("Real and imaginary parts of analytic projections",
    "Let z be the analytic projection of a real signal x of length N (what anapulse, anastep and anasing return, and noisecu and noisecg for a power of two of samples). Real and imaginary part are orthogonal and the imaginary part has mean 0. "
    "The energy of z is twice that of x minus (S^2 + A^2)/N, S the sum and (for even N; else 0) A the alternating sum of x, so it lies between once and twice the energy of x; the squares of z sum to (S^2 + A^2)/N. "
    "For anastep with m ones the energy is 2m - m^2/N, less 1/N if N is even and m odd. For even N row 2m of the Wigner-Ville distribution with N bins, 0 < m < N/2, sums to 2|X[m]|^2, X the spectrum of x: "
    "nothing is folded onto it; row 0 sums to (S^2 + A^2)/2. fmconst(N, f), 0 < f < 1/2, N >= 3, is the analytic projection of its real part exactly when N f is an integer. Real combinations of analytic projections are the projections of the combinations.",
    "all real signals of every length, all positions, strengths, draws (not constant) and frequencies",
    "orthogonality and energy for every signal; the exact condition under which taking the real part and projecting gives a tone back; tests compare single generated signals",
    ["tftb/generators/analytic_signals.py:anapulse", "tftb/generators/analytic_signals.py:anastep", "tftb/generators/analytic_signals.py:anasing", "tftb/generators/noise.py:noisecu", "tftb/generators/noise.py:noisecg", "tftb/generators/frequency_modulated.py:fmconst", "tftb/processing/cohen.py:WignerVilleDistribution"])

add("Products of signals; spectrograms and pseudo distributions as smoothed Wigner-Ville distributions",
    "Whenever the Wigner-Ville runs of x and g (same length, n bins) return, so does the run of x*g, and each of its columns is 1/n times the circular convolution over the rows of the columns of the two. "
    "The pseudo Wigner-Ville distribution with a window of 2L+1 samples, L < round(n/2), is the Wigner-Ville distribution convolved along frequency with the real part of the window's Fourier sum, over n. "
    "For the short-time Fourier transform F with 2n bins the mean of |F|^2 in rows k and k+n of column m is 1/n times the sum over all instants and rows of the Wigner-Ville distribution of the signal, times that of the conjugated window laid on sample m-1, shifted to row k.",
    "all signals, windows (odd or even length with half width L < n), numbers of bins n >= 2 for which the Wigner-Ville run returns, columns and rows",
    "relates three classes of the library by the identities that define Cohen's class, for every signal and window; tests look at one representation at a time",
    ["tftb/processing/cohen.py:WignerVilleDistribution", "tftb/processing/cohen.py:PseudoWignerVilleDistribution", "tftb/processing/linear.py:ShortTimeFourierTransform"])

add("Linear chirps in the STFT, the spectrogram and the reassigned distributions",
    "For a chirp of instantaneous frequency f(t) = a + b t and a symmetric real window lying inside the signal, the column of the STFT and of the spectrogram centred on sample t takes the same value in any two rows symmetric about f(t) (modulo 1). If the window is positive, of half-length L, and |b| L^2 < 1/2, no row exceeds the value the chirp would have exactly at f(t) (in the spectrogram at least cos(pi b L^2)^2 times that of a tone of the same amplitude), and exactly the rows of frequency f(t) modulo 1 reach it. In particular Spectrogram(y, ts, n).run() with its default window peaks on the law returned by fmlin. The reassigned spectrogram, however, takes the energy of the row of f(t), which is already on the law, one row down and one column to the left (except in the first column). The reassigned pseudo Wigner-Ville distribution, for chirps of any slope and non-negative windows, takes the row of f(t) (modulo 1/2, at sample t = instant - 1), which holds its largest value, one row down.",
    "for all chirps (amplitude, start, slope), windows, numbers of rows, instants inside the signal; for all arguments of fmlin for which it returns",
    "a test checks one chirp with one window; that symmetry and the place of the peak hold for all slopes below the bound and all positive symmetric windows is an argument about double sums of cosines",
    ["tftb/processing/linear.py:ShortTimeFourierTransform.run", "tftb/processing/cohen.py:Spectrogram.run", "tftb/processing/reassigned.py:spectrogram", "tftb/processing/reassigned.py:pseudo_wigner_ville", "tftb/generators/frequency_modulated.py:fmlin"])

add("Shifts, symmetry and uniqueness of Gabor coefficients",
    "For a signal of Q b^2 samples, Q b instants, oversampling Q and an odd window fitting in the signal, gabor follows the signal: multiplied by a tone of m frequency steps, the rows of the coefficients and of the representation are rolled by m; delayed circularly by p time steps, the columns are rolled by p (the coefficients of row r with the phase exp(-2 pi i r p / Q), which is 1 at critical sampling and drops out of the representation); conjugated, row r becomes the conjugate of row -r, so that the representation of a real signal is symmetric. If no power of the Zak transform of the window (frame operator) is below eps, equal coefficients mean equal signals; and a window a times as large, if its powers too are not below eps, gives a biorthogonal window and coefficients a times as small. At critical sampling, under the same condition on the window, every array of coefficients is that of exactly one signal, namely of the sum of the shifted windows weighted by the array; so with the default arguments for p^2 samples, p an odd prime up to 100000.",
    "for all signals, windows, lattices Q b by Q b, shifts, gains and coefficient arrays; for all odd primes p up to 100000 with the default arguments",
    "a test compares two signals; that analysis inverts synthesis for every coefficient array, and not only synthesis analysis, is a statement about a square linear system of any size",
    ["tftb/processing/linear.py:gabor", "tftb/utils.py:izak"])

add("Where the parts of a signal interfere",
    "The Wigner-Ville, pseudo and smoothed pseudo Wigner-Ville distributions and the narrow-band ambiguity function of every signal are the sum of those of its even samples and of its odd samples (zeros in between): the two never interfere, and multiplying the odd samples by u adds |u|^2 times the second part, so that a phase between them cannot be seen. Parts of a signal more than 2L samples apart do not interfere in the spectrogram and the pseudo Wigner-Ville distribution with a window of 2L+1 samples, nor do parts more than L+1 samples apart in the pseudo Margenau-Hill distribution. Two impulses a at p and b at q fill their columns of the Wigner-Ville distribution with |a|^2 and |b|^2 and leave in the column half way, only if p+q is even, the term 2 Re(a conj(b) e^(2 pi i f (q-p))), f the frequency of the row, which can be twice as large as the impulses; all other columns are 0. The Margenau-Hill distribution and the Page representation put the term once into each of the two columns of the impulses, whatever the distance, and nothing elsewhere (Margenau-Hill: with p = 0 only into column 0, from which |a|^2 is missing; Page: with the phases one sample off and |a|^2, |b|^2 multiplied by cos(2 pi k/N)).",
    "for all signals, factors, windows, numbers of bins, positions and values of the impulses",
    "a test sees the interference of the signals it tries; that none can ever appear between even and odd samples, or across a gap wider than the window, is a statement about all signals",
    ["tftb/processing/cohen.py:WignerVilleDistribution.run", "tftb/processing/cohen.py:PseudoWignerVilleDistribution.run", "tftb/processing/cohen.py:smoothed_pseudo_wigner_ville", "tftb/processing/ambiguity.py:narrow_band", "tftb/processing/cohen.py:Spectrogram.run", "tftb/processing/cohen.py:PseudoMargenauHillDistribution.run", "tftb/processing/cohen.py:MargenauHillDistribution.run", "tftb/processing/cohen.py:PageRepresentation.run"])

add("Tones in the scalogram",
    "The wavelet coefficients `wt` of the scalogram (as many voices as samples, band 0 < fmin < fmax) are linear in the real part of the signal, for the Morlet wavelet and for the Mexican hat. A tone with k periods in n samples, 0 < k < n/2, gives in row p of `wt`, wherever the wavelet fits into the signal, the tone itself (late by the half-length of the wavelet for Morlet, one sample early for the Mexican hat) times a real number, the response of the voice to the frequency k/n divided by sqrt(fmax/f_p); row p of the scalogram is constant there, f_p times the square of the response times a factor common to all rows. The response of a Morlet voice is largest at the frequency of the voice and smaller in modulus at every other frequency in (0, 1/2). If bin k is not among the bins 1 + round(fmin (n-2)) .. 1 + round(fmax (n-2)) that give the scalogram its energy, the whole scalogram is 0: this is what happens to the tone of frequency fmin itself below 1/4.",
    "for all lengths n >= 3, complex amplitudes, numbers of periods, bands, and positive wavelet lengths above 1/2 (Morlet) or fmax at most 1/2 (Mexican hat)",
    "a test looks at one tone and one band; that a voice answers most to its own frequency, and that a tone on the edge of the band always disappears, are statements about all of them",
    ["tftb/processing/affine.py:Scalogram.run"])

add("Symmetries of the noise generators, and Doppler noise of a source at rest",
    "For three points and more, noisecg multiplied by the sign of c is what draws multiplied by c give: the deviation of the draws does not matter. noisecu changes sign when every uniform draw u is replaced by 1-u. noisecu is noisecg of the draws minus 1/2. n points are the last n samples of the noise of the next power of two, from the same draws. On a power of two of points, at least four, rotating the draws rotates the noise, and reversing the draws reverses and conjugates it. dopnoise of a source at rest (v_target = 0) has the constant law f_target/s_freq and is, up to one positive factor, the analytic signal of the draws filtered by a resonance whose impulse response is 1 at lag 0 and 2 0.9^k cos(2 pi k f_target/s_freq) at lag k (with start-up terms of the first two draws in Chebyshev polynomials of the second kind).",
    "for all draws that are not constant (for dopnoise: whose filtered end is not silent), all lengths, factors, rotations, frequencies and distances",
    "the draws are random, so a test sees a few of them and can only look at averages; these are identities for every draw",
    ["tftb/generators/noise.py:noisecu", "tftb/generators/noise.py:noisecg", "tftb/generators/noise.py:dopnoise"])

add("Gaussian atoms in time and frequency",
    "The Wigner-Ville distribution of what atoms returns is, in closed form, a double sum over pairs of atoms. One atom gives a Gaussian in time, centred at its centre, times a sum over lags that depends only on the distance to its frequency: at every instant the row of its frequency (modulo 1/2) is the largest and the only one, and the column of its centre is above every column that has no more lags. Two atoms of equal spread give the sum of their distributions and one interference term, a Gaussian in time and in lag centred half way, oscillating with the differences, and bounded accordingly. inst_freq of one atom of positive frequency is that frequency (at most 1/2) at every instant, whatever the centre, spread and amplitude (also negative). The modulus of narrow_band of one atom at lag j is a Gaussian in j times the Fourier transform of the squared envelope over the available samples, independently of the frequency.",
    "for all lengths, centres inside the signal, frequencies, spreads (any sign, non-zero), amplitudes and numbers of bins for which the distribution returns",
    "a test takes one or two atoms and looks at the picture; the claims are identities over all parameters, bins and instants, including the truncation at the ends",
    ["tftb/generators/misc.py:atoms", "tftb/processing/cohen.py:WignerVilleDistribution", "tftb/processing/freq_domain.py:inst_freq", "tftb/processing/ambiguity.py:narrow_band"])

add("Small errors of the samples",
    "How far returned values move when the samples do, with d the norm of the difference of two signals of one length: every value of the spectrogram moves by at most (norm x + norm y) d, whatever the window; every value of the narrow-band ambiguity function by as much; every value of the Margenau-Hill and Page distributions by at most sqrt N times that; the mean instant returned by loctime by at most (N - 1)(norm x + norm y) d / energy x and the mean frequency returned by locfreq by at most (1 - 1/N)(norm x + norm y) d / energy x, so that a relative error of the samples of e moves the centres by at most about 2 e times the whole range. Whenever the function returns for one of the two signals it returns for the other (for the centres: as soon as neither is silent).",
    "for all pairs of signals of one length, all instants inside the signal, all numbers of bins, all windows for which the spectrogram returns, all lags for which the ambiguity function returns; for locfreq, all lengths not congruent to 1 modulo 4",
    "a test perturbs one signal once; the claim is a bound over all pairs of signals, with an explicit constant",
    ["tftb/processing/cohen.py:Spectrogram", "tftb/processing/cohen.py:MargenauHillDistribution", "tftb/processing/cohen.py:PageRepresentation", "tftb/processing/ambiguity.py:narrow_band", "tftb/processing/time_domain.py:loctime", "tftb/processing/freq_domain.py:locfreq"])

add("Keyed signals in time-frequency representations",
    "A column of the short-time Fourier transform, the spectrogram or the pseudo Wigner-Ville distribution that only looks at samples of a tone peaks exactly in the row of that tone's frequency, whatever the rest of the signal is. Hence, for every draw: in the columns of an anafsk signal whose window stays inside one symbol the spectrogram has the same maximum for every symbol and takes it in row k if and only if the returned law is k/n there, and the pseudo Wigner-Ville distribution if and only if it is k/(2n), so the symbols can be read off the picture; the spectrogram columns inside the symbols of anabpsk and anaqpsk signals are all equal, so two- and four-phase keying is invisible inside the symbols; those of anaask signals are proportional, in the ratio of the squared amplitudes.",
    "for all lengths, symbol lengths, draws, carrier frequencies, positive windows shorter than half the number of bins, numbers of bins and instants whose window meets no transition",
    "a test draws one sequence of symbols; the claim is for every draw and every column, and it is an exact statement about which rows attain the maximum",
    ["tftb/processing/cohen.py:Spectrogram", "tftb/processing/cohen.py:PseudoWignerVilleDistribution", "tftb/processing/linear.py:ShortTimeFourierTransform", "tftb/generators/analytic_signals.py:anafsk", "tftb/generators/analytic_signals.py:anabpsk", "tftb/generators/analytic_signals.py:anaqpsk", "tftb/generators/analytic_signals.py:anaask"])

add("Zero insertion removes the sampling ambiguities",
    "Let y be x with a zero inserted after every sample. The even columns of the Wigner-Ville distribution of y are the distribution of x at twice the frequency (two copies of it when the number of bins is doubled), and its odd columns carry the products of samples of x an odd number of places apart, which the distribution of x never contains. Hence two signals of the same length have the same Wigner-Ville distribution after the insertion if and only if they differ by one unit phase factor, whereas without it the even and the odd samples have independent phases. The narrow-band ambiguity function of y at lag j contains the products of samples exactly j places apart; inst_freq of y at the even instants is half the phase advance from one sample to the next taken in (0, 1] turns, so frequencies are resolved modulo the sampling rate instead of modulo half of it; loctime doubles both numbers.",
    "for all signals, numbers of bins at which the distribution is returned, lags, phase laws and positive amplitudes",
    "that the distribution determines the signal is a statement about all pairs of signals",
    ["tftb/processing/cohen.py:WignerVilleDistribution.run", "tftb/processing/ambiguity.py:narrow_band", "tftb/processing/freq_domain.py:inst_freq", "tftb/processing/time_domain.py:loctime"])

add("inst_freq of disturbed signals measures the stronger component",
    "If the two samples an estimate of inst_freq is made of are disturbed by at most the fraction eps < 1 of their amplitude, the estimate moves by at most arcsin(eps) / (2 pi), which is at most eps / 4, up to the period 1/2 of the estimate, and it does not wrap unless the undisturbed estimate is that close to 0 or 1/2. Hence when sigmerge puts two signals of constant amplitude together r > 0 decibels apart, every estimate is that of the first signal alone to within arcsin(10^(-r/20)) / (2 pi), whatever the second signal is, and for r < 0 that of the second signal; and when anything whatsoever is added as noise at a signal-to-noise ratio of r decibels, at most 2 N 10^(-r/10) / eps^2 of the estimates move by more than arcsin(eps) / (2 pi), for every draw of the noise. Two tones of equal strength give the mean of their frequencies where the beat has the same sign at the two samples, and the mean plus 1/4 where it changes sign, up to the period 1/2.",
    "for all signals, disturbances, amplitudes, ratios and instants; for all draws of the noise",
    "a test adds one disturbance; the bound holds for the worst one and is uniform in the length",
    ["tftb/processing/freq_domain.py:inst_freq", "tftb/generators/utils.py:sigmerge"])

add("The duration asked for and the duration measured",
    "A signal with a symmetric envelope around sample c that fits into the signal has the measured time centre (loctime) exactly c, and its measured duration is 2 sqrt(pi sum k^2 phi(k) / sum phi(k)). For a signal under amrect(n, c, s) the measured duration is 2 sqrt(pi K (K+1) / 3), K = floor(s/2 sqrt(3/pi)), which lies between s - 2.05 and s + 1.03 whatever s is; for one under amtriang(n, c, s) with its feet on samples it is never larger than s and its square at most 2 pi / 5 smaller. In 2c + 1 samples amexpos centred at c and amgauss centred at c + 1 both have the measured centre c: amgauss counts its samples from one, the other generators and loctime from zero.",
    "for all lengths, centres, durations and signals with that modulus, provided the envelope fits",
    "the agreement of two parts of the library for all durations is not a finite check",
    ["tftb/generators/amplitude_modulated.py:amrect", "tftb/generators/amplitude_modulated.py:amtriang", "tftb/generators/amplitude_modulated.py:amgauss", "tftb/generators/amplitude_modulated.py:amexpos", "tftb/processing/time_domain.py:loctime"])

add("Finding a tone in noise with get_spectrum",
    "A tone at the frequency of one of the n rows of get_spectrum, disturbed by any signal with less than half its energy, has its spectrum strictly largest in that row. So a tone from fmconst mixed by sigmerge with any noise at more than 10 log10 2 (3.01) decibels is found for every draw of the noise. The bound is exact: with half the energy there is a disturbance that makes any other chosen row as large. Of two such tones mixed by sigmerge at r decibels the rows hold n^2 |a|^2 and 10^(-r/10) times that, all the other rows are zero, and the first is the larger exactly when r > 0.",
    "for all lengths, rows, amplitudes, disturbances and ratios",
    "every disturbance and every draw of the noise is a universal statement, and the exactness of the bound is not a finite check",
    ["tftb/processing/utils.py:get_spectrum", "tftb/generators/utils.py:sigmerge", "tftb/generators/frequency_modulated.py:fmconst"])

add("The Gaussian envelope: sum, energy, points of inflection, measured duration",
    "The samples of amgauss(n, t0, s), with t0 between 0 and n + 1, add up to s, and a signal with that modulus has the energy s / sqrt(2), up to explicit errors: a sampling error of the order exp(-pi s^2) (exp(-pi s^2 / 2) for the energy) and what the two ends cut off, of the order exp(-pi (d/s)^2) (its square for the energy), d the distance of the centre from the end. The samples bend down where they are nearer to the centre than s / sqrt(2 pi) and up where they are at least half a sample farther than that. A signal of 2c + 1 samples with the modulus amgauss(2c + 1, c + 1, s) has the measured time centre c and a measured duration (loctime) that is at most s, and whose square is smaller than s^2 by at most an explicit bound of the order exp(-pi s^2 / 2) plus exp(-2 pi ((c+1)/s)^2). The same holds for any length n and any centre c + 1 inside the signal, with the measured centre c and the squared duration s^2 up to explicit errors of the order exp(-pi s^2 / 2) and exp(-2 pi (d/s)^2), d the distance of the centre from the nearer end.",
    "for all lengths, centres inside the signal, spreads and signals with that modulus",
    "the tests check one length, centre and spread; the bounds for all of them need Poisson summation",
    ["tftb/generators/amplitude_modulated.py:amgauss", "tftb/processing/time_domain.py:loctime"])

add("The uncertainty relation of measured duration and bandwidth",
    "For every signal that is not zero, of N samples with N mod 4 not 1: with the centre tm and the duration T that loctime returns and the bandwidth B that locfreq returns, the energy is at most B sqrt(T^2 + pi) times the energy plus the energy of the last sample times (N - 1/2 - tm) plus the energy of the first one times (tm + 1/2). If the first or the last sample is zero, B^2 (T^2 + pi) >= 1: the product of the spreads is small only for signals that do not begin or end with silence (or are very short). For even N, B^2 + 4 pi fm^2 is between 1/pi and pi/4 times the squared differences of neighbouring samples (the first follows the last) divided by the energy, and exceeds the lower bound by at most pi^3/192 times the squared second differences divided by the energy.",
    "for all signals that are not zero, of a length locfreq accepts",
    "an inequality between two functions of the library over all signals; tests check single signals",
    ["tftb/processing/time_domain.py:loctime", "tftb/processing/freq_domain.py:locfreq"])

add("The measured bandwidth of a Gaussian pulse",
    "The squared bandwidth that locfreq measures for A amgauss(n, t0, s), n even, A any non-zero complex constant, differs from 1/s^2 by at most 5/s^4 plus explicit relative errors of sampling (of the order exp(-pi s^2/2)) and of what the two ends cut off (of the order exp(-2 pi (d/s)^2), d the distance of the centre from the end); so it is the reciprocal of the duration asked for. For every signal with non-negative samples (up to a common complex factor) pi times the squared bandwidth is at least the squared differences of neighbouring samples around the circle divided by the energy.",
    "for all even lengths, centres between 1/2 and n + 1/2, spreads and amplitudes; for the second part all non-negative signals of a length locfreq accepts",
    "the agreement of generator and measurement for all spreads and centres is not a finite check",
    ["tftb/generators/amplitude_modulated.py:amgauss", "tftb/processing/freq_domain.py:locfreq"])

add("Centre and duration of exponential pulses",
    "A signal whose modulus is amexpos(n, t0, s, kind='unilateral') with its first non-zero sample c (the first one not before t0) and K = n - c: loctime returns the centre c + 1/(exp(2u) - 1) - K/(exp(2uK) - 1) and the squared duration pi (1/sinh(u)^2 - K^2/sinh(uK)^2), u = sqrt(pi)/s. So the duration is at most s, its square at most pi/3 smaller but for what the end of the signal cuts off, and the centre does not lie at t0 but about s/(2 sqrt(pi)) after the beginning (at most half a sample before that, but for the cut). With kind='bilateral' and t0 = c in 2c + 1 samples the centre is t0, the duration at most s, and its square at most 2 pi/3 smaller but for an explicit term that decreases like exp(-2 sqrt(2 pi) c/s).",
    "for all lengths, beginnings (integers or not), durations and signals with that modulus",
    "closed forms and bounds for all lengths and all real durations; tests compare one array",
    ["tftb/generators/amplitude_modulated.py:amexpos", "tftb/processing/time_domain.py:loctime"])

add("What the analytic projection changes in locfreq",
    "Let z be the analytic projection (as the generators anapulse, anastep, anasing and the noise generators compute it) of a real signal x of even length N. The centre that locfreq reports for z is at most 1/2 - 1/N, and at least minus half the share of the energy of z at half the sampling frequency, which locfreq counts as -1/2; without energy there the centre is not negative and the bandwidth at most sqrt(pi) (1/2 - 1/N). If x is not zero and has neither mean nor energy at half the sampling frequency, locfreq reports for x the centre 0 and a bandwidth B and for z a centre f, the mean of the absolute frequencies of x weighted by its power spectrum, between 1/N and 1/2 - 1/N, and a bandwidth A of at most sqrt(pi) (1/2 - 2/N) with B^2 = A^2 + 4 pi f^2.",
    "for all real signals of even length",
    "an identity between two measurements for all signals",
    ["tftb/processing/freq_domain.py:locfreq", "tftb/generators/analytic_signals.py:anapulse", "tftb/generators/analytic_signals.py:anastep"])

add("Centres and spreads of sums of signals",
    "If two signals of energies E and F are nowhere both different from zero, the centre that loctime returns for their sum is (E a + F b)/(E + F), a and b the centres of the parts, and the squared duration (E S^2 + F T^2)/(E + F) + 4 pi E F (a - b)^2/(E + F)^2. The same holds for locfreq (lengths it accepts) and signals no DFT bin of which holds energy of both. So of two such signals merged by sigmerge at r dB, rho = 10^(r/10), the centre is (rho a + b)/(rho + 1) and the squared spread (rho S^2 + T^2)/(rho + 1) + 4 pi rho (a - b)^2/(rho + 1)^2, whatever the energies of the two signals were.",
    "for all signals, energies and ratios",
    "an identity for all pairs of signals and all real ratios, across two modules",
    ["tftb/processing/time_domain.py:loctime", "tftb/processing/freq_domain.py:locfreq", "tftb/generators/utils.py:sigmerge"])

add("The information of a spectrogram",
    "For the spectrogram of a signal of at least two samples, computed at all its instants with at least two bins and any window that is not zero at its centre, and for any distinct frequencies: renyi_information of every order alpha > 0 (one included) returns a number exactly when the signal is not silent, and is NaN for silence; for alpha >= 1 it is at most log2 of the number of time steps times the width of the frequency axis.",
    "all signals, windows, numbers of bins, frequency axes, orders", "needs positivity of every spectrogram and of the two-dimensional integral, for every signal",
    ["tftb/processing/cohen.py:Spectrogram.run", "tftb/processing/postprocessing.py:renyi_information"])

add("Where the Wigner-Ville distribution is negative",
    "A column of the Wigner-Ville distribution without negative entry forces the modulus of the signal at its instant to be at least the geometric mean of its moduli at any two samples symmetric about that instant; at lags whose double leaves the signal the product of the two moduli is at most the squared modulus at the instant divided by sqrt(2). More generally, at two lags a and b that together leave the signal, with more than a + b + min(t, N-1-t) bins, (|x[t+a]| |x[t-a]|)^2 + (|x[t+b]| |x[t-b]|)^2 is at most |x[t]|^4. Where the modulus is not zero and equals the geometric mean of its neighbours' (every signal of constant modulus, every damped tone) the column has a negative entry, unless it has as many lags as bins. Hence renyi_information of order one raises ValueError for the Wigner-Ville distribution of every signal of constant modulus of at least three samples (at least four bins), such as the chirps of fmlin, and of every signal with a sample smaller than the geometric mean of two samples symmetric about it.",
    "all signals, numbers of bins, instants", "sign of a Fourier sum for every signal; a test sees the signs of a few matrices",
    ["tftb/processing/cohen.py:WignerVilleDistribution.run", "tftb/processing/postprocessing.py:renyi_information"])

add("Where pseudo Wigner-Ville, Margenau-Hill and Page representations are negative",
    "A column of PseudoWignerVilleDistribution.run() with a Hermitian (for instance real symmetric) odd window and no negative entry satisfies |h(m)| |x[t+m]| |x[t-m]| <= h(0) |x[t]|^2 at every lag m of the window inside the signal. If the window is not tapered between its middle and the next sample, the column has a negative entry wherever the modulus is not zero and equals the geometric mean of its neighbours' (every signal of constant modulus), unless it has as many lags as bins. At two lags a and b of a window of half-length L with a + b > L and a + b + L < n_fbins, a column without negative entry satisfies (|h(a)| |x[t+a] x[t-a]|)^2 + (|h(b)| |x[t+b] x[t-b]|)^2 <= (h(0) |x[t]|^2)^2. Hence with the default (Hamming) window and at least 216 bins every signal of constant modulus longer than the window has a negative entry in each column the window fits around, and renyi_information of order one raises ValueError for it. The first column of MargenauHillDistribution.run() with default parameters sums to zero, so it is silent or has a negative entry; renyi_information of order one therefore raises ValueError for the Margenau-Hill distribution of every signal whose first sample is not orthogonal to the sum of the others. A later column without negative entry satisfies |x[t] conj x[t-m] + conj x[t] x[t+m]| <= 2 |x[t]|^2. In PageRepresentation.run() with default parameters the row of every bin above a quarter of the sampling frequency in which the signal has energy, and the column of every sample with Re(x[t] conj x[t-1]) < 0, has a negative entry; renyi_information of order one therefore raises ValueError for every signal with energy above a quarter of the sampling frequency.",
    "for all complex signals, odd Hermitian windows shorter than the lag range, numbers of bins and lags (pseudo Wigner-Ville); for all signals with default instants and bins (Margenau-Hill, Page)",
    "Whether some entry of a distribution is negative depends on the signal; tests can find a negative entry of one signal but not that every signal of a class has one, nor that the entropy is refused for all of them.",
    ["tftb/processing/cohen.py:PseudoWignerVilleDistribution.run", "tftb/processing/cohen.py:MargenauHillDistribution.run", "tftb/processing/cohen.py:PageRepresentation.run", "tftb/processing/postprocessing.py:renyi_information"])

if __name__=="__main__":
    with open("/verif/properties.jsonl","w") as f:
        for p in P: f.write(json.dumps(p)+"\n")
    print(len(P))
