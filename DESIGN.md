# Formal model of scikit-signal/tftb in Lean 4 — design

The library is numerical Python over NumPy arrays.  Every function and method of `tftb/` (tests excluded) has a Lean counterpart
that mirrors the source branch by branch; properties C01–C140 (`properties.jsonl`) are theorems about these counterparts, for all
inputs.  `MANIFEST.json` lists the theorems of each property, `seeded/LOG.jsonl` the wrong programs on which the theorems were
tried.

## 1. Trusted base

* **Lean 4.33.0 kernel** and the Mathlib it is shipped with.
* **Axioms**: `propext`, `Classical.choice`, `Quot.sound`, at most, for every theorem (`#print axioms`).  No axiom is added; no
  `sorry`, `admit`, `native_decide`, `bv_decide`, `implemented_by`, `unsafe`.
* **The model is faithful to the code.**  This is by reading: every definition in `lean/Verif/Model` cites file and lines and notes
  its simplifications.  The conventions of section 2 are part of what is trusted.
  As a check of the reading, the definitions of `klauder(8)`, `altes(8, 0.1, 0.5)`, `mexhat(0.5)` and `gdpower(8, 0.5)`, transcribed from
  the Lean text and evaluated numerically, agree with the arrays in the repository's own unit tests to 7e-9.  The code itself was never run.
* **The runtime semantics** of Python, NumPy and SciPy written down in `lean/Verif/Py/Basic.lean` and in the headers of the model
  files (section 3).
* **The statements say what the English says.**  Specification vocabulary (`lean/Verif/Spec.lean` and definitions at the head of
  `Props` files) is independent of the model: Fourier sums, zero extension, trapezoidal rule, weighted means, analytic signal, …

## 2. Conventions of the model

* **Numbers.**  `float64` is `ℝ`, `complex128` is `ℂ`, integers are `ℤ`/`ℕ`.  *Rounding, overflow and signed zero are not modelled.*
  Equality tests and comparisons are those of the exact numbers.
* **NaN and infinity.**  Where NumPy would go on with a NaN or an infinity the model stops with the outcome `PyErr.nonFinite`; it is
  not an exception of the program, and no theorem depends on Lean's `x / 0 = 0`.  Where NaN is ordinary data (laws in `ideal_tfr`
  and `plotifl`, infinite reassignment vectors, the first sample of `fmpower`) it is data in the model: `Option`, `XFloat`.
  Division of Python scalars by zero is `ZeroDivisionError`.  A program that goes on with a NaN may still raise later (`int(nan)`): `nonFinite`
  means "a NaN or an infinity was computed", not "the call returned".
* **Exceptions** are values: `Py α := Except PyErr α`.
* **Arrays.**  `Vec α` and `Mat α` are sizes with an accessor.  Whatever the code does by index goes through checked operations:
  negative indices wrap once, others are `IndexError`; float indices are `IndexError` (float slices `TypeError`); slices clamp;
  fancy assignment with repeated indices keeps the last value; element-wise operations broadcast length 1 or raise `ValueError`.
  One- or two-dimensional arguments are `Arr12`; arrays of three or more dimensions are not modelled.
* **Types of numbers.**  Where the behaviour depends on an index being a Python `int`, a NumPy integer or a float
  (`min([np.round(..), lh])`, `(n-1)/2`, `nh0`), the model keeps the difference.
* **Objects** are records (signal, timestamps, bins, window, labels, stored matrix with its dtype).  `run` and `plot` map a state to a
  state, so histories of calls are iterated functions (C40, C41).  Functions that modify their arguments return them (C50, C72).
* **Random numbers** are parameters: theorems hold for every draw.
* **Remainders never reached**: for functions that cannot return, the code after the failing line is an arbitrary function parameter
  (C55).

## 3. What is modelled, and what is not

| file | model | not modelled |
|---|---|---|
| `utils.py` | `Model/Utils.lean`: all functions | |
| `generators/amplitude_modulated.py` | `Model/AM.lean`: all | |
| `generators/frequency_modulated.py` | `Model/FM.lean`, `Model/FMPower.lean`: all | text of the warnings; whether `fmpower` warns when its law is complex (negative reference time, non-integer degree) |
| `generators/analytic_signals.py` | `Model/Analytic.lean`: all | |
| `generators/misc.py` | `Model/Misc.lean`: all | |
| `generators/noise.py` | `Model/Noise.lean`: all | the distribution of the draws |
| `generators/utils.py` | `Model/GenUtils.lean`: `sigmerge`, `scale` up to the line where it always fails | lines 89–90, unreachable |
| `processing/base.py` | `Model/Base.lean`, `Model/Plot.lean`, `Model/Shapes.lean` | matplotlib itself: a drawing call is recorded with the data, axes and limits it is given, or refused when matplotlib refuses the shapes; titles, colours, `show` |
| `processing/linear.py` | `Model/Linear.lean`, `Model/Gabor.lean`: all | |
| `processing/cohen.py` | `Model/Cohen.lean`: all | |
| `processing/affine.py` | `Model/Affine.lean`, `Model/AffineClass.lean`, `Model/AffineSpwv.lean`: all | the cubic spline (`splrep`/`splev` are a parameter), convergence of `scipy.optimize.newton` (a parameter for Unterberger; theorems assume that it answers a root), `brenth` (answers the root when the signs differ, else `ValueError`); lines 137 and 151 |
| `processing/ambiguity.py` | `Model/Ambiguity.lean`, `Model/WideBand.lean`: all | `_find` (two lines, written out where it is called) |
| `processing/reassigned.py` | `Model/Reassigned.lean`, `Model/Morlet.lean`: all that can be reached | the parts of `pseudo_margenau_hill`, `pseudo_page`, `smoothed_pseudo_wigner_ville` after the line that always fails |
| `processing/time_domain.py`, `freq_domain.py` | `Model/TimeFreq.lean`, `Model/Shapes.lean`: all | |
| `processing/postprocessing.py` | `Model/Post.lean`: all | |
| `processing/utils.py` | `Model/ProcUtils.lean`: all | |
| `processing/plotifl.py` | limits of the axis (`Model/Plot.lean`) | the drawing |

External functions are modelled by their documented mathematical definition: `np.fft.fft/ifft/fftshift`, `scipy.signal.hilbert`,
`hamming`, `np.convolve`, `np.round` (half to even), `np.linspace/logspace/arange`, `np.std`, `np.angle` (`Complex.arg`; the
difference for a negative zero imaginary part is not seen), `np.isclose`/`allclose`, `np.histogram`, `np.roots` of the polynomials that occur.
`hamming` is `scipy.signal.windows.hamming` (a length of 1 gives `[1]`); the old alias `scipy.signal.hamming` is assumed to exist.
`int((umax - umin) / du)`-style truncations use exact numbers: the float result can differ by one.

## 4. Layout

`Verif/Py` runtime semantics; `Verif/Model` the code; `Verif/Spec.lean` specification vocabulary; `Verif/Lemmas` helper lemmas;
`Verif/Props` the property theorems.  Each module ends with concrete instances (`example`) that show that hypotheses can be met;
`Props/Instances1` to `Instances6` instantiate further theorems at fixed signals, one line each.  Not every theorem is named in an
example; for the others that the hypotheses can be met was judged by reading only.
`tools/props_part1.py` and `tools/manifest.py` write `properties.jsonl` and `MANIFEST.json`.

## 5. Properties, where they are proved, and how

| id | subject | file (`Props/`) | idea of the proof |
|---|---|---|---|
| C01–C06 | divider, nearest_odd, modulo, nextpow2, is_linear, izak | Utils | induction on the search loop, integer arithmetic, DFT orthogonality |
| C07–C08 | amplitude modulations | AM | closed forms, monotonicity |
| C09–C14, C60 | frequency modulations | FM | algebra of complex exponentials; derivative of the phase |
| C15–C16 | inst_freq on generators | InstFreq | argument of complex exponentials |
| C17 | sigmerge | GenUtils | norms |
| C18–C20, C64 | keyed signals, pulses, steps, singularities | Analytic, Qpsk | array lemmas, one-sided DFT multiplier |
| C21, C65 | noise | Noise | Parseval; recursive filter |
| C22–C25 | atoms, klauder, altes, gdpower, doppler, mexhat | Misc, Wavelets, Undefined | sums, norms |
| C26 | construction of objects | Stft | arithmetic |
| C27–C31 | STFT, spectrogram | Stft, Undefined | "scatter then DFT" lemma, Parseval |
| C32–C35 | Wigner-Ville | Wvd | same, orthogonality |
| C36, C38, C39, C61 | pseudo WV, Margenau-Hill, Page, pseudo MH | Cohen | same |
| C37 | smoothed pseudo WV | Spwv, Undefined | same, weights |
| C40, C41 | histories of run and plot | Histories, PageRuns | iteration, idempotence |
| C42, C43 | narrow_band | Ambiguity | triangle inequality, Parseval, re-indexing |
| C44–C46 | loctime, locfreq, group_delay | TimeFreq, Undefined | weighted means |
| C47, C48 | integrate_2d, derive_window, get_spectrum | ProcUtils | sums, integrals of polynomials |
| C49, C50 | renyi_information | Renyi | homogeneity; sorting |
| C51–C53, C62 | ideal_tfr, friedman, hough, ridges | Ideal, Friedman, Hough, Ridges | loop invariants |
| C54, C63 | reassigned spectrogram | Reassigned, Undefined | scatter-add invariant, closed form |
| C55 | functions that never return | NeverReturns, GenUtils, Wavelets, Affine… | case analysis |
| C56 | scalogram, normalisation | Scalogram | convolution indices, trapezoidal rule |
| C57 | wide_band | WideBand | Mellin sums |
| C58 | affine band | AffineBand | extreme bins |
| C59 | gabor | Gabor, GaborTotal | Zak transform, frames |
| C66, C67 | lambdak, umaxdfla_solve | Dilation | real analysis |
| C68, C69 | Unterberger, D-Flandrin, Bertrand | AffineClass | Fourier sums over dilations |
| C70 | affine smoothed pseudo Wigner | AffineSpwv | rank one; all cases of failure |
| C71 | reassigned pseudo WV | ReassignedPwv | closed form |
| C72 | plots | Plot | data and axes of each drawing call |
| C73 | inversion of Wigner-Ville, Moyal, link with narrow_band | WvdInverse | Fourier inversion |
| C74 | inversion of the STFT | StftInverse | Fourier inversion |
| C75 | morlet_scalogram | Morlet | sums with shifted places |
| C76 | columns, rows, matrices as signals | Shapes | flattening, broadcasting |
| C77 | WVD/PWVD of chirps: value, peak rows | Chirp | Dirichlet kernel, equality case of the triangle inequality |
| C78 | STFT and spectrogram of a tone | Chirp | equality case of the triangle inequality |
| C79 | ambiguity function of a chirp | Chirp | closed form C42 |
| C80 | `fmpower` with integer degrees | FMPower | error branches, closed form |
| C81 | STFT plot with `sqmod=False` | PlotComplex | lexicographic order |
| C82 | affine constructors on their default band | AffineEmpty | C58 and C69 combined; bounds of the dilation |
| C83 | parallelogram law of Cohen's class, interference of two tones | Superposition | sesquilinearity of the kernels in the closed forms |
| C84 | moments of the WVD: frequency marginal, `inst_freq`, `loctime` | WvdMoments | orthogonality, inverse of C73 |
| C85 | Rényi information of disjoint copies and uniform distributions | RenyiCopies | C49, shift of a trapezoidal sum |
| C86 | delays and frequency shifts | Covariance | closed forms |
| C87 | `linear`, `cohen` and `reassigned` compared | Consistency | closed forms |
| C88 | further runs of a used object | Reruns, RerunsWvd | closed forms for any history |
| C89 | plots that square, repeated | PlotRepeated | any number of plots |
| C90 | logarithmic scale of the Wigner-Ville plot | PlotLog | levels of the signed values, drawing of the modulus |
| C91 | a second run folds negative frequencies | Folding | any history of at least two runs; the second Wigner-Ville run from the first |
| C92 | two numbers of frequency bins | Bins | closed forms at equal frequencies |
| C93 | conjugate and real signals | Conj | closed forms, reflection of the rows |
| C94 | bounds and stability | Bounds | Cauchy-Schwarz |
| C95 | samples a column depends on | Local | closed forms; one changed sample |
| C96 | extreme spreads of `loctime` and `locfreq` | Spreads | weighted variances, Popoviciu's inequality |
| C97 | time reversal | Reversal | closed forms, reflection of the sums |
| C98 | zeros after the signal | Padding | closed forms in terms of the signal extended by zeros |
| C99 | a signal multiplied by a constant | Gain | the two calls are compared statement by statement (`PyRel`, Lemmas/Rel), errors included |
| C100 | a signal multiplied by a real constant: affine and wide-band representations | GainReal | the same |
| C101 | how generated signals combine | GenAlgebra | the closed forms of the generators; C99 for the matrices |
| C102 | ridges and Friedman density of reassigned representations | RidgeReassigned | inversion of the reassignment loop; the C62 and C52 closed forms |
| C103 | post-processing of an amplified signal | GainPost | relational proof (C99) through the loops; the thresholds are homogeneous |
| C104 | Frequency shifts, conjugates and delays of reassigned representations | ReassignedShift | closed forms; rounding is odd; rows modulo n |
| C105 | bounds of the Rényi information, dependence on the order | RenyiOrder | the trapezoidal integral is a positive linear functional; Bernoulli and `log x ≤ x - 1` pointwise |
| C106 | what a Wigner-Ville distribution cannot tell apart | SameWvd | equality of the instantaneous correlations (C73), closed forms; Fourier inversion over the Doppler axis |
| C107 | amplitude-modulated chirps | AmChirp | weighted sums of cosines, pairing of samples around the centre |
| C108 | tones in the smoothed pseudo Wigner-Ville distribution | SpwvTone | closed form C37, geometric phases |
| C109 | the arithmetic of group delays | GroupDelay, EnvelopeDelay | Plancherel; reflection and convolution of the sums |
| C110 | instantaneous frequencies of smooth laws | SmoothLaw | mean value theorem on the phase between the two samples used |
| C111 | the ideal representation and the peaks of the Wigner-Ville distribution | IdealPeak | rounding of k - k/n; uniqueness of the maximum of C77 |
| C112 | demodulating keyed signals with inst_freq | Keying | phase advance over two samples modulo one half |
| C113 | what spectrograms keep of the phase | PhaseRetrieval | correlations of the windowed segments from the squared moduli; products at lags L and L+1 one by one; ratios |
| C114 | what the Margenau-Hill distributions keep of the signal | MargenauHillInverse | the bins of a column give the products at opposite lags added (inverse DFT); sample by sample induction on the phase factor; an aliased case for the default number of bins |
| C115 | moments of the Margenau-Hill distribution | MhMoments | closed form of C38; marginals; two numbers of equal modulus: the square of the sum points along the product |
| C116 | Hough transforms of tones and impulses | HoughLines | counts of C53; a row: distances spread by the sine of the angle over the pixels, more than one step unless the angle is 0 or pi |
| C117 | The analytic impulse in time and frequency | AnalyticPulse | discrete Fourier inversion of the one-sided spectrum, geometric sums; symmetry and Parseval for the moments |
| C118 | Real and imaginary parts of analytic projections | Quadrature | polarised Parseval on the one-sided spectrum; frequency marginal of C84; geometric sums for tones |
| C119 | Products of signals; spectrograms and pseudo distributions as smoothed Wigner-Ville distributions | Smoothing | convolution theorem for lag sums; frequency marginal of C84 for the windowed signal |
| C120 | Linear chirps in the STFT and the spectrograms | ChirpStft | symmetry of a column about the law by changing the sign of the lag; the peak from |sum|^2 = double sum of w w' cos(pi b (s^2 - t^2)) cos cos, whose weights are positive for slow chirps; zero reassignment displacements at the law because the time-weighted and derived windows are odd |
| C121 | Shifts, symmetry and uniqueness of Gabor coefficients | GaborShift | the coefficients as inner products with shifted, modulated biorthogonal windows; a one-sided inverse of a square matrix is two-sided |
| C122 | Where the parts of a signal interfere | Interference | the kernel multiplies samples of equal parity; products across a gap vanish; closed forms of C33, C38, C39 for two impulses |
| C123 | Tones in the scalogram | ScalogramTone | frequency response of the voices; the tone on the lower edge of the band is lost; linearity |
| C124 | Symmetries of the noise generators | NoiseSymmetry | rotation and reversal of analytic signals; closed form of the recursive filter by induction |
| C125 | Gaussian atoms in time and frequency | AtomsTf | product of two Gaussians on both sides of an instant; cosine sums; reflection of the lags |
| C126 | Small errors of the samples | Stability | Cauchy–Schwarz on the closed forms of C31, C38, C39, C42; two weighted means of the same positions |
| C127 | Keyed signals in time-frequency representations | Hopping | locality (C95) and the peak of a tone (C77, C78) on the samples of one symbol |
| C128 | zero insertion | ZeroInsert | lag sums reindexed by halving the lags; C73_determines, C42_closed_form, inst_freq_eq |
| C129 | capture effect and noise in inst_freq | Capture | the argument of a number within eps of one is at most arcsin eps; arguments add modulo 2 pi; counting with the energy for the noise |
| C130 | duration of envelopes | Duration | sums over symmetric supports, closed power sums, bounds of square roots |
| C131 | Finding a tone in noise | Detect | Parseval on two rows, (p+q)² ≤ 2(p²+q²) |
| C132 | The Gaussian envelope | Gauss, GaussDuration | Poisson summation (Jacobi's formula) and its derivative; cosh against exp |
| C133 | The uncertainty relation of measured duration and bandwidth | Uncertainty | summation by parts and Cauchy-Schwarz in time, Parseval for the differences of neighbouring samples |
| C134 | The measured bandwidth of a Gaussian pulse | GaussBand | C133 applied to the autocorrelation of the sampled Gaussian, whose sums come from C132 |
| C135 | Centre and duration of exponential pulses | ExpoDuration | finite geometric sums in closed form; power series of cosh and monotonicity for the bounds |
| C136 | What the analytic projection changes in locfreq | AnalyticFreq | bins of the projection (C20), pairing of the bins k and N - k of a real signal |
| C137 | Centres and spreads of sums of signals | Mixtures | weights that add up: mean and variance of a mixture; energy ratio of sigmerge (C17) |
| C138 | The information of a spectrogram | RenyiSpectrogram | column energies; positive weights of the trapezoidal rule; C105 |
| C139 | Where the Wigner-Ville distribution is negative | WvdNegative, PseudoNegative | moments of non-negative weights on the unit circle; Bessel's inequality |
| C140 | Where pseudo Wigner-Ville, Margenau-Hill and Page representations are negative | PseudoNegative | moments of non-negative weights on the unit circle and Bessel's inequality for them; the first Margenau-Hill column sums to zero |

## 6. Findings: where the code is not what it should be

Each is a theorem (id in brackets), for all inputs of the stated kind or with a concrete witness.

*Generators.*
`amgauss` counts its samples from one, so `loctime` finds its centre at `t0 - 1`; the other envelopes count from zero [C07, C132].
Of a one-sided `amexpos`, `t0` is the beginning and not the "time center" of its documentation [C135].
`fmconst` with a centre between samples divides by a real part: modulus not 1, sometimes NaN [C09].
`fmpar`'s phase is not the integral of its law [C60].  `fmpower`'s law is infinite at its first sample, so it warns whenever `k > 0` and
`c ≠ 0` [C12, C13]; with an integer degree, the documented type, it raises for every `k ≥ 1` [C80]; a negative reference time with a non-integer degree gives a complex law and moduli other than 1 [C12].  `fmodany` never returns with a float `t0`, the documented type; it accepts `t0 = len` and then raises `IndexError`; a column law is not range-checked [C11].
`anafsk` returns more samples than asked when the block length does not divide them (130 for the default 128), and the default call of
`anaqpsk` on 128 points raises, and of one point with blocks of b it returns b samples [C19]; one sample makes `anaask` and `anabpsk` raise [C18].  `noisecg` of one or two points raises `TypeError`; the variance is below 1 by the Nyquist term [C21].
`atoms` centred on the last instant raises [C22].  `klauder` peaks at `f0 - 1/(4πa)` and returns an even number of samples [C24].
`altes` can exceed frequency 1/2 [C24].  `gdpower` fills each bin with the value of the next one [C24]; degree 1 never returns [C55].
`anasing` of non-positive strength is on a stretched grid for odd lengths, and `t0 - 1` [C64].  `dopnoise` returns one sample too few [C65].
`scale` never returns [C55].

*Linear representations.*  STFT columns are centred on sample `m - 1` and ignore timestamps [C27]; hence the default STFT of fewer
than eight samples does not depend on the last one [C74].  A second `run` differs from the first [C40]; pseudo Wigner-Ville alternates for ever and Margenau-Hill drifts [C88]; from the second run on four classes no longer tell positive from negative frequencies [C91].  `gabor` without arguments
returns zeros for odd prime lengths, a "dual window" constant on each half for lengths `2p`, and raises for all other composite lengths except 8 and squares of primes [C59].

*Cohen's class.*  Wigner-Ville raises for lengths 5, 9, 13, … [C32], is zero with one bin [C34], is not repeatable [C40], and determines the
signal only up to two phases [C73].  Smoothed pseudo WV stores lag `τ` in row `τ + 1` and uses the window at `1 - τ` [C37]; hence a tone at 1/4 is the strict minimum of its columns, default windows included [C108].  Two tones half a band apart have the same Wigner-Ville matrix [C106].
`smoothed_pseudo_wigner_ville` raises `IndexError` when the frequency window reaches half the bins at an inner instant [C37].
Margenau-Hill leaves out sample 0 [C38], so its first column sums to zero and its Shannon information is refused for most signals [C140], it does not follow delays, its mean time is too late [C115], and with its default arguments can lose part of that sample [C114]; Page and smoothed pseudo WV do not follow frequency shifts [C86].  Margenau-Hill, pseudo Margenau-Hill and Page do not follow a reversal of time; STFT columns then move to `N + 1 - m`, two late [C97].  Page is not causal and its column sums use `x[t-1]` [C39]; its plot never returns [C39].
Pseudo Margenau-Hill is one lag off, raises for 1–2 samples and for long windows [C61].  Pseudo Page never returns [C55].
Plotting changes the stored matrix, and for spectrograms and affine distributions also the array the caller holds [C41, C72];
labels are off by up to a bin or more in several plots [C72]; the STFT plotted with `sqmod=False` loses every coefficient
with negative real part and is never drawn as an image [C81].

*Time and frequency.*  `locfreq` raises for lengths 5, 9, 13, … and mislabels for lengths 3, 7, … [C45].  `loctime` of a column or a row ignores
the samples [C76].  `group_delay` of an impulse is one too large [C46].
`inst_freq` labels with instant `j + 2` what column `j + 1` of the Wigner-Ville distribution shows [C84], and reports a keyed carrier of frequency 0 as 1/2 [C112].

*Ambiguity.*  `narrow_band` with fewer bins than samples raises [C42].  `wide_band` takes its default band from time samples,
normalises at lag −1, and keeps only the negative Mellin half [C57].

*Post-processing.*  `integrate_2d` uses the first time step only [C47].  `derive_window` of one sample is NaN [C48].
`renyi_information` modifies its arguments and ignores the order of the frequencies [C50]; it is not exactly monotone in the order [C105].  `ideal_tfr` marks the neighbouring row in the upper half (so off the Wigner-Ville peaks of the same chirp [C111]) and
transposes NaNs [C51].  `hough_transform` returns a distance axis of the wrong length [C53], and finds tones below the middle row for even sizes only, impulses for multiples of four only [C116].  `ridges` returns the last column only and
ignores the threshold [C62].  `ridges` and `friedman_density` count rows and columns from 0, the reassignment functions from 1: no ridge for an impulse, no frequency 0,
votes for row 0 in the last row [C102].

*Reassignment.*  The reassigned spectrogram and pseudo WV put everything one bin low (and the former one column to the left); with default windows both raise
for 2–7 samples [C63, C71].  Reassigned pseudo WV is centred on sample `t - 1` [C71].  In the first columns the reassigned spectrogram takes the last sample
for the one before the first [C87].  The reassigned representations of a real signal are not symmetric: mirror cells go to bins `p` and `-p - 2` [C104].  Three reassigned functions never return [C55].  `morlet_scalogram` never reassigns, and refuses every impulse [C55, C75].

*Affine class.*  The band of a constant is reversed, that of a tone at a multiple of 0.05 empty [C58].  `Scalogram` needs as many voices as
samples; its coefficients are delayed (Morlet) or early (Mexican hat) [C56];
a tone at the lower edge of the band (below 1/4) gives a scalogram that is zero [C123].  An array as `waveparams` always raises [C56].  Default numbers of voices raise `AttributeError` for narrow bands [C69], in particular for every
tone [C82]; Bertrand
raises for ratios above `e⁴` and has too few dilations for some odd lengths [C69].  Unterberger's other form never returns [C55];
its active form is one sample late [C68].  `lambdak` is NaN at 0 except for Bertrand [C66].  `smoothed_pseudo_wigner` has rank one and cannot be called with its defaults [C70].

## 7. Wrong programs

`seeded/LOG.jsonl` has one line per wrong program: the model definition, the edit, the claim it contradicts, the theorems whose proof
failed, and theorems tightened because none failed.  The edits are made in a scratch copy; proofs that still compile although the
English claim is false mean that the theorem was too weak.  Lines marked equivalent are edits that change nothing observable
(unreachable branches, error kinds of impossible cases).

How to read it.  Most lines come from automatic batches: `theorems_failed` lists the proofs that stopped compiling, and `claim_broken` is
filled in from their names.  A proof that stops compiling is not by itself evidence that its statement became false: some break
only because their text mentions the edited expression, and theorems in modules above the first failure are not reached.  So the number of
caught edits is an upper bound on the number of edits that contradict a statement, and edits whose failures are only textual may hide a gap.
The `anaqpsk` carrier bound was such a case: two proofs failed, yet no statement claimed the bound.  It was found by comparing every
`raise` of the source with the theorems.  The same review of the guards that stand for a division by zero gave C23_undefined, C31_undefined,
C37_undefined, C46_undefined and C63_undefined.  The last lines of the log are these cases; their notes say for each what was seen to fail and for which the
negation of the new statement was proved of the edited model.
