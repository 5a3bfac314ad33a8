import Verif.Py.Basic

/-!
# Specification vocabulary

Small, self-contained notions in which the properties are stated.  Nothing here refers to the model
of the code.
-/

namespace Tftb.Spec

open Finset

/-- `exp(iθ)`. -/
noncomputable def expi (θ : ℝ) : ℂ := Complex.exp (θ * Complex.I)

/-- Energy of a signal: sum of the squared moduli of its samples. -/
noncomputable def energy (x : Vec ℂ) : ℝ := ∑ i ∈ range x.len, ‖x.get i‖ ^ 2

/-- Energy of a matrix. -/
noncomputable def energy2 (X : Mat ℂ) : ℝ := ∑ r ∈ range X.rows, ∑ c ∈ range X.cols, ‖X.get r c‖ ^ 2

/-- The signal extended by zero to all integer times. -/
noncomputable def zext (x : Vec ℂ) (i : ℤ) : ℂ :=
  if 0 ≤ i ∧ i < (x.len : ℤ) then x.get i.toNat else 0

/-- The discrete Fourier sum of a signal at (cyclic) frequency `ν`. -/
noncomputable def dtft (x : Vec ℂ) (ν : ℝ) : ℂ :=
  ∑ j ∈ range x.len, x.get j * expi (-(2 * Real.pi * ν * j))

/-- The (finite) Zak transform of a signal of `n * m` samples, an `n × m` matrix:
entry `(k, r)` is `n^{-1/2} · Σ_c x[r + c·m]·exp(-2πi·k·c/n)`. -/
noncomputable def zak (n m : ℕ) (x : Vec ℂ) : Mat ℂ :=
  ⟨n, m, fun k r => (∑ c ∈ range n, x.get (r + c * m) * expi (-(2 * Real.pi * (k * c / n))))
    / (Real.sqrt n : ℂ)⟩

/-- The window `w` put in an array of `L` zeros, its first sample at position `s`. -/
noncomputable def placed (L s : ℕ) (w : Vec ℝ) : Vec ℂ := ⟨L, fun j => if s ≤ j ∧ j < s + w.len then (w.get (j - s) : ℂ) else 0⟩

/-- Sum of the squared Zak transform (`Q b × b`) of `h` over the `Q` rows congruent to `k` modulo `b`. -/
noncomputable def zakPower (Q b : ℕ) (h : Vec ℂ) (k r : ℕ) : ℝ := ∑ l ∈ range Q, ‖(zak (Q * b) b h).get (k % b + l * b) r‖ ^ 2

end Tftb.Spec

namespace Tftb.Spec

/-- `y` is a normalised envelope around `t0` (`time i` is the time of sample `i`): values in `[0,1]`,
value 1 at the centre, and a sample farther from the centre is never larger (in particular
samples at equal distance are equal). -/
def IsEnvelope (y : Vec ℝ) (time : ℕ → ℝ) (t0 : ℝ) : Prop :=
  (∀ i < y.len, 0 ≤ y.get i ∧ y.get i ≤ 1) ∧
  (∀ i < y.len, time i = t0 → y.get i = 1) ∧
  (∀ i < y.len, ∀ j < y.len, |time i - t0| ≤ |time j - t0| → y.get j ≤ y.get i)

end Tftb.Spec

namespace Tftb.Spec

open Finset

/-- Mean of the positions `p 0, …, p (n-1)` weighted by `w`. -/
noncomputable def wmean (n : ℕ) (p w : ℕ → ℝ) : ℝ :=
  (∑ i ∈ range n, p i * w i) / ∑ i ∈ range n, w i

/-- Variance of the positions weighted by `w`. -/
noncomputable def wvar (n : ℕ) (p w : ℕ → ℝ) : ℝ :=
  wmean n (fun i => (p i - wmean n p w) ^ 2) w

/-- Frequency of DFT bin `k` out of `n`: the first `n / 2` bins are the non-negative ones, the others
are negative. -/
noncomputable def binFreq (n k : ℕ) : ℝ := if k < n / 2 then (k : ℝ) / n else ((k : ℝ) - n) / n

/-- DFT coefficient `k` of a signal. -/
noncomputable def dft (x : Vec ℂ) (k : ℕ) : ℂ := dtft x ((k : ℝ) / x.len)

end Tftb.Spec

namespace Tftb.Spec

open Finset ComplexConjugate

/-- Windowed Fourier sum with `n` bins: the window `h` has `2 L + 1` samples, its middle one is laid on
sample `c` of the signal; samples outside the signal count as zero. -/
noncomputable def windowedDft (x h : Vec ℂ) (L n : ℕ) (c : ℤ) (k : ℕ) : ℂ :=
  ∑ τ ∈ Finset.Icc (-(L : ℤ)) L, zext x (c + τ) * conj (h.get (L + τ).toNat)
    * expi (-(2 * Real.pi * (k * τ / n)))

end Tftb.Spec

namespace Tftb.Spec

/-- The lags `τ ∈ [-R, R]` for which sample `c + τ` exists in a signal of `N` samples. -/
noncomputable def segLags (R : ℤ) (N : ℕ) (c : ℤ) : Finset ℤ :=
  (Finset.Icc (-R) R).filter (fun τ => 0 ≤ c + τ ∧ c + τ < N)

end Tftb.Spec

namespace Tftb.Spec

open Finset ComplexConjugate

/-- Fourier sum over the lags `-R, …, R`, at bin `k` out of `n`. -/
noncomputable def lagSum (R : ℤ) (n : ℕ) (v : ℤ → ℂ) (k : ℤ) : ℂ :=
  ∑ τ ∈ Finset.Icc (-R) R, v τ * expi (-(2 * Real.pi * (k * τ / n)))

/-- Instantaneous correlation of the signal at instant `t` and lag `τ`. -/
noncomputable def wignerKernel (x : Vec ℂ) (t τ : ℤ) : ℂ := zext x (t + τ) * conj (zext x (t - τ))

end Tftb.Spec

namespace Tftb.Spec

open Finset ComplexConjugate

/-- The offsets `p ∈ [-L, L]` for which both samples `c + |τ| - p` and `c - |τ| - p` exist in a signal of `N` samples. -/
noncomputable def smoothSeg (L N : ℕ) (c τ : ℤ) : Finset ℤ :=
  (Finset.Icc (-(L : ℤ)) L).filter (fun p => 0 ≤ c - |τ| - p ∧ c + |τ| - p < N)

/-- Total weight of the available offsets under the window `g` of `2 L + 1` samples. -/
noncomputable def smoothMass (g : Vec ℂ) (L N : ℕ) (c τ : ℤ) : ℂ :=
  ∑ p ∈ smoothSeg L N c τ, g.get ((L : ℤ) + p).toNat

/-- Instantaneous correlation at lag `τ`, averaged around instant `c` with the weights `g` (renormalised over the available
samples). -/
noncomputable def smoothCorr (g : Vec ℂ) (L : ℕ) (x : Vec ℂ) (c τ : ℤ) : ℂ :=
  (∑ p ∈ smoothSeg L x.len c τ, g.get ((L : ℤ) + p).toNat * wignerKernel x (c - p) τ) / smoothMass g L x.len c τ

end Tftb.Spec

namespace Tftb.Spec

open Finset

/-- Narrow-band ambiguity function of a signal at lag `τ` (in samples, the two factors are `2 τ` apart) and Doppler `ξ`. -/
noncomputable def ambiguity (x : Vec ℂ) (τ : ℤ) (ξ : ℝ) : ℂ :=
  ∑ t ∈ range x.len, wignerKernel x t τ * expi (-(2 * Real.pi * (ξ * t)))

/-- Energy of the even-indexed samples. -/
noncomputable def energyEven (x : Vec ℂ) : ℝ := ∑ i ∈ (range x.len).filter (fun i => i % 2 = 0), ‖x.get i‖ ^ 2

/-- Energy of the odd-indexed samples. -/
noncomputable def energyOdd (x : Vec ℂ) : ℝ := ∑ i ∈ (range x.len).filter (fun i => i % 2 = 1), ‖x.get i‖ ^ 2

end Tftb.Spec

namespace Tftb.Spec

open Finset

/-- Trapezoidal rule on the `n` nodes `x 0, …, x (n-1)`. -/
noncomputable def trapz (n : ℕ) (x f : ℕ → ℝ) : ℝ := ∑ i ∈ range (n - 1), (x (i + 1) - x i) * (f i + f (i + 1)) / 2

/-- Iterated trapezoidal rule for the matrix `M`, columns at the nodes `x`, rows at the nodes `y`. -/
noncomputable def trapz2 (M : Mat ℝ) (x y : ℕ → ℝ) : ℝ := trapz M.rows y (fun j => trapz M.cols x (M.get j))

end Tftb.Spec

namespace Tftb.Spec

open Finset

open Classical in
/-- How many of the numbers `0 … n-1` satisfy `p`. -/
noncomputable def count (n : ℕ) (p : ℕ → Prop) : ℕ := ((range n).filter p).card

/-- Half the mean of all entries of a matrix. -/
noncomputable def halfMean (M : Mat ℝ) : ℝ :=
  (∑ r ∈ range M.rows, ∑ c ∈ range M.cols, M.get r c) / (2 * (M.rows * M.cols))

/-- The row, among `m` rows `0 … m-1`, of a (possibly fractional, possibly outlying) row coordinate: its integer part, clamped. -/
noncomputable def clampRow (m : ℕ) (v : ℝ) : ℕ := min (m - 1) ⌊v⌋₊

end Tftb.Spec

namespace Tftb.Spec

/-- Centred coordinate of index `i` on an axis of `k` pixels. -/
def centred (k i : ℕ) : ℤ := (i : ℤ) - ((k : ℤ) - 1) / 2

/-- Signed distance to the origin of the line through pixel `(i, j)` of an `R × C` image in direction `θ`
(both coordinates centred). -/
noncomputable def lineDist (R C i j : ℕ) (θ : ℝ) : ℝ :=
  (centred R i : ℝ) * Real.cos θ - (centred C j : ℝ) * Real.sin θ

end Tftb.Spec

namespace Tftb.Spec

open Finset

/-- Sample `i` of the signal, indices being taken modulo its length (`-1` is the last sample). -/
def cyc (x : Vec ℂ) (i : ℤ) : ℂ := x.get (i % (x.len : ℤ)).toNat

/-- Lags `τ ∈ [-R, R]`, `R` being half the bins (rounded to even) minus one or the half-length `L` of the window, with `-1 ≤ t + τ - 1 < N`. -/
noncomputable def reassignLags (n L N : ℕ) (t : ℤ) : Finset ℤ :=
  (Finset.Icc (-(min (roundEven ((n : ℝ) / 2) - 1) (L : ℤ))) (min (roundEven ((n : ℝ) / 2) - 1) (L : ℤ))).filter
    (fun τ => -1 ≤ t + τ - 1 ∧ t + τ - 1 < N)

/-- Short-time Fourier sum at instant `t` and bin `k` of `n` with the weights `g 0, …, g (2 L)`. -/
noncomputable def reassignSum (x : Vec ℂ) (g : ℕ → ℝ) (n L : ℕ) (t : ℤ) (k : ℕ) : ℂ :=
  ∑ τ ∈ reassignLags n L x.len t, cyc x (t + τ - 1) * (g ((L : ℤ) + τ).toNat : ℂ) * expi (-(2 * Real.pi * (k * τ / n)))

/-- Energy of the part of the window used at instant `t`. -/
noncomputable def reassignMass (w : ℕ → ℝ) (n L N : ℕ) (t : ℤ) : ℝ :=
  ∑ τ ∈ reassignLags n L N t, w ((L : ℤ) + τ).toNat ^ 2

/-- Mean power of the samples `a - 1, …, b - 1`. -/
noncomputable def meanPower (x : Vec ℂ) (a b : ℤ) : ℝ := (∑ t ∈ Finset.Icc a b, ‖cyc x (t - 1)‖ ^ 2) / (b + 1 - a)

/-- Smallest and largest value of an integer array. -/
def IsRange (ts : Vec ℤ) (a b : ℤ) : Prop :=
  (∃ c < ts.len, ts.get c = a) ∧ (∃ c < ts.len, ts.get c = b) ∧ ∀ c < ts.len, a ≤ ts.get c ∧ ts.get c ≤ b

/-- Any two consecutive steps are equal. -/
def Regular (ts : Vec ℤ) : Prop := ∀ i, i + 1 < ts.len → ∀ j, j + 1 < ts.len → ts.get (i + 1) - ts.get i = ts.get (j + 1) - ts.get j

open Classical in
/-- Where a reassignment puts the energy of bin `k` at column `c` of `T`: cells below the threshold `thr` stay; the others go to the rounded
centre of gravity computed from the ratios of the sums with the time-weighted window and with the derived window `dw`, but one bin too
low and (unless it is at the left border) one column too far left. -/
noncomputable def reassignDest (x : Vec ℂ) (w dw : ℕ → ℝ) (n L T : ℕ) (thr : ℝ) (t : ℤ) (k c : ℕ) : ℤ × ℤ :=
  if thr < ‖reassignSum x w n L t k‖ ^ 2 / reassignMass w n L x.len t then
    (((k : ℤ) - roundEven ((n / (2 * Real.pi)) * (reassignSum x dw n L t k / reassignSum x w n L t k).im) - 1) % n,
      min (max ((c : ℤ) + roundEven (reassignSum x (fun j => w j * ((j : ℝ) - L)) n L t k / reassignSum x w n L t k).re) 1) T - 1)
  else (k, c)

end Tftb.Spec

namespace Tftb.Spec

/-! ## Analytic signals -/

/-- `z` is the discrete analytic signal of the real signal `x`: same length, real part `x`, no content in the bins of negative frequency,
and no imaginary content in the bin of frequency zero nor, for an even length, in that of frequency one half. -/
structure IsAnalytic (x : Vec ℝ) (z : Vec ℂ) : Prop where
  len : z.len = x.len
  re : ∀ t < x.len, (z.get t).re = x.get t
  neg : ∀ k < x.len, x.len < 2 * k → dft z k = 0
  zero : (dft z 0).im = 0
  nyquist : ∀ k, 2 * k = x.len → (dft z k).im = 0

end Tftb.Spec

namespace Tftb.Spec

open Finset

/-- Mean of the samples. -/
noncomputable def mean (z : Vec ℂ) : ℂ := (∑ i ∈ range z.len, z.get i) / z.len

/-- Population variance of the samples. -/
noncomputable def variance (z : Vec ℂ) : ℝ := (∑ i ∈ range z.len, ‖z.get i - mean z‖ ^ 2) / z.len

/-- Population variance of real samples. -/
noncomputable def rvariance (n : ℕ) (x : ℕ → ℝ) : ℝ := (∑ i ∈ range n, (x i - (∑ j ∈ range n, x j) / n) ^ 2) / n

end Tftb.Spec

namespace Tftb.Spec

/-! ## Spectral support of a real signal -/

/-- Number of DFT bins below the Nyquist frequency that are looked at: `n / 2`, rounded to the even neighbour for odd `n`. -/
def halfBins (n : ℕ) : ℕ := if n % 4 = 3 then (n + 1) / 2 else n / 2

/-- Bin `k` is strong: among the first `halfBins n` bins, none is more than 20 dB above it. -/
def Strong (s : Vec ℝ) (k : ℕ) : Prop :=
  k < halfBins s.len ∧ ∀ j < halfBins s.len, ‖dft (s.map Complex.ofReal) j‖ ^ 2 < 100 * ‖dft (s.map Complex.ofReal) k‖ ^ 2

/-- `lo` and `hi` are the first and the last strong bin. -/
structure StrongRange (s : Vec ℝ) (lo hi : ℕ) : Prop where
  lo_strong : Strong s lo
  hi_strong : Strong s hi
  bounds : ∀ k, Strong s k → lo ≤ k ∧ k ≤ hi

end Tftb.Spec

namespace Tftb.Spec

open Finset

/-! ## Filtering -/

/-- Filtering of `z` by a filter supported on `[-r, r]`: `Σ_j z_j g(t - j)` over the `j` at distance at most `r` from `t`. -/
noncomputable def filtered (z : Vec ℂ) (r : ℕ) (g : ℤ → ℂ) (t : ℤ) : ℂ :=
  ∑ j ∈ range z.len, if |t - (j : ℤ)| ≤ r then z.get j * g (t - j) else 0

/-- The Morlet wavelet: a Gaussian of relative height `10^{-2}` at `± nha`, modulated to frequency `f`. -/
noncomputable def morletAt (nha f : ℝ) (τ : ℤ) : ℂ := ((10 : ℝ) ^ (-(2 * ((τ : ℝ) / nha) ^ 2)) : ℝ) * expi (2 * Real.pi * f * τ)

/-- The Mexican hat of frequency `f`. -/
noncomputable def mexhatAt (f : ℝ) (τ : ℤ) : ℂ :=
  ((f * Real.sqrt Real.pi / 2 * Real.exp (-(Real.pi * f * τ) ^ 2) * (1 - 2 * (Real.pi * f * τ) ^ 2) : ℝ) : ℂ)

/-- Samples of the real part, minus their mean. -/
noncomputable def centredReal (x : Vec ℂ) : Vec ℝ := ⟨x.len, fun t => (x.get t).re - (∑ j ∈ range x.len, (x.get j).re) / x.len⟩

end Tftb.Spec

namespace Tftb.Spec

open Finset

/-! ## Wide-band ambiguity function -/

/-- Spectrum of `z` at frequency `f`, the time origin being sample `m`. -/
noncomputable def spectrumAt (z : Vec ℂ) (m : ℕ) (f : ℝ) : ℂ :=
  ∑ t ∈ range z.len, z.get t * expi (-(2 * Real.pi * f * ((t : ℝ) - m)))

/-- Frequency `k` of the geometric progression of `N` frequencies from `a` to `b`. -/
noncomputable def geoFreq (N : ℕ) (a b : ℝ) (k : ℕ) : ℝ := a * (b / a) ^ ((k : ℝ) / ((N : ℝ) - 1))

/-- Coefficient `k - N` of the Mellin transform of a function `G` sampled at the `N` geometric frequencies (of step `2N` points). -/
noncomputable def mellinAt (N : ℕ) (a b : ℝ) (G : ℕ → ℂ) (k : ℕ) : ℂ :=
  (∑ p ∈ range N, Real.sqrt (geoFreq N a b p / a) * G p * expi (2 * Real.pi * p * ((k : ℝ) - N) / (2 * N))) / (2 * N)

/-- Product of the Mellin transforms of `z` and of `z` delayed by `i - m`, over the negative half of the Mellin axis, transformed back at
index `r`. -/
noncomputable def wafAt (z : Vec ℂ) (m N : ℕ) (a b : ℝ) (r i : ℕ) : ℂ :=
  (∑ k ∈ range N, mellinAt N a b (fun p => spectrumAt z m (geoFreq N a b p)) k *
    (starRingEnd ℂ) (mellinAt N a b (fun p => spectrumAt z m (geoFreq N a b p) *
      expi (-(2 * Real.pi * geoFreq N a b p * ((i : ℝ) - m)))) k) * expi (2 * Real.pi * k * r / N)) / N

end Tftb.Spec

namespace Tftb.Spec

open Finset

/-- Mellin coefficient of index `k` (any integer, period `2 N`) of a function sampled at `N` geometric frequencies and padded with `N` zeros. -/
noncomputable def mellinCoef (N : ℕ) (S : ℕ → ℂ) (k : ℤ) : ℂ :=
  (∑ j ∈ range N, S j * expi (2 * Real.pi * j * k / (2 * N))) / (2 * N)

/-- Dilation of a function sampled at `N` geometric frequencies by `l`, through its Mellin coefficients: coefficient `k` is multiplied by
`l ^ (w - 2πi·k / (2 N ln q))`, where `ln q` is the step of the logarithms of the frequencies and `w` the weight. -/
noncomputable def dilateAt (N : ℕ) (logq w l : ℝ) (S : ℕ → ℂ) (i : ℕ) : ℂ :=
  ∑ p ∈ range (2 * N), (l ^ w : ℝ) * expi (-(2 * Real.pi * ((p : ℝ) - N) / (2 * N * logq) * Real.log l)) * mellinCoef N S ((p : ℤ) - N) *
    expi (-(2 * Real.pi * i * ((p : ℝ) - N) / (2 * N)))

end Tftb.Spec
