import Verif.Model.ProcUtils
import Verif.Model.Misc
import Verif.Model.Utils

/-! # Model of `tftb/processing/affine.py`

`signal` is a one-dimensional complex array.  The band edges are Python floats.  A NaN or an infinity produced by `log10` of a
non-positive number or by a division by a zero integral is `nonFinite`. -/

namespace Tftb.Aff

open Tftb ProcUtils

/-- `v.min()` of an integer array. -/
def zmin (v : Vec ℤ) : Py ℤ :=
  if h : v.len = 0 then .error .valueError
  else .ok ((Finset.range v.len).inf' ⟨0, Finset.mem_range.2 (Nat.pos_of_ne_zero h)⟩ v.get)

/-- `v.max()` of an integer array. -/
def zmax (v : Vec ℤ) : Py ℤ :=
  if h : v.len = 0 then .error .valueError
  else .ok ((Finset.range v.len).sup' ⟨0, Finset.mem_range.2 (Nat.pos_of_ne_zero h)⟩ v.get)

/-- `a.min()` of the index array selected by a boolean mask. -/
def listMin (l : List ℕ) : Py ℕ := match l.min? with | some i => .ok i | none => .error .valueError

/-- `a.max()` of the index array selected by a boolean mask. -/
def listMax (l : List ℕ) : Py ℕ := match l.max? with | some i => .ok i | none => .error .valueError

/-- `np.convolve(a, b)` in its default mode `full`; an empty argument raises `ValueError`. -/
noncomputable def convolve (a b : Vec ℂ) : Py (Vec ℂ) :=
  if a.len = 0 ∨ b.len = 0 then .error .valueError
  else .ok ⟨a.len + b.len - 1, fun k =>
    ∑ j ∈ Finset.range a.len, if j ≤ k ∧ k - j < b.len then a.get j * b.get (k - j) else 0⟩

/-- `np.logspace(np.log10(a), np.log10(b), n)`. -/
noncomputable def logspace (a b : ℝ) (n : ℕ) : Py (Vec ℝ) :=
  if 0 < a ∧ 0 < b then .ok ((linspace (Real.logb 10 a) (Real.logb 10 b) n).map (fun e => (10 : ℝ) ^ e))
  else .error .nonFinite

/-- `M[r, :] = v`: one value is repeated, otherwise the lengths must agree. -/
def setRow (M : Mat ℂ) (r : ℕ) (v : Vec ℂ) : Py (Mat ℂ) :=
  if M.rows ≤ r then .error .indexError
  else if v.len = M.cols then .ok ⟨M.rows, M.cols, fun i j => if i = r then v.get j else M.get i j⟩
  else if v.len = 1 then .ok ⟨M.rows, M.cols, fun i j => if i = r then v.get 0 else M.get i j⟩
  else .error .valueError

/-! ## The band -/

/-- `tftb/processing/affine.py` 34-59, the band `(fmin, fmax)` chosen by `AffineDistribution.__init__` for the real part `s` of a
one-dimensional signal; `s1` and `s2` are then the same array. -/
noncomputable def band (s : Vec ℝ) (ts : Vec ℤ) (fmin fmax : Option ℝ) : Py (ℝ × ℝ) :=
  match fmin, fmax with
  | some a, some b => .ok (a, b)
  | _, _ => do
    let lo ← zmin ts
    let hi ← zmax ts
    let stf ← fft ((fftshift (s.slice lo (hi + 1))).map (fun a : ℝ => (a : ℂ)))
    let h := roundEven ((stf.len : ℝ) / 2)
    let sp := (stf.slice 0 h).map (fun z => ‖z‖ ^ 2)
    let maxsp ← sp.amax
    let f := linspace 0 0.5 (h + 1).toNat
    let idx := Vec.positions sp.len (fun i => maxsp / 100 < sp.get i)
    let lo ← match fmin with
      | some a => (.ok a : Py ℝ)
      | none => do
        let indmin ← listMin idx
        let v ← f.item indmin
        .ok (max 0.01 (0.05 * (⌊v / 0.05⌋ : ℝ)))
    let hi ← match fmax with
      | some b => (.ok b : Py ℝ)
      | none => do
        let indmax ← listMax idx
        let v ← f.item indmax
        .ok (0.05 * (⌈v / 0.05⌉ : ℝ))
    .ok (lo, hi)

/-- `tftb/processing/affine.py` 27-61, `AffineDistribution.__init__` for a one-dimensional signal: the band, the bandwidth `bw` and the
relative bandwidth `R` (the division is that of Python floats; with a computed edge it would be infinite). -/
noncomputable def init (x : Vec ℂ) (ts : Vec ℤ) (fmin fmax : Option ℝ) : Py (ℝ × ℝ × ℝ × ℝ) := do
  let (a, b) ← band (x.map Complex.re) ts fmin fmax
  if a + b = 0 then .error .zeroDivisionError
  else .ok (a, b, b - a, (b - a) / (a + b) * 2)

/-- `A[:, j]`: two indices on a one-dimensional array raise `IndexError`. -/
def column {α : Type} : Utils.Arr12 α → ℕ → Py (Vec α)
  | .one _, _ => .error .indexError
  | .two M, j => if j < M.cols then .ok (M.col j) else .error .indexError

/-- `A.ravel()`, row by row. -/
def ravel {α : Type} : Utils.Arr12 α → Vec α
  | .one v => v
  | .two M => ⟨M.rows * M.cols, fun i => M.get (i / M.cols) (i % M.cols)⟩

/-- `tftb/processing/base.py` 31-33 and `tftb/processing/affine.py` 27-34: the base class has flattened the signal into `self.signal`
when the dimension of the argument is tested; the two components `x1` and `x2`. -/
def components (signal : Utils.Arr12 ℂ) : Py (Vec ℂ × Vec ℂ) :=
  let self_signal : Utils.Arr12 ℂ := .one (ravel signal)
  match signal with
  | .two _ => do
    let x1 ← column self_signal 0
    let x2 ← column self_signal 1
    .ok (x1, x2)
  | .one _ => .ok (ravel self_signal, ravel self_signal)

/-! ## Scalogram -/

/-- Result of `Scalogram.run`: the distribution, the instants, the frequencies and the wavelet coefficients. -/
structure ScalResult where
  tfr : Mat ℝ
  ts : Vec ℤ
  f : Vec ℝ
  wt : Mat ℂ

/-- `tftb/processing/affine.py` 183-187: the Morlet wavelet of half length `int(round(nha))` and frequency `f`. -/
noncomputable def morlet (nha f : ℝ) : Vec ℂ :=
  let r := roundEven nha
  (arange (-r) (r + 1)).map (fun t : ℤ =>
    (Real.exp (-(2 * Real.log 10 / nha ^ 2) * (t : ℝ) ^ 2) : ℂ) * Complex.exp (Complex.I * 2 * Real.pi * f * (t : ℂ)))

/-- `tftb/processing/affine.py` 183-196, body of the Morlet loop for one voice: the row stored in `wt` and the one stored in `tfr`. -/
noncomputable def morletVoice (z : Vec ℂ) (ts : Vec ℤ) (w a f : ℝ) : Py (Vec ℂ × Vec ℂ) := do
  let nha := w * a
  let r := roundEven nha
  let c ← convolve z (morlet nha f)
  let detail := c.map (fun v => v / (Real.sqrt a : ℂ))
  let ix := arange r ((detail.len : ℤ) - r + 1)
  let wt ← detail.take ts
  let detail ← detail.take ix
  let d ← detail.take ts
  .ok (wt, d.map (fun v => v * (starRingEnd ℂ) v))

/-- `tftb/processing/affine.py` 199-207, body of the Mexican hat loop for one voice. -/
noncomputable def mexhatVoice (z : Vec ℂ) (ts : Vec ℤ) (a f : ℝ) : Py (Vec ℂ × Vec ℂ) := do
  let ha ← Misc.mexhat f
  let nha : ℝ := ((ha.len : ℝ) - 1) / 2
  let r := roundEven nha
  let c ← convolve z (ha.map (fun v : ℝ => (v : ℂ)))
  let detail := c.map (fun v => v / (Real.sqrt a : ℂ))
  let ix := arange (r + 1) ((detail.len : ℤ) - r + 1)
  let detail ← detail.take ix
  let d ← detail.take ts
  .ok (d, d.map (fun v => v * (starRingEnd ℂ) v))

/-- `tftb/processing/affine.py` 182-207: the loop over the voices, storing into `wt` and `tfr`. -/
noncomputable def voices (nv : ℕ) (f a : Vec ℝ) (voice : ℝ → ℝ → Py (Vec ℂ × Vec ℂ)) (wt tfr : Mat ℂ) : Py (Mat ℂ × Mat ℂ) :=
  (List.range nv).foldlM (fun s p => do
    let (u, v) ← voice (a.get p) (f.get p)
    let wt ← setRow s.1 p u
    let tfr ← setRow s.2 p v
    .ok (wt, tfr)) (wt, tfr)

/-- `tftb/processing/affine.py` 181-241: the branches of `Scalogram.run` for a scalar `waveparams`.  A negative one selects no branch. -/
noncomputable def transform (z : Vec ℂ) (ts : Vec ℤ) (w : ℝ) (nv : ℕ) (f a : Vec ℝ) (wt tfr : Mat ℂ) : Py (Mat ℂ × Mat ℂ) :=
  if 0 < w then voices nv f a (fun a f => morletVoice z ts w a f) wt tfr
  else if w = 0 then voices nv f a (fun a f => mexhatVoice z ts a f) wt tfr
  else .ok (wt, tfr)

/-- `tftb/processing/affine.py` 177-200: what a band edge which is not positive does before the result is NaN.  Line 179 divides by `fmin` (taken to be a Python float);
with a ratio that is not positive the first scale is NaN, which line 184 converts to an integer; with an edge that is not positive the first frequency is NaN, which
the assertion in `mexhat` refuses. -/
noncomputable def nanChecks (fmin fmax w : ℝ) (nv : ℕ) : Py Unit :=
  if fmin = 0 then .error .zeroDivisionError
  else if nv ≠ 0 ∧ 0 < w ∧ fmax / fmin ≤ 0 then .error .valueError
  else if nv ≠ 0 ∧ w = 0 ∧ (fmin ≤ 0 ∨ fmax ≤ 0) then .error .assertionError
  else .ok ()

/-- `tftb/processing/affine.py` 161-251, `Scalogram(x, fmin, fmax, n_voices, waveparams, **kwargs).run()` for a scalar `waveparams`.  The
extra keyword arguments are ignored, so the instants are always `0 … n-1` and the buffer `tfr` has `n` rows.  A NaN frequency that passes `nanChecks` is
reported as `nonFinite` (with as many voices as samples, the result is NaN). -/
noncomputable def scalogram (x : Vec ℂ) (fmin fmax : Option ℝ) (nv : Option ℕ) (w : Option ℝ) : Py ScalResult := do
  let n := x.len
  let ts := arange 0 n
  let (fmin, fmax, _, _) ← init x ts fmin fmax
  let w := w.getD (Real.sqrt n)
  let nv := nv.getD n
  let s := x.map Complex.re
  let mu ← s.mean
  let z ← hilbert (s.map (fun a => a - mu))
  let tfr : Mat ℂ := Mat.zeros n n
  let _ ← nanChecks fmin fmax w nv
  let f ← logspace fmin fmax nv
  let a ← logspace (fmax / fmin) 1 nv
  let wt : Mat ℂ := Mat.zeros nv n
  let (wt, tfr) ← transform z ts w nv f a wt tfr
  let SP ← fft z
  let indmin := 1 + roundEven (fmin * ((n : ℝ) - 2))
  let indmax := 1 + roundEven (fmax * ((n : ℝ) - 2))
  let SPana := SP.slice indmin (indmax + 1)
  let tfr := tfr.map Complex.re
  let I ← integrate2d tfr (some (ts.map (fun t : ℤ => (t : ℝ)))) (some f)
  if I = 0 ∨ nv = 0 then .error .nonFinite
  else .ok ⟨tfr.map (fun v => v * (SPana.norm ^ 2 / I) / nv), ts, f, wt⟩

/-- `tftb/processing/affine.py` 161-182, 208-216, `Scalogram(x, fmin, fmax, n_voices, waveparams).run()` for an array `waveparams` of at least two entries or without
entries.  The truth value of an array of several entries raises `ValueError` in line 182; that of an empty one is false, and then line 209 wants two dimensions and line 214
slices with a float. -/
noncomputable def scalogramWavelet (x : Vec ℂ) (fmin fmax : Option ℝ) (wavelet : Utils.Arr12 ℝ) : Py ScalResult := do
  let n := x.len
  let (fmin, _, _, _) ← init x (arange 0 n) fmin fmax
  let s := x.map Complex.re
  let mu ← s.mean
  let _ ← hilbert (s.map (fun a => a - mu))
  if fmin = 0 then .error .zeroDivisionError
  else if (ravel wavelet).len ≠ 0 then .error .valueError
  else match wavelet with
    | .one _ => .error .valueError
    | .two M =>
      let nwave := if M.rows < M.cols then M.cols else M.rows
      if nwave = 0 then .error .valueError else .error .typeError

/-! ## Distributions of Unterberger, D-Flandrin and Bertrand: normalisation -/

/-- `tftb/processing/affine.py` 75-82, `_normalize` for the real part `s` of a one-dimensional signal. -/
noncomputable def normalizeAna (s : Vec ℝ) (nts : ℕ) (fmin fmax : ℝ) : Py (Vec ℂ) := do
  let z ← hilbert s
  let SP ← fft z
  let indmin := 1 + roundEven (fmin * ((nts : ℝ) - 2))
  let indmax := 1 + roundEven (fmax * ((nts : ℝ) - 2))
  .ok (SP.slice (indmin - 1) indmax)

/-- `tftb/processing/affine.py` 138-148, end of `_get_interpolated_tf`: the interpolated matrix `tfr`, whatever the splines gave, is
normalised. -/
noncomputable def normaliseTf (tfr : Mat ℝ) (s : Vec ℝ) (ts : Vec ℤ) (geoF : Vec ℝ) (fmin fmax : ℝ) (nv : ℕ) : Py (Mat ℝ) := do
  let sp ← normalizeAna s ts.len fmin fmax
  let m := sp.norm ^ 2
  let I ← integrate2d tfr (some (ts.map (fun t : ℤ => (t : ℝ)))) (some geoF)
  if I = 0 ∨ nv = 0 then .error .nonFinite
  else .ok (tfr.map (fun v => v * m / I / nv))

end Tftb.Aff
