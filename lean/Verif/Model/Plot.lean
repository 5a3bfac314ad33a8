import Verif.Model.Cohen
import Verif.Model.Affine

/-! # Model of what `plot` draws (`tftb/processing/base.py` 52-58, 73-229 and the overriding methods)

Drawing is modelled by the list of data handed to matplotlib.  Colours, titles, grids, figure and axes creation, `show` and the placement of the
panels are left out.  Of matplotlib itself only the checks of the sizes are modelled: `contour` wants at least two rows and two columns and axes of
matching sizes (`TypeError`), increasing levels (`ValueError`); a curve wants as many abscissae as ordinates (`ValueError`); surfaces want
broadcastable sizes (`ValueError`).  An image of a complex array is a `TypeError`; contours and surfaces of complex arrays are not modelled (the real
parts are taken). -/

namespace Tftb.Plot

open Tftb

/-- One drawing command. -/
inductive Drawn
  /-- `imshow(M, origin="lower", extent=[xlo, xhi, ylo, yhi])` -/
  | image (M : Mat ℝ) (xlo xhi ylo yhi : ℝ)
  /-- `contour(X, Y, M, levels)`, the axes before `meshgrid` -/
  | contour (xs ys : Vec ℝ) (M : Mat ℝ) (levels : Option (Vec ℝ))
  /-- `plot_surface` or `plot_wireframe` -/
  | surface (xs ys : Vec ℝ) (M : Mat ℝ)
  /-- `plot(xs, ys)` -/
  | curve (xs ys : Vec ℝ)
  /-- `set_ylim(lo, hi)`, `inverted` if `invert_yaxis()` follows -/
  | ylim (lo hi : ℝ) (inverted : Bool)

/-- The argument `kind`; `other` is any other string. -/
inductive Kind
  | cmap | contour | surf | wireframe | other
  deriving DecidableEq

/-- The attributes read by `plot`: `band` is `(fmin, fmax, n_voices)` when `isaffine` holds. -/
structure View where
  signal : Vec ℂ
  ts : Vec ℤ
  freqs : Vec ℝ
  tfr : Mat ℝ
  band : Option (ℝ × ℝ × ℕ)

/-- Optional arguments of `plot` collected in `kwargs` (`tftb/processing/base.py` 165-174). -/
structure Kwargs where
  extent : Option (ℝ × ℝ × ℝ × ℝ) := none
  contourX : Option (Vec ℝ) := none
  contourY : Option (Vec ℝ) := none
  levels : Option (Vec ℝ) := none
  freqX : Option (Vec ℝ) := none
  freqY : Option (Vec ℝ) := none

open Classical in
/-- The data checks of matplotlib's `contour`. -/
noncomputable def drawContour (xs ys : Vec ℝ) (M : Mat ℝ) (levels : Option (Vec ℝ)) : Py Drawn :=
  if M.rows < 2 ∨ M.cols < 2 ∨ xs.len ≠ M.cols ∨ ys.len ≠ M.rows then .error .typeError
  else match levels with
    | none => .ok (.contour xs ys M none)
    | some l => if ∃ i, i + 1 < l.len ∧ l.get (i + 1) ≤ l.get i then .error .valueError else .ok (.contour xs ys M (some l))

/-- The data checks of matplotlib's surfaces: the sizes broadcast. -/
noncomputable def drawSurface (xs ys : Vec ℝ) (M : Mat ℝ) : Py Drawn :=
  if (M.rows = ys.len ∨ M.rows = 1 ∨ ys.len = 1) ∧ (M.cols = xs.len ∨ M.cols = 1 ∨ xs.len = 1) then .ok (.surface xs ys M)
  else .error .valueError

/-- The data check of matplotlib's `plot`. -/
noncomputable def drawCurve (xs ys : Vec ℝ) : Py Drawn :=
  if xs.len = ys.len then .ok (.curve xs ys) else .error .valueError

/-- The time axis as reals. -/
noncomputable def tsR (v : View) : Vec ℝ := v.ts.map (fun t : ℤ => (t : ℝ))

/-- Smallest and largest entry (`np.amin`, `np.amax`) of a matrix; an empty one raises `ValueError`. -/
noncomputable def matMin (M : Mat ℝ) : Py ℝ := (⟨M.rows * M.cols, fun i => M.get (i / M.cols) (i % M.cols)⟩ : Vec ℝ).amin
/-- See `matMin`. -/
noncomputable def matMax (M : Mat ℝ) : Py ℝ := (⟨M.rows * M.cols, fun i => M.get (i / M.cols) (i % M.cols)⟩ : Vec ℝ).amax

/-- `tftb/processing/base.py` 79-87: the frequency axis of a contour drawn with its panels. -/
noncomputable def contourAxis (v : View) (contourY : Option (Vec ℝ)) : Vec ℝ :=
  contourY.getD (match v.band with
    | some (fmin, fmax, nv) => linspace fmin fmax nv
    | none => linspace 0 0.5 v.signal.len)

/-- `tftb/processing/base.py` 90-99: the levels of a contour drawn with its panels. -/
noncomputable def contourLevels (v : View) (levels : Option (Vec ℝ)) (vizThreshold : ℝ) : Py (Option (Vec ℝ)) :=
  match levels, v.band with
  | some l, _ => .ok (some l)
  | none, none => .ok none
  | none, some _ => do
    let maxi ← matMax v.tfr
    let lo ← matMin v.tfr
    .ok (some (linspace (max lo (maxi * vizThreshold)) maxi 65))

/-- `tftb/processing/base.py` 73-99, `_plot_tfr` (called with `show_tf = True` only). -/
noncomputable def plotTfr (v : View) (kind : Kind) (extent : ℝ × ℝ × ℝ × ℝ) (k : Kwargs) (vizThreshold : ℝ) : Py (List Drawn) :=
  match kind with
  | .cmap => .ok [.image v.tfr extent.1 extent.2.1 extent.2.2.1 extent.2.2.2]
  | .contour => do
    let l ← contourLevels v k.levels vizThreshold
    let d ← drawContour (k.contourX.getD (tsR v)) (contourAxis v k.contourY) v.tfr l
    .ok [d]
  | _ => .ok []

/-- `np.fft.fft(x, n)`: the input is cropped or padded with zeros to `n` entries. -/
noncomputable def fftLen (x : Vec ℂ) (n : ℕ) : Py (Vec ℂ) := fft ⟨n, fun i => if i < x.len then x.get i else 0⟩

/-- `tftb/processing/base.py` 52-58, `_get_spectrum`. -/
noncomputable def getSpectrum (v : View) : Py (Vec ℝ) :=
  match v.band with
  | none => do
    let s ← fft v.signal
    .ok (fftshift (s.map (fun z => ‖z‖ ^ 2)))
  | some _ => do
    let nf2 := v.tfr.rows
    let lo ← Aff.zmin v.ts
    let hi ← Aff.zmax v.ts
    let s ← fftLen (v.signal.slice lo (hi + 1)) (2 * nf2)
    .ok ((s.map (fun z => ‖z‖ ^ 2)).slice 0 nf2)

/-- `tftb/processing/base.py` 119-121. -/
noncomputable def spectrumX (v : View) (freqX : Option (Vec ℝ)) : Py (Vec ℝ) :=
  match freqX with
  | some x => .ok x
  | none => do
    let s ← getSpectrum v
    .ok (s.reverse.slice 0 (v.signal.len / 2 : ℕ))

/-- `tftb/processing/base.py` 128-131: the limits of the axis. -/
noncomputable def spectrumLim (v : View) (y : Vec ℝ) : Py Drawn :=
  match v.band with
  | none => .ok (.ylim 0 ((y.len : ℝ) - 1) true)
  | some _ => do
    let a ← y.item 0
    let b ← y.item (-1)
    .ok (.ylim a b false)

/-- `tftb/processing/base.py` 118-140, `_plot_spectrum` and the inversion of the axis by `_annotate_spectrum`. -/
noncomputable def plotSpectrum (v : View) (k : Kwargs) : Py (List Drawn) := do
  let x ← spectrumX v k.freqX
  let y := k.freqY.getD (match v.band with
    | some _ => v.freqs
    | none => ⟨v.signal.len / 2, fun j => (j : ℝ)⟩)
  let c ← drawCurve x y
  let l ← spectrumLim v y
  .ok [c, l]

/-- `tftb/processing/base.py` 165-168: the extent. -/
noncomputable def extentOf (v : View) (e : Option (ℝ × ℝ × ℝ × ℝ)) : Py (ℝ × ℝ × ℝ × ℝ) :=
  match e with
  | some e => .ok e
  | none => do
    let a ← Aff.zmin v.ts
    let b ← Aff.zmax v.ts
    let c ← v.freqs.amin
    let d ← v.freqs.amax
    .ok ((a : ℝ), (b : ℝ), c, d)

/-- `tftb/processing/base.py` 195-222: the drawing without panels. -/
noncomputable def plotAlone (v : View) (kind : Kind) (extent : ℝ × ℝ × ℝ × ℝ) : Py Drawn :=
  match kind with
  | .cmap => .ok (.image v.tfr extent.1 extent.2.1 extent.2.2.1 extent.2.2.2)
  | .surf | .wireframe =>
    drawSurface ⟨v.signal.len, fun j => (j : ℝ)⟩ (linspace 0 0.5 v.signal.len) (v.tfr.map (fun a => |a|))
  | _ => drawContour (tsR v) (linspace 0 0.5 v.tfr.rows) v.tfr none

/-- `tftb/processing/base.py` 142-229, `plot` with its default annotations. -/
noncomputable def basePlot (v : View) (kind : Kind) (showTf : Bool) (vizThreshold : ℝ) (k : Kwargs) : Py (List Drawn) := do
  let e ← extentOf v k.extent
  if showTf then do
    let a ← plotTfr v kind e k vizThreshold
    let s ← plotSpectrum v k
    .ok (a ++ [.curve ⟨v.signal.len, fun j => (j : ℝ)⟩ (v.signal.map Complex.re)] ++ s)
  else do
    let d ← plotAlone v kind e
    .ok [d]

/-- The attributes of an object of a class other than the affine ones. -/
noncomputable def viewOf (o : TFR ℤ) : View := ⟨o.signal, o.ts, o.freqs, o.tfr.values, none⟩

/-- `tftb/processing/base.py` 142-229, `plot` of such an object: `imshow` refuses complex arrays. -/
noncomputable def objPlot (o : TFR ℤ) (kind : Kind) (showTf : Bool) (vizThreshold : ℝ) (k : Kwargs) : Py (List Drawn) :=
  match o.tfr, kind with
  | .cplx _, .cmap => do
    let _ ← extentOf (viewOf o) k.extent
    .error .typeError
  | _, _ => basePlot (viewOf o) kind showTf vizThreshold k

/-- `tftb/processing/linear.py` 77-103: `ShortTimeFourierTransform.plot`. -/
noncomputable def stftShow (o : TFR ℤ) (kind : Kind) (sqmod : Bool) (threshold : ℝ) (showTf : Bool) (k : Kwargs) : Py (TFR ℤ × List Drawn) := do
  let o ← Linear.stftPlot o sqmod threshold
  let d ← objPlot o kind showTf threshold k
  .ok (o, d)

/-- `tftb/processing/cohen.py` 110-117: `MargenauHillDistribution.plot`; the extent is fixed, and giving another one passes the keyword twice, a `TypeError`. -/
noncomputable def mhShow (o : TFR ℤ) (kind : Kind) (sqmod : Bool) (threshold : ℝ) (showTf : Bool) (k : Kwargs) : Py (TFR ℤ × List Drawn) := do
  let o ← Cohen.mhPlot o sqmod threshold
  let hi ← Aff.zmax o.ts
  if k.extent.isSome then .error .typeError else
  let d ← objPlot o kind showTf 0.05 { k with extent := some (0, (hi : ℝ), 0, 0.5) }
  .ok (o, d)

/-- `tftb/processing/cohen.py` 173-187: `WignerVilleDistribution.plot` with `scale = "linear"`. -/
noncomputable def wvdShow (o : TFR ℤ) (kind : Kind) (sqmod : Bool) (threshold : ℝ) (showTf : Bool) (k : Kwargs) : Py (TFR ℤ × List Drawn) := do
  let o ← Cohen.wvdPlot o sqmod threshold
  let d ← objPlot o kind showTf threshold k
  .ok (o, d)

/-- `tftb/processing/cohen.py` 175-178: the levels computed for `scale = "log"`.  The logarithm of a bound that is not positive is NaN or infinite and so
are the levels: `nonFinite`. -/
noncomputable def logLevels (M : Mat ℝ) (threshold : ℝ) : Py (Vec ℝ) := do
  let maxi ← matMax M
  let lo ← matMin M
  let mini := max lo (maxi * threshold)
  if mini ≤ 0 ∨ maxi ≤ 0 then .error .nonFinite
  else .ok ((linspace (Real.logb 10 mini) (Real.logb 10 maxi) 65).map (fun e => (10 : ℝ) ^ e))

/-- `tftb/processing/cohen.py` 173-187: `WignerVilleDistribution.plot` with `scale = "log"` (of a complex array the real parts are taken).  The levels are computed from the array as it is before the modulus is
taken, and replace those of the caller; levels that are not finite only matter where levels are drawn. -/
noncomputable def wvdShowLog (o : TFR ℤ) (kind : Kind) (sqmod : Bool) (threshold : ℝ) (showTf : Bool) (k : Kwargs) : Py (TFR ℤ × List Drawn) := do
  let levels := logLevels o.tfr.values threshold
  let o ← Cohen.wvdPlot o sqmod threshold
  match levels with
  | .ok l => do
    let d ← objPlot o kind showTf threshold { k with levels := some l }
    .ok (o, d)
  | .error e =>
    if kind = .contour ∧ showTf then .error e
    else do
      let d ← objPlot o kind showTf threshold k
      .ok (o, d)

/-- `tftb/processing/cohen.py` 215-218: `PseudoWignerVilleDistribution.plot`. -/
noncomputable def pwvdShow (o : TFR ℤ) (kind : Option Kind) (sqmod : Bool) (threshold : ℝ) (showTf : Bool) (k : Kwargs) : Py (TFR ℤ × List Drawn) :=
  wvdShow o (kind.getD .contour) sqmod threshold showTf k

/-- `tftb/processing/cohen.py` 41-44, `tftb/processing/linear.py` 95-100: `self.tfr[:k, :]` is a view and the entries are zeroed in place, so
`Spectrogram.plot` (`sqmod = False`) also changes the array `M` that `run` has returned: its content afterwards. -/
noncomputable def spectroReturned (M : Mat ℝ) (nf : ℕ) (threshold : ℝ) : Py (Mat ℝ) := do
  let k := (truncInt ((nf : ℝ) / 2)).toNat
  let B ← Linear.thresholded (Linear.topRows M k) threshold
  .ok ⟨M.rows, M.cols, fun r c => if r < B.rows then B.get r c else M.get r c⟩

/-- `tftb/processing/affine.py` 109-118: `AffineDistribution.plot` of an object holding the real array `v.tfr`: the stored array afterwards (the very
array `run` has returned, modified in place), and what is drawn.  `isaffine` is false for `Scalogram`, whose `band` is `none`; the bounds `fmin` and `fmax` are still used. -/
noncomputable def affineShow (v : View) (fmin fmax : ℝ) (kind : Kind) (showTf : Bool) (threshold : ℝ) (k : Kwargs) : Py (Mat ℝ × List Drawn) := do
  let M ← Linear.thresholded v.tfr threshold
  let freqY := k.freqY.getD (linspace fmin fmax (v.signal.len / 2))
  let d ← basePlot { v with tfr := M } kind showTf 0.05 { k with freqY := some freqY }
  .ok (M, d)

/-! ## `plotifl` -/

/-- `tftb/processing/plotifl.py` 30-54: the limits of the frequency axis; `none` entries are NaN; without any number `np.amin` raises
`ValueError`. -/
noncomputable def plotiflLimits (iflaws : Vec (Option ℝ)) : Py (ℝ × ℝ) := do
  let vals : Vec ℝ := Vec.ofEntries (((List.range iflaws.len).map iflaws.get).filterMap id)
  let minif ← vals.amin
  if 0 ≤ minif then .ok (0, 0.5) else .ok (-0.5, 0.5)

end Tftb.Plot
