import Verif.Model.Linear

/-! # Model of `tftb/processing/cohen.py` -/

namespace Tftb.Cohen

open Tftb Tftb.Linear

/-- `tftb/processing/cohen.py` 23-37: body of the loop of `Spectrogram.run` on column `icol`.  Dividing a non-empty
segment by a zero window norm gives NaN. -/
noncomputable def spectroCol (o : TFR ℤ) (icol : ℕ) (c : Vec ℂ) : Py (Vec ℂ) := do
  let lh : ℤ := ((o.fwindow.len : ℤ) - 1) / 2
  let rangemin : ℤ := min (roundEven ((o.nf : ℝ) / 2) - 1) lh
  let ti ← o.ts.item icol
  let start : ℤ := -(min rangemin (ti - 1))
  let stop : ℤ := min rangemin ((o.signal.len : ℤ) - ti)
  let tau := arange start (stop + 1)
  let indices := tau.map (fun t => ((o.nf : ℤ) + t) % (o.nf : ℤ))
  let a ← o.signal.take (tau.map (fun t => ti + t - 1))
  let b ← (o.fwindow.map (starRingEnd ℂ)).take (tau.map (fun t => lh + t))
  let w ← o.fwindow.take (tau.map (fun t => lh + t))
  if w.norm = 0 ∧ w.len ≠ 0 then .error .nonFinite
  else
    let v ← Vec.bcast (fun p q => p * q / (w.norm : ℂ)) a b
    c.put indices v

/-- `tftb/processing/cohen.py` 22-39, `Spectrogram.run`. -/
noncomputable def spectroRun (o : TFR ℤ) : Py (TFR ℤ) := do
  let S ← o.tfr.forCols o.tfr.asC.cols (spectroCol o)
  let F ← S.asC.fft0
  .ok { o with tfr := .real (F.map (fun z => ‖z‖ ^ 2)) }

/-- `tftb/processing/cohen.py` 41-44, `Spectrogram.plot` (default threshold 0). -/
noncomputable def spectroPlot (o : TFR ℤ) (threshold : ℝ) : Py (TFR ℤ) := stftPlot o false threshold

/-- `tftb/processing/cohen.py` 53-58: body of the loop of `PageRepresentation.run`. -/
noncomputable def pageCol (o : TFR ℤ) (icol : ℕ) (c : Vec ℂ) : Py (Vec ℂ) := do
  let ti ← o.ts.item icol
  let tau := arange (-(min ((o.nf : ℤ) - ti) ((o.signal.len : ℤ) - ti))) ti
  let indices := tau.map (fun t => ((o.nf : ℤ) + t) % (o.nf : ℤ))
  let s ← o.signal.item ti
  let b ← o.signal.take (tau.map (fun t => ti - t - 1))
  c.put indices (b.map (fun z => s * (starRingEnd ℂ) z))

/-- `tftb/processing/cohen.py` 51-60, `PageRepresentation.run`. -/
noncomputable def pageRun (o : TFR ℤ) : Py (TFR ℤ) := do
  let S ← o.tfr.forCols o.ts.len (pageCol o)
  let F ← S.asC.fft0
  .ok { o with tfr := .real (F.map Complex.re) }

/-- `tftb/processing/cohen.py` 62-67, `PageRepresentation.plot`: the slice bound `self.tfr.shape[0] / 2` is a float. -/
noncomputable def pagePlot (o : TFR ℤ) (threshold : ℝ) : Py (TFR ℤ) := do
  let M ← o.tfr.asC.topRowsF ((o.tfr.asC.rows : ℝ) / 2)
  let M ← thresholded (M.map (fun z => ‖z‖ ^ 2)) threshold
  .ok { o with tfr := .real M }

/-- `tftb/processing/cohen.py` 74-81, `PseudoPageRepresentation._make_window`: `fwindow[lh]` with the float `lh`. -/
noncomputable def pseudoPageWindow (nf : ℕ) : Py (Vec ℂ) := do
  let hlength := nf / 4
  let hlength := if hlength % 2 = 0 then hlength + 1 else hlength
  let fwindow := hamming hlength
  let lh : ℝ := ((hlength : ℝ) - 1) / 2
  let mid ← fwindow.itemF lh
  .ok (fwindow.map (fun a => ((a / mid : ℝ) : ℂ)))

/-- `tftb/processing/cohen.py` 84-89: body of the loop of `PseudoPageRepresentation.run`.  `lh = (len - 1) / 2` is a float, so is
the array `lh + tau` (`tau` itself may have integer or float dtype, its values are the same). -/
noncomputable def pseudoPageCol (o : TFR ℤ) (icol : ℕ) (c : Vec ℂ) : Py (Vec ℂ) := do
  let lh : ℝ := ((o.fwindow.len : ℝ) - 1) / 2
  let tau := arangeF 0 (min (min ((o.nf : ℝ) - 1) lh) ((icol : ℝ) - 1) + 1)
  let w ← o.fwindow.takeF (tau.map (fun t => lh + t))
  let s ← o.signal.item icol
  let b ← o.signal.takeF (tau.map (fun t => (icol : ℝ) - t))
  let v ← Vec.bcast (fun p q => p * s * (starRingEnd ℂ) q) w b
  c.put ⟨tau.len, fun j => ((o.nf : ℤ) + j) % (o.nf : ℤ) + 1⟩ v

/-- `tftb/processing/cohen.py` 83-91, `PseudoPageRepresentation.run`. -/
noncomputable def pseudoPageRun (o : TFR ℤ) : Py (TFR ℤ) := do
  let S ← o.tfr.forCols o.ts.len (pseudoPageCol o)
  let F ← S.asC.fft0
  .ok { o with tfr := .real (F.map Complex.re) }

/-- `tftb/processing/cohen.py` 99-105: body of the loop of `MargenauHillDistribution.run`. -/
noncomputable def mhCol (o : TFR ℤ) (icol : ℕ) (c : Vec ℂ) : Py (Vec ℂ) := do
  let ti ← o.ts.item icol
  let tau := arange (-(min ((o.nf : ℤ) - ti) ((o.signal.len : ℤ) - ti)) + 1) ti
  let indices := tau.map (fun t => ((o.nf : ℤ) + t) % (o.nf : ℤ))
  let s ← o.signal.item ti
  let b ← o.signal.take (tau.map (fun t => ti - t))
  c.put indices (b.map (fun z => s * (starRingEnd ℂ) z))

/-- `tftb/processing/cohen.py` 98-108, `MargenauHillDistribution.run`. -/
noncomputable def mhRun (o : TFR ℤ) : Py (TFR ℤ) := do
  let S ← o.tfr.forCols o.ts.len (mhCol o)
  let F ← S.asC.fft0
  .ok { o with tfr := .real (F.map Complex.re) }

/-- `tftb/processing/cohen.py` 110-117, `MargenauHillDistribution.plot`: effect on the object. -/
noncomputable def mhPlot (o : TFR ℤ) (sqmod : Bool) (threshold : ℝ) : Py (TFR ℤ) := do
  let S ← plotStore o.tfr sqmod (o.tfr.asC.rows / 2) threshold
  .ok { o with tfr := S }

/-- `tftb/processing/cohen.py` 124-131, `PseudoMargenauHillDistribution._make_window`: Hamming window divided by its middle value. -/
noncomputable def pmhWindow (nf : ℕ) : Vec ℂ :=
  let hlength := nf / 4
  let hlength := if hlength % 2 = 0 then hlength + 1 else hlength
  let fwindow := hamming hlength
  let lh := (hlength - 1) / 2
  fwindow.map (fun a => ((a / fwindow.get lh : ℝ) : ℂ))

/-- `tftb/processing/cohen.py` 134-142: body of the loop of `PseudoMargenauHillDistribution.run`.  `min` returns the float
`np.round(n_fbins / 2.0) - 1` when it is (one of) the smallest, `tau` is then a float array and indexing with it raises
`IndexError`. -/
noncomputable def pmhCol {τ : Type} (o : TFR τ) (icol : ℕ) (c : Vec ℂ) : Py (Vec ℂ) := do
  let lh : ℤ := ((o.fwindow.len : ℤ) - 1) / 2
  let xrow : ℤ := o.signal.len
  let half : ℤ := roundEven ((o.nf : ℝ) / 2) - 1
  let startIsFloat : Bool := half ≤ lh ∧ half ≤ xrow - icol
  let endIsFloat : Bool := half ≤ lh ∧ half ≤ (icol : ℤ) - 1
  let start := min half (min lh (xrow - icol))
  let stop := min half (min lh ((icol : ℤ) - 1))
  if startIsFloat ∨ endIsFloat then .error .indexError
  else
    let tau := arange (-start) (stop + 1)
    let indices := tau.map (fun t => ((o.nf : ℤ) + t) % (o.nf : ℤ))
    let w ← o.fwindow.take (tau.map (fun t => lh + t))
    let s ← o.signal.item icol
    let b ← o.signal.take (tau.map (fun t => (icol : ℤ) - t - 1))
    let v ← Vec.bcast (fun p q => p * s * (starRingEnd ℂ) q) w b
    c.put indices v

/-- `tftb/processing/cohen.py` 133-144, `PseudoMargenauHillDistribution.run` (the complex transform is stored and returned). -/
noncomputable def pmhRun {τ : Type} (o : TFR τ) : Py (TFR τ) := do
  let S ← o.tfr.forCols o.ts.len (pmhCol o)
  let F ← S.asC.fft0
  .ok { o with tfr := .cplx F }

/-- `tftb/processing/cohen.py` 152-167: body of the loop of `WignerVilleDistribution.run`.  In the zone of the Nyquist lag the code
indexes the one-dimensional signal with two indices, an `IndexError`. -/
noncomputable def wvdCol {τ : Type} (o : TFR τ) (icol : ℕ) (c : Vec ℂ) : Py (Vec ℂ) := do
  let tausec : ℤ := roundEven ((o.nf : ℝ) / 2)
  let winlength := tausec - 1
  let taumax : ℤ := min (min (icol : ℤ) ((o.signal.len : ℤ) - icol - 1)) winlength
  let tau := arange (-taumax) (taumax + 1)
  let indices := tau.map (fun t => ((o.nf : ℤ) + t) % (o.nf : ℤ))
  let a ← o.signal.take (tau.map (fun t => (icol : ℤ) + t))
  let b ← (o.signal.map (starRingEnd ℂ)).take (tau.map (fun t => (icol : ℤ) - t))
  let v ← Vec.bcast (fun p q => p * q) a b
  let c ← c.put indices v
  if (icol : ℤ) ≤ (o.signal.len : ℤ) - tausec ∧ (icol : ℤ) ≥ tausec + 1 then .error .indexError
  else .ok c

/-- `tftb/processing/cohen.py` 151-171, `WignerVilleDistribution.run`.  `np.c_` needs as many timestamps as samples. -/
noncomputable def wvdRun {τ : Type} (o : TFR τ) : Py (TFR τ) := do
  if o.ts.len ≠ o.signal.len then .error .valueError
  else
    let S ← o.tfr.forCols o.ts.len (wvdCol o)
    let F ← S.asC.fft0
    .ok { o with
      tfr := .real (F.map Complex.re)
      freqs := ⟨o.nf, fun k => 0.5 * (k : ℝ) / (o.nf : ℝ)⟩ }

/-- `tftb/processing/cohen.py` 173-187, `WignerVilleDistribution.plot`: effect on the object (the `scale = "log"` branch only
computes drawing levels). -/
noncomputable def wvdPlot {τ : Type} (o : TFR τ) (sqmod : Bool) (threshold : ℝ) : Py (TFR τ) := do
  let M := if sqmod then o.tfr.modulusSq else o.tfr.modulus
  let M ← thresholded M threshold
  .ok { o with tfr := .real M }

/-- `tftb/processing/cohen.py` 195-210: body of the loop of `PseudoWignerVilleDistribution.run`.  The Nyquist-lag branch indexes the
window with a float, an `IndexError`. -/
noncomputable def pwvdCol {τ : Type} (o : TFR τ) (icol : ℕ) (c : Vec ℂ) : Py (Vec ℂ) := do
  let lh : ℤ := ((o.fwindow.len : ℤ) - 1) / 2
  let half : ℤ := roundEven ((o.nf : ℝ) / 2)
  let taumax : ℤ := min (min (icol : ℤ) ((o.signal.len : ℤ) - icol - 1)) (min half lh)
  let tau := arange (-taumax) (taumax + 1)
  let indices := tau.map (fun t => ((o.nf : ℤ) + t) % (o.nf : ℤ))
  let w ← o.fwindow.take (tau.map (fun t => lh + t))
  let a ← o.signal.take (tau.map (fun t => (icol : ℤ) + t))
  let b ← o.signal.take (tau.map (fun t => (icol : ℤ) - t))
  let wa ← Vec.bcast (fun p q => p * q) w a
  let v ← Vec.bcast (fun p q => p * (starRingEnd ℂ) q) wa b
  let c ← c.put indices v
  if (icol : ℤ) ≤ (o.signal.len : ℤ) - half ∧ (icol : ℤ) ≥ half + 1 ∧ half ≤ lh then .error .indexError
  else .ok c

/-- `tftb/processing/cohen.py` 194-213, `PseudoWignerVilleDistribution.run`: new state and returned real matrix (the stored matrix
stays complex). -/
noncomputable def pwvdRun {τ : Type} (o : TFR τ) : Py (TFR τ × Mat ℝ) := do
  let S ← o.tfr.forCols o.ts.len (pwvdCol o)
  let F ← S.asC.fft0
  .ok ({ o with tfr := .cplx F }, F.map Complex.re)

/-! ## Smoothed pseudo Wigner-Ville -/

/-- `tftb/processing/cohen.py` 267-269, 275-277: `g2 = twindow[lg + points]; g2 / np.sum(g2)`.  A zero sum of a non-empty selection
gives NaN (or infinities). -/
noncomputable def spwvWeights (twindow : Vec ℂ) (lg : ℤ) (points : Vec ℤ) : Py (Vec ℂ) := do
  let g2 ← twindow.take (points.map (fun p => lg + p))
  let s := g2.sum
  if s = 0 ∧ g2.len ≠ 0 then .error .nonFinite
  else .ok (g2.map (fun a => a / s))

/-- `tftb/processing/cohen.py` 271, 280, 282: `np.sum(g2 * signal[idx1] * np.conj(signal[idx2]))`. -/
noncomputable def spwvCorr (signal g2 : Vec ℂ) (idx1 idx2 : Vec ℤ) : Py ℂ := do
  let a ← signal.take idx1
  let u ← Vec.bcast (fun g z => g * z) g2 a
  let b ← signal.take idx2
  let v ← Vec.bcast (fun g z => g * (starRingEnd ℂ) z) u b
  .ok v.sum

/-- `tftb/processing/cohen.py` 273-283: body of the loop over `tau`. -/
noncomputable def spwvLag (signal twindow fwindow : Vec ℂ) (n : ℕ) (ti : ℤ) (col : Vec ℂ) (tau : ℕ) : Py (Vec ℂ) := do
  let lg : ℤ := ((twindow.len : ℤ) - 1) / 2
  let lh : ℤ := ((fwindow.len : ℤ) - 1) / 2
  let points := arange (-(min lg ((signal.len : ℤ) - ti - tau))) (min lg (ti - 1 - tau) + 1)
  let g2 ← spwvWeights twindow lg points
  let idx1 := points.map (fun p => ti + tau - p - 1)
  let idx2 := points.map (fun p => ti - tau - p - 1)
  let R ← spwvCorr signal g2 idx1 idx2
  let w ← fwindow.item (lh + tau + 1)
  let col ← col.setItem (1 + tau) (w * R)
  let R ← spwvCorr signal g2 idx2 idx1
  let w ← fwindow.item (lh - tau + 1)
  col.setItem ((n : ℤ) - tau - 1) (w * R)

/-- `tftb/processing/cohen.py` 262-297: body of the loop over the columns.  The branch of the Nyquist lag (285-297) ends with
`tfr[tau, icol] = …` where `tau` is a float: if nothing in it raises before, this assignment raises `IndexError`; all earlier
failures of that branch are `IndexError`s, too. -/
noncomputable def spwvCol (signal twindow fwindow : Vec ℂ) (ts : Vec ℤ) (n : ℕ) (icol : ℕ) (col : Vec ℂ) :
    Py (Vec ℂ) := do
  let lg : ℤ := ((twindow.len : ℤ) - 1) / 2
  let lh : ℤ := ((fwindow.len : ℤ) - 1) / 2
  let ti ← ts.item icol
  let half : ℤ := roundEven ((n : ℝ) / 2)
  let taumax : ℤ := min (min (ti + lg - 1) ((signal.len : ℤ) - ti + lg)) (min (half - 1) lh)
  let points := arange (-(min lg ((signal.len : ℤ) - ti))) (min lg (ti - 1) + 1)
  let g2 ← spwvWeights twindow lg points
  let idx := points.map (fun p => ti - p - 1)
  let R ← spwvCorr signal g2 idx idx
  let col ← col.setItem 0 R
  let col ← (List.range taumax.toNat).foldlM (spwvLag signal twindow fwindow n ti) col
  if ti ≤ (signal.len : ℤ) - half ∧ ti ≥ half + 1 ∧ half ≤ lh then .error .indexError
  else .ok col

/-- `tftb/processing/cohen.py` 242-256: the windows; an explicit window of even length is refused. -/
noncomputable def spwvWindow (w : Option (Vec ℂ)) (default : ℕ) : Py (Vec ℂ) :=
  match w with
  | none => .ok ((hamming (default + 1 - default % 2)).map (fun a : ℝ => (a : ℂ)))
  | some h => if h.len % 2 = 0 then .error .valueError else .ok h

/-- `tftb/processing/cohen.py` 221-299, `smoothed_pseudo_wigner_ville`. -/
noncomputable def spwv (signal : Vec ℂ) (timestamps : Option (Vec ℤ)) (freqBins : Option ℕ)
    (twindow fwindow : Option (Vec ℂ)) : Py (Mat ℝ) := do
  let ts := timestamps.getD (arange 0 signal.len)
  let n := freqBins.getD signal.len
  let fw ← spwvWindow fwindow (n / 4)
  let tw ← spwvWindow twindow (n / 10)
  let S ← (Mat.zeros n ts.len).forCols ts.len (spwvCol signal tw fw ts n)
  let F ← S.fft0
  .ok (F.map Complex.re)

end Tftb.Cohen
