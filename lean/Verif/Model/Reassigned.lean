import Verif.Model.ProcUtils

/-! # Model of `tftb/processing/reassigned.py`

Windows are real.  `rtfr` has a complex dtype in the code but only ever holds real values; it is modelled by a real matrix.
The matrix of reassignment vectors has entries `jcolhat + 1j * icolhat` or `np.inf`; the latter is `none`. -/

namespace Tftb.Reassigned

open Tftb ProcUtils

/-- `derive_window` with its NaN outcome (a one-sample window) as `none`, used by `tftb/processing/reassigned.py` 49, 411, 505. -/
noncomputable def deriveWindow? (w : Vec ℝ) : Py (Option (Vec ℝ)) :=
  match deriveWindow w with
  | .ok d => .ok (some d)
  | .error .nonFinite => .ok none
  | .error e => .error e

/-- `tftb/processing/reassigned.py` 38-41, 494-496: length of the default window: `n // 4`, plus one if that is even. -/
def defaultLength (n : ℕ) : ℕ := n / 4 + (1 - n / 4 % 2)

/-- The reassignment loop `for icol: for jcol: rtfr[target] += tfr[jcol, icol]`
(`tftb/processing/reassigned.py` 82-92, 536-547); `target` may raise. -/
def scatterAdd (tfr : Mat ℝ) (target : ℕ → ℕ → Py (ℤ × ℤ)) : Py (Mat ℝ) :=
  (List.range tfr.cols).foldlM (fun rtfr (icol : ℕ) =>
    (List.range tfr.rows).foldlM (fun (rtfr : Mat ℝ) (jcol : ℕ) => do
      let (r, c) ← target jcol icol
      rtfr.addItem r c (tfr.get jcol icol)) rtfr) (Mat.zeros tfr.rows tfr.cols : Mat ℝ)

/-- `tftb/processing/reassigned.py` 68, 520: the transform of the samples weighted by the derived window; `none`: the derivative is NaN and
converting a displacement to an integer (lines 85, 543) raises `ValueError`. -/
noncomputable def derived : Option (Mat ℂ) → Py (ℕ → ℕ → Py ℂ)
  | none => .ok (fun _ _ => .error .valueError)
  | some D => do
    let G ← D.fft0
    .ok (fun r c => .ok (G.get r c))

/-! ## Pseudo Wigner-Ville -/

/-- `tftb/processing/reassigned.py` 51-66: one column, `w` being `fwindow` or its derivative.
`min([ti - 1, xrow - ti, np.round(n_fbins / 2.0) - 1, lh])` is a float exactly when the third entry is the first smallest one; the index
arrays are then of float dtype and refused.  The second part indexes with the float `np.round(n_fbins / 2)`. -/
noncomputable def pwvCol (signal : Vec ℂ) (n : ℕ) (lh : ℤ) (w : Vec ℝ) (ts : Vec ℤ) (icol : ℕ) (c : Vec ℂ) : Py (Vec ℂ) := do
  let ti ← ts.item icol
  let xrow : ℤ := signal.len
  let r : ℤ := roundEven ((n : ℝ) / 2.0) - 1
  if r < ti - 1 ∧ r < xrow - ti ∧ r ≤ lh then .error .indexError
  else do
    let taumax := min (min (ti - 1) (xrow - ti)) (min r lh)
    let tau := arange (-taumax) (taumax + 1)
    let a ← w.take (tau.map (fun t => lh + t))
    let b ← signal.take (tau.map (fun t => ti + t - 1))
    let d ← signal.take (tau.map (fun t => ti - t - 1))
    let v ← Vec.bcast (fun p q : ℂ => p * q) (a.map (fun x : ℝ => (x : ℂ))) b
    let v ← Vec.bcast (fun p q : ℂ => p * (starRingEnd ℂ) q) v d
    let c ← c.put (tau.map (fun t => ((n : ℤ) + t) % (n : ℤ))) v
    let h : ℤ := roundEven ((n : ℝ) / 2)
    if ti ≤ xrow - h ∧ ti > h + 1 ∧ h ≤ lh then .error .indexError
    else .ok c

/-- `tftb/processing/reassigned.py` 78-80: the threshold; the mean of an empty slice is NaN (`none`), and no comparison with it holds. -/
noncomputable def pwvThreshold (signal : Vec ℂ) (tmin tmax : ℤ) : Option ℝ :=
  let s := signal.slice tmin (tmax + 1)
  if s.len = 0 then none else some (1.0e-6 * ((s.map (fun z => ‖z‖ ^ 2)).sum / s.len))

open Classical in
/-- `tftb/processing/reassigned.py` 84, 538: whether `|v|` exceeds the threshold. -/
noncomputable def above (thr : Option ℝ) (v : ℝ) : Bool :=
  match thr with
  | none => false
  | some t => decide (t < |v|)

/-- `tftb/processing/reassigned.py` 71-73, 85-88: the row (0-based) into which entry `jcol` with value `a ≠ 0` and derivative
transform `d` is moved. -/
noncomputable def pwvRow (n jcol : ℕ) (a d : ℝ) : ℤ :=
  let z := roundEven (d * ((n : ℝ) / a / (2 * Real.pi)))
  ((((jcol : ℤ) - z - 1) % n) + n) % n

/-- `tftb/processing/reassigned.py` 84-92: row and column to which entry `(jcol, icol)` is added. -/
noncomputable def pwvTarget (n : ℕ) (thr : Option ℝ) (tfr : Mat ℝ) (tf2 : ℕ → ℕ → Py ℂ) (jcol icol : ℕ) : Py (ℤ × ℤ) :=
  if above thr (tfr.get jcol icol) then do
    let d ← tf2 jcol icol
    .ok (pwvRow n jcol (tfr.get jcol icol) d.im, (icol : ℤ))
  else .ok ((jcol : ℤ), (icol : ℤ))

/-- `tftb/processing/reassigned.py` 67-94, given the two matrices of lag products. -/
noncomputable def pwvFinish (signal : Vec ℂ) (n : ℕ) (ts : Vec ℤ) (A : Mat ℂ) (D : Option (Mat ℂ)) :
    Py (Mat ℝ × Mat ℝ × Mat (Option ℂ)) := do
  let F ← A.fft0
  let tf2 ← derived D
  let tmin ← (ts.map (fun j : ℤ => (j : ℝ))).amin
  let tmax ← (ts.map (fun j : ℤ => (j : ℝ))).amax
  let thr := pwvThreshold signal ⌊tmin⌋ ⌊tmax⌋
  let tfr := F.map Complex.re
  let rtfr ← scatterAdd tfr (pwvTarget n thr tfr tf2)
  .ok (tfr, rtfr, ⟨n, ts.len, fun r c =>
    if above thr (tfr.get r c) then
      match pwvTarget n thr tfr tf2 r c with
      | .ok (r', _) => some ((r' : ℂ) + 1)
      | .error _ => none
    else none⟩)

/-- `tftb/processing/reassigned.py` 16-94, `pseudo_wigner_ville`. -/
noncomputable def pseudoWignerVille (signal : Vec ℂ) (timestamps : Option (Vec ℤ)) (nFbins : Option ℕ) (fwindow : Option (Vec ℝ)) :
    Py (Mat ℝ × Mat ℝ × Mat (Option ℂ)) := do
  let ts := timestamps.getD (arange 0 signal.len)
  let n := nFbins.getD signal.len
  let w := fwindow.getD (hamming (defaultLength n))
  if w.len % 2 = 0 then .error .valueError
  else do
    let lh : ℤ := ((w.len : ℤ) - 1) / 2
    let mid ← w.item lh
    if mid = 0 then .error .nonFinite
    else do
      let w := w.map (· / mid)
      let dh ← deriveWindow? w
      let A ← (Mat.zeros n ts.len : Mat ℂ).forCols ts.len (pwvCol signal n lh w ts)
      match dh with
      | none => pwvFinish signal n ts A none
      | some dh => do
        let D ← (Mat.zeros n ts.len : Mat ℂ).forCols ts.len (pwvCol signal n lh dh ts)
        pwvFinish signal n ts A (some D)

/-! ## Spectrogram -/

/-- `tftb/processing/reassigned.py` 508-516: one column, `w` being the window, the window times the time, or its derivative.  A zero
norm of the window samples used gives NaN. -/
noncomputable def specCol (signal : Vec ℂ) (n : ℕ) (lh : ℤ) (window w : Vec ℝ) (ts : Vec ℤ) (icol : ℕ) (c : Vec ℂ) : Py (Vec ℂ) := do
  let ti ← ts.item icol
  let r : ℤ := roundEven ((n : ℝ) / 2) - 1
  let tau := arange (-(min (min r lh) ti)) (min (min r lh) ((signal.len : ℤ) - ti) + 1)
  let hw ← window.take (tau.map (fun t => lh + t))
  let normH := (hw.map (fun x : ℝ => (x : ℂ))).norm
  let a ← signal.take (tau.map (fun t => ti + t - 1))
  let b ← w.take (tau.map (fun t => lh + t))
  let v ← Vec.bcast (fun (p : ℂ) (q : ℝ) => p * (q : ℂ) / (normH : ℂ)) a b
  if normH = 0 ∧ tau.len ≠ 0 then .error .nonFinite
  else c.put (tau.map (fun t => ((n : ℤ) + t) % (n : ℤ))) v

/-- `tftb/processing/reassigned.py` 522-523, 539-540, 543: the column (0-based) into which an entry of column `icol` of `T` is moved, `a ≠ 0` being
its short-time transform and `d` the one with the time-weighted window. -/
noncomputable def specColHat (T icol : ℕ) (a d : ℂ) : ℤ :=
  min (max ((icol : ℤ) + roundEven (d / a).re) 1) T - 1

/-- `tftb/processing/reassigned.py` 524-525, 541-543: the row (0-based), `e` being the transform with the derived window. -/
noncomputable def specRowHat (n jcol : ℕ) (a e : ℂ) : ℤ :=
  let z := roundEven ((n : ℂ) * e / a / (2 * Real.pi)).im
  ((((jcol : ℤ) - z - 1) % n) + n) % n

/-- `tftb/processing/reassigned.py` 538-547: row and column to which entry `(jcol, icol)` is added; `F`, `G` are the transforms with the window
and with the time-weighted window. -/
noncomputable def specTarget (n T : ℕ) (thr : ℝ) (F G : Mat ℂ) (tf3 : ℕ → ℕ → Py ℂ) (jcol icol : ℕ) : Py (ℤ × ℤ) :=
  if above (some thr) (‖F.get jcol icol‖ ^ 2) then do
    let e ← tf3 jcol icol
    .ok (specRowHat n jcol (F.get jcol icol) e, specColHat T icol (F.get jcol icol) (G.get jcol icol))
  else .ok ((jcol : ℤ), (icol : ℤ))

/-- `tftb/processing/reassigned.py` 518-548, given the three matrices of windowed samples. -/
noncomputable def specFinish (signal : Vec ℂ) (n : ℕ) (ts : Vec ℤ) (A B : Mat ℂ) (D : Option (Mat ℂ)) :
    Py (Mat ℝ × Mat ℝ × Mat (Option ℂ)) := do
  let F ← A.fft0
  let G ← B.fft0
  let tf3 ← derived D
  let tmin ← (ts.map (fun j : ℤ => (j : ℝ))).amin
  let tmax ← (ts.map (fun j : ℤ => (j : ℝ))).amax
  let s ← signal.take ((arange ⌊tmin⌋ (⌊tmax⌋ + 1)).map (fun t => t - 1))
  let mean ← (s.map (fun z => ‖z‖ ^ 2)).mean
  let thr := 1e-6 * mean
  let tfr := F.map (fun z => ‖z‖ ^ 2)
  let rtfr ← scatterAdd tfr (specTarget n ts.len thr F G tf3)
  .ok (tfr, rtfr, ⟨n, ts.len, fun r c =>
    if above (some thr) (tfr.get r c) then
      match specTarget n ts.len thr F G tf3 r c with
      | .ok (r', c') => some ((r' : ℂ) + Complex.I * ((c' : ℂ) + 1))
      | .error _ => none
    else none⟩)

/-- `tftb/processing/reassigned.py` 470-548, `spectrogram`.  `np.unique(np.diff(ts)).shape[0] > 1` says that two steps differ. -/
noncomputable def spectrogram (signal : Vec ℂ) (timeSamples : Option (Vec ℤ)) (nFbins : Option ℕ) (window : Option (Vec ℝ)) :
    Py (Mat ℝ × Mat ℝ × Mat (Option ℂ)) := do
  let ts := timeSamples.getD (arange 0 signal.len)
  let n := nFbins.getD signal.len
  let w := window.getD (hamming (defaultLength signal.len))
  if timeSamples ≠ none ∧ ¬ ∀ i < ts.diff.len, ∀ j < ts.diff.len, ts.diff.get i = ts.diff.get j then .error .valueError
  else if w.len % 2 = 0 then .error .valueError
  else do
    let lh : ℤ := ((w.len : ℤ) - 1) / 2
    let th ← Vec.bcast (fun (x : ℝ) (k : ℤ) => x * (k : ℝ)) w (arange (-lh) (lh + 1))
    let dwin ← deriveWindow? w
    let A ← (Mat.zeros n ts.len : Mat ℂ).forCols ts.len (specCol signal n lh w w ts)
    let B ← (Mat.zeros n ts.len : Mat ℂ).forCols ts.len (specCol signal n lh w th ts)
    match dwin with
    | none => specFinish signal n ts A B none
    | some dwin => do
      let D ← (Mat.zeros n ts.len : Mat ℂ).forCols ts.len (specCol signal n lh w dwin ts)
      specFinish signal n ts A B (some D)

/-! ## Functions with float-valued indices -/

/-- `scipy.signal.hamming(M)` with `M` of float type: `np.linspace`/`np.ones` refuse a float size. -/
def hammingF (_M : ℝ) : Py (Vec ℝ) := .error .typeError

/-- `tftb/processing/reassigned.py` 118-126 and 193-201: the window of `pseudo_margenau_hill`
and `pseudo_page` up to `fwindow / fwindow[lh]` with the float `lh`. -/
noncomputable def floatWindow (n : ℕ) (fwindow : Option (Vec ℝ)) : Py (Vec ℝ) := do
  let w ← match fwindow with
    | none => hammingF (defaultLength n)
    | some w => if w.len % 2 = 0 then .error .valueError else .ok w
  let lh : ℝ := ((w.len : ℝ) - 1) / 2
  let mid ← w.itemF lh
  .ok (w.map (· / mid))

/-- `tftb/processing/reassigned.py` 97-170, `pseudo_margenau_hill`: only the statements up to line 126 are modelled, the ones after
it are a parameter `rest`. -/
noncomputable def pseudoMargenauHill {α : Type} (signal : Vec ℂ) (timestamps : Option (Vec ℤ)) (nFbins : Option ℕ)
    (fwindow : Option (Vec ℝ)) (rest : Vec ℂ → Vec ℤ → ℕ → Vec ℝ → Py α) : Py α := do
  let ts := timestamps.getD (arange 0 signal.len)
  let n := nFbins.getD signal.len
  let w ← floatWindow n fwindow
  rest signal ts n w

/-- `tftb/processing/reassigned.py` 173-243, `pseudo_page`: only the statements up to line 201 are modelled, the ones after
it are a parameter `rest`. -/
noncomputable def pseudoPage {α : Type} (signal : Vec ℂ) (timestamps : Option (Vec ℤ)) (nFbins : Option ℕ)
    (fwindow : Option (Vec ℝ)) (rest : Vec ℂ → Vec ℤ → ℕ → Vec ℝ → Py α) : Py α := do
  let ts := timestamps.getD (arange 0 signal.len)
  let n := nFbins.getD signal.len
  let w ← floatWindow n fwindow
  rest signal ts n w

/-- `tftb/processing/reassigned.py` 361-467, `smoothed_pseudo_wigner_ville`: modelled up to the first statement of the first pass of the loop
(line 418, `twindow[lg + points]` with the float `lg`); the rest is a parameter. -/
noncomputable def smoothedPseudoWignerVille {α : Type} (signal : Vec ℂ) (timestamps : Option (Vec ℤ)) (nFbins : Option ℕ)
    (twindow fwindow : Option (Vec ℝ)) (rest : Vec ℂ → Vec ℤ → ℕ → Vec ℝ → Py α) : Py α := do
  let ts := timestamps.getD (arange 0 signal.len)
  let n := nFbins.getD signal.len
  let fw ← match fwindow with
    | none => hammingF (defaultLength n)
    | some w => if w.len % 2 = 0 then .error .valueError else .ok w
  let tw ← match twindow with
    | none => hammingF (defaultLength n)
    | some w => if w.len % 2 = 0 then .error .valueError else .ok w
  let lg : ℝ := ((tw.len : ℝ) - 1) / 2
  let deltat := ts.diff
  -- `min()` of an empty array
  if deltat.len = 0 then .error .valueError
  else if ¬ ∀ i < deltat.len, ∀ j < deltat.len, deltat.get i = deltat.get j then .error .valueError
  else do
    let _ ← deriveWindow? fw
    let ti ← ts.item 0
    let points := arangeF (-(min lg ((signal.len : ℝ) - ti))) (min lg ((ti : ℝ) - 1) + 1)
    let g2 ← tw.takeF (points.map (fun p => lg + p))
    rest signal ts n g2

/-- `tftb/processing/reassigned.py` 246-358, `morlet_scalogram`.  The wavelet sums of lines 273-333 are a parameter `sums`, which returns the
matrix of transform values and may raise; the rest is modelled.  `jcolhat` (line 350) is a float, so the indexing of line 352 is
refused. -/
noncomputable def morletScalogram (signal : Vec ℂ) (timestamps : Option (Vec ℤ)) (nFbins : Option ℕ)
    (sums : Vec ℂ → Vec ℤ → ℕ → Py (ℕ → ℕ → ℂ)) : Py (Mat ℝ × Mat ℝ × Mat (Option ℂ)) := do
  let ts := timestamps.getD (arange 0 signal.len)
  let n := nFbins.getD signal.len
  let deltat := ts.diff
  -- `min()` of an empty array
  if deltat.len = 0 then .error .valueError
  else if ¬ ∀ i < deltat.len, ∀ j < deltat.len, deltat.get i = deltat.get j then .error .valueError
  else do
    let F ← sums signal ts n
    let tfr : Mat ℝ := ⟨n, ts.len, fun r c => ‖F r c‖ ^ 2⟩
    let thr : Option ℝ :=
      if signal.len = 0 then none else some ((signal.map (fun z => ‖z‖ ^ 2)).sum / signal.len * 1.0e-6)
    let rtfr ← scatterAdd tfr (fun jcol icol =>
      if above thr (tfr.get jcol icol) then .error .indexError else .ok ((jcol : ℤ), (icol : ℤ)))
    .ok (tfr, rtfr, ⟨n, ts.len, fun _ _ => none⟩)

end Tftb.Reassigned
