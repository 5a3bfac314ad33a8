import Verif.Model.ProcUtils
import Mathlib.Analysis.SpecialFunctions.Log.Base

/-! # Model of `tftb/processing/postprocessing.py` -/

namespace Tftb.Post

open Tftb ProcUtils

/-! ## Hough transform -/

/-- `tftb/processing/postprocessing.py` 42-54: centre `xc` and last coordinate `xf` of an axis of `k` pixels. -/
def houghAxis (k : ℕ) : ℤ × ℤ :=
  if (k : ℤ) % 2 ≠ 0 then (((k : ℤ) + 1) / 2, ((k : ℤ) + 1) / 2 - 1) else ((k : ℤ) / 2, (k : ℤ) / 2)

/-- `tftb/processing/postprocessing.py` 35: the largest distance. -/
noncomputable def rhomax (image : Mat ℝ) : ℝ := Real.sqrt ((image.rows : ℝ) ^ 2 + (image.cols : ℝ) ^ 2) / 2.0

/-- `tftb/processing/postprocessing.py` 36, 62: `rho / deltar` with `deltar = rhomax / (m - 1.0)`.  For `m = 1` NumPy yields
`deltar = inf` (a warning, no exception) and the quotient is `0`. -/
noncomputable def rhoIndex (rmax : ℝ) (m : ℕ) (rho : ℝ) : ℤ :=
  if m = 1 then 0 else roundEven (rho / (rmax / ((m : ℝ) - 1.0)))

/-- `tftb/processing/postprocessing.py` 59-64: the votes of one pixel, `p` its value. -/
noncomputable def houghVotes (rmax : ℝ) (m n : ℕ) (x y : ℤ) (p : ℝ) (ht : Mat ℝ) : Py (Mat ℝ) :=
  let deltat := 2 * Real.pi / n
  let thetas := linspace 0 (2 * Real.pi - deltat) n
  (List.range n).foldlM (fun ht k =>
    let theta := thetas.get k
    let rho := x * Real.cos theta - y * Real.sin theta
    if 0 ≤ rho ∧ rho ≤ rmax then
      ht.addItem (rhoIndex rmax m rho) (roundEven (theta / deltat)) p
    else .ok ht) ht

/-- `tftb/processing/postprocessing.py` 17-67, `hough_transform`. -/
noncomputable def houghTransform (image : Mat ℝ) (m n : Option ℕ) : Py (Mat ℝ × Vec ℝ × Vec ℝ) := do
  let m := m.getD image.rows
  let n := n.getD image.cols
  let rmax := rhomax image
  -- `2 * np.pi / n` is a Python float division
  if n = 0 then .error .zeroDivisionError
  else do
    let imax ← (⟨image.rows * image.cols, fun i => image.get (i / image.cols) (i % image.cols)⟩ : Vec ℝ).amax
    let (xc, xf) := houghAxis image.rows
    let (yc, yf) := houghAxis image.cols
    let ht ← (pyRange (1 - xc) (xf + 1)).foldlM (fun ht x =>
      (pyRange (1 - yc) (yf + 1)).foldlM (fun ht y => do
        let p ← image.item (x + xc - 1) (y + yc - 1)
        if |p| > imax / 20.0 then houghVotes rmax m n x y p ht else .ok ht) ht) (Mat.zeros m n : Mat ℝ)
    .ok (ht, linspace 0 rmax n, linspace 0 (2 * Real.pi - 2 * Real.pi / n) n)

/-! ## Renyi information -/

open Classical in
/-- `tftb/processing/postprocessing.py` 87-90: the time axis used, and the caller's array after the call. -/
noncomputable def renyiTimes (n : ℕ) (timestamps : Option (Vec ℝ)) : Py (Vec ℝ × Option (Vec ℝ)) :=
  match timestamps with
  | none => .ok ((arange 0 n).map (fun j : ℤ => (j : ℝ) + 1), none)
  | some t => do
    let close ← Vec.bcast (fun a b : ℝ => |a - b| ≤ 1e-8 + 1e-5 * |b|) t ((arange 0 n).map (fun j : ℤ => (j : ℝ)))
    if ∀ i < close.len, close.get i then
      let t := t.map (· + 1)
      .ok (t, some t)
    else .ok (t, some t)

open Classical in
/-- `tftb/processing/postprocessing.py` 95-99: the information of the normalised distribution. -/
noncomputable def renyiValue (p : Mat ℝ) (ts fr : Vec ℝ) (alpha : ℝ) : Py ℝ :=
  if alpha = 1 then
    if ∃ r < p.rows, ∃ c < p.cols, p.get r c + eps ≤ 0 then .error .nonFinite
    else do
      let j ← integrate2d (p.map (fun a => a * Real.logb 2 (a + eps))) (some ts) (some fr)
      .ok (-j)
  else
    if ∃ r < p.rows, ∃ c < p.cols, (p.get r c < 0 ∧ ¬ ∃ z : ℤ, alpha = z) ∨ (p.get r c = 0 ∧ alpha < 0) then .error .nonFinite
    else do
      let j ← integrate2d (p.map (fun a => a ^ alpha)) (some ts) (some fr)
      if j + eps ≤ 0 then .error .nonFinite
      else .ok (Real.logb 2 (j + eps) / (1 - alpha))

open Classical in
/-- `tftb/processing/postprocessing.py` 70-100, `renyi_information`.  Returned with the value: the caller's `timestamps` and
`freq` arrays after the call (both may be changed in place). -/
noncomputable def renyiInformation (tfr : Mat ℝ) (timestamps freq : Option (Vec ℝ)) (alpha : ℝ) :
    Py (ℝ × Option (Vec ℝ) × Option (Vec ℝ)) :=
  if alpha = 1 ∧ (tfr.rows = 0 ∨ tfr.cols = 0 ∨ ∃ r < tfr.rows, ∃ c < tfr.cols, tfr.get r c < 0) then .error .valueError
  else do
    let (ts, tsOut) ← renyiTimes tfr.cols timestamps
    let fr := (freq.getD ((arange 0 tfr.rows).map (fun j : ℤ => (j : ℝ)))).sort
    let i ← integrate2d tfr (some ts) (some fr)
    if i = 0 ∧ tfr.rows ≠ 0 then .error .nonFinite
    else do
      let v ← renyiValue (tfr.map (· / i)) ts fr alpha
      .ok (v, tsOut, freq.map Vec.sort)

/-! ## Ideal representation -/

/-- `tftb/processing/postprocessing.py` 126-130: the marks of one instant.  NaN is `none`. -/
noncomputable def idealCol (iflaws : Mat (Option ℝ)) (nFbins : ℕ) (icol : ℕ) (ti : ℤ) (tfr : Mat (Option ℝ)) :
    Py (Mat (Option ℝ)) :=
  (List.range iflaws.rows).foldlM (fun tfr (fi : ℕ) => do
    let v ← iflaws.item fi ti
    match v with
    | none => tfr.setItem ti fi none
    | some f => tfr.setItem (roundEven (f * 2 * ((nFbins : ℝ) - 1))) icol (some 1)) tfr

/-- `tftb/processing/postprocessing.py` 103-132, `ideal_tfr`; NaN is `none`. -/
noncomputable def idealTfr (iflaws : Mat (Option ℝ)) (timestamps : Option (Vec ℤ)) (nFbins : Option ℕ) :
    Py (Mat (Option ℝ) × Vec ℤ × Vec ℝ) :=
  -- `iflaws[0, :]` is only evaluated for a default
  if (timestamps = none ∨ nFbins = none) ∧ iflaws.rows = 0 then .error .indexError
  else do
    let ts := timestamps.getD (arange 0 iflaws.cols)
    let n := nFbins.getD iflaws.cols
    let tfr ← (List.range ts.len).foldlM (fun tfr (icol : ℕ) => do
      let ti ← ts.item icol
      idealCol iflaws n icol ti tfr) (⟨n, ts.len, fun _ _ => some 0⟩ : Mat (Option ℝ))
    .ok (tfr, ts, (arange 0 n).map (fun j : ℤ => (j : ℝ) / (n : ℝ) * 0.5))

/-! ## Friedman density -/

/-- `tftb/processing/postprocessing.py` 154, 186: half the mean. -/
noncomputable def halfMean (tfr : Mat ℝ) : ℝ :=
  (∑ r ∈ Finset.range tfr.rows, ∑ c ∈ Finset.range tfr.cols, tfr.get r c) * 0.5 / ((tfr.rows : ℝ) * tfr.cols)

/-- `tftb/processing/postprocessing.py` 152-153, 159 and `np.histogram`: `v` falls in bin `k` of the `m` bins with edges
`-inf, 1, 2, …, m-1, inf` (each bin contains its left edge, the last one everything beyond, `inf` — here `none` — included). -/
def inBin (m k : ℕ) : Option ℝ → Prop
  | some v => (k = 0 ∨ (k : ℝ) ≤ v) ∧ (k + 1 = m ∨ v < (k : ℝ) + 1)
  | none => k + 1 = m

/-- `tftb/processing/postprocessing.py` 157-160: the histogram of a column.  The boolean mask has `tfr.rows` entries and must match
the rows of `re_mat`, whose entries are finite or `inf` (`none`). -/
noncomputable def friedmanCol (tfr : Mat ℝ) (reMat : Mat (Option ℂ)) (j : ℕ) (c : Vec ℝ) : Py (Vec ℝ) := by
  classical
  exact
    let indices := Vec.positions tfr.rows (fun i => halfMean tfr < tfr.get i j)
    if indices = [] then .ok c
    else if reMat.rows ≠ tfr.rows ∨ reMat.cols ≤ j then .error .indexError
    else .ok ⟨tfr.rows, fun k => ((indices.filter (fun i => decide (inBin tfr.rows k ((reMat.get i j).map Complex.re)))).length : ℝ)⟩

/-- `tftb/processing/postprocessing.py` 135-162, `friedman_density`.  For an empty `tfr` the threshold is `0 / 0`, but the result is
an empty matrix either way; with no vote at all the normalisation is `0 / 0` on every entry. -/
noncomputable def friedmanDensity (tfr : Mat ℝ) (reMat : Mat (Option ℂ)) : Py (Mat ℝ) := do
  let tifd ← (Mat.zeros tfr.rows tfr.cols : Mat ℝ).forCols tfr.cols (friedmanCol tfr reMat)
  let total := ∑ r ∈ Finset.range tifd.rows, ∑ c ∈ Finset.range tifd.cols, tifd.get r c
  if total = 0 ∧ tifd.rows ≠ 0 ∧ tifd.cols ≠ 0 then .error .nonFinite
  else .ok (tifd.map (· / total))

/-! ## Ridges -/

/-- The `method` argument of `ridges`, lower-cased (`tftb/processing/postprocessing.py` 179, 188, 196, 206). -/
inductive RidgeMethod
  /-- `"rpwv"`, `"rpmh"` -/
  | rpwv
  /-- `"rspwv"` -/
  | rspwv
  /-- `"rsp"`, `"type1"` -/
  | rsp
  /-- anything else -/
  | other
  deriving DecidableEq

/-- `tftb/processing/postprocessing.py` 191-192, 199-202, 209-212: the boolean mask of column `icol`.  In the last two branches
`np.logical_and(condt1, condt2, condt3)` is called with three arguments: the third is the *output* buffer, so `condt3` is overwritten,
not tested; its length has to fit.  An entry `inf` (`none`) minus a number is not zero. -/
noncomputable def ridgeMask (method : RidgeMethod) (tfr : Mat ℝ) (reMat : Mat (Option ℂ)) (icol : ℕ) : Py (Vec Prop) := do
  let freqs : Vec ℝ := (arange 0 tfr.rows).map (fun j : ℤ => (j : ℝ))
  if reMat.cols ≤ icol then .error .indexError
  else
    match method with
    | .rpwv => do
      let b ← Vec.bcast (fun (z : Option ℂ) (f : ℝ) => z.elim False (fun z => z - (f : ℂ) = 0)) (reMat.col icol) freqs
      Vec.bcast (fun p q => p ∧ q) ((tfr.col icol).map (fun a => halfMean tfr < a)) b
    | .other => .error .valueError
    | _ => do
      let condt1 ← Vec.bcast (fun (z : Option ℂ) (f : ℝ) => z.elim False (fun z => z.re - f = 0)) (reMat.col icol) freqs
      let condt2 := (reMat.col icol).map (fun z => z.elim False (fun z => z.im - (icol : ℝ) = 0))
      let condt3 := (tfr.col icol).map (fun a => halfMean tfr < a)
      let out ← Vec.bcast (fun p q => p ∧ q) condt1 condt2
      if out.len = condt3.len then .ok out
      else if out.len = 1 then .ok ⟨condt3.len, fun _ => out.get 0⟩
      else .error .valueError

/-- `tftb/processing/postprocessing.py` 195, 205, 215: the divisor of the frequencies. -/
noncomputable def ridgeDen (method : RidgeMethod) (n : ℕ) : ℝ := if method = .rsp then (n : ℝ) else 2.0 * (n : ℝ)

/-- `tftb/processing/postprocessing.py` 165-218, `ridges`.  The loops overwrite `time_points`, `freq_points`; they stay unbound when no
column has a point. -/
noncomputable def ridges (tfr : Mat ℝ) (reMat : Mat (Option ℂ)) (timestamps : Option (Vec ℝ)) (method : RidgeMethod) :
    Py (Vec ℝ × Vec ℝ) :=
  if method = .other then .error .valueError
  else do
    let ts := timestamps.getD ((arange 0 tfr.cols).map (fun j : ℤ => (j : ℝ)))
    let pts ← (List.range tfr.cols).foldlM (fun (pts : Option (Vec ℝ × Vec ℝ)) (icol : ℕ) => do
      let ti ← ts.item icol
      let mask ← ridgeMask method tfr reMat icol
      let idx := Vec.positions mask.len mask.get
      if idx = [] then .ok pts
      else .ok (some (⟨idx.length, fun _ => ti⟩, Vec.ofEntries (idx.map (fun i : ℕ => (i : ℝ) / ridgeDen method tfr.rows))))) none
    match pts with
    | none => .error .unboundLocalError
    | some p => .ok p

end Tftb.Post
