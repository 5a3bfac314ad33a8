import Verif.Model.AffineClass

/-! # Model of the affine `smoothed_pseudo_wigner` in `tftb/processing/affine.py`

The signal is one-dimensional, the timestamps are integers.  `nh0` is a Python integer or a float: NumPy only accepts integers as the number of
points of `linspace`.  Given frequencies are floats. -/

namespace Tftb.AffSpwv

open Tftb ProcUtils AffDist

/-- The argument `nh0`. -/
inductive Half
  | int (k : ℤ)
  | float (r : ℝ)

/-- Its value. -/
noncomputable def Half.val : Half → ℝ
  | .int k => k
  | .float r => r

/-- `tftb/processing/affine.py` 533-549: the default band.  `np.linspace(0, 0.5, np.round(nstf / 2) + 1)` is called with a float number of points
and raises `TypeError`; before that, `min` of no timestamps, the Fourier transform of no samples and `max` of no bins raise `ValueError`. -/
noncomputable def band {α : Type} (s : Vec ℝ) (ts : Vec ℤ) : Py α := do
  let lo ← Aff.zmin ts
  let hi ← Aff.zmax ts
  let stf ← fft ((fftshift (s.slice lo (hi + 1))).map (fun v : ℝ => (v : ℂ)))
  let sp := stf.slice 0 (roundEven ((stf.len : ℝ) / 2))
  if sp.len = 0 then .error .valueError else .error .typeError

/-- `tftb/processing/affine.py` 533-549: the band, computed as soon as one of the edges is missing. -/
noncomputable def edges (s : Vec ℝ) (ts : Vec ℤ) : Option ℝ → Option ℝ → Py (ℝ × ℝ)
  | some a, some b => .ok (a, b)
  | _, _ => band s ts

/-- `np.round` of `nh0`. -/
noncomputable def Half.rounded : Half → Half
  | .int k => .int k
  | .float r => .float (roundEven r)

/-- `tftb/processing/affine.py` 555-560: `mu`, half the number of dilations.  The branch that enlarges it computes with floats; for an empty
band `teq` is infinite (or NaN). -/
noncomputable def halfCount (nh0 : Half) (fmax umax : ℝ) : Half :=
  if fmax * umax = 0 then
    if 0 < nh0.val then .float 1 else nh0.rounded
  else
    let teq := nh0.val / (fmax * umax)
    if 2 * nh0.val < teq then .float (roundEven (nh0.val + ((2 * nh0.val ^ 2) / teq - nh0.val + 1))) else nh0.rounded

/-- `tftb/processing/affine.py` 161-251, `Scalogram(…).run()` again, but keeping only the wavelet coefficients `wt`: they do not depend on the
normalisation, which can be NaN. -/
noncomputable def waveletCoeffs (x : Vec ℂ) (fmin fmax : ℝ) (nv : ℕ) (w : ℝ) : Py (Mat ℂ) := do
  let n := x.len
  let ts := arange 0 n
  let (fmin, fmax, _, _) ← Aff.init x ts (some fmin) (some fmax)
  let s := x.map Complex.re
  let mu ← s.mean
  let z ← hilbert (s.map (fun a => a - mu))
  let _ ← Aff.nanChecks fmin fmax w nv
  let f ← Aff.logspace fmin fmax nv
  let a ← Aff.logspace (fmax / fmin) 1 nv
  let (wt, tfr) ← Aff.transform z ts w nv f a (Mat.zeros nv n) (Mat.zeros n n)
  let _ ← fft z
  let _ ← integrate2d (tfr.map Complex.re) (some (ts.map (fun t : ℤ => (t : ℝ)))) (some f)
  .ok wt

/-- `tftb/processing/affine.py` 574-595: the matrix `matxte1` (and `matxte2`), row by row. -/
noncomputable def scaled (wt : Mat ℂ) (nv tcol : ℕ) (a : ℕ → ℝ) : Py (Mat ℂ) :=
  (List.range nv).foldlM (fun (M : Mat ℂ) (p : ℕ) =>
    Aff.setRow M p ⟨wt.cols, fun t => wt.get p t * (Real.sqrt (a (nv - p - 1)) : ℂ)⟩) (Mat.zeros nv tcol)

/-- `tftb/processing/affine.py` 597-600: the variables `u`. -/
noncomputable def uAxis (umax : ℝ) : Half → Py (Vec ℝ)
  | .float _ => .error .typeError
  | .int mu =>
    if 2 * mu + 1 < 0 then .error .valueError
    else ((linspace (-umax) umax (2 * mu + 1).toNat).slice 0 (2 * mu)).setItem mu 0

/-- `tftb/processing/affine.py` 603-606: `l1` and `l2` are the same array, so row `m` of both ends up with the values computed for `-u[m]`. -/
noncomputable def lambdaRow (K : String) (nv : ℕ) (q u : ℝ) : Py (Vec ℂ) := do
  let beta : ℕ → ℝ := fun p => ((p : ℝ) / nv - 1) / (2 * Real.log q)
  let _ ← lambdak u K
  let y ← lambdak (-u) K
  .ok ⟨2 * nv, fun p => Complex.exp (-2 * Real.pi * Complex.I * (beta p : ℂ) * (Real.log y : ℂ))⟩

/-- `tftb/processing/affine.py` 603-606: the loop. -/
noncomputable def lambdaRows (K : String) (nv : ℕ) (q : ℝ) (u : Vec ℝ) : Py (Mat ℂ) :=
  (List.range u.len).foldlM (fun (M : Mat ℂ) (m : ℕ) => do
    let v ← lambdaRow K nv q (u.get m)
    Aff.setRow M m v) (Mat.zeros u.len (2 * nv))

/-- `tftb/processing/affine.py` 609-615: the smoothing window `G` of `2 * mu` samples. -/
noncomputable def smoothing (ng0 fmax umax : ℝ) (mu : ℕ) : Vec ℝ :=
  if ng0 = 0 then ⟨2 * mu, fun _ => 1⟩
  else
    let sigma := ng0 * fmax / Real.sqrt (2 * 3 * Real.log 10)
    let au := 2 * Real.pi ^ 2 * sigma ^ 2 * umax ^ 2 / Real.log 10
    ⟨2 * mu, fun c => Real.exp (-(au * Real.log 10 / (mu : ℝ) ^ 2) * ((c : ℝ) - mu) ^ 2)⟩

/-- `tftb/processing/affine.py` 622-638: `np.sum(waf)` for the column `S` of `matxte1`.  The product `tx1 * conj(tx2)` has `2 * nv` rows and
`min(nv, 2 * mu)` columns, the repeated window `2 * mu` rows and `nv` columns; as `nv ≥ 2` and `mu ≥ 1`, they only match when `mu = nv`. -/
noncomputable def total (l : Mat ℂ) (G : Vec ℝ) (nv mu : ℕ) (S : Vec ℂ) : Py ℝ := do
  let mellin ← ifft (S.append ⟨nv, fun _ => 0⟩)
  let mellin := fftshift mellin
  if mu ≠ nv then .error .valueError
  else
    let mx : Mat ℂ := ⟨2 * mu, 2 * nv, fun r c => ∑ m ∈ Finset.range (2 * mu), (l.get m c * mellin.get c) * rootPow (2 * mu) ((m : ℤ) * (r : ℤ))⟩
    .ok (∑ c ∈ Finset.range (2 * nv), ∑ r ∈ Finset.range nv, (mx.get r c * (starRingEnd ℂ) (mx.get r c)).re * G.get c)

/-- `tftb/processing/affine.py` 622-638: the loop over the instants, storing `np.sum(waf) * geo_f`. -/
noncomputable def columns (l M : Mat ℂ) (G geo : Vec ℝ) (nv mu tcol : ℕ) : Py (Mat ℝ) :=
  (List.range tcol).foldlM (fun (R : Mat ℝ) (t : ℕ) => do
    let s ← total l G nv mu (M.col t)
    .ok ⟨R.rows, R.cols, fun i j => if j = t then s * geo.get i else R.get i j⟩) (Mat.zeros nv tcol)

/-- `tftb/processing/affine.py` 643-652: the normalisation; `xx` is the energy of the analytic signal in the band. -/
noncomputable def normalise (R : Mat ℝ) (s : Vec ℝ) (ts : Vec ℤ) (geo : Vec ℝ) (fmin fmax : ℝ) (nv : ℕ) : Py (Mat ℝ) := do
  let z ← hilbert s
  let sp ← fft z
  let indmin := 1 + roundEven (fmin * ((s.len : ℝ) - 2))
  let indmax := 1 + roundEven (fmax * ((s.len : ℝ) - 2))
  let ana := sp.slice indmin (indmax + 1)
  let xx := (∑ k ∈ Finset.range ana.len, (ana.get k).re * (ana.get k).re) + ∑ k ∈ Finset.range ana.len, (ana.get k).im * (ana.get k).im
  let I ← integrate2d R (some (ts.map (fun t : ℤ => (t : ℝ)))) (some geo)
  if I = 0 ∨ nv = 0 then .error .nonFinite
  else .ok (R.map (fun v => v * xx / I / nv))

/-- `tftb/processing/affine.py` 561-567: the number of voices. -/
noncomputable def voiceCount (T : ℤ) (fmin fmax : ℝ) (nv : Option ℕ) : Py ℕ :=
  match nv with
  | some k => .ok k
  | none => WideBand.voiceCount false T fmin fmax none

/-- The integer value of `mu`. -/
noncomputable def Half.toInt : Half → ℤ
  | .int k => k
  | .float r => roundEven r

/-- `tftb/processing/affine.py` 561-584, for edges whose ratio is not positive: `umax` is NaN or infinite, `teq` is NaN and `mu` is `np.round(nh0)`.  With
`fmax = 0` and no voice, line 570 raises zero to the power -1.  What the `Scalogram` does not refuse (a negative
`nh0` or no voice) computes NaN and is not followed further. -/
noncomputable def badRatio {α : Type} (s : Vec ℝ) (nh0 : Half) (fmin fmax : ℝ) (nv : Option ℕ) : Py α := do
  let nv ← voiceCount (2 * nh0.rounded.toInt - 1) fmin fmax nv
  if nv = 1 ∨ (nv = 0 ∧ fmax = 0) then .error .zeroDivisionError
  else do
    let _ ← waveletCoeffs (s.map (fun v : ℝ => (v : ℂ))) fmin fmax nv nh0.val
    .error .nonFinite

/-- `tftb/processing/affine.py` 488-652, `smoothed_pseudo_wigner`. -/
noncomputable def smoothedPseudoWigner (x : Vec ℂ) (ts : Option (Vec ℤ)) (K : String) (nh0 : Option Half) (ng0 : ℝ) (fmin fmax : Option ℝ) (nv : Option ℕ) :
    Py (Mat ℝ × Vec ℤ × Vec ℝ) := do
  let ts := ts.getD (arange 0 x.len)
  let nh0 := nh0.getD (.float (Real.sqrt x.len))
  let s := x.map Complex.re
  let (fmin, fmax) ← edges s ts fmin fmax
  if fmin + fmax = 0 ∨ fmin = 0 then .error .zeroDivisionError
  else if fmax / fmin ≤ 0 then badRatio s nh0 fmin fmax nv
  else do
    let umax := Real.log (fmax / fmin)
    let mu := halfCount nh0 fmax umax
    let nv ← voiceCount (2 * mu.toInt - 1) fmin fmax nv
    if nv = 1 then .error .zeroDivisionError
    else do
      let q : ℝ := (fmax / fmin) ^ (1 / ((nv : ℝ) - 1))
      let a : ℕ → ℝ := fun k => Real.exp ((((k : ℝ) + 1) - 1) * Real.log q)
      let geo : Vec ℝ := ⟨nv, fun k => fmin * a k⟩
      let wt ← waveletCoeffs (s.map (fun v : ℝ => (v : ℂ))) fmin fmax nv nh0.val
      let M ← scaled wt nv ts.len a
      let u ← uAxis umax mu
      let l ← lambdaRows K nv q u
      let G := smoothing ng0 fmax umax mu.toInt.toNat
      let R ← columns l M G geo nv mu.toInt.toNat ts.len
      let R ← normalise R s ts geo fmin fmax nv
      .ok (R, ts, geo)

end Tftb.AffSpwv
