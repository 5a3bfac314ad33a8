import Verif.Model.Utils

/-! # Model of `tftb/processing/linear.py`, function `gabor` -/

namespace Tftb.Gabor

open Tftb Tftb.Utils Finset

/-- `tftb/processing/linear.py` 124-126: the default window, `nearest_odd(n_coeff)` points (an integer: `math.floor` of an `int`). -/
noncomputable def defaultWindow (nCoeff : ℕ) : Vec ℝ :=
  let w := (linspace (-1) 1 (if nCoeff % 2 = 0 then nCoeff + 1 else nCoeff)).map (fun t => Real.exp (Real.log 0.005 * t ^ 2))
  let nrm := Real.sqrt (∑ i ∈ range w.len, w.get i ^ 2)
  w.map (fun a => a / nrm)

/-- `modulo(v, N).astype(int)` of a float array (`tftb/processing/linear.py` 146, 159). -/
noncomputable def moduloInt (v : Vec ℝ) (N : ℝ) : Py (Vec ℤ) := do
  let y ← modulo (.real v) N
  match y with
  | .real y => .ok (y.map truncInt)
  | .complex y => .ok (y.map (fun z => truncInt z.re))

/-- `M += P` for matrices with the same number of rows: `P` may have a single column. -/
noncomputable def iadd (M P : Mat ℝ) : Py (Mat ℝ) :=
  if P.cols = M.cols then .ok ⟨M.rows, M.cols, fun r c => M.get r c + P.get r c⟩
  else if P.cols = 1 then .ok ⟨M.rows, M.cols, fun r c => M.get r c + P.get r 0⟩
  else .error .valueError

/-- `tftb/processing/linear.py` 146-147: one pass of the loop accumulating the squared Zak transform. -/
noncomputable def zakStep (m q : ℕ) (dzth : Mat ℂ) (mzh : Mat ℝ) (l : ℕ) : Py (Mat ℝ) := do
  let md ← moduloInt ⟨m, fun i => (i : ℝ) + 1 - (l : ℝ) * m / q⟩ m
  let P ← dzth.takeRows (md.map (fun i => i - 1))
  iadd mzh (P.map (fun z => ‖z‖ ^ 2))

/-- `tftb/processing/linear.py` 132-139: position of the window in an array of `L` zeros. -/
noncomputable def placeWindow (L nCoeff q : ℕ) (window : Vec ℝ) : Py (Vec ℝ) :=
  let nh := window.len
  let alpha := roundEven ((2 * (L : ℝ) / nCoeff - 1 - nh) / (2 * q))
  let start := roundEven (((L : ℝ) - (nh - 1)) / 2) - alpha
  let stop := roundEven (((L : ℝ) + nh - 1) / 2) - alpha
  (⟨L, fun _ => 0⟩ : Vec ℝ).put (arange (start - 1) stop) window

/-- `tftb/processing/linear.py` 141-142: Zak transform of the placed window; `reshape` raises `ValueError` when the sizes do not match. -/
noncomputable def zakOf (m nb : ℕ) (hn1 : Vec ℝ) : Py (Mat ℂ) :=
  if nb * m ≠ hn1.len then .error .valueError
  else do
    let F ← (⟨m, nb, fun c r => (hn1.get (r + c * nb) : ℂ)⟩ : Mat ℂ).fft0
    .ok (F.map (fun z => z / (Real.sqrt m : ℂ)))

/-- `tftb/processing/linear.py` 132-153: the biorthogonal window. -/
noncomputable def gaborDual (L nCoeff q m mb nb : ℕ) (window : Vec ℝ) : Py (Vec ℝ) :=
  if window.len % 2 = 0 then .error .valueError
  else do
    let hn1 ← placeWindow L nCoeff q window
    let dzth ← zakOf m nb hn1
    let mzh ← (List.range q).foldlM (zakStep m q dzth) (Mat.zeros m mb)
    let mzh := mzh.map (fun a => if a < eps then 1 else a)
    let dztgam : Mat ℂ := ⟨m, mb, fun k c => dzth.get k (if nb = 1 then 0 else c) / (mzh.get k c : ℂ)⟩
    let g ← izak (.two dztgam)
    .ok (g.map (fun z => z.re / (L : ℝ)))

/-- `tftb/processing/linear.py` 159-160: column `n` of the coefficients at all frequencies. -/
noncomputable def gaborCol (signal : Vec ℂ) (m q : ℕ) (gam : Vec ℝ) (n : ℕ) (_c : Vec ℂ) : Py (Vec ℂ) := do
  let idx ← moduloInt ⟨signal.len, fun j => (j : ℝ) + 1 - (n : ℝ) * m / q⟩ signal.len
  let g ← gam.take (idx.map (fun i => i - 1))
  let v ← Vec.bcast (fun (z : ℂ) (a : ℝ) => z * (a : ℂ)) signal (fftshift g)
  fft v

/-- Result of `gabor`. -/
structure GaborResult where
  tfr : Mat ℝ
  dgr : Mat ℂ
  gam : Vec ℝ

/-- `tftb/processing/linear.py` 127-163: `gabor` once the defaults are replaced.  The divisions by `float(n_coeff)` and `float(m)` raise
`ZeroDivisionError`. -/
noncomputable def gaborCore (signal : Vec ℂ) (nCoeff q : ℕ) (window : Vec ℝ) : Py GaborResult :=
  if nCoeff = 0 then .error .zeroDivisionError
  else
    let m := q * signal.len / nCoeff
    let mb := signal.len / nCoeff
    if m = 0 then .error .zeroDivisionError
    else
      let nb := signal.len / m
      do
        let gam ← gaborDual signal.len nCoeff q m mb nb window
        let D ← (Mat.zeros signal.len nCoeff).forCols nCoeff (gaborCol signal m q gam)
        let dgr ← D.takeRows ⟨(signal.len + nb - 1) / nb, fun r => ((r * nb : ℕ) : ℤ)⟩
        .ok ⟨dgr.map (fun z => ‖z‖ ^ 2), dgr, gam⟩

/-- `tftb/processing/linear.py` 106-163, `gabor` of a one-dimensional signal with a real window; `n_coeff` and `q_oversample` are
non-negative integers. -/
noncomputable def gabor (signal : Vec ℂ) (nCoeff? q? : Option ℕ) (window? : Option (Vec ℝ)) : Py GaborResult := do
  let nCoeff ← match nCoeff? with
    | some n => .ok n
    | none => (divider signal.len).map (fun p => p.1.toNat)
  let q ← match q? with
    | some q => .ok q
    | none => (divider nCoeff).map (fun p => p.1.toNat)
  let window ← match window? with
    | some w => .ok w
    | none => .ok (defaultWindow nCoeff)
  gaborCore signal nCoeff q window

end Tftb.Gabor
