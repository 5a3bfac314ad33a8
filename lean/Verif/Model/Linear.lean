import Verif.Model.Base
import Mathlib.Data.Prod.Lex

/-! # Model of `tftb/processing/linear.py`, class `ShortTimeFourierTransform` -/

namespace Tftb.Linear

open Tftb

/-- `tftb/processing/linear.py` 58-73: body of the loop over columns of `ShortTimeFourierTransform.run` on column `icol`. -/
noncomputable def stftCol {τ : Type} (o : TFR τ) (icol : ℕ) (c : Vec ℂ) : Py (Vec ℂ) := do
  let _ ← o.ts.item icol -- `starts` and `ends` have one entry per timestamp
  let lh : ℤ := ((o.fwindow.len : ℤ) - 1) / 2
  let rangemin : ℤ := min (roundEven ((o.nf : ℝ) / 2)) lh
  let start : ℤ := -(min rangemin ((icol : ℤ) - 1))
  let stop : ℤ := min rangemin ((o.signal.len : ℤ) - icol)
  let tau := arange start (stop + 1)
  let index := tau.map (fun t => ((o.nf : ℤ) + t) % (o.nf : ℤ))
  let a ← o.signal.take (tau.map (fun t => (icol : ℤ) + t - 1))
  let b ← (o.fwindow.map (starRingEnd ℂ)).take (tau.map (fun t => lh + t))
  let v ← Vec.bcast (fun p q => p * q) a b
  c.put index v

/-- `tftb/processing/linear.py` 52-75, `ShortTimeFourierTransform.run`: the new object state; the returned triple is
its `tfr`, `ts` and `freqs`. -/
noncomputable def stftRun {τ : Type} (o : TFR τ) : Py (TFR τ) := do
  let S ← o.tfr.forCols o.tfr.asC.cols (stftCol o)
  let F ← S.asC.fft0
  .ok { o with tfr := .cplx F }

/-- The matrix returned by `ShortTimeFourierTransform(x, ts, n, h).run()` (`tftb/processing/linear.py` 23-75). -/
noncomputable def stftOf {τ : Type} (x : Vec ℂ) (ts : Vec τ) (n : ℕ) (h : Option (Vec ℂ)) : Py (Mat ℂ) := do
  let o ← stftRun (TFR.init makeWindow x ts n h)
  .ok o.tfr.asC

/-- `tftb/processing/linear.py` 99-100 (also `tftb/processing/cohen.py` 65-66, 114-115, 184-185): zero the entries not above
`threshold` times the maximum; `np.amax` of an empty array raises `ValueError`. -/
noncomputable def thresholded (M : Mat ℝ) (threshold : ℝ) : Py (Mat ℝ) :=
  if h : M.rows = 0 ∨ M.cols = 0 then .error .valueError
  else
    let mx := (Finset.range M.rows ×ˢ Finset.range M.cols).sup'
      ⟨(0, 0), by simp only [Finset.mem_product, Finset.mem_range]; omega⟩ (fun p => M.get p.1 p.2)
    .ok (M.map (fun a => if a ≤ mx * threshold then 0 else a))

/-- `M[:k, :]` for `k ≥ 0`. -/
def topRows {α : Type} (M : Mat α) (k : ℕ) : Mat α := ⟨min k M.rows, M.cols, M.get⟩

/-- The same lines when the array is complex: NumPy orders complex numbers by real part, then imaginary part, both in `np.amax` and in `<=`. -/
noncomputable def thresholdedC (M : Mat ℂ) (threshold : ℝ) : Py (Mat ℂ) :=
  if h : M.rows = 0 ∨ M.cols = 0 then .error .valueError
  else
    let mx : ℝ ×ₗ ℝ := (Finset.range M.rows ×ˢ Finset.range M.cols).sup'
      ⟨(0, 0), by simp only [Finset.mem_product, Finset.mem_range]; omega⟩ (fun p => toLex ((M.get p.1 p.2).re, (M.get p.1 p.2).im))
    let bound : ℝ ×ₗ ℝ := toLex ((ofLex mx).1 * threshold, (ofLex mx).2 * threshold)
    .ok (M.map (fun z => if toLex (z.re, z.im) ≤ bound then 0 else z))

/-- `tftb/processing/linear.py` 95, 97-100 and `tftb/processing/cohen.py` 111-115: crop to `k` rows, squared modulus if asked for, threshold; a complex array
stays complex when `sqmod` is false. -/
noncomputable def plotStore (S : Store) (sqmod : Bool) (k : ℕ) (threshold : ℝ) : Py Store :=
  match S, sqmod with
  | .cplx M, false => do
    let B ← thresholdedC (topRows M k) threshold
    .ok (.cplx B)
  | .real M, false => do
    let B ← thresholded (topRows M k) threshold
    .ok (.real B)
  | S, true => do
    let B ← thresholded (topRows S.modulusSq k) threshold
    .ok (.real B)

/-- `tftb/processing/linear.py` 77-103, `ShortTimeFourierTransform.plot`: effect on the object. -/
noncomputable def stftPlot {τ : Type} (o : TFR τ) (sqmod : Bool) (threshold : ℝ) : Py (TFR τ) := do
  let k := (truncInt ((o.nf : ℝ) / 2)).toNat
  let freqs := o.freqs.slice 0 k
  let S ← plotStore o.tfr sqmod k threshold
  .ok { o with tfr := S, freqs := freqs }

end Tftb.Linear
