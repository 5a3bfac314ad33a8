import Verif.Py.Basic

/-! # Model of `tftb/processing/ambiguity.py` -/

namespace Tftb.Ambiguity

open Tftb

/-- `tftb/processing/ambiguity.py` 127-129: body of the loop of `narrow_band`. -/
noncomputable def nbCol (signal : Vec ℂ) (lag : Vec ℝ) (icol : ℕ) (c : Vec ℂ) : Py (Vec ℂ) := do
  let l ← lag.item icol
  let taui := truncInt l
  let t := arange |taui| ((signal.len : ℤ) - |taui|)
  let a ← signal.take (t.map (fun j => j + taui))
  let b ← signal.take (t.map (fun j => j - taui))
  let v ← Vec.bcast (fun p q => p * (starRingEnd ℂ) q) a b
  c.put t v

/-- `tftb/processing/ambiguity.py` 114-119: the default lags. -/
noncomputable def nbLags (n : ℕ) : Vec ℝ :=
  if n % 2 = 0 then arangeF (-(n : ℝ) / 2 + 1) ((n : ℝ) / 2)
  else arangeF (-((n : ℝ) - 1) / 2) (((n : ℝ) + 1) / 2)

/-- `tftb/processing/ambiguity.py` 132-138: the rows are read in the order `_ix1`, `_ix2` and labelled by `xi`. -/
noncomputable def nbRows (nf : ℕ) : Vec ℤ × Vec ℝ :=
  let ix1 := arange (((nf : ℤ) + (nf : ℤ) % 2) / 2) nf
  let ix2 := arange 0 (((nf : ℤ) + (nf : ℤ) % 2) / 2)
  let xi1 : ℤ := (-((nf : ℤ) - (nf : ℤ) % 2)) / 2
  let xi2 : ℤ := ((nf : ℤ) + (nf : ℤ) % 2) / 2 - 1
  let xi := (arange xi1 (xi2 + 1)).map (fun j : ℤ => (j : ℝ) / (nf : ℝ))
  (ix1.append ix2, xi)

/-- `tftb/processing/ambiguity.py` 100-139, `narrow_band` of a one-dimensional signal. -/
noncomputable def narrowBand (signal : Vec ℂ) (lag : Option (Vec ℝ)) (nFbins : Option ℕ) :
    Py (Mat ℂ × Vec ℝ × Vec ℝ) := do
  let lag := lag.getD (nbLags signal.len)
  let nf := nFbins.getD signal.len
  let naf ← (Mat.zeros nf lag.len).forCols lag.len (nbCol signal lag)
  let naf ← naf.fft0
  let (rows, xi) := nbRows nf
  let naf ← naf.takeRows rows
  .ok (naf, lag, xi)

end Tftb.Ambiguity
