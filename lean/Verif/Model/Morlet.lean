import Verif.Model.Reassigned

/-! # Model of the wavelet sums of `morlet_scalogram` (`tftb/processing/reassigned.py` 246-358)

The rest of the function is `morletScalogram` in `Verif/Model/Reassigned.lean`. -/

namespace Tftb.Reassigned

open ComplexConjugate

instance {α : Type} [Inhabited α] : Inhabited (Vec α) := ⟨⟨0, fun _ => default⟩⟩

/-- A `for` loop over `range(k)` which stores one result per turn. -/
def ofLoop {α : Type} [Inhabited α] (k : ℕ) (f : ℕ → Py α) : Py (Vec α) := do
  let l ← (List.range k).mapM f
  .ok ⟨k, fun i => l.getD i default⟩

/-- `tftb/processing/reassigned.py` 275: the number `M` (a float holding an integer), with `k = 0.001` (line 265). -/
noncomputable def morletM (n : ℕ) (tbp : ℝ) : ℤ := ⌈tbp * n * Real.sqrt (2 * Real.log (1 / 0.001))⌉

/-- `tftb/processing/reassigned.py` 276-278: `hstar`. -/
noncomputable def morletStar (n : ℕ) (tbp : ℝ) : Vec ℂ :=
  ⟨(morletM n tbp + roundEven ((n : ℝ) / 2) + 1).toNat, fun t =>
    (Real.exp (-(t / (n * tbp)) ^ 2 / 2) : ℂ) * Complex.exp (-(Complex.I * 2 * Real.pi * t / n))⟩

/-- `np.dot` of two vectors of equal length. -/
noncomputable def dotC (a b : Vec ℂ) : ℂ := ∑ i ∈ Finset.range a.len, a.get i * b.get i

/-- `np.ceil(M / m)`. -/
noncomputable def ceilDiv (M : ℤ) (m : ℕ) : ℤ := ⌈(M : ℝ) / m⌉

/-- `tftb/processing/reassigned.py` 283-306: the two sums of the transform for scale `m` and instant `ti`, before the factor: positive and negative frequency. -/
noncomputable def morletEntry (signal hstar : Vec ℂ) (M : ℤ) (m : ℕ) (ti : ℤ) : Py (ℂ × ℂ) := do
  let tauNeg := arange 1 (min (ceilDiv M m) (ti - 1) + 1)
  let tauPos := arange 0 (min (ceilDiv M m) ((signal.len : ℤ) - ti) + 1)
  let hp ← hstar.take (tauPos.map (fun t => (m : ℤ) * t - 1))
  let sp ← signal.take (tauPos.map (fun t => ti + t - 1))
  if 0 < tauNeg.len then do
    let hn ← hstar.take (tauNeg.map (fun t => t * (m : ℤ)))
    let sn ← signal.take (tauNeg.map (fun t => ti - t))
    .ok (dotC hp sp + dotC (hn.map conj) sn, dotC (hp.map conj) sp + dotC hn sn)
  else .ok (dotC hp sp, dotC (hp.map conj) sp)

/-- `tftb/processing/reassigned.py` 314-328: the sum of the last scale, where both index arrays are decreased by one.  For `m = 0` (one bin) the quotient is an
infinite float, and the minimum is the other bound. -/
noncomputable def morletLast (signal hstar : Vec ℂ) (M : ℤ) (m : ℕ) (ti : ℤ) : Py ℂ := do
  let bound (z : ℤ) : ℤ := if m = 0 then z else min (ceilDiv M m) z
  let tauNeg := (arange 1 (bound (ti - 1) + 1)).map (fun t => t - 1)
  let tauPos := (arange 0 (bound ((signal.len : ℤ) - ti) + 1)).map (fun t => t - 1)
  let hp ← hstar.take (tauPos.map (fun t => (m : ℤ) * t))
  let sp ← signal.take (tauPos.map (fun t => ti + t))
  if 0 < tauNeg.len then do
    let hn ← hstar.take (tauNeg.map (fun t => t * (m : ℤ)))
    let sn ← signal.take (tauNeg.map (fun t => ti - t))
    .ok (dotC hp sp + dotC (hn.map conj) sn)
  else .ok (dotC hp sp)

/-- Entry `(r, c)` of the array of transform values assembled by lines 280-330; rows that no scale writes stay zero. -/
noncomputable def morletAssemble (n : ℕ) (tbp : ℝ) (rows : Vec (Vec (ℂ × ℂ))) (last : Vec ℂ) (r c : ℕ) : ℂ :=
  let m := (roundEven ((n : ℝ) / 2)).toNat
  if 1 ≤ r ∧ r < n / 2 then (Real.sqrt (r / (tbp * n)) : ℂ) * ((rows.get (r - 1)).get c).1
  else if 1 ≤ n - r ∧ n - r < n / 2 then (Real.sqrt ((n - r : ℕ) / (tbp * n)) : ℂ) * ((rows.get (n - r - 1)).get c).2
  else if r = m then (Real.sqrt (m / (tbp * n)) : ℂ) * last.get c
  else 0

/-- `tftb/processing/reassigned.py` 273-329.  A negative `tbp` makes the factors NaN; with a single bin the infinite quotient of the last scale is then the minimum,
and reaches `np.arange`.  The second array `tf2` has no influence on what is returned or raised: its entries are overwritten (line 356) or precede the failing statement. -/
noncomputable def morletSums (tbp : ℝ) (signal : Vec ℂ) (ts : Vec ℤ) (n : ℕ) : Py (ℕ → ℕ → ℂ) := do
  if tbp * n = 0 then .error .zeroDivisionError
  else if tbp < 0 ∧ n = 1 then .error .nonFinite
  else do
    let M := morletM n tbp
    let hstar := morletStar n tbp
    let rows ← ofLoop (n / 2 - 1) (fun j => ofLoop ts.len (fun c => morletEntry signal hstar M (j + 1) (ts.get c)))
    let last ← ofLoop ts.len (fun c => morletLast signal hstar M (roundEven ((n : ℝ) / 2)).toNat (ts.get c))
    if tbp < 0 then .error .nonFinite
    else .ok (morletAssemble n tbp rows last)

/-- `tftb/processing/reassigned.py` 246-358, `morlet_scalogram`. -/
noncomputable def morletScalogramRun (signal : Vec ℂ) (timestamps : Option (Vec ℤ)) (nFbins : Option ℕ) (tbp : ℝ) : Py (Mat ℝ × Mat ℝ × Mat (Option ℂ)) :=
  morletScalogram signal timestamps nFbins (morletSums tbp)

end Tftb.Reassigned
