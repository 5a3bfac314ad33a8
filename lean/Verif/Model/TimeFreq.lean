import Verif.Py.Basic

/-! # Model of `tftb/processing/time_domain.py` and `tftb/processing/freq_domain.py`

Only one-dimensional arguments are modelled (the code flattens or rejects the others first). -/

namespace Tftb.TF

open Tftb

/-- `tftb/processing/time_domain.py` 4-31, `loctime`.  A zero (or empty) signal divides by a zero (or NaN) mean. -/
noncomputable def loctime (sig : Vec ℂ) : Py (ℝ × ℝ) := do
  let sig2 := sig.map (fun z => ‖z ^ 2‖)
  let m ← sig2.mean
  if m = 0 then .error .nonFinite
  else
    let sig2 := sig2.map (fun a => a / m)
    let t := (arange 0 sig.len).map (fun t : ℤ => (t : ℝ))
    let w ← Vec.bcast (fun t a => t * a) t sig2
    let tm ← w.mean
    let v ← Vec.bcast (fun t a => (t - tm) ^ 2 * a) t sig2
    let mv ← v.mean
    .ok (tm, 2 * Real.sqrt (Real.pi * mv))

/-- `tftb/processing/freq_domain.py` 4-36, `locfreq`.  `np.arange(no2f)` and `np.arange(-no2r, 0)` have `floor(N/2)` and
`round(N/2)` entries; multiplying by the spectrum broadcasts.  A mean of zero makes the spectrum NaN, on which the broadcast of line 34 still
raises for unfit lengths, hence its place here before the test. -/
noncomputable def locfreq (signal : Vec ℂ) : Py (ℝ × ℝ) := do
  let no2r := roundEven ((signal.len : ℝ) / 2)
  let no2f := ⌊(signal.len : ℝ) / 2⌋
  let sig ← fft signal
  let sig := sig.map (fun z => ‖z‖ ^ 2)
  let freqs := ((arange 0 no2f).append (arange (-no2r) 0)).map
    (fun k : ℤ => (k : ℝ) / (signal.len : ℝ))
  let _ ← Vec.bcast (fun f a => f * a) freqs sig
  let m ← sig.mean
  if m = 0 then .error .nonFinite
  else
    let sig := sig.map (fun a => a / m)
    let w ← Vec.bcast (fun f a => f * a) freqs sig
    let fm ← w.mean
    let v ← Vec.bcast (fun f a => (f - fm) ^ 2 * a) freqs sig
    let mv ← v.mean
    .ok (fm, 2 * Real.sqrt (Real.pi * mv))

/-- `tftb/processing/freq_domain.py` 39-81, `inst_freq`: (frequencies, instants).  `np.angle` is the argument in `(-π, π]`
(signed zeros are not modelled; `np.angle(0)` is taken to be 0). -/
noncomputable def instFreq (x : Vec ℂ) (t : Option (Vec ℤ)) : Py (Vec ℝ × Vec ℤ) := do
  let t := t.getD (arange 2 x.len)
  let a ← x.take t
  let b ← x.take (t.map (fun i => i - 2))
  let p ← Vec.bcast (fun u v => -u * (starRingEnd ℂ) v) a b
  .ok (p.map (fun z => 0.5 * (Complex.arg z + Real.pi) / (2 * Real.pi)), t)

/-- `tftb/processing/freq_domain.py` 115-117 and 123-125: keep the real part of the ratio where it is
in `[1, len + 3]`, zero elsewhere. -/
noncomputable def gdKeep (n : ℕ) (num den : ℂ) : ℝ :=
  let r := (num / den).re
  let ratio := r * (if r ≥ 1 then 1 else 0)
  ratio * (if r ≤ (n : ℝ) + 3 then 1 else 0)

/-- `tftb/processing/freq_domain.py` 112-118, `group_delay` with the default frequencies.  A zero of
the spectrum gives NaN. -/
noncomputable def groupDelay (x : Vec ℂ) : Py (Vec ℝ) := do
  let w ← Vec.bcast (fun (z : ℂ) (k : ℤ) => z * (k : ℂ)) x (arange 1 (x.len + 1))
  let num ← fft w
  let den ← fft x
  if ∃ k < den.len, den.get k = 0 then .error .nonFinite
  else .ok (fftshift ⟨num.len, fun k => gdKeep x.len (num.get k) (den.get k)⟩)

/-- `tftb/processing/freq_domain.py` 119-126, `group_delay` at given normalised frequencies. -/
noncomputable def groupDelayAt (x : Vec ℂ) (fnorm : Vec ℝ) : Py (Vec ℝ) :=
  let e (f : ℝ) (j : ℕ) : ℂ := Complex.exp (-Complex.I * 2.0 * Real.pi * f * j)
  let num : Vec ℂ := fnorm.map
    (fun f => ∑ j ∈ Finset.range x.len, e f j * (x.get j * ((j : ℂ) + 1)))
  let den : Vec ℂ := fnorm.map (fun f => ∑ j ∈ Finset.range x.len, e f j * x.get j)
  if ∃ k < den.len, den.get k = 0 then .error .nonFinite
  else .ok ⟨fnorm.len, fun k => gdKeep x.len (num.get k) (den.get k)⟩

end Tftb.TF
