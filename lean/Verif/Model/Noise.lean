import Verif.Model.Utils

/-! # Model of `tftb/generators/noise.py`

The outcome of the random generator is a parameter `draw`. -/

namespace Tftb.Noise

open Tftb Utils

/-- A one-dimensional result or a two-dimensional one. -/
abbrev Res := Arr12 ℂ

/-- `v.std()` (population standard deviation). -/
noncomputable def std (v : Vec ℝ) : ℝ := Real.sqrt ((∑ i ∈ Finset.range v.len, (v.get i - v.sum / v.len) ^ 2) / v.len)

/-- `tftb/generators/noise.py` 32-34 and 71-72: analytic signal of the draws, scaled, of which the last `n` values are kept.  A zero deviation
gives NaN. -/
noncomputable def shaped (n : ℤ) (noise : Vec ℝ) : Py (Vec ℂ) := do
  let z ← hilbert noise
  if std noise = 0 then .error .nonFinite
  else do
    let z := z.map (fun w => w / (std noise : ℂ) / (Real.sqrt 2 : ℂ))
    z.take ((arange 0 n).map (fun j => (z.len : ℤ) - (n - 1 - j) - 1))

/-- `tftb/generators/noise.py` 6-35, `noisecu`.  For two points and fewer, `draw i` and `draw (n + i)` are the `i`-th values of the two calls of
`np.random.rand(n, 1)`; a negative size raises. -/
noncomputable def noisecu (n : ℤ) (draw : ℕ → ℝ) : Py Res := do
  if n ≤ 2 then
    if n < 0 then .error .valueError
    else .ok (.two ⟨n.toNat, 1, fun i _ =>
      (((draw i - 0.5 : ℝ) : ℂ) + Complex.I * ((draw (n.toNat + i) - 0.5 : ℝ) : ℂ)) * (Real.sqrt 6 : ℂ)⟩)
  else do
    let p ← nextpow2 n
    let noise : Vec ℝ := ⟨2 ^ p.toNat, fun i => draw i - 0.5⟩
    let z ← shaped n noise
    .ok (.one z)

/-- `tftb/generators/noise.py` 38-73, `noisecg`.  `np.random.randn(n, 1.)` (line 68) refuses the float dimension. -/
noncomputable def noisecg (n : ℤ) (draw : ℕ → ℝ) : Py Res := do
  if n ≤ 0 then .error .assertionError
  else if n ≤ 2 then .error .typeError
  else do
    let p ← nextpow2 n
    let noise : Vec ℝ := ⟨2 ^ p.toNat, draw⟩
    let z ← shaped n noise
    .ok (.one z)

/-- `tftb/generators/noise.py` 114: time relative to the closest approach at the (0-based) sample `i` of `2 n`. -/
noncomputable def dopTime (n : ℕ) (sFreq tc : ℝ) (i : ℕ) : ℝ := ((i : ℝ) + 1 - tc - n) / sFreq

/-- `tftb/generators/noise.py` 115: distance to the target. -/
noncomputable def dopDist (n : ℕ) (sFreq distance v tc : ℝ) (i : ℕ) : ℝ :=
  Real.sqrt (distance ^ 2 + (v * dopTime n sFreq tc i) ^ 2)

/-- `tftb/generators/noise.py` 116: the frequency law before truncation. -/
noncomputable def dopLaw (n : ℕ) (sFreq fTarget distance v tc c : ℝ) (i : ℕ) : ℝ :=
  (1 - v ^ 2 * dopTime n sFreq tc i / dopDist n sFreq distance v tc i / c) * fTarget / sFreq

/-- `tftb/generators/noise.py` 109-111, 117-119: the recursive filter, `x` being the Gaussian draws: the value written at `t`, the entries 0 and 1
staying zero. -/
noncomputable def dopFilter (x law : ℕ → ℝ) : ℕ → ℝ
  | 0 => 0
  | 1 => 0
  | t + 2 => x (t + 2) - 0.9 ^ 2 * (x t + dopFilter x law t) + 2 * 0.9 * Real.cos (2.0 * Real.pi * law (t + 2)) * dopFilter x law (t + 1)

/-- `tftb/generators/noise.py` 76-124, `dopnoise`, for a non-negative number of points: signal and frequency law.  A zero divisor met by an array
gives NaN or an infinity, which reaches the result unless it sits at the samples 0 and 1, which nobody reads; with fewer than two points there is nothing to
transform and `hilbert` raises first. -/
noncomputable def dopnoise (n : ℕ) (sFreq fTarget distance v : ℝ) (tc : Option ℝ) (c : ℝ) (draw : ℕ → ℝ) : Py (Vec ℂ × Vec ℝ) := do
  let tc := tc.getD (⌊(n : ℝ) / 2.0⌋ : ℝ)
  let law : Vec ℝ := ⟨2 * n, dopLaw n sFreq fTarget distance v tc c⟩
  let dist : Vec ℝ := ⟨2 * n, dopDist n sFreq distance v tc⟩
  if 2 ≤ n ∧ (sFreq = 0 ∨ c = 0 ∨ ∃ i < 2 * n, 2 ≤ i ∧ dist.get i = 0) then .error .nonFinite
  else do
    let y : Vec ℝ := ⟨2 * n, dopFilter draw law.get⟩
    let z ← hilbert (y.slice ((n : ℤ) + 1) (2 * n + 1))
    let z ← Vec.bcast (fun (a : ℂ) (d : ℝ) => a / (Real.sqrt d : ℂ)) z (dist.slice ((n : ℤ) + 1) (2 * n + 1))
    let e := Real.sqrt (∑ i ∈ Finset.range z.len, ‖z.get i‖ ^ 2)
    if e = 0 then .error .nonFinite
    else .ok (z.map (fun w => w / (e : ℂ)), law.slice ((n : ℤ) + 1) (2 * n + 1))

end Tftb.Noise
