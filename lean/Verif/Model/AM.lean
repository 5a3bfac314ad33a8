import Verif.Py.Basic

/-! # Model of `tftb/generators/amplitude_modulated.py` -/

namespace Tftb.AM

open Tftb

/-- `tftb/generators/amplitude_modulated.py` 27-28 (and 67-68, 100-101, 130-131):
`if t0 is None: t0 = round(n_points / 2.0)`. -/
noncomputable def defaultT0 (n : ℤ) : Option ℝ → ℝ
  | none => roundEven ((n : ℝ) / 2)
  | some t => t

/-- `tftb/generators/amplitude_modulated.py` 30-31 (and 69-70, 102-103, 132-133):
`if spread is None: spread = 2 * sqrt(n_points)`; `math.sqrt` raises `ValueError` below zero. -/
noncomputable def defaultSpread (n : ℤ) : Option ℝ → Py ℝ
  | none => if n < 0 then .error .valueError else .ok (2 * Real.sqrt n)
  | some s => .ok s

open Classical in
/-- `tftb/generators/amplitude_modulated.py` 5-38, `amgauss`.  A zero spread (a positive one, signed zeros are not modelled) gives `exp(-inf) = 0`,
and NaN at a sample on the centre. -/
noncomputable def amgauss (n : ℤ) (t0 spread : Option ℝ) : Py (Vec ℝ) := do
  let t0 := defaultT0 n t0
  let spread ← defaultSpread n spread
  if n ≤ 0 then .error .typeError
  else
    let tmt0 := (arange 1 (n + 1)).map (fun t : ℤ => (t : ℝ) - t0)
    if spread = 0 then
      if ∃ i < tmt0.len, tmt0.get i = 0 then .error .nonFinite else .ok (tmt0.map (fun _ => 0))
    else .ok (tmt0.map (fun t => Real.exp (-((t / spread) ^ 2) * Real.pi)))

/-- `kind` argument of `amexpos`: `"bilateral"` or anything else. -/
inductive Kind
  | bilateral
  | unilateral

open Classical in
/-- `tftb/generators/amplitude_modulated.py` 41-80, `amexpos`.  A zero spread (positive) gives `exp(-inf) = 0`, NaN at a sample on the centre and, for
the one-sided kind, `inf * False`, a NaN, at the samples before it. -/
noncomputable def amexpos (n : ℤ) (t0 spread : Option ℝ) (kind : Kind) : Py (Vec ℝ) := do
  let t0 := defaultT0 n t0
  let spread ← defaultSpread n spread
  if n ≤ 0 then .error .typeError
  else
    let tmt0 := (arange 0 n).map (fun t : ℤ => (t : ℝ) - t0)
    match kind with
    | .bilateral =>
      if spread = 0 then
        if ∃ i < tmt0.len, tmt0.get i = 0 then .error .nonFinite else .ok (tmt0.map (fun _ => 0))
      else .ok (tmt0.map (fun t => Real.exp (-Real.sqrt (2 * Real.pi) * |t| / spread)))
    | .unilateral =>
      if spread = 0 then
        if ∃ i < tmt0.len, tmt0.get i ≤ 0 then .error .nonFinite else .ok (tmt0.map (fun _ => 0))
      else .ok (tmt0.map (fun t => Real.exp (-Real.sqrt Real.pi * t / spread) * (if 0 ≤ t then 1 else 0)))

/-- `tftb/generators/amplitude_modulated.py` 83-110, `amrect`.  The boolean array is represented by
the numbers 0 and 1. -/
noncomputable def amrect (n : ℤ) (t0 spread : Option ℝ) : Py (Vec ℝ) := do
  let t0 := defaultT0 n t0
  let spread ← defaultSpread n spread
  if n ≤ 0 then .error .typeError
  else
    let tmt0 := (arange 0 n).map (fun t : ℤ => (t : ℝ) - t0)
    .ok (tmt0.map (fun t => if |t| ≤ 0.5 * spread * Real.sqrt (3.0 / Real.pi) then 1 else 0))

/-- `tftb/generators/amplitude_modulated.py` 113-144, `amtriang`.  A zero spread divides by zero
(`nonFinite`). -/
noncomputable def amtriang (n : ℤ) (t0 spread : Option ℝ) : Py (Vec ℝ) := do
  let t0 := defaultT0 n t0
  let spread ← defaultSpread n spread
  if n ≤ 0 then .error .typeError
  else
    let tmt0 := (arange 0 n).map (fun t : ℤ => (t : ℝ) - t0)
    let L := Real.sqrt (10.0 / Real.pi) * spread / 2.0
    if L = 0 then .error .nonFinite
    else
      let t := tmt0.map (fun t => min (L + t) (L - t))
      .ok (t.map (fun t => max t 0 / L))

end Tftb.AM
