import Verif.Model.FM
import Verif.Model.Utils
import Verif.Model.Analytic

/-! # Model of `tftb/generators/misc.py` -/

namespace Tftb.Misc

open Tftb AM FM Utils

/-- `np.linalg.norm` of a real vector. -/
noncomputable def normR (v : Vec ℝ) : ℝ := Real.sqrt (∑ i ∈ Finset.range v.len, v.get i ^ 2)

/-- `tftb/generators/misc.py` 8-38, `altes`, for a non-negative number of points and Python floats.  A non-positive ratio or attenuation, an
attenuation of one, equal bounds and a zero norm give NaN or infinities; no point is an empty array whatever they are. -/
noncomputable def altes (n : ℕ) (fmin fmax alpha : ℝ) : Py (Vec ℝ) :=
  if fmin = 0 then .error .zeroDivisionError
  else if 0 < n ∧ (fmax / fmin ≤ 0 ∨ alpha ≤ 0 ∨ alpha = 1 ∨ fmax = fmin) then .error .nonFinite
  else
    let g := Real.exp (Real.log (fmax / fmin) ^ 2 / (8 * Real.log alpha))
    let nu0 := Real.sqrt (fmin * fmax)
    let beta := Real.sqrt (2 * Real.log g * Real.log alpha)
    let t0 := (n : ℝ) / (Real.exp beta - Real.exp (-beta))
    let t1 := t0 * Real.exp (-beta)
    let t2 := t0 * Real.exp beta
    let b := -t0 * nu0 * g * Real.log g
    let t := (linspace t1 t2 (n + 1)).slice 0 n
    let x := t.map (fun s => Real.exp (-(Real.log (s / t0) ^ 2) / (2 * Real.log g)) *
      Real.cos (2 * Real.pi * b * Real.log (s / t0) / Real.log g))
    if normR x = 0 ∧ x.len ≠ 0 then .error .nonFinite
    else .ok (x.map (· / normR x))

/-- `tftb/generators/misc.py` 62-67: one pass of the loop of `atoms`; `none` is a signal with a NaN, which later atoms are added to. -/
noncomputable def atomStep (n : ℤ) (coords : Mat ℝ) (signal : Option (Vec ℂ)) (k : ℕ) : Py (Option (Vec ℂ)) := do
  let c0 ← coords.item k 0
  let t0 : ℤ := roundEven (max (min c0 (n : ℝ)) 1)
  let c1 ← coords.item k 1
  let f0 := max (min c1 0.5) 0.0
  let T ← coords.item k 2
  let A ← coords.item k 3
  let am : Option (Vec ℝ) ← match amgauss n (some (t0 : ℝ)) (some T) with
    | .ok v => .ok (some v)
    | .error .nonFinite => .ok none
    | .error e => .error e
  let (fm, _) ← fmconst n f0 (some (t0 : ℝ))
  match signal, am with
  | some s, some a => do
    let v ← Vec.bcast (fun (a : ℝ) (z : ℂ) => ((A * a : ℝ) : ℂ) * z) a fm
    let s ← Vec.bcast (fun a b => a + b) s v
    .ok (some s)
  | _, _ => .ok none

/-- `tftb/generators/misc.py` 41-68, `atoms`.  A one-dimensional argument becomes a single column. -/
noncomputable def atoms (n : ℤ) (coordinates : Arr12 ℝ) : Py (Vec ℂ) :=
  let coords : Mat ℝ := match coordinates with
    | .one v => ⟨v.len, 1, fun i _ => v.get i⟩
    | .two M => M
  if n < 0 then .error .valueError
  else do
    let signal ← (List.range coords.rows).foldlM (atomStep n coords) (some (⟨n.toNat, fun _ => 0⟩ : Vec ℂ))
    match signal with
    | some z => .ok z
    | none => .error .nonFinite

/-- Result of `doppler`; the amplitude is the scalar `0` (`none`) for a negligible frequency. -/
structure DopplerResult where
  fm : Vec ℂ
  am : Option (Vec ℝ)
  iflaw : Vec ℝ

/-- `tftb/generators/misc.py` 71-120, `doppler`.  A zero sampling frequency or wave velocity gives NaN or infinities. -/
noncomputable def doppler (n : ℤ) (sFreq f0 distance vTarget : ℝ) (t0 : Option ℝ) (vWave : ℝ) : Py DopplerResult :=
  let t0 := t0.getD ((n : ℝ) / 2)
  if distance ≤ 0 then .error .typeError
  else if sFreq < 0 then .error .typeError
  else if t0 < 1 ∨ t0 > n then .error .typeError
  else if f0 < 0 ∨ f0 > sFreq / 2 then .error .typeError
  else if vTarget < 0 then .error .typeError
  else if sFreq = 0 ∨ vWave = 0 then .error .nonFinite
  else
    let tmt0 := (arange 1 (n + 1)).map (fun t : ℤ => ((t : ℝ) - t0) / sFreq)
    let dist := tmt0.map (fun t => Real.sqrt (distance ^ 2 + (vTarget * t) ^ 2))
    let fm : Vec ℂ := ⟨tmt0.len, fun i => Complex.exp (Complex.I * 2 * Real.pi * f0 * ((tmt0.get i - dist.get i / vWave : ℝ) : ℂ))⟩
    let am : Option (Vec ℝ) := if |f0| < eps then none else some (dist.map (fun d => 1 / Real.sqrt d))
    let iflaw : Vec ℝ := ⟨tmt0.len, fun i => (1 - vTarget ^ 2 * tmt0.get i / dist.get i / vWave) * f0 / sFreq⟩
    .ok ⟨fm, am, iflaw⟩

/-- `tftb/generators/misc.py` 123-153, `klauder`.  `wave[0]` is overwritten with 0 (line 147), whatever `0 ** p` was. -/
noncomputable def klauder (n : ℤ) (attenuation f0 : ℝ) : Py (Vec ℝ) := do
  if n ≤ 0 then .error .assertionError
  else if ¬ (f0 < 0.5 ∧ f0 > 0) then .error .assertionError
  else do
    let f := linspace 0 0.5 (truncInt ((n : ℝ) / 2 + 1)).toNat
    let mod := f.map (fun v => Real.exp (-2 * Real.pi * attenuation * v) * v ^ (2 * Real.pi * attenuation * f0 - 0.5))
    let wave ← mod.setItem 0 0
    let a := wave.slice 0 (truncInt ((n : ℝ) / 2))
    let b := (wave.slice 1 (truncInt ((n : ℝ) / 2 + 1))).reverse
    let wave := a.append b
    let wavet ← ifft (wave.map (fun x : ℝ => (x : ℂ)))
    let wavet := fftshift wavet
    if wavet.norm = 0 then .error .nonFinite
    else .ok (wavet.map (fun z => z.re / wavet.norm))

/-- `tftb/generators/misc.py` 156-175, `mexhat`, for a Python float `nu`. -/
noncomputable def mexhat (nu : ℝ) : Py (Vec ℝ) :=
  if ¬ (nu ≤ 0.5 ∧ nu ≥ 0) then .error .assertionError
  else if nu = 0 then .error .zeroDivisionError
  else
    let nPoints : ℝ := 1.5
    let alpha := Real.pi ^ 2 * nu ^ 2
    let n : ℝ := ⌈nPoints / nu⌉
    let t := arangeF (-n) (n + 1)
    .ok (t.map (fun s => nu * Real.sqrt Real.pi / 2 * Real.exp (-alpha * s ^ 2) * (1 - 2 * alpha * s ^ 2)))

/-- Result of `gdpower`: signal, group delay, frequencies. -/
structure GdResult where
  x : Vec ℂ
  gpd : Vec ℝ
  nu : Vec ℝ

/-- `tftb/generators/misc.py` 203, 208-209 (and 213-214, 221-222): `tfx[:lnu] = exp(-2jπ phase) * am`, then `np.fft.ifft(tfx)`. -/
noncomputable def gdSpectrum (n lnu : ℕ) (phase : ℕ → ℝ) (am : Vec ℝ) : Py (Vec ℂ) :=
  ifft ⟨n, fun i => if i < lnu then Complex.exp (-Complex.I * 2 * Real.pi * (phase i : ℂ)) * (am.get i : ℂ) else 0⟩

/-- `tftb/generators/misc.py` 205-227: signal, `t0` and `d` (which is not set for degree 1).  The last `else` (line 223) is reached by no real
degree. -/
noncomputable def gdBranch (n lnu : ℕ) (degree rate : ℝ) (nu am : Vec ℝ) : Py (Vec ℂ × ℝ × ℝ) :=
  if degree < 1 ∧ degree ≠ 0 then
    -- `0.0` to a negative power
    if n = 0 ∧ degree * rate < 0 then .error .zeroDivisionError
    else do
      let d := (n : ℝ) ^ (degree * rate)
      let t0 := (n : ℝ) / 10.0
      let x ← gdSpectrum n lnu (fun i => t0 * nu.get i + d * nu.get i ^ degree / degree) am
      .ok (x, t0, d)
  else if degree = 0 then do
    let d := rate
    let t0 := (n : ℝ) / 10.0
    let x ← gdSpectrum n lnu (fun i => t0 * nu.get i + d * Real.log (nu.get i)) am
    .ok (x, t0, d)
  else if degree = 1 then do
    let x ← Analytic.anapulse n (some (n : ℝ))
    .ok (x, (n : ℝ), 0)
  else do
    let d := (n : ℝ) * (2 : ℝ) ^ (degree - 1) * rate
    let t0 : ℝ := 0
    let x ← gdSpectrum n lnu (fun i => t0 * nu.get i + d * nu.get i ^ degree / degree) am
    .ok (x, t0, d)

/-- `np.sign`. -/
noncomputable def npSign (x : ℝ) : ℝ := if 0 < x then 1 else if x < 0 then -1 else 0

/-- `tftb/generators/misc.py` 178-237, `gdpower`, for a non-negative number of points.  For degree 1, `np.ones((n_points / 2.0,))` (line 232)
refuses the float size. -/
noncomputable def gdpower (n : ℕ) (degree rate : ℝ) : Py GdResult := do
  let lnu := (⌈(n : ℝ) / 2.0⌉).toNat
  let nu := (linspace 0 0.5 (lnu + 1)).slice 1 (lnu + 1)
  let am := nu.map (fun v => v ^ ((degree - 2.0) / 6.0))
  if rate = 0 then .error .typeError
  else do
    let (x, t0, d) ← gdBranch n lnu degree rate nu am
    if degree = 1 then .error .typeError
    else do
      let gpd := nu.map (fun v => t0 + |npSign rate - 1| / 2.0 * (n + 1) + d * v ^ (degree - 1))
      let mean := x.sum / (x.len : ℂ)
      let x := x.map (· - mean)
      if x.norm = 0 then .error .nonFinite
      else .ok ⟨x.map (· / (x.norm : ℂ)), gpd, nu⟩

end Tftb.Misc
