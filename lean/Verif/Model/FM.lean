import Verif.Model.AM
import Verif.Model.Utils

/-! # Model of `tftb/generators/frequency_modulated.py` -/

namespace Tftb.FM

open Tftb

/-- `tftb/generators/frequency_modulated.py` 6-37, `fmconst`: (signal, frequency law). -/
noncomputable def fmconst (n : ℤ) (fnorm : ℝ) (t0 : Option ℝ) : Py (Vec ℂ × Vec ℝ) :=
  let t0 := AM.defaultT0 n t0
  if n ≤ 0 then .error .typeError
  else if |fnorm| > 0.5 then .error .typeError
  else do
    let tmt0 := (arange 0 n).map (fun t : ℤ => (t : ℝ) - t0)
    let y := tmt0.map (fun t : ℝ => Complex.exp (Complex.I * 2.0 * Real.pi * fnorm * t))
    let r ← y.item (truncInt t0)
    if r.re = 0 then .error .nonFinite
    else
      let y := y.map (fun z => z / (r.re : ℂ))
      let iflaw : Vec ℝ := ⟨n.toNat, fun _ => fnorm⟩
      .ok (y, iflaw)

/-- Signal, frequency law, and whether the undersampling warning was issued. -/
structure WarnResult where
  signal : Vec ℂ
  iflaw : Vec ℝ
  warned : Prop

/-- `tftb/generators/frequency_modulated.py` 64-66 and 171-173: `np.any((iflaw < 0) | (iflaw > 0.5))`. -/
def aliasing (iflaw : Vec ℝ) : Prop := ∃ i < iflaw.len, iflaw.get i < 0 ∨ iflaw.get i > 0.5

/-- `tftb/generators/frequency_modulated.py` 40-72, `fmhyp`.  The points hold Python scalars:
dividing by a zero raises `ZeroDivisionError`. -/
noncomputable def fmhyp (n : ℤ) (p1 p2 : ℝ × ℝ) : Py WarnResult :=
  if p2.1 = 0 ∨ p1.1 = 0 then .error .zeroDivisionError
  else if 1.0 / p2.1 - 1 / p1.1 = 0 then .error .zeroDivisionError
  else
    let c := (p2.2 - p1.2) / (1.0 / p2.1 - 1 / p1.1)
    let f0 := p1.2 - c / p1.1
    let t := (arange 1 (n + 1)).map (fun t : ℤ => (t : ℝ))
    let phi := t.map (fun t => 2 * Real.pi * (f0 * t + c * Real.log |t|))
    let iflaw := t.map (fun t => f0 + c / |t|)
    let x := phi.map (fun p : ℝ => Complex.exp (Complex.I * p))
    .ok ⟨x, iflaw, aliasing iflaw⟩

/-- `tftb/generators/frequency_modulated.py` 75-112, `fmlin`. -/
noncomputable def fmlin (n : ℤ) (fnormi fnormf : ℝ) (t0 : Option ℝ) : Py (Vec ℂ × Vec ℝ) :=
  let t0 := AM.defaultT0 n t0
  if n ≤ 0 then .error .typeError
  else if |fnormi| > 0.5 ∨ |fnormf| > 0.5 then .error .typeError
  else if 2.0 * ((n : ℝ) - 1) = 0 then .error .zeroDivisionError
  else do
    let y := (arange 1 (n + 1)).map (fun t : ℤ => (t : ℝ))
    let y := y.map (fun y => fnormi * (y - t0)
      + ((fnormf - fnormi) / (2.0 * ((n : ℝ) - 1))) * ((y - 1) ^ 2 - (t0 - 1) ^ 2))
    let y := y.map (fun y : ℝ => Complex.exp (Complex.I * 2.0 * Real.pi * y))
    let r ← y.item (truncInt t0 - 1)
    let y := y.map (fun z => z / r)
    .ok (y, linspace fnormi fnormf n.toNat)

/-- `tftb/generators/frequency_modulated.py` 146-147: the part of `fmodany` after the checks.
Simplified: `t0` is an integer. -/
noncomputable def fmodanyCore (iflaw : Vec ℝ) (t0 : ℤ) : Py (Vec ℂ) := do
  let y := iflaw.cumsum.map (fun s : ℝ => Complex.exp (Complex.I * 2.0 * Real.pi * s))
  let r ← y.item t0
  .ok (y.map (fun z => z * (starRingEnd ℂ) r))

/-- `tftb/generators/frequency_modulated.py` 115-148, `fmodany`.  For a two-dimensional argument
the magnitude check is skipped (it is in the `elif` branch) and `np.cumsum` flattens. -/
noncomputable def fmodany (iflaw : Utils.Arr12 ℝ) (t0 : ℤ) : Py (Vec ℂ) :=
  match iflaw with
  | .two M =>
    if M.cols ≠ 1 then .error .typeError
    else if t0 > M.rows ∨ t0 = 0 then .error .typeError
    else fmodanyCore (M.col 0) t0
  | .one v => do
    let m ← (v.map (fun a => |a|)).amax
    if m > 0.5 then .error .typeError
    else if t0 > v.len ∨ t0 = 0 then .error .typeError
    else fmodanyCore v t0

/-- `tftb/generators/frequency_modulated.py` 115-148, `fmodany` with a float `t0`, the documented type. -/
noncomputable def fmodanyFloat (iflaw : Utils.Arr12 ℝ) (t0 : ℝ) : Py (Vec ℂ) :=
  let core (v : Vec ℝ) : Py (Vec ℂ) := do
    let y := v.cumsum.map (fun s : ℝ => Complex.exp (Complex.I * 2.0 * Real.pi * s))
    let r ← y.itemF t0
    .ok (y.map (fun z => z * (starRingEnd ℂ) r))
  match iflaw with
  | .two M =>
    if M.cols ≠ 1 then .error .typeError
    else if t0 > M.rows ∨ t0 = 0 then .error .typeError
    else core (M.col 0)
  | .one v => do
    let m ← (v.map (fun a => |a|)).amax
    if m > 0.5 then .error .typeError
    else if t0 > v.len ∨ t0 = 0 then .error .typeError
    else core v

/-- `tftb/generators/frequency_modulated.py` 151-177, `fmpar`. -/
noncomputable def fmpar (n : ℤ) (a0 a1 a2 : ℝ) : WarnResult :=
  let t := (arange 0 n).map (fun t : ℤ => (t : ℝ))
  let phi := t.map (fun t => 2 * Real.pi * (a0 * t + (a1 / 2 * t) ^ 2 + (a2 / 3 * t) ^ 3))
  let iflaw := t.map (fun t => a0 + a1 * t + a2 * t ^ 2)
  let x := phi.map (fun p : ℝ => Complex.exp (Complex.I * p))
  ⟨x, iflaw, aliasing iflaw⟩

/-- A float including the non-finite values, for the one function whose documented use produces
them (`fmpower` at time 0). -/
inductive XFloat
  | fin (a : ℝ)
  | pinf
  | ninf
  | nan

/-- Comparison `x < 0` on extended floats. -/
def XFloat.ltZero : XFloat → Prop
  | .fin a => a < 0
  | .ninf => True
  | _ => False

/-- Comparison `x > 0.5` on extended floats. -/
def XFloat.gtHalf : XFloat → Prop
  | .fin a => a > 0.5
  | .pinf => True
  | _ => False

/-- Result of `fmpower`: the samples of the law may be infinite; `signal` entries `none` are NaN. -/
structure PowerResult where
  signal : Vec (Option ℂ)
  iflaw : Vec XFloat
  warned : Prop

/-- The numbers `(f0, c)` of `fmpower`: a power of a negative number with a non-integer exponent is a Python `complex`. -/
inductive PowerNum
  | real (f0 c : ℝ)
  | cplx (f0 c : ℂ)

/-- Result of `fmpower`: `cplx` when `(f0, c)` are complex, entries `none` being NaN or infinite (the comparisons of line 209 are then those of complex
numbers, and whether they lead to a warning is not modelled). -/
inductive PowerOut
  | real (r : PowerResult)
  | cplx (signal iflaw : Vec (Option ℂ))

open Classical in
/-- `tftb/generators/frequency_modulated.py` 199-205: `(f0, c)` from the coefficients, any number of them, for a float exponent.  With fewer than
two the names stay unbound (the exception comes from line 207); with three `p2[1]` is out of range; beyond four they are ignored.  A reference time
zero divides by zero whatever the exponent: `0 ** k` is 0 for `k > 0`, raises for `k < 0`, and for `k = 0` the difference of line 204 is zero.  A negative
one raised to a non-integer power gives Python's `complex` (the principal value). -/
noncomputable def powerCoefs (k : ℝ) : List ℝ → Py PowerNum
  | [] => .error .unboundLocalError
  | [_] => .error .unboundLocalError
  | [f0, c] => .ok (.real f0 c)
  | [_, _, _] => .error .indexError
  | t1 :: f1 :: t2 :: f2 :: _ =>
    if t2 = 0 ∨ t1 = 0 then .error .zeroDivisionError
    else if (t1 < 0 ∨ t2 < 0) ∧ ¬ ∃ m : ℤ, k = m then
      let d := 1.0 / (t2 : ℂ) ^ (k : ℂ) - 1.0 / (t1 : ℂ) ^ (k : ℂ)
      if d = 0 then .error .zeroDivisionError
      else
        let c := ((f2 - f1 : ℝ) : ℂ) / d
        .ok (.cplx (f1 - c / (t1 : ℂ) ^ (k : ℂ)) c)
    else if 1.0 / t2 ^ k - 1.0 / t1 ^ k = 0 then .error .zeroDivisionError
    else
      let c := (f2 - f1) / (1.0 / t2 ^ k - 1.0 / t1 ^ k)
      let f0 := f1 - c / t1 ^ k
      .ok (.real f0 c)

/-- `c * 0.0 ** e` for a float exponent `e`, added to a finite value: finite for `e ≥ 0` and
infinite for `e < 0` unless `c = 0` (then NaN). -/
noncomputable def addMulZeroPow (a c e : ℝ) : XFloat :=
  if 0 ≤ e then .fin (a + c * (0 : ℝ) ^ e)
  else if 0 < c then .pinf
  else if c < 0 then .ninf
  else .nan

/-- `tftb/generators/frequency_modulated.py` 180-216, `fmpower`, for a float exponent `k` (an
integer `k` is in `Model/FMPower.lean`).
`c / (1 - k)` is a division of Python scalars.  At `t = 0` the power `0 ** (-k)` is infinite for
`k > 0`, and `exp(1j*phi)` is NaN when `phi` is not finite.  Complex coefficients come with a non-integer `k` only. -/
noncomputable def fmpower (n : ℤ) (k : ℝ) (coefs : List ℝ) : Py PowerOut := do
  let fc ← powerCoefs k coefs
  let t := (arange 0 n).map (fun t : ℤ => (t : ℝ))
  match fc with
  | .real f0 c =>
    if 1 - k = 0 then .error .zeroDivisionError
    else
      let phi : Vec (Option ℝ) := t.map (fun t =>
        if t = 0 then
          match addMulZeroPow (f0 * t) (c / (1 - k)) (1 - k) with
          | .fin a => some (2 * Real.pi * a)
          | _ => none
        else some (2 * Real.pi * (f0 * t + c / (1 - k) * |t| ^ (1 - k))))
      let iflaw : Vec XFloat := t.map (fun t =>
        if t = 0 then addMulZeroPow f0 c (-k) else .fin (f0 + c * |t| ^ (-k)))
      let x : Vec (Option ℂ) := phi.map (fun p => p.map (fun p : ℝ => Complex.exp (Complex.I * p)))
      .ok (.real ⟨x, iflaw, ∃ i < iflaw.len, (iflaw.get i).ltZero ∨ (iflaw.get i).gtHalf⟩)
  | .cplx f0 c =>
    let pow (t e : ℝ) : Option ℝ := if t = 0 ∧ e < 0 then none else some (|t| ^ e)
    let phi : Vec (Option ℂ) := t.map (fun t => (pow t (1 - k)).map (fun p : ℝ => 2 * (Real.pi : ℂ) * (f0 * t + c / (1 - k) * (p : ℂ))))
    let iflaw : Vec (Option ℂ) := t.map (fun t => (pow t (-k)).map (fun p : ℝ => f0 + c * (p : ℂ)))
    .ok (.cplx (phi.map (fun p => p.map (fun p => Complex.exp (Complex.I * p)))) iflaw)

/-- `tftb/generators/frequency_modulated.py` 219-260, `fmsin`.  `np.arccos` outside `[-1, 1]` and a
zero period give NaN. -/
noncomputable def fmsin (n : ℤ) (fnormin fnormax : ℝ) (period t0 fnorm0 : Option ℝ) (pm1 : ℝ) :
    Py (Vec ℂ × Vec ℝ) :=
  let period := period.getD n
  let t0 := t0.getD ((n : ℝ) / 2.0)
  let fnorm0 := fnorm0.getD (0.5 * (fnormin + fnormax))
  let fnormid := 0.5 * (fnormax + fnormin)
  let delta := 0.5 * (fnormax - fnormin)
  if delta = 0 then .error .zeroDivisionError
  else if 0 < n ∧ (period = 0 ∨ 1 < |(fnorm0 - fnormid) / delta|) then .error .nonFinite
  else
    let phi := -pm1 * Real.arccos ((fnorm0 - fnormid) / delta)
    let t := (arange 0 n).map (fun t : ℤ => (t : ℝ) - t0)
    let phase := t.map (fun t => 2 * Real.pi * fnormid * t
      + delta * period * Real.sin (2 * Real.pi * t / period + phi) - Real.sin phi)
    let y := phase.map (fun p : ℝ => Complex.exp (Complex.I * p))
    let iflaw := t.map (fun t => fnormid + delta * Real.cos (2 * Real.pi * t / period + phi))
    .ok (y, iflaw)

end Tftb.FM
