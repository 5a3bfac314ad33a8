import Verif.Model.FM

/-! # Model of `fmpower` (`tftb/generators/frequency_modulated.py`) for the documented type of the degree, `int`

`Model/FM.lean` has the same function for a float degree.  The difference matters: `np.abs(t)` is an integer array, and NumPy refuses integer arrays
to a negative integer power. -/

namespace Tftb.FM

open Tftb

/-- `tftb/generators/frequency_modulated.py` 199-205: `(f0, c)` from the coefficients, any number of them, for an integer degree.  With fewer than
two the names stay unbound (the exception comes from line 207); with three `p2[1]` is out of range; beyond four they are ignored.  A reference
time zero divides by zero (line 204) unless the degree is zero, in which case the difference of line 204 is zero. -/
noncomputable def powerCoefsInt (k : ℤ) : List ℝ → Py (ℝ × ℝ)
  | [] => .error .unboundLocalError
  | [_] => .error .unboundLocalError
  | [f0, c] => .ok (f0, c)
  | [_, _, _] => .error .indexError
  | t1 :: f1 :: t2 :: f2 :: _ =>
    if (t2 = 0 ∨ t1 = 0) ∧ k ≠ 0 then .error .zeroDivisionError
    else if 1.0 / t2 ^ k - 1.0 / t1 ^ k = 0 then .error .zeroDivisionError
    else
      let c := (f2 - f1) / (1.0 / t2 ^ k - 1.0 / t1 ^ k)
      let f0 := f1 - c / t1 ^ k
      .ok (f0, c)

/-- `tftb/generators/frequency_modulated.py` 180-216, `fmpower` with an integer degree.  `c / (1 - k)` is a division of Python scalars; then
`np.abs(t) ** (1 - k)` raises `ValueError` when the exponent is negative (no element, no exception).  For `k ≤ 0` both exponents are natural numbers
(`0 ** 0 = 1`).  Simplified: the integer powers do not overflow. -/
noncomputable def fmpowerInt (n : ℤ) (k : ℤ) (coefs : List ℝ) : Py WarnResult := do
  let fc ← powerCoefsInt k coefs
  let f0 := fc.1
  let c := fc.2
  if 1 - k = 0 then .error .zeroDivisionError
  else if 0 < n ∧ 1 - k < 0 then .error .valueError
  else
    let t := arange 0 n
    let phi := t.map (fun t : ℤ => 2 * Real.pi * (f0 * t + c / ((1 - k : ℤ) : ℝ) * ((|t| ^ (1 - k).toNat : ℤ) : ℝ)))
    let iflaw := t.map (fun t : ℤ => f0 + c * ((|t| ^ (-k).toNat : ℤ) : ℝ))
    let x := phi.map (fun p : ℝ => Complex.exp (Complex.I * p))
    .ok ⟨x, iflaw, aliasing iflaw⟩

end Tftb.FM
