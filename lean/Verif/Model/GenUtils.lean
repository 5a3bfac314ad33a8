import Verif.Py.Basic

/-! # Model of `tftb/generators/utils.py` -/

namespace Tftb.GenUtils

open Tftb

/-- `tftb/generators/utils.py` 7-27, `sigmerge`.  One-dimensional arrays and a real ratio (the assertions of lines 19-21 hold by typing);
a zero `ex2` (or the mean of an empty array) makes `h` NaN or an infinity, and so every sample of the sum, whose shape (line 26) is fixed by the operands
alone; hence its place here before the other tests. -/
noncomputable def sigmerge (x1 x2 : Vec ℂ) (ratio : ℝ) : Py (Vec ℂ) := do
  let sum ← Vec.bcast (fun a b => a + b) x1 x2
  if sum.len = 0 then .ok sum
  else
    let ex1 ← (x1.map (fun z => ‖z‖ ^ 2)).mean
    let ex2 ← (x2.map (fun z => ‖z‖ ^ 2)).mean
    if ex2 = 0 then .error .nonFinite
    else
      let h := Real.sqrt (ex1 / (ex2 * (10 : ℝ) ^ (ratio / 10.0)))
      Vec.bcast (fun a b => a + (h : ℂ) * b) x1 x2

/-- `np.zeros((k,))` with a float `k`: refused, whatever the value. -/
def zerosF (_k : ℝ) : Py (Vec ℂ) := .error .typeError

/-- `tftb/generators/utils.py` 30-88, `scale`, for a scalar `a` (an array `a` fails at line 73 in the same way), an integer `N` and Python floats `fmin`, `fmax`.  The statements after
the creation of `S` (line 75) are a parameter `rest`; the values computed before it and not used to decide whether an exception is raised
are left out. -/
noncomputable def scale (X : Vec ℂ) (a fmin fmax : ℝ) (N : ℤ) (rest : Vec ℂ → Vec ℂ → Py (Vec ℂ)) : Py (Vec ℂ) := do
  -- 46
  let Z ← hilbert (X.map Complex.re)
  -- 58: `fmax / float(fmin)`, `1.0 / (N - 1.0)`, and `0.0` to a negative power
  if fmin = 0 ∨ N = 1 ∨ (fmax = 0 ∧ N < 1) then .error .zeroDivisionError
  -- 61: `t.reshape(128, 1)`, `geo_f.reshape(1, 128)`
  else if X.len ≠ 128 then .error .valueError
  else if N.toNat ≠ 128 then .error .valueError
  else do
    -- 71: `np.amax` of a float is a float
    let Mmax : ℝ := ⌈(X.len : ℝ) / 2.0 * a⌉
    -- 75
    let S ← zerosF (2 * Mmax)
    rest Z S

end Tftb.GenUtils
