import Verif.Py.Basic
import Mathlib.Analysis.SpecialFunctions.Log.Base

/-! # Model of `tftb/utils.py` -/

namespace Tftb.Utils

open Tftb

/-- `tftb/utils.py` 9-30, `is_linear`: `np.diff`, `np.around(·, decimals)`
(`round(d·10^decimals)/10^decimals`, ties to even), number of distinct values equal to one. -/
noncomputable def isLinear (x : Vec ℝ) (decimals : ℤ) : Bool :=
  let derivative := x.diff
  let derivative := derivative.map
    (fun d => (roundEven (d * (10 : ℝ) ^ decimals) : ℝ) / (10 : ℝ) ^ decimals)
  @decide (((Finset.range derivative.len).image derivative.get).card = 1) (Classical.dec _)

/-- Argument of `izak`: a one- or two-dimensional array. -/
inductive Arr12 (α : Type)
  | one (v : Vec α)
  | two (M : Mat α)

/-- `tftb/utils.py` 33-42, `izak`, for a two-dimensional argument: the loop
`sig[im + arange(n)*m] = sqrt(n) * ifft(x[:, im])`. -/
noncomputable def izak2 (x : Mat ℂ) : Py (Vec ℂ) :=
  let n := x.rows
  let m := x.cols
  (List.range m).foldlM (fun sig im => do
    let y ← ifft (x.col im)
    sig.put ((arange 0 n).map (fun j => (im : ℤ) + j * (m : ℤ)))
      (y.map (fun z => (Real.sqrt n : ℂ) * z)))
    (⟨n * m, fun _ => 0⟩ : Vec ℂ)

/-- `tftb/utils.py` 33-42, `izak`.  For a one-dimensional argument `m = 1` and the first iteration
evaluates `x[:, 0]`, too many indices. -/
noncomputable def izak : Arr12 ℂ → Py (Vec ℂ)
  | .one _ => .error .indexError
  | .two x => izak2 x

/-- `tftb/utils.py` 45-59, `nextpow2`: `math.ceil(math.log2(n))`; `math.log2` raises `ValueError`
outside its domain.  Simplified: `log2` is exact. -/
noncomputable def nextpow2 (n : ℤ) : Py ℤ :=
  if n ≤ 0 then .error .valueError else .ok ⌈Real.logb 2 n⌉

/-- `tftb/utils.py` 84-88: `for i in range(s, 0, -1): factor = N // i; if N % i == 0: break`, then
`return i, factor`.  When no iteration breaks, the values of the last iteration (`i = 1`) are
returned; `i` is unbound if there was no iteration. -/
def dividerLoop (N : ℤ) : ℕ → Py (ℤ × ℤ)
  | 0 => .error .unboundLocalError
  | i + 1 =>
    if N % ((i : ℤ) + 1) = 0 then .ok ((i : ℤ) + 1, N / ((i : ℤ) + 1))
    else if i = 0 then .ok (1, N / 1)
    else dividerLoop N i

/-- `tftb/utils.py` 62-89, `divider`.  Simplified: `math.sqrt` is the exact square root. -/
noncomputable def divider (N : ℤ) : Py (ℤ × ℤ) :=
  if N < 0 then .error .valueError
  else
    let s := Real.sqrt N
    if s - ⌊s⌋ = 0 then .ok (truncInt s, truncInt s)
    else dividerLoop N ⌈s⌉.toNat

/-- Python's `x % N` on floats (`N ≠ 0`). -/
noncomputable def pyMod (x N : ℝ) : ℝ := x - N * ⌊x / N⌋

/-- `tftb/utils.py` 92-117, `nearest_odd`, scalar branch (lines 111-117). -/
noncomputable def nearestOdd (N : ℝ) : ℝ :=
  if pyMod N 2 = 0 then N + 1
  else if ⌊N⌋ % 2 = 0 then ⌈N⌉
  else if ⌊N⌋ % 2 ≠ 0 then ⌊N⌋
  else N

/-- `tftb/utils.py` 107-110, `nearest_odd`, list/array branch. -/
noncomputable def nearestOddArr (N : Vec ℝ) : Vec ℤ :=
  let y := N.map (fun a => ((⌊a⌋ : ℤ) : ℝ))
  let y := y.map (fun a => if pyMod a 2 = 0 then a + 1 else a)
  y.map truncInt

/-- Array with a real or a complex dtype. -/
inductive NdArr
  | real (v : Vec ℝ)
  | complex (v : Vec ℂ)

/-- `tftb/utils.py` 120-137, `modulo`.  `any(np.isreal(x))` is false for an empty array; `np.mod` is
not defined for complex arrays (`TypeError`); modulus 0 gives NaN (float arrays; an integer array,
for which NumPy returns 0 with a warning, is not modelled in that case). -/
noncomputable def modulo (x : NdArr) (N : ℝ) : Py NdArr :=
  match x with
  | .real v =>
    if 0 < v.len then
      if N = 0 then .error .nonFinite
      else
        let y := v.map (fun a => pyMod a N)
        .ok (.real (y.map (fun a => if a = 0 then N else a)))
    else .ok (.complex ⟨0, fun _ => 0⟩)
  | .complex v =>
    if ∃ i < v.len, (v.get i).im = 0 then .error .typeError
    else if N = 0 ∧ 0 < v.len then .error .nonFinite
    else .ok (.complex (v.map (fun z => (⟨pyMod z.re N, pyMod z.im N⟩ : ℂ))))

end Tftb.Utils
