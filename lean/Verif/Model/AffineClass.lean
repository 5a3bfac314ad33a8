import Verif.Model.WideBand
import Mathlib.Algebra.Polynomial.Roots
import Mathlib.Analysis.SpecialFunctions.Trigonometric.DerivHyp

/-! # Model of the distributions of Unterberger, D-Flandrin and Bertrand in `tftb/processing/affine.py`

The signal is one-dimensional (a two-dimensional one is refused by the base class, see `Aff.components`); the time axis holds integers.  The
scipy root finders are modelled by the exact root they look for, the splines (`splrep`, `splev`) by an arbitrary function. A NaN or an infinity
is `nonFinite`.  A band edge is a Python float when it is given and a NumPy float when it is computed (the divisions by `fmin` and by `fmin + fmax` are
taken to be those of Python floats).  The number of dilations `int((umax - umin) / du)` is exactly `2 * m1` (rounding could lose one). -/

namespace Tftb.AffDist

open Tftb ProcUtils

/-! ## Dilation functions -/

/-- `tftb/processing/affine.py` 474-475: the parameter of a named distribution; another name raises `KeyError`. -/
noncomputable def methodLookup (k : String) : Py ℝ :=
  if k = "bertrand" then .ok 0
  else if k = "unterberger" then .ok (-1)
  else if k = "d_flandrin" then .ok 0.5
  else if k = "aspwv" then .ok 2
  else .error .keyError

/-- `tftb/processing/affine.py` 473-485, `lambdak` of a float `u`.  The base of the power is never negative. -/
noncomputable def lambdak (u : ℝ) (k : String) : Py ℝ := do
  let k ← methodLookup k
  if k ≠ 0 ∧ k ≠ 1 then
    if Real.exp (-k * u) - 1 = 0 then .error .nonFinite
    else
      let y := k * (Real.exp (-u) - 1) / (Real.exp (-k * u) - 1)
      if y ≤ 0 then .error .nonFinite else .ok (y ^ (1 / (k - 1)))
  else if k = 1 then
    if Real.exp (-u) - 1 = 0 then .error .nonFinite
    else .ok (Real.exp (1 + u * Real.exp (-u) / (Real.exp (-u) - 1)))
  else if u = 0 then .ok 1
  else .ok (-u / (Real.exp (-u) - 1))

/-- `np.roots([a, b, c])`: the complex roots with their multiplicities; none if all coefficients vanish. -/
noncomputable def npRoots (a b c : ℝ) : Multiset ℂ :=
  (Polynomial.C (a : ℂ) * Polynomial.X ^ 2 + Polynomial.C (b : ℂ) * Polynomial.X + Polynomial.C (c : ℂ)).roots

open Classical in
/-- `tftb/processing/affine.py` 655-658, `umaxdfla_solve`; `np.min` of an empty array raises `ValueError`. -/
noncomputable def umaxdflaSolve (ratio : ℝ) : Py ℝ :=
  let roots := (npRoots ((1 - ratio) / 16) ((1 + ratio) / 2) (1 - ratio)).toFinset
  if h : roots.Nonempty then .ok (roots.inf' h (fun z => ‖z - 0‖)) else .error .valueError

/-! ## Constructors -/

/-- The three classes; `unterberger` carries the test `self.form != "A"` (`tftb/processing/affine.py` 254-259, 343, 400). -/
inductive Kind
  | unterberger (otherForm : Bool)
  | dflandrin
  | bertrand
  deriving DecidableEq

/-- `tftb/processing/affine.py` 264-266: the function whose zero is `umax` of the Unterberger distribution. -/
noncomputable def umaxunt (ratio x : ℝ) : ℝ :=
  let a := Real.sqrt (1 + (x / 2) ^ 2)
  (a + x / 2) / (a - x / 2) - ratio

/-- `tftb/processing/affine.py` 268, 351, 408-409: the largest dilation parameter.  `newt` is the answer of scipy's `newton`; `brenth` on
`[0, 4]` raises `ValueError` without a change of sign and otherwise finds the only zero of `exp(x) - fmax / fmin`. -/
noncomputable def umaxOf (kind : Kind) (newt : Py ℝ) (fmin fmax : ℝ) : Py ℝ :=
  if fmin = 0 then .error .zeroDivisionError
  else match kind with
    | .unterberger _ => newt
    | .dflandrin => umaxdflaSolve (fmax / fmin)
    | .bertrand =>
      if 0 < (Real.exp 0 - fmax / fmin) * (Real.exp 4 - fmax / fmin) then .error .valueError
      else .ok (Real.log (fmax / fmin))

/-- `tftb/processing/affine.py` 271, 353, 411: the bound of `teq`: `2 * m`, but for Bertrand the number of samples. -/
noncomputable def limit (kind : Kind) (n m : ℕ) : ℝ :=
  match kind with
  | .bertrand => (n : ℝ)
  | _ => 2 * (m : ℝ)

/-- `tftb/processing/affine.py` 269-278, 352-358, 410-418: half the number of dilations, and the attribute `T` when it is set.  `m` is half the
number of samples, rounded up; `n` their number; `given` says that `fmax` is a Python float.  For `fmax * umax = 0` the quotient `teq` is infinite (or NaN,
without samples) and the test fails, except for Bertrand's distribution with a given `fmax`: `brenth` answers a Python float, `newton` and `np.roots` NumPy
floats. -/
noncomputable def sizes (kind : Kind) (given : Bool) (n m : ℕ) (fmax umax : ℝ) : Py (ℤ × Option ℤ) :=
  if fmax * umax = 0 then
    if kind = .bertrand ∧ given = true then .error .zeroDivisionError else .ok (m, none)
  else
    let teq := (m : ℝ) / (fmax * umax)
    if teq < limit kind n m then
      let m0 := roundEven ((2 * (m : ℝ) ^ 2) / teq - m) + 1
      .ok ((m : ℤ) + m0, some (2 * ((m : ℤ) + m0) - 1))
    else .ok (m, none)

/-- `tftb/processing/affine.py` 63-73, `_get_nvoices`; an unset `T` raises `AttributeError`; for a ratio of the edges that is not positive `nmin` is NaN, and
`nextpow2` raises `ValueError`. -/
noncomputable def getNVoices (fmin fmax : ℝ) (T : Option ℤ) : Py ℕ :=
  let bw := fmax - fmin
  let R := bw / (fmin + fmax) * 2
  match T with
  | none => .error .attributeError
  | some T =>
    if fmin + fmax = 0 ∨ R = 0 ∨ 1 - R / 2 = 0 then .error .zeroDivisionError
    else if (1 + R / 2) / (1 - R / 2) ≤ 0 then .error .valueError
    else do
      let q := bw * T * (1 + 2 / R) * Real.log ((1 + R / 2) / (1 - R / 2))
      let nq := ⌈q / 2⌉
      let nmin := nq - nq % 2
      let p ← Utils.nextpow2 nmin
      .ok (2 ^ p.toNat)

/-- Attributes set by the constructors, besides the signal `x` and the instants `ts`. -/
structure Disp where
  kind : Kind
  x : Vec ℂ
  ts : Vec ℤ
  fmin : ℝ
  fmax : ℝ
  umax : ℝ
  m : ℕ
  m1 : ℤ
  nv : ℕ

/-- `tftb/processing/affine.py` 258-282, 347-362, 404-422: the constructors. -/
noncomputable def mk (kind : Kind) (newt : ℝ → Py ℝ) (x : Vec ℂ) (ts : Option (Vec ℤ)) (fmin fmax : Option ℝ) (nv : Option ℕ) : Py Disp := do
  let ts := ts.getD (arange 0 x.len)
  let given := fmax.isSome
  let (fmin, fmax, _, _) ← Aff.init x ts fmin fmax
  let umax ← umaxOf kind (newt (fmax / fmin)) fmin fmax
  let m := (x.len + x.len % 2) / 2
  let (m1, T) ← sizes kind given x.len m fmax umax
  let nv ← match nv with
    | some k => (.ok k : Py ℕ)
    | none => getNVoices fmin fmax T
  .ok ⟨kind, x, ts, fmin, fmax, umax, m, m1, nv⟩

/-! ## Runs -/

/-- `tftb/processing/affine.py` 84-95, `_geometric_sample`: the ratio `q`, the frequencies `geo_f` and the spectrum of `s` there, padded with
as many zeros.  A ratio of the edges that is not positive: zero to a negative power raises `ZeroDivisionError`; without voices the inverse Fourier transform of
line 99 gets an empty array; with voices the logarithm of zero is infinite, and the power of a negative Python float is a complex number, which is not followed (`nonFinite`). -/
noncomputable def geometricSample (s : Vec ℝ) (m : ℕ) (fmin fmax : ℝ) (nv : ℕ) : Py (ℝ × Vec ℝ × Vec ℂ) :=
  if fmin = 0 ∨ nv = 1 then .error .zeroDivisionError
  else if fmax / fmin ≤ 0 then .error (if nv = 0 then (if fmax = 0 then .zeroDivisionError else .valueError) else .nonFinite)
  else
    let q : ℝ := (fmax / fmin) ^ (1 / ((nv : ℝ) - 1))
    let t : ℕ → ℝ := fun i => ((i : ℝ) + 1) - m - 1
    let geo : Vec ℝ := ⟨nv, fun k => fmin * Real.exp ((((k : ℝ) + 1) - 1) * Real.log q)⟩
    let S : Vec ℂ := ⟨nv, fun k => ∑ i ∈ Finset.range s.len, (s.get i : ℂ) * Complex.exp (-2 * Complex.I * ((t i : ℂ) * (geo.get k : ℂ)) * Real.pi)⟩
    .ok (q, geo, S.append ⟨nv, fun _ => 0⟩)

/-- `tftb/processing/affine.py` 97-107, `_mellin_transform`, the variables `u`; the middle one is set to zero.  For `umax = 0` the number of points is
`int(nan)`; for `m1 = 0` it is 0. -/
noncomputable def uAxis (umax : ℝ) (m1 : ℤ) : Py (Vec ℝ) :=
  let umin := -umax
  if umax = 0 then .error .valueError
  else if m1 = 0 then .error .indexError
  else if m1 < 0 ∨ umax < 0 then .error .valueError -- a negative number of points here, or a negative dimension of `waf`
  else
    let du := |umax - umin| / (2 * (m1 : ℝ))
    (linspace umin (umax - du) (truncInt ((umax - umin) / du)).toNat).setItem m1 0

/-- `tftb/processing/affine.py` 289-294, 370-381, 432-453: the exponents `x * y` of the two dilations at `u`, for the Mellin variable `beta`; `sgn`
is `-1` for the first and `1` for the second.  The arguments of the logarithms are positive: `|u| ≤ umax`, which is less than 4 for D-Flandrin. -/
noncomputable def exponent (kind : Kind) (sgn u beta : ℝ) : ℂ :=
  match kind with
  | .unterberger _ => -(2 * Complex.I * Real.pi * beta + 0.5) * (Real.log (Real.sqrt (1 + (u / 2) ^ 2) + sgn * (u / 2)) : ℝ)
  | .dflandrin => -(2 * Complex.I * Real.pi * beta + 0.5) * 2 * (Real.log (1 + sgn * (u / 4)) : ℝ)
  | .bertrand => (-2 * Complex.I * Real.pi * beta + 0.5) * (Real.log ((u / 2) * Real.exp (sgn * (u / 2)) / Real.sinh (u / 2)) : ℝ)

/-- `tftb/processing/affine.py` 292, 294-296, 370-383, 432-455: `np.fft.fft(np.fft.fftshift(exp(x * y) * mellin))[:nv]`. -/
noncomputable def dilate (kind : Kind) (nv : ℕ) (q : ℝ) (mel : Vec ℂ) (sgn u : ℝ) : Py (Vec ℂ) := do
  let beta : ℕ → ℝ := fun p => ((p : ℝ) / nv - 1) / (2 * Real.log q)
  let mx : Vec ℂ := ⟨mel.len, fun p => Complex.exp (exponent kind sgn u (beta p)) * mel.get p⟩
  let fx ← fft (fftshift mx)
  .ok (fx.slice 0 nv)

/-- `tftb/processing/affine.py` 290-299, 369-384, 429-457: row `n` of `waf`.  Bertrand's row `m1` is the product of the spectra themselves;
the other form of Unterberger reads the *next* dilation. -/
noncomputable def wafRow (kind : Kind) (nv : ℕ) (m1 : ℤ) (q : ℝ) (u : Vec ℝ) (S mel : Vec ℂ) (n : ℕ) : Py (Vec ℂ) := do
  let un ← u.item n
  if kind = .bertrand ∧ (n : ℤ) = m1 then .ok ((S.slice 0 nv).map (fun v => v * (starRingEnd ℂ) v))
  else do
    let f1 ← dilate kind nv q mel (-1) un
    let f2 ← dilate kind nv q mel 1 un
    let w ← Vec.bcast (fun a b => a * (starRingEnd ℂ) b) f1 f2
    match kind with
    | .unterberger true => do
      let v ← u.item ((n : ℤ) + 1)
      .ok (w.map (fun a => a * ((1 / Real.sqrt (1 + (v / 2) ^ 2) : ℝ) : ℂ)))
    | _ => .ok w

/-- `tftb/processing/affine.py` 300-310, 385-395, 458-468: from `waf` (here with one column per dilation) to `tffr`: exchange of the halves,
product with the frequencies, inverse Fourier transform over the dilations, exchange of the halves, rotation, real part. -/
noncomputable def tffrOf (waf : Mat ℂ) (geo : Vec ℝ) (m1 : ℕ) : Mat ℝ :=
  let w : Mat ℂ := ⟨waf.rows, 2 * m1, fun i n => waf.get i (if n < m1 then m1 + n else n - m1) * (geo.get i : ℂ)⟩
  let y : Mat ℂ := ⟨waf.rows, 2 * m1, fun i r => (∑ n ∈ Finset.range (2 * m1), w.get i n * rootPow (2 * m1) (-((n : ℤ) * (r : ℤ)))) / ((2 * m1 : ℕ) : ℂ)⟩
  let z : Mat ℂ := ⟨waf.rows, 2 * m1, fun i r => y.get i (if r < m1 then m1 + r else r - m1)⟩
  ⟨waf.rows, 2 * m1, fun i j => (z.get i (2 * m1 - 1 - j)).re⟩

/-- `tftb/processing/affine.py` 284-310, 364-395, 424-468: the affine representation before interpolation, with its frequencies. -/
noncomputable def tffr (o : Disp) : Py (Vec ℝ × Mat ℝ) := do
  let (q, geo, S) ← geometricSample (o.x.map Complex.re) o.m o.fmin o.fmax o.nv
  let mel ← ifft S
  let mel := fftshift mel
  let u ← uAxis o.umax o.m1
  let m1 := o.m1.toNat
  let waf ← (Mat.zeros o.nv (2 * m1)).forCols (2 * m1) (fun n _ => wafRow o.kind o.nv o.m1 q u S mel n)
  .ok (geo, tffrOf waf geo m1)

/-- A spline routine: nodes, values at the nodes, points where it is evaluated. -/
abbrev Spline := Vec ℝ → Vec ℝ → Vec ℝ → Py (Vec ℝ)

/-- `M[r, :] = v` for a real matrix. -/
def setRow (M : Mat ℝ) (r : ℕ) (v : Vec ℝ) : Py (Mat ℝ) :=
  if M.rows ≤ r then .error .indexError
  else if v.len = M.cols then .ok ⟨M.rows, M.cols, fun i j => if i = r then v.get j else M.get i j⟩
  else if v.len = 1 then .ok ⟨M.rows, M.cols, fun i j => if i = r then v.get 0 else M.get i j⟩
  else .error .valueError

/-- `tftb/processing/affine.py` 121-136, 312-328: interpolation of the rows of `tffr`; Unterberger's instants are one sample late. -/
noncomputable def interpolate (spline : Spline) (o : Disp) (geo : Vec ℝ) (M : Mat ℝ) : Py (Mat ℝ) := do
  let ts2 : ℝ := ((o.x.len : ℝ) - 1) / 2
  let late : ℝ := match o.kind with
    | .unterberger _ => 1
    | _ => 0
  let last ← geo.item ((o.nv : ℤ) - 1)
  let gamma := linspace (-last * ts2) (last * ts2) (2 * o.m1.toNat)
  (List.range o.nv).foldlM (fun (R : Mat ℝ) (i : ℕ) => do
    let g ← geo.item i
    let ind := Vec.positions gamma.len (fun j => -g * ts2 ≤ gamma.get j ∧ gamma.get j ≤ g * ts2)
    let xs : Vec ℝ := Vec.ofEntries (ind.map gamma.get)
    let ys : Vec ℝ := Vec.ofEntries (ind.map (fun j => M.get i j))
    let xi := o.ts.map (fun t : ℤ => ((t : ℝ) - ts2 - late) * g)
    let v ← spline xs ys xi
    setRow R i v) (Mat.zeros o.nv o.ts.len)

/-- `tftb/processing/affine.py` 284-340, 364-398, 424-470, `run` of the three classes: the returned matrix, instants and frequencies. -/
noncomputable def run (spline : Spline) (o : Disp) : Py (Mat ℝ × Vec ℤ × Vec ℝ) := do
  let (geo, M) ← tffr o
  let R ← interpolate spline o geo M
  let R ← Aff.normaliseTf R (o.x.map Complex.re) o.ts geo o.fmin o.fmax o.nv
  .ok (R, o.ts, geo)

end Tftb.AffDist
