import Verif.Model.Affine

/-! # Model of `wide_band` in `tftb/processing/ambiguity.py`

`np.tile` repeats one row `nx` times, so the tiled arrays `S` and `mellinS` are kept as one vector.  A given band edge is a Python float, a computed one a NumPy
float (except the constant 0.01 of line 46): the former raise `ZeroDivisionError` where the latter give NaN or an infinity. -/

namespace Tftb.WideBand

open Tftb

/-- `tftb/processing/ambiguity.py` 36-48: the default band, from the samples `z` of the analytic signal, and whether one of the edges is a NumPy float
(`max([0.01, y])` answers its first argument unless the second is larger). -/
noncomputable def band (z : Vec ℂ) (m : ℤ) (fmin fmax : Option ℝ) : Py (ℝ × ℝ × Bool) :=
  match fmin, fmax with
  | some a, some b => .ok (a, b, false)
  | _, _ => do
    let sp := ((fftshift z).slice 0 m).map (fun v => ‖v‖ ^ 2)
    let maxsp ← sp.amax
    let f := (linspace 0 0.5 (m + 1).toNat).slice 0 m
    let idx := Vec.positions sp.len (fun i => maxsp / 100 < sp.get i)
    let indmin ← Aff.listMin idx
    let indmax ← Aff.listMax idx
    let lo ← match fmin with
      | some a => (.ok a : Py ℝ)
      | none => do
        let v ← f.item indmin
        .ok (max 0.01 (0.05 * (truncInt (v / 0.05) : ℝ)))
    let hi ← match fmax with
      | some b => (.ok b : Py ℝ)
      | none => do
        let v ← f.item indmax
        .ok (0.05 * (⌈v / 0.05⌉ : ℝ))
    .ok (lo, hi, fmax.isNone || (fmin.isNone && decide (0.01 < lo)))

/-- `tftb/processing/ambiguity.py` 49-54: the number of voices for `T + 1` samples; `np` says that one of the edges is a NumPy float.  Where the logarithm or
its factor are not finite `nmin` is NaN, and `nextpow2` raises `ValueError`. -/
noncomputable def voiceCount (np : Bool) (T : ℤ) (fmin fmax : ℝ) (N : Option ℕ) : Py ℕ :=
  let B := fmax - fmin
  let R := B / ((fmin + fmax) / 2)
  if np = false ∧ (fmin + fmax = 0 ∨ R = 0 ∨ 1 - R / 2 = 0) then .error .zeroDivisionError
  else match N with
    | some N => .ok N
    | none =>
      if fmin + fmax = 0 ∨ R = 0 ∨ 1 - R / 2 = 0 ∨ (1 + R / 2) / (1 - R / 2) ≤ 0 then .error .valueError
      else do
        let nq := ⌈(B * T * (1 + 2 / R) * Real.log ((1 + R / 2) / (1 - R / 2))) / 2⌉
        let nmin := nq - nq % 2
        let p ← Utils.nextpow2 nmin
        .ok (2 ^ p.toNat)

/-- `tftb/processing/ambiguity.py` 72-73 and 78: `np.fft.fftshift(np.fft.ifft(v * coef))` with `coef = exp(p / 2 * log(q))`. -/
noncomputable def mellin (q : ℝ) (v : Vec ℂ) : Py (Vec ℂ) := do
  let coef : Vec ℂ := ⟨v.len, fun p => (Real.exp ((p : ℝ) / 2 * Real.log q) : ℂ)⟩
  let w ← Vec.bcast (fun a b => a * b) v coef
  let y ← ifft w
  .ok (fftshift y)

/-- `np.c_[A, np.zeros((nx, N))]`, one row. -/
def pad (v : Vec ℂ) (N : ℕ) : Vec ℂ := v.append ⟨N, fun _ => 0⟩

/-- `np.fft.ifft(M, N, axis=0)` for `N` not larger than the number of rows: the other rows are dropped. -/
noncomputable def ifftRows (M : Mat ℂ) (N : ℕ) : Py (Mat ℂ) :=
  if N = 0 then .error .valueError
  else .ok ⟨N, M.cols, fun r c => (∑ k ∈ Finset.range N, M.get k c * rootPow N (-((k : ℤ) * (r : ℤ)))) / (N : ℂ)⟩

/-- `M[a:b, :]`. -/
def rowSlice (M : Mat ℂ) (a b : ℤ) : Mat ℂ :=
  let i := Vec.clampIdx M.rows a
  ⟨Vec.clampIdx M.rows b - i, M.cols, fun r c => M.get (i + r) c⟩

/-- `np.r_[A, B]` of two arrays with the same columns. -/
def stack (A B : Mat ℂ) : Mat ℂ := ⟨A.rows + B.rows, A.cols, fun r c => if r < A.rows then A.get r c else B.get (r - A.rows) c⟩

/-- `tftb/processing/ambiguity.py` 56-87: the transform before normalisation, for the analytic signal `z` centred at `m`. -/
noncomputable def transform (z : Vec ℂ) (m : ℤ) (fmin fmax : ℝ) (N : ℕ) : Py (Mat ℂ) := do
  let nx := z.len
  let t := (arange 0 nx).map (fun j => j - m)
  if N = 1 then .error .zeroDivisionError
  else do
    let q : ℝ := (fmax / fmin) ^ (1 / ((N : ℝ) - 1))
    let geo : ℕ → ℝ := fun k => fmin * Real.exp (((k : ℝ) + 1 - 1) * Real.log q)
    let tfm : ℕ → ℕ → ℂ := fun i k => Complex.exp (-2 * Complex.I * ((t.get i : ℂ) * (geo k : ℂ)) * Real.pi)
    let S : Vec ℂ := ⟨N, fun k => ∑ i ∈ Finset.range nx, z.get i * tfm i k⟩
    let Sb : ℕ → Vec ℂ := fun i => ⟨N, fun k => S.get k * tfm i k⟩
    let mS ← mellin q (pad S N)
    let mSb ← (Mat.zeros (2 * N) nx).forCols nx (fun i _ => mellin q (pad (Sb i) N))
    let P : Mat ℂ := ⟨2 * N, nx, fun k i => mS.get k * (starRingEnd ℂ) (mSb.get k i)⟩
    let waf ← ifftRows P N
    let no2 : ℤ := ((N : ℤ) + (N : ℤ) % 2) / 2
    .ok (stack (rowSlice waf no2 (N + 1)) (rowSlice waf 0 no2))

/-- `tftb/processing/ambiguity.py` 58, 82: what band edges without a positive ratio do.  `fmax = 0`, a Python float, is raised to the power -1 (no voice) or
divides `fmin`; otherwise the frequencies or the log-dilations are NaN, if there are any. -/
noncomputable def ratioCheck (np : Bool) (fmin fmax : ℝ) (N : ℕ) : Py Unit :=
  if np = false ∧ fmax = 0 then .error .zeroDivisionError
  else if 2 ≤ N ∧ (fmin = 0 ∨ fmax / fmin ≤ 0) then .error .nonFinite
  else .ok ()

/-- `tftb/processing/ambiguity.py` 23-97, `wide_band` of a one-dimensional signal.  The second Hilbert transform is that of the real part of
the first. -/
noncomputable def wideBand (x : Vec ℂ) (fmin fmax : Option ℝ) (N : Option ℕ) : Py (Mat ℂ × Vec ℤ × Vec ℝ) := do
  let z ← hilbert (x.map Complex.re)
  let nx := x.len
  let m := roundEven ((nx : ℝ) / 2)
  let (fmin, fmax, np) ← band z m fmin fmax
  let N ← voiceCount np ((nx : ℤ) - 1) fmin fmax N
  let _ ← ratioCheck np fmin fmax N
  let waf ← transform z m fmin fmax N
  let scale ← Aff.logspace (fmin / fmax) (fmax / fmin) N
  let theta := scale.map Real.log
  let z2 ← hilbert (z.map Complex.re)
  let SP ← fft z2
  let indmin := 1 + roundEven (fmin * ((nx : ℝ) - 2))
  let indmax := 1 + roundEven (fmax * ((nx : ℝ) - 2))
  let spAna := SP.slice (indmin - 1) indmax
  let no2 : ℤ := ((N : ℤ) + (N : ℤ) % 2) / 2
  let ref ← waf.item (no2 - 1) (m - 1)
  if ref = 0 then .error .nonFinite
  else .ok (waf.map (fun v => v * ((spAna.norm ^ 2 : ℝ) / ref / N)), (arange 0 nx).map (fun j => j - m), theta)

/-- `tftb/processing/ambiguity.py` 24-27: an argument with a dimension of one is flattened, other two-dimensional ones are refused. -/
noncomputable def wideBandAny (signal : Utils.Arr12 ℂ) (fmin fmax : Option ℝ) (N : Option ℕ) : Py (Mat ℂ × Vec ℤ × Vec ℝ) :=
  match signal with
  | .one v => wideBand v fmin fmax N
  | .two M => if M.rows = 1 ∨ M.cols = 1 then wideBand (Aff.ravel signal) fmin fmax N else .error .valueError

end Tftb.WideBand
