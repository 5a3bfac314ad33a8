import Verif.Model.FM

/-! # Model of `tftb/generators/analytic_signals.py`

The outcome of `np.random.rand(m)` is a parameter `draw : ℕ → ℝ`, whose first `m` values are used. -/

namespace Tftb.Analytic

open Tftb FM

/-- `int(np.ceil(n_points / n_comp))` followed by `np.random.rand(m)` (`tftb/generators/analytic_signals.py` 29-30, 59-60, 86-88, 140-141):
the values drawn.  A zero divisor and a negative number of values raise. -/
noncomputable def draws (n nComp : ℤ) (draw : ℕ → ℝ) : Py (Vec ℝ) :=
  if nComp = 0 then .error .zeroDivisionError
  else
    let m := ⌈(n : ℝ) / (nComp : ℝ)⌉
    if m < 0 then .error .valueError else .ok ⟨m.toNat, draw⟩

/-- `np.repeat(v, k)`: an array of `k` times as many entries, so that a negative count raises unless `v` is empty. -/
def repeatPy (v : Vec ℝ) (k : ℤ) : Py (Vec ℝ) := if (v.len : ℤ) * k < 0 then .error .valueError else .ok (v.repeatEach k.toNat)

/-- `tftb/generators/analytic_signals.py` 7-34, `anaask`: signal and amplitude law. -/
noncomputable def anaask (n : ℤ) (nComp : Option ℤ) (f0 : ℝ) (draw : ℕ → ℝ) : Py (Vec ℂ × Vec ℝ) := do
  let nComp := nComp.getD (roundEven ((n : ℝ) / 2.0))
  if f0 < 0 ∨ f0 > 0.5 then .error .typeError
  else do
    let jumps ← draws n nComp draw
    let am ← repeatPy jumps nComp
    let am := am.slice 0 n
    let (fm, _) ← fmconst n f0 (some 1)
    let y ← Vec.bcast (fun (a : ℝ) (z : ℂ) => (a : ℂ) * z) am fm
    .ok (y, am)

/-- `tftb/generators/analytic_signals.py` 37-63, `anabpsk`. -/
noncomputable def anabpsk (n : ℤ) (nComp : Option ℤ) (f0 : ℝ) (draw : ℕ → ℝ) : Py (Vec ℂ × Vec ℝ) := do
  let nComp := nComp.getD (roundEven ((n : ℝ) / 5.0))
  if f0 < 0 ∨ f0 > 0.5 then .error .typeError
  else do
    let u ← draws n nComp draw
    let jumps := u.map (fun v => 2.0 * (roundEven v : ℝ) - 1)
    let am ← repeatPy jumps nComp
    let am := am.slice 0 n
    let (fm, _) ← fmconst n f0 (some 1)
    let y ← Vec.bcast (fun (a : ℝ) (z : ℂ) => (a : ℂ) * z) am fm
    .ok (y, am)

/-- `tftb/generators/analytic_signals.py` 66-91, `anafsk`: signal and frequency law.  `Nbf` is an integer. -/
noncomputable def anafsk (n : ℤ) (nComp : Option ℤ) (Nbf : ℤ) (draw : ℕ → ℝ) : Py (Vec ℂ × Vec ℝ) := do
  let nComp := nComp.getD (roundEven ((n : ℝ) / 5.0))
  let u ← draws n nComp draw
  -- `(Nbf - 1) / (2 * Nbf)`
  if Nbf = 0 then .error .zeroDivisionError
  else do
    let freqs := u.map (fun v => 0.25 + 0.25 * ((⌊(Nbf : ℝ) * v⌋ : ℝ) / (Nbf : ℝ) - ((Nbf : ℝ) - 1) / (2 * (Nbf : ℝ))))
    let iflaw ← repeatPy freqs nComp
    let y := iflaw.cumsum.map (fun s : ℝ => Complex.exp (Complex.I * 2 * Real.pi * s))
    .ok (y, iflaw)

/-- `tftb/generators/analytic_signals.py` 94-114, `anapulse`. -/
noncomputable def anapulse (n : ℤ) (ti : Option ℝ) : Py (Vec ℂ) :=
  let ti := ti.getD (roundEven ((n : ℝ) / 2))
  let x := (arange 0 n).map (fun t : ℤ => (if (t : ℝ) = ti then 1 else 0 : ℝ))
  hilbert x

/-- `tftb/generators/analytic_signals.py` 117-147, `anaqpsk`: signal and phase law. -/
noncomputable def anaqpsk (n : ℤ) (nComp : Option ℤ) (f0 : ℝ) (draw : ℕ → ℝ) : Py (Vec ℂ × Vec ℝ) := do
  let nComp := nComp.getD (roundEven ((n : ℝ) / 5.0))
  if f0 < 0 ∨ f0 > 0.5 then .error .typeError
  else do
    let u ← draws n nComp draw
    let jumps := u.map (fun v => (⌊4 * v⌋ : ℝ))
    let jumps := jumps.map (fun j => if j = 4 then 3 else j)
    let r ← repeatPy jumps nComp
    let pm0 := r.map (fun j => Real.pi * j / 2)
    let tm := (arange 0 n).map (fun t : ℤ => (t : ℝ) - 1)
    let pm ← Vec.bcast (fun t p : ℝ => 2 * Real.pi * f0 * t + p) tm pm0
    let y := pm.map (fun p : ℝ => Complex.exp (Complex.I * p))
    .ok (y, pm0)

/-- `np.fft.ifft(y, n)` of an array of at most `n` entries: padded with zeros; `n < 1` raises. -/
noncomputable def ifftPad (y : Vec ℂ) (n : ℤ) : Py (Vec ℂ) :=
  if n < 1 then .error .valueError else ifft ⟨n.toNat, fun i => if i < y.len then y.get i else 0⟩

/-- `tftb/generators/analytic_signals.py` 150-184, `anasing`.  Simplified: the quotient of line 172 is exact (in floating point it may come
out just below an integer). `np.sign(m) * np.abs(m)` is `m`. -/
noncomputable def anasing (n : ℤ) (t0 : Option ℝ) (h : ℝ) : Py (Vec ℂ) := do
  let t0 := t0.getD ((n : ℝ) / 2.0)
  if h ≤ 0 then
    if n = 0 then .error .zeroDivisionError
    else do
      let start := 1.0 / (n : ℝ)
      let stop := 0.5 - 1.0 / (n : ℝ)
      let N := truncInt (stop / start)
      -- `np.linspace` with a negative number of points, `np.zeros` with a negative size
      if N < 0 ∨ truncInt ((n : ℝ) / 2.0) < 0 then .error .valueError
      else do
        let f := linspace start stop N.toNat
        let len := (truncInt ((n : ℝ) / 2.0)).toNat
        let vals := f.map (fun v : ℝ => ((v ^ (-1 - h) : ℝ) : ℂ) * Complex.exp (-Complex.I * 2 * Real.pi * v * (t0 - 1)))
        -- `y[1:len] = vals`
        if vals.len ≠ len - 1 ∧ vals.len ≠ 1 then .error .valueError
        else do
          let y : Vec ℂ := ⟨len, fun i => if i = 0 then 0 else vals.get (if vals.len = 1 then 0 else i - 1)⟩
          let z ← ifftPad y n
          let x := z.map Complex.re
          let mx ← x.amax
          if mx = 0 then .error .nonFinite
          else do
            let x := x.map (· / mx)
            let mn ← x.amin
            let x := x.map (· - mn)
            hilbert x
  else do
    let x := (arange 0 n).map (fun t : ℤ => |(t : ℝ) - t0| ^ h)
    let mx ← x.amax
    hilbert (x.map (fun v => mx - v))

/-- `tftb/generators/analytic_signals.py` 187-207, `anastep`. -/
noncomputable def anastep (n : ℤ) (ti : Option ℝ) : Py (Vec ℂ) :=
  let ti := ti.getD (roundEven ((n : ℝ) / 2))
  let x := (arange 0 n).map (fun t : ℤ => (if (t : ℝ) > ti then 1 else 0 : ℝ))
  hilbert x

end Tftb.Analytic
