import Verif.Py.Basic

/-! # Model of `tftb/processing/utils.py` -/

namespace Tftb.ProcUtils

open Tftb

/-- `tftb/processing/utils.py` 14-15, `get_spectrum`. -/
noncomputable def getSpectrum (signal : Vec ℂ) : Py (Vec ℝ) := do
  let s ← fft signal
  .ok (fftshift (s.map (fun z => ‖z‖ ^ 2)))

/-- `tftb/processing/utils.py` 18-47, `integrate_2d` of a real matrix. -/
noncomputable def integrate2d (mat : Mat ℝ) (x y : Option (Vec ℝ)) : Py ℝ := do
  let m := mat.rows
  let n := mat.cols
  let x := x.getD ((arange 0 n).map (fun j : ℤ => (j : ℝ)))
  let y := y.getD ((arange 0 m).map (fun j : ℤ => (j : ℝ)))
  -- `mat[:, 0]` and `mat[:, n - 1]` exist as soon as there is a column
  if n = 0 then .error .indexError
  else do
    let x1 ← x.item 1
    let x0 ← x.item 0
    let v : Vec ℝ := ⟨m, fun j =>
      ((∑ i ∈ Finset.range n, mat.get j i) - mat.get j 0 / 2.0 - mat.get j (n - 1) / 2.0) * (x1 - x0)⟩
    let dmat ← Vec.bcast (· + ·) (v.slice 0 ((m : ℤ) - 1)) (v.slice 1 v.len)
    let dy ← Vec.bcast (· - ·) (y.slice 1 y.len) (y.slice 0 ((m : ℤ) - 1))
    let p ← Vec.bcast (· * ·) dmat (dy.map (fun a => a / 2.0))
    .ok p.sum

/-- `tftb/processing/utils.py` 50-77, `derive_window` of a real window.  For one sample the slope is `0 / 0`. -/
noncomputable def deriveWindow (window : Vec ℝ) : Py (Vec ℝ) := do
  let lh : ℝ := ((window.len : ℝ) - 1) / 2.0
  let w0 ← window.item 0
  let wl ← window.item (-1)
  let stepHeight := (w0 + wl) / 2.0
  if window.len = 1 then .error .nonFinite
  else do
    let ramp := (w0 - wl) / ((window.len : ℝ) - 1)
    let base ← Vec.bcast (fun w b => w - stepHeight - ramp * b) window (arangeF (-lh) (lh + 1))
    let base := ((⟨1, fun _ => 0⟩ : Vec ℝ).append base).append ⟨1, fun _ => 0⟩
    let dw ← Vec.bcast (· - ·) (base.slice 2 ((window.len : ℤ) + 2)) (base.slice 0 window.len)
    let dw := dw.map (fun a => a / 2.0 + ramp)
    let d0 ← dw.item 0
    let dw ← dw.setItem 0 (d0 + stepHeight)
    let dl ← dw.item (-1)
    dw.setItem (-1) (dl - stepHeight)

end Tftb.ProcUtils
