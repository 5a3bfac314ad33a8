import Verif.Model.Base
import Verif.Model.TimeFreq
import Verif.Model.Affine

/-! # Two-dimensional arguments of `tftb/processing/time_domain.py`, `freq_domain.py` and `base.py`

Arrays of three or more dimensions are not modelled. -/

namespace Tftb.TF

open Tftb Utils

/-- `tftb/processing/freq_domain.py` 23-27, 65-69, 72-76, 106-110: a two-dimensional array is flattened when one of its sides is 1 and
refused otherwise. -/
def flatten {α : Type} (x : Arr12 α) : Py (Vec α) :=
  match x with
  | .one v => .ok v
  | .two M => if M.rows = 1 ∨ M.cols = 1 then .ok (Aff.ravel x) else .error .typeError

/-- `tftb/processing/freq_domain.py` 4-36, `locfreq` of an array of one or two dimensions. -/
noncomputable def locfreqAny (signal : Arr12 ℂ) : Py (ℝ × ℝ) := do
  let s ← flatten signal
  locfreq s

/-- `tftb/processing/freq_domain.py` 39-81, `inst_freq` of arrays of one or two dimensions. -/
noncomputable def instFreqAny (x : Arr12 ℂ) (t : Option (Arr12 ℤ)) : Py (Vec ℝ × Vec ℤ) := do
  let x ← flatten x
  match t with
  | none => instFreq x none
  | some t => do
    let t ← flatten t
    instFreq x (some t)

/-- `tftb/processing/freq_domain.py` 84-126, `group_delay` of an array of one or two dimensions. -/
noncomputable def groupDelayAny (x : Arr12 ℂ) (fnorm : Option (Vec ℝ)) : Py (Vec ℝ) := do
  let x ← flatten x
  match fnorm with
  | none => groupDelay x
  | some f => groupDelayAt x f

/-- Broadcasting of a one-dimensional array against the last axis of a two-dimensional one (`tftb/processing/time_domain.py` 29-30). -/
def bcastRow {α β γ : Type} (f : α → β → γ) (t : Vec α) (M : Mat β) : Py (Mat γ) :=
  if t.len = M.cols then .ok ⟨M.rows, M.cols, fun i j => f (t.get j) (M.get i j)⟩
  else if M.cols = 1 then .ok ⟨M.rows, t.len, fun i j => f (t.get j) (M.get i 0)⟩
  else if t.len = 1 then .ok ⟨M.rows, M.cols, fun i j => f (t.get 0) (M.get i j)⟩
  else .error .valueError

/-- `np.mean` of a two-dimensional array (`tftb/processing/time_domain.py` 27, 29, 30). -/
noncomputable def matMean (M : Mat ℝ) : Py ℝ := (Aff.ravel (.two M)).mean

/-- `tftb/processing/time_domain.py` 4-31, `loctime` of an array of one or two dimensions: the test `sig.ndim > 2` lets a two-dimensional
array through.  A mean of zero (or of nothing) makes the array NaN, on which the broadcast of line 29 still raises for unfit sides, hence its
place here before the test. -/
noncomputable def loctimeAny (sig : Arr12 ℂ) : Py (ℝ × ℝ) :=
  match sig with
  | .one v => loctime v
  | .two M => do
    let sig2 := M.map (fun z => ‖z ^ 2‖)
    let t := (arange 0 M.rows).map (fun t : ℤ => (t : ℝ))
    let _ ← bcastRow (fun t a => t * a) t sig2
    let m ← matMean sig2
    if m = 0 then .error .nonFinite
    else
      let sig2 := sig2.map (fun a => a / m)
      let w ← bcastRow (fun t a => t * a) t sig2
      let tm ← matMean w
      let v ← bcastRow (fun t a => (t - tm) ^ 2 * a) t sig2
      let mv ← matMean v
      .ok (tm, 2 * Real.sqrt (Real.pi * mv))

end Tftb.TF

namespace Tftb.TFR

/-- `tftb/processing/base.py` 22-50, `__init__` of an array of one or two dimensions, which is flattened whatever its sides (lines 31-32). -/
noncomputable def initAny {τ : Type} (mkw : ℕ → Vec ℂ) (signal : Utils.Arr12 ℂ) (ts : Vec τ) (nf : ℕ)
    (fwindow : Option (Vec ℂ)) : TFR τ := init mkw (Aff.ravel signal) ts nf fwindow

/-- `tftb/processing/base.py` 31-39: the defaults of an array of one or two dimensions. -/
noncomputable def initDefaultAny (mkw : ℕ → Vec ℂ) (signal : Utils.Arr12 ℂ) : TFR ℤ := initDefault mkw (Aff.ravel signal)

end Tftb.TFR
