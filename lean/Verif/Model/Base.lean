import Verif.Py.Basic

/-! # Model of `tftb/processing/base.py` (representation objects)

Only the numerical state of the objects is modelled here; what `_plot_tfr` … `plot` (lines 73-229) draw is in `Verif/Model/Plot.lean`. -/

namespace Tftb

/-- The stored representation `self.tfr` together with its dtype: a complex array until a `run` or a `plot`
replaces it by a real one (models the attribute `tfr`, `tftb/processing/base.py` 50). -/
inductive Store
  | cplx (M : Mat ℂ)
  | real (M : Mat ℝ)

namespace Store

/-- Numerical value of the stored array, whatever its dtype (models reading `self.tfr`,
`tftb/processing/base.py` 50). -/
def asC : Store → Mat ℂ
  | cplx M => M
  | real M => M.map (fun a : ℝ => (a : ℂ))

/-- `for icol in range(T): self.tfr[indices, icol] = …`, the loops of
`tftb/processing/linear.py` 67-73 and `tftb/processing/cohen.py` 30-37, 52-58, 85-89, 99-105, 136-142, 158-167, 196-210.
Storing complex values into an array of real dtype keeps their real parts (NumPy `ComplexWarning`). -/
noncomputable def forCols (S : Store) (T : ℕ) (body : ℕ → Vec ℂ → Py (Vec ℂ)) : Py Store :=
  match S with
  | cplx M => do .ok (.cplx (← M.forCols T body))
  | real M => do
    let R ← (M.map (fun a : ℝ => (a : ℂ))).forCols T
      (fun c v => do .ok ((← body c v).map (fun z => ((z.re : ℝ) : ℂ))))
    .ok (.real (R.map Complex.re))

/-- `np.abs(self.tfr)` (`tftb/processing/cohen.py` 183). -/
noncomputable def modulus (S : Store) : Mat ℝ := S.asC.map (fun z => ‖z‖)

/-- `np.abs(self.tfr) ** 2` (`tftb/processing/cohen.py` 64, 113, 181, `tftb/processing/linear.py` 98). -/
noncomputable def modulusSq (S : Store) : Mat ℝ := S.asC.map (fun z => ‖z‖ ^ 2)

/-- The stored values, for an array known to be real (`tftb/processing/base.py` 73-222 draws `self.tfr`). -/
noncomputable def values (S : Store) : Mat ℝ := S.asC.map Complex.re

end Store

/-- A representation object (`tftb/processing/base.py` 18-50).  The type `τ` of the timestamps is a parameter because
several classes never look at their values. -/
structure TFR (τ : Type) where
  signal : Vec ℂ
  ts : Vec τ
  nf : ℕ
  fwindow : Vec ℂ
  freqs : Vec ℝ
  tfr : Store

/-- `tftb/processing/base.py` 60-71, `_make_window`: Hamming window of odd length `n_fbins // 4` (plus 1 if that is even). -/
noncomputable def makeWindow (nf : ℕ) : Vec ℂ :=
  let h := nf / 4
  let h := h + (1 - h % 2)
  (hamming h).map (fun a : ℝ => (a : ℂ))

/-- `tftb/processing/base.py` 43-49: the frequency axis. -/
noncomputable def baseFreqs (nf : ℕ) : Vec ℝ :=
  let freqs :=
    if nf % 2 = 0 then (arangeF 0 ((nf : ℝ) / 2)).append (arangeF (-(nf : ℝ) / 2) 0)
    else (arangeF 0 (((nf : ℝ) - 1) / 2)).append (arangeF (-((nf : ℝ) - 1) / 2) 0)
  freqs.map (fun k => k / (nf : ℝ))

namespace TFR

/-- `tftb/processing/base.py` 22-50, `__init__` of a (already flattened) signal with explicit timestamps and number of
bins; `fwindow = None` uses the class's window `mkw`. -/
noncomputable def init {τ : Type} (mkw : ℕ → Vec ℂ) (signal : Vec ℂ) (ts : Vec τ) (nf : ℕ)
    (fwindow : Option (Vec ℂ)) : TFR τ where
  signal := signal
  ts := ts
  nf := nf
  fwindow := fwindow.getD (mkw nf)
  freqs := baseFreqs nf
  tfr := .cplx (Mat.zeros nf ts.len)

/-- `tftb/processing/base.py` 34-39: default timestamps `np.arange(len(signal))` and default number of bins `len(signal)`. -/
noncomputable def initDefault (mkw : ℕ → Vec ℂ) (signal : Vec ℂ) : TFR ℤ :=
  init mkw signal (arange 0 signal.len) signal.len none

end TFR

end Tftb
