import Verif.Props.AffineBand
import Verif.Props.AnalyticPulse
import Verif.Props.Bins
import Verif.Props.Bounds
import Verif.Props.Cohen
import Verif.Props.Conj
import Verif.Props.Covariance
import Verif.Props.Dilation
import Verif.Props.FM
import Verif.Props.FMPower
import Verif.Props.Folding
import Verif.Props.Gabor
import Verif.Props.Gain
import Verif.Props.GainReal
import Verif.Props.GenAlgebra
import Verif.Props.Hopping
import Verif.Props.Hough
import Verif.Props.IdealPeak
import Verif.Props.Interference
import Verif.Props.Local
import Verif.Props.Morlet
import Verif.Props.Noise
import Verif.Props.Padding
import Verif.Props.PseudoNegative
import Verif.Props.Quadrature
import Verif.Props.ReassignedPwv
import Verif.Props.Reruns
import Verif.Props.Reversal
import Verif.Props.SameWvd
import Verif.Props.Shapes
import Verif.Props.Smoothing
import Verif.Props.Spreads
import Verif.Props.Superposition
import Verif.Props.Wavelets
import Verif.Props.WideBand
import Verif.Props.WvdInverse
import Verif.Props.WvdMoments
import Verif.Props.WvdNegative
import Verif.Props.Instances1

/-! # Concrete instances

One instance per theorem for theorems that have no example of their own: the arguments are concrete signals, windows and numbers, and the hypotheses on them are discharged by the
tactic `inst`.  What a run returned (`M`, with the hypothesis that the run returned it) stays a variable; that these runs return is the first example below.  The statement of each instance is that of the theorem named, at these arguments. -/

namespace Tftb

section

open Finset Spec ProcUtils Post

example :=
  C53_column_sum (⟨4, 4, fun _ _ => 1⟩ : Mat ℝ) 1 4 (by inst) (by inst) (by inst) (by inst)

example :=
  C53_line (⟨4, 4, fun _ _ => 1⟩ : Mat ℝ) 1 4 (by inst) (by inst) (by inst) (by inst) (by inst)

example :=
  C53_opposite (⟨4, 4, fun _ _ => 1⟩ : Mat ℝ) 1 1 (by inst) (by inst) (by inst) (by inst)

example :=
  C53_refuses (⟨4, 4, fun _ _ => 1⟩ : Mat ℝ) 1 4

example :=
  C53_rho_axis (⟨4, 4, fun _ _ => 1⟩ : Mat ℝ) 1 4 (by inst) (by inst) (by inst) (by inst)

example :=
  C53_scale (⟨4, 4, fun _ _ => 1⟩ : Mat ℝ) 1 4 (1/4) (by inst) (by inst) (by inst) (by inst) (by inst)

example :=
  C53_votes (⟨4, 4, fun _ _ => 1⟩ : Mat ℝ) 1 4 (by inst) (by inst) (by inst) (by inst)

end

end Tftb

namespace Tftb.Props

section

open Finset Spec Aff

example :=
  C55_affine_cross (⟨4, 4, fun _ _ => 1⟩ : Mat ℂ) (⟨4, fun _ => 1⟩ : Vec ℂ)

end

end Tftb.Props

namespace Tftb.Props

section

open Finset Spec Misc ComplexConjugate

example :=
  C55_gdpower_one 4 (1/4)

end

end Tftb.Props

namespace Tftb.Props

section

open Finset Spec WideBand

example :=
  C57_real_part (⟨4, fun _ => 1⟩ : Vec ℂ) (⟨4, fun _ => 1⟩ : Vec ℂ) (by inst) (by inst) none none none

example :=
  C57_two_dim (⟨4, 4, fun _ _ => 1⟩ : Mat ℂ) none none none

end

end Tftb.Props

namespace Tftb.Props

section

open Finset Spec Aff

example :=
  C58_constant (⟨4, fun _ => 1⟩ : Vec ℂ) (by inst) 1 (by inst) (by inst)

example :=
  C58_given (⟨4, fun _ => 1⟩ : Vec ℂ) (by inst) (1/4) (1/4)

example :=
  C58_real_part (⟨4, fun _ => 1⟩ : Vec ℂ) (⟨4, fun _ => 1⟩ : Vec ℂ) (arange 0 (4 : ℕ)) none none (by inst)

end

end Tftb.Props

namespace Tftb.Props

section

open Finset Spec Utils Gabor ComplexConjugate

example :=
  C59_even_window (⟨4, fun _ => 1⟩ : Vec ℂ) 4 4 (⟨4, fun i => (i : ℝ) + 1⟩ : Vec ℝ) (by inst) (by inst) (by inst)

end

end Tftb.Props

namespace Tftb.Props

section

open Tftb Tftb.FM Tftb.Spec

example :=
  C60_fmconst_phase 4 1 (1/4) (by inst) (by inst)

example :=
  C60_fmlin_phase 4 1 (1/4) (1/4) (by inst) (by inst) (by inst) (by inst) (by inst)

example :=
  C60_fmpar_phase_wrong 4 (1/4) (by inst) (by inst)

end

end Tftb.Props

namespace Tftb.Props

section

open Tftb Tftb.Spec Tftb.Linear Tftb.Cohen Finset ComplexConjugate

example :=
  C61_window 4

end

end Tftb.Props

namespace Tftb.Props

section

open Finset Spec Noise Utils

example :=
  C65_short (1/4) (1/4) (1/4) (1/4) none (1/4) (fun _ => (1 : ℝ))

example :=
  C65_silent 4 (1/4) (1/4) (1/4) (1/4) (1/4) (1/4) (by inst)

end

end Tftb.Props

namespace Tftb.Props

section

open Tftb AffDist

example :=
  C66_aspwv (1/4)

example :=
  C66_flandrin (1/4)

example :=
  C67_ratio 3 (by inst)

end

end Tftb.Props

namespace Tftb

section

open Finset Spec ProcUtils Reassigned ComplexConjugate

example :=
  C71_defaults (⟨4, fun _ => 1⟩ : Vec ℂ) none none none

example :=
  C71_refused (⟨4, fun _ => 1⟩ : Vec ℂ) none none (⟨4, fun i => (i : ℝ) + 1⟩ : Vec ℝ)

end

end Tftb

namespace Tftb.Props

section

open Tftb Tftb.Spec Tftb.Linear Tftb.Cohen Finset ComplexConjugate

example (M : Mat ℝ) (M' : Mat ℝ) (hM : WvdReturns (⟨4, fun _ => 1⟩ : Vec ℂ) (arange 0 (4 : ℕ)) 4 M) (hM' : WvdReturns (⟨4, fun _ => 1⟩ : Vec ℂ) (arange 0 (4 : ℕ)) 4 M') :=
  C73_moyal (⟨4, fun _ => 1⟩ : Vec ℂ) (⟨4, fun _ => 1⟩ : Vec ℂ) (arange 0 (4 : ℕ)) 4 (by inst) (by inst) M M' hM hM'

example (M : Mat ℝ) (hM : WvdReturns (⟨4, fun _ => 1⟩ : Vec ℂ) (arange 0 (4 : ℕ)) 4 M) :=
  C73_products (⟨4, fun _ => 1⟩ : Vec ℂ) (arange 0 (4 : ℕ)) 4 (by inst) M hM 1 1 (by inst) (by inst) (by inst)

end

end Tftb.Props

namespace Tftb.Props

section

open Tftb Tftb.Reassigned Tftb.Spec Finset ComplexConjugate

example :=
  C75_one_bin (⟨4, fun _ => 1⟩ : Vec ℂ) (by inst) (1/4) (by inst)

example :=
  C75_rows (⟨4, fun _ => 1⟩ : Vec ℂ) 4 (by inst) (1/4) 4

end

end Tftb.Props

namespace Tftb.Props

section

open Tftb Tftb.TF Tftb.Spec Utils Finset

example :=
  C76_column (⟨4, fun _ => 1⟩ : Vec ℂ) (arange 0 (4 : ℕ)) none

example :=
  C76_row (⟨4, fun _ => 1⟩ : Vec ℂ) none none

end

end Tftb.Props

namespace Tftb.Props

section

open Tftb Tftb.Spec Tftb.FM

example :=
  C80_coefficients 4 1 (1/4) (1/4) (1/4)

example :=
  C80_float_degree 4 1 (1/4) (1/4)

example :=
  C80_law 4 1 (1/4) (1/4)

end

end Tftb.Props

namespace Tftb.Props

section

open Tftb Tftb.Spec Tftb.Linear Tftb.Cohen Finset ComplexConjugate

example :=
  C83_pwvd (⟨4, fun _ => 1⟩ : Vec ℂ) (⟨4, fun _ => 1⟩ : Vec ℂ) (by inst) 2 2 (arange 0 (4 : ℕ)) 4 (⟨3, fun _ => 1⟩ : Vec ℂ) 1 (by inst) (by inst)

example :=
  C83_two_tones_pwvd 4 (1/4) (1/4) 2 2 (arange 0 (4 : ℕ)) 4 (⟨3, fun _ => 1⟩ : Vec ℂ) 1 (by inst) (by inst) (by inst)

example (X : Mat ℝ) (hX : WvdReturns (⟨4, fun _ => 1⟩ : Vec ℂ) (arange 0 (4 : ℕ)) 4 X) :=
  C83_wvd (⟨4, fun _ => 1⟩ : Vec ℂ) (⟨4, fun _ => 1⟩ : Vec ℂ) (by inst) 2 2 (arange 0 (4 : ℕ)) 4 (by inst) X hX

end

end Tftb.Props

namespace Tftb.Props

section

open Tftb Tftb.Spec Tftb.Linear Tftb.Cohen Tftb.TF Finset ComplexConjugate

example (M : Mat ℝ) (hM : WvdReturns (⟨4, fun _ => 1⟩ : Vec ℂ) (arange 0 (4 : ℕ)) 4 M) :=
  C84_inst_freq (⟨4, fun _ => 1⟩ : Vec ℂ) (arange 0 (4 : ℕ)) 4 (by inst) M hM

end

end Tftb.Props

namespace Tftb.Props

section

open Tftb Tftb.Spec Tftb.Linear Tftb.Cohen Finset ComplexConjugate

example :=
  C86_pwvd_modulation (⟨4, fun _ => 1⟩ : Vec ℂ) (arange 0 (4 : ℕ)) 4 (⟨3, fun _ => 1⟩ : Vec ℂ) 1 (by inst) (by inst) (by inst) 1

example :=
  C88_pwvd_alternates (⟨4, fun _ => 1⟩ : Vec ℂ) (arange 0 (4 : ℕ)) 4 (⟨3, fun _ => 1⟩ : Vec ℂ) 1 (by inst) (by inst) (by inst) (by inst) 0

example :=
  C91_wvd_second_run (⟨4, fun _ => 1⟩ : Vec ℂ) (arange 0 (4 : ℕ)) 4 (by inst) (by inst) (by inst)

example :=
  C92_pwvd (⟨4, fun _ => 1⟩ : Vec ℂ) (arange 0 (4 : ℕ)) 4 4 (⟨3, fun _ => 1⟩ : Vec ℂ) 1 (by inst) (by inst) (by inst)

example :=
  C92_wvd (⟨4, fun _ => 1⟩ : Vec ℂ) (arange 0 (4 : ℕ)) 4 4 (by inst) (by inst) (by inst) (by inst) (by inst)

example :=
  C93_loctime (⟨4, fun _ => 1⟩ : Vec ℂ) (⟨4, fun _ => 1⟩ : Vec ℂ) (by inst)

example :=
  C94_pwvd (⟨4, fun _ => 1⟩ : Vec ℂ) (arange 0 (4 : ℕ)) 4 (⟨3, fun _ => 1⟩ : Vec ℂ) 1 (by inst) (by inst) 1 (by inst)

example :=
  C94_pwvd_stable (⟨4, fun _ => 1⟩ : Vec ℂ) (⟨4, fun _ => 1⟩ : Vec ℂ) (by inst) (arange 0 (4 : ℕ)) 4 (⟨3, fun _ => 1⟩ : Vec ℂ) 1 (by inst) (by inst) 1 (by inst)

example :=
  C94_stft (⟨4, fun _ => 1⟩ : Vec ℂ) (arange 0 (4 : ℕ)) 4 1 (⟨3, fun _ => 1⟩ : Vec ℂ) (by inst) (by inst)

example :=
  C94_stft_stable (⟨4, fun _ => 1⟩ : Vec ℂ) (⟨4, fun _ => 1⟩ : Vec ℂ) (by inst) (arange 0 (4 : ℕ)) 4 1 (⟨3, fun _ => 1⟩ : Vec ℂ) (⟨3, fun _ => 1⟩ : Vec ℂ) (by inst) (by inst) (by inst)

example :=
  C94_wvd_stable (⟨4, fun _ => 1⟩ : Vec ℂ) (⟨4, fun _ => 1⟩ : Vec ℂ) (by inst) (arange 0 (4 : ℕ)) 4 (by inst) (by inst) (by inst)

example :=
  C95_mh_first (⟨4, fun _ => 1⟩ : Vec ℂ) (⟨4, fun _ => 1⟩ : Vec ℂ) (by inst) (by inst)

example :=
  C95_pwvd (⟨4, fun _ => 1⟩ : Vec ℂ) (⟨4, fun _ => 1⟩ : Vec ℂ) (arange 0 (4 : ℕ)) 4 (⟨3, fun _ => 1⟩ : Vec ℂ) 1 (by inst) (by inst)

example :=
  C95_stft (⟨4, fun _ => 1⟩ : Vec ℂ) (⟨4, fun _ => 1⟩ : Vec ℂ) (arange 0 (4 : ℕ)) 4 1 (⟨3, fun _ => 1⟩ : Vec ℂ) (by inst) (by inst)

end

end Tftb.Props

namespace Tftb.Props

section

open Tftb Tftb.Spec Tftb.TF Finset

example :=
  C96_no_uncertainty 4 1 1 (by inst) (by inst) (by inst)

end

end Tftb.Props

namespace Tftb.Props

section

open Tftb Tftb.Spec Tftb.Linear Tftb.Cohen Finset ComplexConjugate

example :=
  C97_locfreq (⟨4, fun _ => 1⟩ : Vec ℂ) (⟨4, fun _ => 1⟩ : Vec ℂ) (by inst)

example :=
  C97_stft_default (⟨4, fun _ => 1⟩ : Vec ℂ) (arange 0 (4 : ℕ)) 4 (by inst)

example :=
  C98_loctime (⟨4, fun _ => 1⟩ : Vec ℂ) 4

example :=
  C98_pwvd (⟨4, fun _ => 1⟩ : Vec ℂ) (arange 0 (4 : ℕ)) 4 (⟨3, fun _ => 1⟩ : Vec ℂ) 1 (by inst) (by inst) 4

example :=
  C98_stft (⟨4, fun _ => 1⟩ : Vec ℂ) (arange 0 (4 : ℕ)) 4 1 (⟨3, fun _ => 1⟩ : Vec ℂ) (by inst) (by inst) 4

end

end Tftb.Props

namespace Tftb.Props

section

open Tftb Tftb.Linear Tftb.Cohen ComplexConjugate

example :=
  C99_histories 2 (⟨4, fun _ => 1⟩ : Vec ℂ) (arange 0 (4 : ℕ)) 4 none 1

example :=
  C99_narrow_band 2 (⟨4, fun _ => 1⟩ : Vec ℂ) none none

example :=
  C99_spectrogram 2 (⟨4, fun _ => 1⟩ : Vec ℂ) (arange 0 (4 : ℕ)) 4 none

example :=
  C99_spwv 2 (⟨4, fun _ => 1⟩ : Vec ℂ) none none none none

end

end Tftb.Props

namespace Tftb.Props

section

open Tftb ComplexConjugate

example :=
  C100_phase (⟨4, fun _ => 1⟩ : Vec ℂ) (by inst) (by inst) none none (by inst)

end

end Tftb.Props

namespace Tftb.Props

section

open Tftb Tftb.FM Tftb.AM Tftb.Spec ComplexConjugate

example :=
  C101_backwards 4 1 (1/4) (1/4) (by inst) (by inst) (by inst) (by inst) (by inst)

example :=
  C101_chirps 4 1 (1/4) (1/4) (1/4) (1/4) (by inst) (by inst) (by inst) (by inst) (by inst) (by inst)

example :=
  C101_conjugate 4 1

example :=
  C101_delay 4 4 (by inst) (1/4) (1/4) (by inst)

example :=
  C101_same_chirp 4 1 (1/4) (1/4) (by inst) (by inst) (by inst) (by inst) (by inst)

example :=
  C101_same_tone 4 1 (1/4) (by inst) (by inst) (by inst)

example :=
  C101_tones 4 1 (1/4) (1/4) (by inst) (by inst) (by inst) (by inst)

end

end Tftb.Props

namespace Tftb.Props

section

open Tftb Tftb.Spec Tftb.Linear Tftb.Cohen Tftb.Reassigned Finset ComplexConjugate

example :=
  C106_half_shift (⟨4, fun _ => 1⟩ : Vec ℂ) (by inst) 1 (by inst)

end

end Tftb.Props

namespace Tftb.Props

section

open Tftb Tftb.Spec Tftb.FM Tftb.Post Finset

example :=
  C111_rows 4 1

end

end Tftb.Props

namespace Tftb.Props

section

open Tftb Finset Tftb.Spec Tftb.Analytic Tftb.TF

example :=
  C117_peak 4 1 (by inst)

end

end Tftb.Props

namespace Tftb.Props

section

open Tftb Finset Tftb.Spec Tftb.Analytic Tftb.FM Tftb.Noise

example :=
  C118_generators 4 (by inst) (1/4) (1/4) (by inst)

end

end Tftb.Props

namespace Tftb.Props

section

open Tftb Tftb.Spec Tftb.Linear Tftb.Cohen Finset ComplexConjugate

example (W : Mat ℝ) (P : Mat ℝ) (hW : WvdReturns (⟨4, fun _ => 1⟩ : Vec ℂ) (arange 0 (4 : ℕ)) 4 W) (hP : PwvdReturns (⟨4, fun _ => 1⟩ : Vec ℂ) (arange 0 (4 : ℕ)) 4 (some (⟨3, fun _ => 1⟩ : Vec ℂ)) P) :=
  C119_pseudo (⟨4, fun _ => 1⟩ : Vec ℂ) (arange 0 (4 : ℕ)) 4 (by inst) (⟨3, fun _ => 1⟩ : Vec ℂ) 1 (by inst) (by inst) W P hW hP

example :=
  C122_parity_pwvd (⟨4, fun _ => 1⟩ : Vec ℂ) (arange 0 (4 : ℕ)) 4 (⟨3, fun _ => 1⟩ : Vec ℂ) 1 (by inst) (by inst)

end

end Tftb.Props

namespace Tftb.Props

section

open Tftb Tftb.Spec Tftb.Linear Tftb.Cohen Tftb.Analytic Finset

example :=
  C127_pwvd (⟨4, fun _ => 1⟩ : Vec ℂ) (arange 0 (4 : ℕ)) 4 (⟨3, fun _ => 1⟩ : Vec ℂ) (fun _ => (1 : ℝ)) 1 (by inst) (by inst) (by inst) (by inst)

example :=
  C127_spectrogram (⟨4, fun _ => 1⟩ : Vec ℂ) (arange 0 (4 : ℕ)) 4 1 (⟨3, fun _ => 1⟩ : Vec ℂ) (fun _ => (1 : ℝ)) (by inst) (by inst) (by inst) (by inst)

example :=
  C127_stft (⟨4, fun _ => 1⟩ : Vec ℂ) (arange 0 (4 : ℕ)) 4 1 (⟨3, fun _ => 1⟩ : Vec ℂ) (fun _ => (1 : ℝ)) (by inst) (by inst) (by inst) (by inst)

end

end Tftb.Props

namespace Tftb.Props

section

open Tftb Tftb.Spec Tftb.Linear Tftb.Cohen Tftb.Post Finset ComplexConjugate

example (M : Mat ℝ) (hM : WvdReturns (⟨4, fun _ => 1⟩ : Vec ℂ) (arange 0 (4 : ℕ)) 4 M) :=
  C139_geometric (⟨4, fun _ => 1⟩ : Vec ℂ) (arange 0 (4 : ℕ)) 4 (by inst) M hM 1 (by inst) (by inst) (by inst) (by inst) (by inst)

example (M : Mat ℝ) (hM : PageReturns (⟨4, fun _ => 1⟩ : Vec ℂ) (arange 0 (⟨4, fun _ => 1⟩ : Vec ℂ).len) (⟨4, fun _ => 1⟩ : Vec ℂ).len M) :=
  C140_page (⟨4, fun _ => 1⟩ : Vec ℂ) M hM

end

end Tftb.Props
