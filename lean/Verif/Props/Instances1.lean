import Verif.Props.AM
import Verif.Props.Ambiguity
import Verif.Props.Analytic
import Verif.Props.Cohen
import Verif.Props.FM
import Verif.Props.Gauss
import Verif.Props.GenUtils
import Verif.Props.Histories
import Verif.Props.InstFreq
import Verif.Props.Misc
import Verif.Props.Noise
import Verif.Props.PageRuns
import Verif.Props.ProcUtils
import Verif.Props.Renyi
import Verif.Props.Stft
import Verif.Props.TimeFreq
import Verif.Props.Undefined
import Verif.Props.Utils
import Verif.Props.Wavelets
import Verif.Props.Wvd

/-! # Concrete instances

One instance per theorem for theorems that have no example of their own: the arguments are concrete signals, windows and numbers, and the hypotheses on them are discharged by the
tactic `inst`.  What a run returned (`M`, with the hypothesis that the run returned it) stays a variable; that these runs return is the first example below.  The statement of each instance is that of the theorem named, at these arguments. -/

/-- Closes the hypotheses of concrete instances. -/
macro "inst" : tactic => `(tactic| first | rfl | omega | (norm_num; done) | (simp; done) | (intros; norm_num; done) | (intros; simp; done) | positivity | (intros; positivity; done) | (intros; omega) | (refine ⟨?_, ?_⟩ <;> norm_num; done) | (simp only [Tftb.arange_len]; norm_num; done) | (rw [Tftb.roundEven_half]; norm_num; done))

namespace Tftb.Props

/-- The runs of which the results are variables below return. -/
example : (∃ M, WvdReturns (⟨4, fun _ => 1⟩ : Vec ℂ) (arange 0 (4 : ℕ)) 4 M) ∧ (∃ M, PwvdReturns (⟨4, fun _ => 1⟩ : Vec ℂ) (arange 0 (4 : ℕ)) 4 (some ⟨3, fun _ => 1⟩) M) ∧
    (∃ M, MhReturns (⟨4, fun _ => 1⟩ : Vec ℂ) (arange 0 (4 : ℕ)) 4 M) ∧ ∃ M, PageReturns (⟨4, fun _ => 1⟩ : Vec ℂ) (arange 0 (4 : ℕ)) 4 M := by
  refine ⟨(C32_returns_iff _ _ 4 (by norm_num)).2 ⟨by rw [arange_len]; rfl, Or.inl (by
    show ((4 : ℕ) : ℤ) ≤ 2 * roundEven (((4 : ℕ) : ℝ) / 2)
    rw [roundEven_half]
    norm_num)⟩, ?_, ?_, ?_⟩
  · obtain ⟨M, h, _⟩ := C36_pwvd ⟨4, fun _ => 1⟩ (arange 0 (4 : ℕ)) 4 ⟨3, fun _ => 1⟩ 1 rfl (by rw [roundEven_half]; norm_num)
    exact ⟨M, h⟩
  · obtain ⟨M, h, _⟩ := C38_default ⟨4, fun _ => (1 : ℂ)⟩ (by norm_num)
    exact ⟨M, h⟩
  · obtain ⟨M, h, _⟩ := C39_default ⟨4, fun _ => (1 : ℂ)⟩ (by norm_num)
    exact ⟨M, h⟩

end Tftb.Props

namespace Tftb.Props

section

open Tftb Tftb.Utils Finset

example :=
  C01_divider_closest 4 (by inst)

example :=
  C02_nearest_odd_array (⟨4, fun i => (i : ℝ) + 1⟩ : Vec ℝ)

example :=
  C02_nearest_odd_scalar (1/4)

example :=
  C03_modulo_real (⟨4, fun i => (i : ℝ) + 1⟩ : Vec ℝ) (1/4) (by inst) (by inst)

example :=
  C03_modulo_zero (⟨4, fun i => (i : ℝ) + 1⟩ : Vec ℝ) (by inst)

example :=
  C03_representative_unique (1/4) (1/4) (1/4) (1/4) (by inst) (by inst) (by inst)

example :=
  C04_nextpow2_least 4 (by inst)

example :=
  C06_izak_energy (⟨4, 4, fun _ _ => 1⟩ : Mat ℂ) (by inst)

example :=
  C06_izak_inverts_zak 4 1 (by inst) (⟨4, fun _ => 1⟩ : Vec ℂ) (by inst)

example :=
  C06_izak_one_dim (⟨4, fun _ => 1⟩ : Vec ℂ)

end

end Tftb.Props

namespace Tftb.Props

section

open Tftb Tftb.AM

example :=
  C07_amexpos_bilateral 4 (by inst) (1/4) (1/4) (by inst)

example :=
  C07_amexpos_unilateral 4 (by inst) (1/4) (1/4) (by inst)

example :=
  C07_amrect 4 (by inst) (1/4) (1/4) (by inst)

example :=
  C07_default_centre 4

example :=
  C07_default_spread 4 (by inst)

end

end Tftb.Props

namespace Tftb.Props

section

open Tftb Tftb.FM Tftb.Spec

example :=
  C09_fmconst 4 1 (1/4) (by inst) (by inst)

example :=
  C09_fmconst_default 4 (1/4) (by inst)

example :=
  C09_fmconst_rejects 1 1 none (by inst)

example :=
  C10_fmlin_one_point (1/4) (1/4) none (by inst) (by inst)

example :=
  C10_fmlin_rejects 1 1 1 none (by inst)

example :=
  C11_fmodany_column (⟨4, 4, fun _ _ => 1⟩ : Mat ℝ) 4

example :=
  C11_fmodany_rejects_law (⟨4, fun i => (i : ℝ) + 1⟩ : Vec ℝ) 4 0 (by inst) (by inst)

example :=
  C12_fmpower_formula 4 (1/4) (1/4) (1/4) (by inst)

example :=
  C13_fmpar_law 4 (1/4) (1/4) (1/4)

example :=
  C13_fmpar_warning 4 (1/4) (1/4) (1/4)

example :=
  C13_fmpower_always_warns 4 (1/4) (1/4) (1/4) (by inst) (by inst) (by inst) (by inst)

example :=
  C14_default 4 (1/4) (1/4) (1/4)

end

end Tftb.Props

namespace Tftb.Props

section

open Tftb Tftb.TF Tftb.Spec Tftb.FM

example :=
  C15_fmconst 4 1 (1/4) (by inst) (by inst) (by inst) (fun _ => (1 : ℝ)) (by inst)

example :=
  C15_fmlin 4 1 (1/4) (1/4) (by inst) (by inst) (by inst) (by inst) (by inst) (fun _ => (1 : ℝ)) (by inst)

end

end Tftb.Props

namespace Tftb.Props

section

open Finset Spec GenUtils

example :=
  C17_sigmerge_other (⟨4, fun _ => 1⟩ : Vec ℂ) (⟨4, fun _ => 1⟩ : Vec ℂ) 3

end

end Tftb.Props

namespace Tftb.Props

section

open Finset Spec Analytic FM ComplexConjugate

example :=
  C18_raises (1/4) (fun _ => (1 : ℝ))

example :=
  C19_defaults (fun _ => (1 : ℝ))

end

end Tftb.Props

namespace Tftb.Props

section

open Finset Spec Noise Utils

example :=
  C21_short (fun _ => (1 : ℝ))

end

end Tftb.Props

namespace Tftb.Props

section

open Finset Spec Misc AM FM

example :=
  C23_default 4 (1/4) (1/4) (1/4) (1/4) (1/4)

example :=
  C23_rejects 4 (1/4) (1/4) (1/4) (1/4) (1/4) (1/4) (by inst)

example :=
  C23_single (1/4) (1/4) (1/4) (1/4) (1/4)

end

end Tftb.Props

namespace Tftb.Props

section

open Finset Spec Misc ComplexConjugate

example :=
  C24_altes_rejects 4 (1/4) (1/4) 2

example :=
  C24_gdpower_empty (1/4) (1/4) (by inst) (by inst)

example :=
  C24_gdpower_short 4 (1/4) (1/4)

example :=
  C24_klauder_rejects (1/4) (1/4)

end

end Tftb.Props

namespace Tftb.Props

section

open Finset Spec Misc AM FM

example :=
  C25_rejects (1/4)

end

end Tftb.Props

namespace Tftb.Props

section

open Tftb Tftb.Spec Tftb.AM Tftb.TF Tftb.Theta Finset

example :=
  C25_shape (1/4) (by inst) (by inst)

end

end Tftb.Props

namespace Tftb.Props

section

open Tftb Tftb.Spec Tftb.Linear Tftb.Cohen Finset ComplexConjugate

example :=
  C28_linear (⟨4, fun _ => 1⟩ : Vec ℂ) (⟨4, fun _ => 1⟩ : Vec ℂ) (by inst) 2 2 (arange 0 (4 : ℕ)) 4 (by inst) (⟨3, fun _ => 1⟩ : Vec ℂ)

example :=
  C29_energy_rolls (⟨4, fun _ => 1⟩ : Vec ℂ) (arange 0 (4 : ℕ)) 4 (by inst) (⟨3, fun _ => 1⟩ : Vec ℂ) 1

example :=
  C29_modulation (⟨4, fun _ => 1⟩ : Vec ℂ) (arange 0 (4 : ℕ)) 4 (by inst) (⟨3, fun _ => 1⟩ : Vec ℂ) 1

example :=
  C30_stft_energy (⟨4, fun _ => 1⟩ : Vec ℂ) (arange 0 (4 : ℕ)) 4 1 (⟨3, fun _ => 1⟩ : Vec ℂ) (by inst) (by inst)

example :=
  C32_default (⟨4, fun _ => 1⟩ : Vec ℂ) (by inst)

example :=
  C32_raises (⟨4, fun _ => 1⟩ : Vec ℂ) (arange 0 (4 : ℕ)) 4 (by inst)

example (M : Mat ℝ) (hM : WvdReturns (⟨4, fun _ => 1⟩ : Vec ℂ) (arange 0 (4 : ℕ)) 4 M) :=
  C34_energy (⟨4, fun _ => 1⟩ : Vec ℂ) (arange 0 (4 : ℕ)) 4 (by inst) M hM

example (M : Mat ℝ) (hM : WvdReturns (⟨4, fun _ => 1⟩ : Vec ℂ) (arange 0 (4 : ℕ)) 4 M) :=
  C34_time_marginal (⟨4, fun _ => 1⟩ : Vec ℂ) (arange 0 (4 : ℕ)) 4 (by inst) M hM

example (M : Mat ℝ) (hM : WvdReturns (⟨4, fun _ => 1⟩ : Vec ℂ) (arange 0 (4 : ℕ)) 4 M) :=
  C35_conj (⟨4, fun _ => 1⟩ : Vec ℂ) (arange 0 (4 : ℕ)) 4 (by inst) M hM

example (M : Mat ℝ) (hM : WvdReturns (⟨4, fun _ => 1⟩ : Vec ℂ) (arange 0 (4 : ℕ)) 4 M) :=
  C35_modulation (⟨4, fun _ => 1⟩ : Vec ℂ) (arange 0 (4 : ℕ)) 4 (by inst) M hM 1

example (M : Mat ℝ) (hM : WvdReturns (⟨4, fun _ => 1⟩ : Vec ℂ) (arange 0 (4 : ℕ)) 4 M) :=
  C35_reverse (⟨4, fun _ => 1⟩ : Vec ℂ) (arange 0 (4 : ℕ)) 4 (by inst) M hM

example (M : Mat ℝ) (hM : WvdReturns (⟨4, fun _ => 1⟩ : Vec ℂ) (arange 0 (4 : ℕ)) 4 M) :=
  C35_scale (⟨4, fun _ => 1⟩ : Vec ℂ) (arange 0 (4 : ℕ)) 4 (by inst) M hM 2

example (M : Mat ℝ) (hM : WvdReturns (⟨4, fun _ => 1⟩ : Vec ℂ) (arange 0 (4 : ℕ)) 4 M) :=
  C35_support (⟨4, fun _ => 1⟩ : Vec ℂ) (arange 0 (4 : ℕ)) 4 (by inst) M hM 4

example (M : Mat ℝ) (hM : PwvdReturns (⟨4, fun _ => 1⟩ : Vec ℂ) (arange 0 (4 : ℕ)) 4 (some (⟨3, fun _ => 1⟩ : Vec ℂ)) M) :=
  C36_real (⟨4, fun _ => 1⟩ : Vec ℂ) (arange 0 (4 : ℕ)) 4 (⟨3, fun _ => 1⟩ : Vec ℂ) 1 (by inst) (by inst) (by inst) M hM

example (M : Mat ℝ) (M' : Mat ℝ) (hM : PwvdReturns (⟨4, fun _ => 1⟩ : Vec ℂ) (arange 0 (4 : ℕ)) 4 (some (⟨3, fun _ => 1⟩ : Vec ℂ)) M) (hM' : WvdReturns (⟨4, fun _ => 1⟩ : Vec ℂ) (arange 0 (4 : ℕ)) 4 M') :=
  C36_rectangular (⟨4, fun _ => 1⟩ : Vec ℂ) (arange 0 (4 : ℕ)) 4 (by inst) (⟨3, fun _ => 1⟩ : Vec ℂ) 1 (by inst) (by inst) (by inst) M M' hM hM'

example :=
  C36_returns_iff (⟨4, fun _ => 1⟩ : Vec ℂ) (arange 0 (4 : ℕ)) 4 (by inst) (⟨3, fun _ => 1⟩ : Vec ℂ) 1 (by inst)

example (M : Mat ℝ) (hM : PwvdReturns (⟨4, fun _ => 1⟩ : Vec ℂ) (arange 0 (4 : ℕ)) 4 (some (⟨3, fun _ => 1⟩ : Vec ℂ)) M) :=
  C36_time_marginal (⟨4, fun _ => 1⟩ : Vec ℂ) (arange 0 (4 : ℕ)) 4 (⟨3, fun _ => 1⟩ : Vec ℂ) 1 (by inst) (by inst) M hM

example (M : Mat ℝ) (hM : MhReturns (⟨4, fun _ => 1⟩ : Vec ℂ) (arange 0 (⟨4, fun _ => 1⟩ : Vec ℂ).len) (⟨4, fun _ => 1⟩ : Vec ℂ).len M) :=
  C38_freq_marginal (⟨4, fun _ => 1⟩ : Vec ℂ) (by inst) M hM

example :=
  C38_returns_iff (⟨4, fun _ => 1⟩ : Vec ℂ) (arange 0 (4 : ℕ)) 4 (by inst)

example (M : Mat ℝ) (hM : MhReturns (⟨4, fun _ => 1⟩ : Vec ℂ) (arange 0 (⟨4, fun _ => 1⟩ : Vec ℂ).len) (⟨4, fun _ => 1⟩ : Vec ℂ).len M) :=
  C38_time_marginal (⟨4, fun _ => 1⟩ : Vec ℂ) (by inst) M hM

example (M : Mat ℝ) (hM : PageReturns (⟨4, fun _ => 1⟩ : Vec ℂ) (arange 0 (⟨4, fun _ => 1⟩ : Vec ℂ).len) (⟨4, fun _ => 1⟩ : Vec ℂ).len M) :=
  C39_column_sum (⟨4, fun _ => 1⟩ : Vec ℂ) (by inst) M hM

example :=
  C39_default (⟨4, fun _ => 1⟩ : Vec ℂ) (by inst)

example :=
  C39_returns_iff (⟨4, fun _ => 1⟩ : Vec ℂ) (arange 0 (4 : ℕ)) 4 (by inst)

example (M : Mat ℝ) (hM : PageReturns (⟨4, fun _ => 1⟩ : Vec ℂ) (arange 0 (⟨4, fun _ => 1⟩ : Vec ℂ).len) (⟨4, fun _ => 1⟩ : Vec ℂ).len M) :=
  C39_row_sum (⟨4, fun _ => 1⟩ : Vec ℂ) (by inst) M hM

example :=
  C40_page_repeatable (⟨4, fun _ => 1⟩ : Vec ℂ) (by inst) (by inst)

example :=
  C40_stft_not_repeatable 4 (by inst) (arange 0 (4 : ℕ)) (by inst) 4 1 (by inst) (⟨3, fun _ => 1⟩ : Vec ℂ) (by inst) (by inst) (by inst)

end

end Tftb.Props

namespace Tftb

section

open Finset ComplexConjugate Spec Ambiguity

example :=
  C42_returns_iff (⟨4, fun _ => 1⟩ : Vec ℂ) none none

end

end Tftb

namespace Tftb.Props

section

open Tftb Tftb.TF Tftb.Spec Finset

example :=
  C44_scale (⟨4, fun _ => 1⟩ : Vec ℂ) 2 (by inst)

end

end Tftb.Props

namespace Tftb.Props

section

open Tftb Tftb.Spec Tftb.Linear Tftb.Cohen Tftb.TF Tftb.Misc Finset ComplexConjugate

example :=
  C46_undefined_at (⟨4, fun _ => 1⟩ : Vec ℂ) (⟨4, fun i => (i : ℝ) + 1⟩ : Vec ℝ)

end

end Tftb.Props

namespace Tftb

section

open Finset Spec ProcUtils

example :=
  C47_exact (⟨4, fun i => (i : ℝ) + 1⟩ : Vec ℝ) (⟨4, fun i => (i : ℝ) + 1⟩ : Vec ℝ) (by inst) (by inst) 1 (by inst) 1 1 1 1

example :=
  C47_linear (⟨4, 4, fun _ _ => 1⟩ : Mat ℝ) (⟨4, 4, fun _ _ => 1⟩ : Mat ℝ) (⟨4, fun i => (i : ℝ) + 1⟩ : Vec ℝ) (⟨4, fun i => (i : ℝ) + 1⟩ : Vec ℝ) (1/4) (1/4) (by inst) (by inst) (by inst) (by inst) (by inst)

example :=
  C47_nonneg (⟨4, 4, fun _ _ => 1⟩ : Mat ℝ) (⟨4, fun i => (i : ℝ) + 1⟩ : Vec ℝ) (⟨4, fun i => (i : ℝ) + 1⟩ : Vec ℝ) (by inst) (by inst) (by inst) 1 (by inst) (by inst) (by inst) (by inst)

example :=
  C47_translation (⟨4, 4, fun _ _ => 1⟩ : Mat ℝ) (⟨4, fun i => (i : ℝ) + 1⟩ : Vec ℝ) (⟨4, fun i => (i : ℝ) + 1⟩ : Vec ℝ) (by inst) (by inst) (by inst) (1/4) (1/4)

example :=
  C47_trapezoidal (⟨4, 4, fun _ _ => 1⟩ : Mat ℝ) (⟨4, fun i => (i : ℝ) + 1⟩ : Vec ℝ) (⟨4, fun i => (i : ℝ) + 1⟩ : Vec ℝ) (by inst) (by inst) (by inst) 1 (by inst)

example :=
  C48_short (⟨4, fun i => (i : ℝ) + 1⟩ : Vec ℝ)

example :=
  C48_spectrum (⟨4, fun _ => 1⟩ : Vec ℂ) (by inst)

end

end Tftb

namespace Tftb

section

open Finset Spec ProcUtils Post

example :=
  C49_cases (⟨4, 4, fun _ _ => 1⟩ : Mat ℝ) (⟨4, fun i => (i : ℝ) + 1⟩ : Vec ℝ) (⟨4, fun i => (i : ℝ) + 1⟩ : Vec ℝ) 2 (by inst) (by inst) (by inst) (by inst) (by inst) 1 (by inst)

example :=
  C49_scale (⟨4, 4, fun _ _ => 1⟩ : Mat ℝ) none none 2 (1/4) (by inst) (by inst)

example :=
  C49_shannon (⟨4, 4, fun _ _ => 1⟩ : Mat ℝ) (⟨4, fun i => (i : ℝ) + 1⟩ : Vec ℝ) (⟨4, fun i => (i : ℝ) + 1⟩ : Vec ℝ) (by inst) (by inst) (by inst) (by inst) 1 (by inst) (by inst)

example :=
  C49_time_translation (⟨4, 4, fun _ _ => 1⟩ : Mat ℝ) (⟨4, fun i => (i : ℝ) + 1⟩ : Vec ℝ) none 2 (1/4)

example :=
  C50_freq_order_irrelevant (⟨4, 4, fun _ _ => 1⟩ : Mat ℝ) none (⟨4, fun i => (i : ℝ) + 1⟩ : Vec ℝ) (⟨4, fun i => (i : ℝ) + 1⟩ : Vec ℝ) 2 (by inst)

end

end Tftb
