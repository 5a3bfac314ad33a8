import Verif.Props.AffineEmpty
import Verif.Props.Ambiguity
import Verif.Props.FM
import Verif.Props.Gabor
import Verif.Props.GaussBand
import Verif.Props.GroupDelay
import Verif.Props.Instances3
import Verif.Props.LocfreqTotal
import Verif.Props.Morlet
import Verif.Props.Noise
import Verif.Props.Padding
import Verif.Props.ProcUtils
import Verif.Props.Renyi
import Verif.Props.Reversal
import Verif.Props.Shapes
import Verif.Props.Stability
import Verif.Props.TimeFreq
import Verif.Props.Utils
import Verif.Props.Wavelets
import Verif.Props.WideBand

/-! # Concrete instances: impulses, constant and silent signals, short arrays -/

namespace Tftb.Props
section
open Tftb Tftb.Spec Tftb.Cohen

/-- An impulse at the first of four samples. -/
noncomputable def instPulse : Vec ℂ := ⟨4, fun i => if i = 0 then 1 else 0⟩

theorem instPulse_dtft (f : ℝ) : dtft instPulse f ≠ 0 := by
  unfold dtft
  rw [show instPulse.len = 4 from rfl, Finset.sum_range_succ', Finset.sum_eq_zero (fun i _ => by simp [instPulse])]
  simp [instPulse, expi]

theorem instPulse_dft (k : ℕ) : dft instPulse k ≠ 0 := instPulse_dtft _

example := C46_group_delay instPulse (by decide) (fun k _ => instPulse_dft k)

example := C46_group_delay_at instPulse ⟨3, fun i => (i : ℝ) / 8⟩ (fun _ _ => instPulse_dtft _)

example := C46_scale instPulse 2 two_ne_zero (by decide) (fun k _ => instPulse_dft k)

example := C98_group_delay instPulse 3 ⟨3, fun i => (i : ℝ) / 8⟩ (fun _ _ => instPulse_dtft _)

example := C109_mean instPulse (by decide) (fun k _ => instPulse_dft k)

example := C109_shift instPulse (1 / 8) ⟨3, fun i => (i : ℝ) / 8⟩ (fun _ _ => instPulse_dtft _)

example := C109_delay instPulse 3 ⟨3, fun i => (i : ℝ) / 8⟩ (fun _ _ => instPulse_dtft _)

example := C45_silent (⟨4, fun _ => 0⟩ : Vec ℂ) (by decide) (by decide) (by simp [energy])

example := C45_bad_length (⟨5, fun _ => 1⟩ : Vec ℂ) rfl le_rfl

example := C45_one_sample (⟨1, fun _ => 1⟩ : Vec ℂ) rfl

example := C49_negative (⟨1, 2, fun _ c => (c : ℝ) - 1⟩ : Mat ℝ) none none ⟨0, by decide, 0, by decide, by norm_num⟩

example := C47_one_column (⟨4, 1, fun _ _ => 1⟩ : Mat ℝ) (by decide)

example := C42_few_bins (⟨4, fun _ => 1⟩ : Vec ℂ) 3 (by decide)

example := C57_two_samples (⟨2, fun _ => 1⟩ : Vec ℂ) rfl

example := C57_silent (⟨4, fun _ => Complex.I⟩ : Vec ℂ) (by decide) (fun _ _ => Complex.I_re) none none (Or.inl rfl) none

example := C59_default_empty (⟨0, fun _ => 1⟩ : Vec ℂ) rfl

example := C59_default_prime 7 (by norm_num) (by decide) (⟨7, fun _ => 1⟩ : Vec ℂ) rfl

example := C59_default_square 7 (by norm_num) (by decide) (by norm_num) (⟨49, fun _ => 1⟩ : Vec ℂ) rfl

example := C04_nextpow2_nonpos (-3) (by decide)

example := C05_accepts_affine (⟨4, fun i => 1 + i * 2⟩ : Vec ℝ) 4 1 2 (by decide) (fun _ _ => rfl)

example := C05_short_not_linear (⟨1, fun _ => 2⟩ : Vec ℝ) 4 (by decide)

example := C09_fmconst_late_centre 4 (1 / 4) 7 (by decide) (by norm_num [abs_le]) (by norm_num)

example := C11_fmodany (⟨4, fun _ => 1 / 4⟩ : Vec ℝ) 2 (by decide) (by decide) (fun _ _ => by norm_num [abs_le])

example := C126_locfreq (⟨4, fun _ => 1⟩ : Vec ℂ) ⟨4, fun _ => 1⟩ rfl (by decide) inst_energy inst_energy

example := C134_nonneg (⟨4, fun _ => 1⟩ : Vec ℂ) (by decide) inst_energy 1 (fun _ => 1) (fun _ _ => ⟨zero_le_one, by simp⟩)

example := C98_inst_freq (⟨4, fun _ => 1⟩ : Vec ℂ) 2 ⟨2, fun i => 2 + i⟩ (fun j (hj : j < 2) => by show (2 : ℤ) ≤ 2 + j ∧ (2 + j : ℤ) < (4 : ℕ); omega)

example := C76_loctime_matrix (⟨2, 3, fun _ _ => 1⟩ : Mat ℂ) (by decide) (by decide) (by decide)

example := C82_constant (fun _ => .ok 1) (⟨4, fun _ => 2⟩ : Vec ℂ) (by decide) 2 two_ne_zero (fun _ _ => by simp)

example := C75_degenerate (⟨4, fun _ => 1⟩ : Vec ℂ) (some (arange 0 (4 : ℕ))) none 2 (by decide) inst_regular

example := C97_inst_freq (⟨4, fun _ => 1⟩ : Vec ℂ) ⟨1, fun _ => 2⟩ ⟨1, fun _ => 3⟩ (fun _ _ => by constructor <;> norm_num) rfl (fun _ _ => rfl)

example := C24_klauder_peak 1 1 2 one_pos (by have := Real.pi_gt_three; rw [sub_pos, div_lt_one (by positivity)]; linarith) two_pos (by
  have : 0 < 1 / (4 * Real.pi * 1) := by positivity
  linarith)

example := C21_variance_le_one 2 (fun i => (i : ℝ)) le_rfl ⟨0, by decide, 1, by decide, by norm_num⟩

end
end Tftb.Props
