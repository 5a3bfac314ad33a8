import Verif.Props.AffineBand
import Verif.Props.AffineEmpty
import Verif.Props.Bounds
import Verif.Props.Conj
import Verif.Props.Dilation
import Verif.Props.FM
import Verif.Props.FMPower
import Verif.Props.Friedman
import Verif.Props.Gain
import Verif.Props.GainPost
import Verif.Props.GenAlgebra
import Verif.Props.Ideal
import Verif.Props.InstFreq
import Verif.Props.Instances3
import Verif.Props.Local
import Verif.Props.Morlet
import Verif.Props.Noise
import Verif.Props.Reversal
import Verif.Props.Scalogram
import Verif.Props.Shapes
import Verif.Props.Spwv
import Verif.Props.Utils

/-! # Concrete instances: times within the signal, objects, ridges -/

namespace Tftb.Props
section
open Tftb Tftb.Spec Tftb.Cohen Tftb.Linear

theorem inst_idx (j : ℕ) (hj : j < 2) : IdxOk 4 ((⟨2, fun i => 2 + (i : ℤ)⟩ : Vec ℤ).get j) ∧ IdxOk 4 ((⟨2, fun i => 2 + (i : ℤ)⟩ : Vec ℤ).get j - 2) := by
  unfold IdxOk
  show (_ ≤ 2 + (j : ℤ) ∧ 2 + (j : ℤ) < _) ∧ (_ ≤ 2 + (j : ℤ) - 2 ∧ 2 + (j : ℤ) - 2 < _)
  omega

example := C16_range (⟨4, fun _ => 1⟩ : Vec ℂ) ⟨2, fun i => 2 + i⟩ (fun j hj => inst_idx j hj)

example := C93_inst_freq (⟨4, fun _ => 1⟩ : Vec ℂ) ⟨4, fun _ => 1⟩ (inst_conj 4) ⟨2, fun i => 2 + i⟩ (fun j hj => inst_idx j hj)

example := C93_inst_freq_real (⟨4, fun _ => 1⟩ : Vec ℂ) (fun _ _ => by simp) ⟨2, fun i => 2 + i⟩ (fun j hj => inst_idx j hj)

example := C95_inst_freq (⟨4, fun _ => 1⟩ : Vec ℂ) ⟨4, fun _ => 1⟩ rfl ⟨2, fun i => 2 + i⟩ (fun j hj => inst_idx j hj)

example := C03_modulo_empty (⟨0, fun _ => 1⟩ : Vec ℝ) 3 rfl

example := C11_fmodany_rejects_t0 (⟨4, fun _ => 1 / 4⟩ : Vec ℝ) 7 (by decide) (fun _ _ => by norm_num [abs_le])

example := C21_noisecu 3 2 (fun i => (i : ℝ)) le_rfl (by decide) (fun j hj => by rcases j with _ | _ | j <;> first | (norm_num at hj; done) | omega) ⟨0, by decide, 1, by decide, by norm_num⟩

example := C37_even_window (⟨4, fun _ => 1⟩ : Vec ℂ) none none none ⟨2, fun _ => 1⟩ ⟨1, rfl⟩

example := C51_default (⟨2, 4, fun _ _ => some (1 / 4)⟩ : Mat (Option ℝ)) (by decide)

example := C51_empty (⟨0, 4, fun _ _ => some (1 / 4)⟩ : Mat (Option ℝ)) rfl none none (Or.inl rfl)

example := C52_returns_iff (⟨2, 2, fun _ _ => 1⟩ : Mat ℝ) ⟨2, 2, fun _ _ => some 1⟩ rfl le_rfl (by decide) (by decide)

example := C52_nonneg_returns (⟨2, 2, fun _ _ => 1⟩ : Mat ℝ) ⟨2, 2, fun _ _ => some 1⟩ rfl le_rfl (fun _ _ _ _ => zero_le_one) ⟨0, by decide, 0, by decide, one_ne_zero⟩

example := C66_unknown 1 "other" (by decide) (by decide) (by decide) (by decide)

example := C76_loctime_square (⟨2, 2, fun _ _ => 1⟩ : Mat ℂ) rfl (by norm_num [matEnergy])

example := C76_loctime_silent (⟨2, 2, fun _ _ => 0⟩ : Mat ℂ) (by simp [matEnergy]) (Or.inl rfl)

example := C80_positive_degree 4 2 (by decide) (by decide) [1, 2]

example := C82_empty_given (fun _ => .ok 1) (⟨4, fun _ => 1⟩ : Vec ℂ) none 1 one_pos

example := C94_wvd_sharp 1 4 1 (by decide) (arange 0 (3 : ℕ)) rfl (by rw [roundEven_half]; norm_num)

example := C75_irregular (⟨4, fun _ => 1⟩ : Vec ℂ) (some (arange 0 (1 : ℕ))) none 2 (Or.inl (by decide))

example := C99_page 2 (TFR.init makeWindow ⟨4, fun _ => 1⟩ (arange 0 (4 : ℕ)) 4 none)

example := C99_margenau_hill 2 (TFR.init makeWindow ⟨4, fun _ => 1⟩ (arange 0 (4 : ℕ)) 4 none)

example := C99_pwvd 2 (TFR.init makeWindow ⟨4, fun _ => 1⟩ (arange 0 (4 : ℕ)) 4 none)

example := C99_pmh 2 (TFR.init makeWindow ⟨4, fun _ => 1⟩ (arange 0 (4 : ℕ)) 4 none)

example := C103_hough (r := 2) two_pos (⟨4, 4, fun _ _ => 1⟩ : Mat ℝ) none none

example := C103_friedman (r := 2) two_pos (⟨2, 2, fun _ _ => 1⟩ : Mat ℝ) ⟨2, 2, fun _ _ => some 1⟩

example := C97_spectrogram (⟨4, fun _ => 1⟩ : Vec ℂ) ⟨4, fun i => (i : ℤ) + 1⟩ ⟨4, fun i => 4 - (i : ℤ)⟩ 8 1 ⟨3, fun _ => 1⟩ ⟨3, fun _ => 1⟩ (inst_reverse 3) rfl (by decide) rfl
  (fun m _ => by show (4 : ℤ) - m = ((4 : ℕ) : ℤ) + 1 - ((m : ℤ) + 1); push_cast; ring) (inst_window _ (fun _ => rfl) _ _)

example := C58_raises (⟨4, fun _ => 0⟩ : Vec ℂ) none none (Or.inl rfl) (fun k _ => by simp [dft, dtft, realPart, Vec.map])

example := C12_fmpower_mirrored 8 1 2 3 (1 / 4) (1 / 8) [] le_rfl (by decide) 1 (-2) (Or.inl (by norm_num)) (Or.inr (by norm_num))

example := C101_gaussians 8 (by decide) 4 1 1 (1 / Real.sqrt 2) one_pos one_pos (by positivity) (by rw [div_pow, Real.sq_sqrt (by norm_num)]; norm_num)

example := C56_offset (⟨4, fun _ => 1⟩ : Vec ℂ) ⟨4, fun _ => 3⟩ (1 / 8) (3 / 8) none none 2 rfl (fun _ _ => by norm_num)

example := C75_zero (⟨4, fun _ => 0⟩ : Vec ℂ) (by decide) (fun _ _ => rfl) none (by decide) 2 two_pos

end
end Tftb.Props
