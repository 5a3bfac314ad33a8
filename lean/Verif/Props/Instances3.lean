import Verif.Props.Analytic
import Verif.Props.Bins
import Verif.Props.Bounds
import Verif.Props.Chirp
import Verif.Props.Conj
import Verif.Props.Consistency
import Verif.Props.Covariance
import Verif.Props.Detect
import Verif.Props.Dilation
import Verif.Props.FM
import Verif.Props.Gain
import Verif.Props.GainPost
import Verif.Props.GainReal
import Verif.Props.GenUtils
import Verif.Props.Histories
import Verif.Props.Hopping
import Verif.Props.Interference
import Verif.Props.Local
import Verif.Props.Padding
import Verif.Props.PlotLog
import Verif.Props.ReassignedPwv
import Verif.Props.ReassignedShift
import Verif.Props.Reruns
import Verif.Props.Reversal
import Verif.Props.SameWvd
import Verif.Props.Spreads
import Verif.Props.Spwv
import Verif.Props.SpwvTone
import Verif.Props.Stability
import Verif.Props.Stft
import Verif.Props.Superposition
import Verif.Props.TimeFreq
import Verif.Props.Uncertainty
import Verif.Props.Utils
import Verif.Props.WideBand
import Verif.Props.Wvd

/-! # Concrete instances, windows and ranges

Instances as in `Instances1`, mostly of theorems with hypotheses on windows, ranges of times, pairs of signals, energies or chirps.  All hypotheses are discharged; no result of a run is left a variable.
The signal is four ones (or a tone of four samples at a quarter of the sampling rate), the times are `0, …, 3`, the windows have three ones, and there are eight bins, where a theorem asks for these. -/
namespace Tftb.Props
open Tftb Tftb.Spec Tftb.Cohen

/-- The times `0, 1, 2, 3` used below, with their range and constant step. -/
theorem inst_range : IsRange (arange 0 (4 : ℕ)) 0 3 := by
  refine ⟨⟨0, by decide, rfl⟩, ⟨3, by decide, rfl⟩, fun c hc => ?_⟩
  have hc' : c < 4 := hc
  show (0 : ℤ) ≤ 0 + (c : ℤ) ∧ 0 + (c : ℤ) ≤ 3
  omega

theorem inst_regular : Regular (arange 0 (4 : ℕ)) := by
  intro i _ j _
  show (0 : ℤ) + ((i + 1 : ℕ) : ℤ) - (0 + (i : ℤ)) = (0 + ((j + 1 : ℕ) : ℤ)) - (0 + (j : ℤ))
  push_cast; ring

/-- The window of three ones never has energy zero within the signal. -/
theorem inst_window (h : Vec ℂ) (hh : ∀ i, h.get i = 1) (N : ℕ) (ts : Vec ℤ) : WindowOk h 8 1 N ts := by
  intro m _
  by_cases he : segLags (min (roundEven (((8 : ℕ) : ℝ) / 2) - 1) (1 : ℕ)) N (ts.get m - 1) = ∅
  · exact Or.inr he
  · refine Or.inl ?_
    unfold windowEnergy
    simp only [hh, norm_one, one_pow, Finset.sum_const, nsmul_eq_mul, mul_one]
    rw [Nat.cast_ne_zero, Finset.card_ne_zero]
    exact Finset.nonempty_iff_ne_empty.2 he

theorem inst_conj (n : ℕ) : IsConj (⟨n, fun _ => 1⟩ : Vec ℂ) ⟨n, fun _ => 1⟩ := ⟨rfl, fun _ _ => by simp⟩

theorem inst_reverse (n : ℕ) : IsReverse (⟨n, fun _ => 1⟩ : Vec ℂ) ⟨n, fun _ => 1⟩ := ⟨rfl, fun _ _ => rfl⟩

theorem inst_chirp (n : ℕ) : IsChirp (⟨n, fun i => 2 * expi (2 * Real.pi * ((1 / 4 : ℝ) * i + 0 * i ^ 2 / 2))⟩ : Vec ℂ) 2 (1 / 4) 0 := fun _ _ => rfl

theorem inst_same : SameWvd (⟨4, fun _ => 1⟩ : Vec ℂ) ⟨4, fun _ => 1⟩ := by
  obtain ⟨M, hM⟩ := (C32_returns_iff (⟨4, fun _ => 1⟩ : Vec ℂ) (arange 0 (4 : ℕ)) 4 (by norm_num)).2 ⟨by rw [arange_len]; rfl, Or.inl (by
    show ((4 : ℕ) : ℤ) ≤ 2 * roundEven (((4 : ℕ) : ℝ) / 2)
    rw [roundEven_half]
    norm_num)⟩
  exact ⟨rfl, 4, _, M, M, by norm_num, hM, hM, fun _ _ _ _ => rfl⟩

theorem inst_max : IsMax (⟨4, 4, fun _ _ => 1⟩ : Mat ℝ) 1 := ⟨fun _ _ _ _ => le_rfl, 0, by norm_num, 0, by norm_num, rfl⟩

theorem inst_energy : energy (⟨4, fun _ => 1⟩ : Vec ℂ) ≠ 0 := by
  unfold energy
  norm_num

/-- A window of ones has mass wherever it meets the signal. -/
theorem inst_smooth (w : Vec ℂ) (hw : ∀ i, w.get i = 1) (L N : ℕ) (c : ℤ) (τ : ℕ) (h : (smoothSeg L N c τ).Nonempty) : smoothMass w L N c τ ≠ 0 := by
  unfold smoothMass
  simp only [hw, Finset.sum_const, nsmul_eq_mul, mul_one]
  rw [Nat.cast_ne_zero, Finset.card_ne_zero]
  exact h

/-- Closes the hypotheses of the instances. -/
macro "inst3" : tactic => `(tactic| first | exact inst_range | exact inst_regular | exact inst_window _ (fun _ => rfl) _ _ | exact inst_window _ (fun _ => by simp [Vec.map]) _ _ | exact inst_conj _ | exact inst_reverse _ | exact inst_chirp _ | exact inst_same | exact inst_max | exact Or.inl rfl | exact one_ne_zero | rfl | omega | (norm_num; done) | (simp; done) | (intros; norm_num; done) | (intros; simp; done) | positivity | (intros; positivity; done) | (intros; omega) | (refine ⟨?_, ?_⟩ <;> norm_num; done) | (simp only [Tftb.arange_len]; norm_num; done) | (rw [Tftb.roundEven_half]; norm_num; done) | (intro c hc; have hc' : c < 4 := hc; (try rw [roundEven_half]); simp only [arange]; constructor <;> norm_num <;> omega) | (intro c hc; have hc' : c < 4 := hc; rw [roundEven_half]; simp only [arange]; norm_num; omega) | (left; rw [roundEven_half]; norm_num; done) | (right; rw [roundEven_half]; norm_num; done) | (intro c _; exact ⟨1, zero_le_one, by simp⟩))

/-- The same, with energies and smoothing windows. -/
macro "inst4" : tactic => `(tactic| first | exact inst_energy | exact fun _ _ τ h => inst_smooth _ (fun _ => rfl) _ _ _ τ h | exact fun _ _ => Or.inl (by rw [roundEven_half]; norm_num) | (norm_num; done) | (intro j; norm_num; done) | exact inst_range | exact inst_regular | exact inst_window _ (fun _ => rfl) _ _ | exact inst_window _ (fun _ => by simp [Vec.map]) _ _ | exact inst_conj _ | exact inst_reverse _ | exact inst_chirp _ | exact inst_same | exact inst_max | exact Or.inl rfl | exact one_ne_zero | rfl | omega | (norm_num; done) | (simp; done) | (intros; norm_num; done) | (intros; simp; done) | positivity | (intros; positivity; done) | (intros; omega) | (refine ⟨?_, ?_⟩ <;> norm_num; done) | (simp only [Tftb.arange_len]; norm_num; done) | (rw [Tftb.roundEven_half]; norm_num; done) | (intro c hc; have hc' : c < 4 := hc; (try rw [roundEven_half]); simp only [arange]; constructor <;> norm_num <;> omega) | (intro c hc; have hc' : c < 4 := hc; rw [roundEven_half]; simp only [arange]; norm_num; omega) | (left; rw [roundEven_half]; norm_num; done) | (right; rw [roundEven_half]; norm_num; done) | (intro c _; exact ⟨1, zero_le_one, by simp⟩))

end Tftb.Props

namespace Tftb.Props
section
open Tftb Tftb.Spec Tftb.Linear Tftb.Cohen Finset ComplexConjugate

example :=
  C30_spectrogram_mean (⟨4, fun _ => 1⟩ : Vec ℂ) (arange 0 (4 : ℕ)) 8 1 (⟨3, fun _ => 1⟩ : Vec ℂ) (by inst3) (by inst3) (by inst3)

example :=
  C30_spectrogram_bounds (⟨4, fun _ => 1⟩ : Vec ℂ) (arange 0 (4 : ℕ)) 8 1 (⟨3, fun _ => 1⟩ : Vec ℂ) (by inst3) (by inst3) (by inst3) 1 1 (by inst3)

example :=
  C31_closed_form (⟨4, fun _ => 1⟩ : Vec ℂ) (arange 0 (4 : ℕ)) 8 1 (⟨3, fun _ => 1⟩ : Vec ℂ) (by inst3) (by inst3) (by inst3)

example :=
  C31_quadratic (⟨4, fun _ => 1⟩ : Vec ℂ) (arange 0 (4 : ℕ)) 8 1 (⟨3, fun _ => 1⟩ : Vec ℂ) (by inst3) (by inst3) (by inst3) 2

example :=
  C31_modulation (⟨4, fun _ => 1⟩ : Vec ℂ) (arange 0 (4 : ℕ)) 8 1 (⟨3, fun _ => 1⟩ : Vec ℂ) (by inst3) (by inst3) (by inst3) 1

example :=
  C83_page (⟨4, fun _ => 1⟩ : Vec ℂ) (⟨4, fun _ => 1⟩ : Vec ℂ) (by inst3) 2 2 (arange 0 (4 : ℕ)) 8 (by inst3) (by inst3)

example :=
  C83_pmh (⟨4, fun _ => 1⟩ : Vec ℂ) (⟨4, fun _ => 1⟩ : Vec ℂ) (by inst3) 2 2 (arange 0 (4 : ℕ)) 8 (⟨3, fun _ => 1⟩ : Vec ℂ) 1 (by inst3) (by inst3) (by inst3)

example :=
  C83_spectrogram (⟨4, fun _ => 1⟩ : Vec ℂ) (⟨4, fun _ => 1⟩ : Vec ℂ) (by inst3) 2 2 (arange 0 (4 : ℕ)) 8 1 (⟨3, fun _ => 1⟩ : Vec ℂ) (by inst3) (by inst3) (by inst3)

example :=
  C86_spectrogram_delay (⟨4, fun _ => 1⟩ : Vec ℂ) (arange 0 (4 : ℕ)) 8 1 (⟨3, fun _ => 1⟩ : Vec ℂ) (by inst3) (by inst3) 1 (by inst3) (by inst3)

example :=
  C86_page_delay (⟨4, fun _ => 1⟩ : Vec ℂ) (arange 0 (4 : ℕ)) 8 1 (by inst3) (by inst3) (by inst3)

example :=
  C86_mh_delay (⟨4, fun _ => 1⟩ : Vec ℂ) (arange 0 (4 : ℕ)) 8 1 (by inst3) (by inst3) (by inst3) (by inst3)

example :=
  C86_mh_modulation (⟨4, fun _ => 1⟩ : Vec ℂ) (arange 0 (4 : ℕ)) 8 (by inst3) (by inst3) 1

example :=
  C86_pmh_modulation (⟨4, fun _ => 1⟩ : Vec ℂ) (arange 0 (4 : ℕ)) 8 (⟨3, fun _ => 1⟩ : Vec ℂ) 1 (by inst3) (by inst3) (by inst3) (by inst3) 1

example :=
  C87_spectrogram_stft (⟨4, fun _ => 1⟩ : Vec ℂ) (arange 0 (4 : ℕ)) (arange 0 (4 : ℕ)) 8 1 (⟨3, fun _ => 1⟩ : Vec ℂ) (by inst3) (by inst3) (by inst3)

example :=
  C87_reassigned_spectrogram (⟨4, fun _ => 1⟩ : Vec ℂ) (arange 0 (4 : ℕ)) 8 1 (⟨3, fun _ => 1⟩ : Vec ℝ) (by inst3) (by inst3) (by inst3) (by inst3) (by inst3) (by inst3) 0 3 (by inst3) (by inst3) (by inst3) (by inst3)

example :=
  C87_reassigned_pwv (⟨4, fun _ => 1⟩ : Vec ℂ) (arange 0 (4 : ℕ)) (arange 0 (4 : ℕ)) 8 1 (⟨3, fun _ => 1⟩ : Vec ℝ) (by inst3) (by inst3) (by inst3) 0 3 (by inst3) (by inst3) (by inst3) (by inst3)

example :=
  C88_spectrogram_grows (⟨4, fun _ => 1⟩ : Vec ℂ) (arange 0 (4 : ℕ)) 8 1 (⟨3, fun _ => 1⟩ : Vec ℂ) (by inst3) (by inst3) (by inst3) (by inst3) (by inst3)

example :=
  C92_spectrogram (⟨4, fun _ => 1⟩ : Vec ℂ) (arange 0 (4 : ℕ)) 8 8 1 (⟨3, fun _ => 1⟩ : Vec ℂ) (by inst3) (by inst3) (by inst3) (by inst3)

example :=
  C92_margenau_hill (⟨4, fun _ => 1⟩ : Vec ℂ) (arange 0 (4 : ℕ)) 8 8 (by inst3) (by inst3) (by inst3) (by inst3) (by inst3)

example :=
  C92_page (⟨4, fun _ => 1⟩ : Vec ℂ) (arange 0 (4 : ℕ)) 8 8 (by inst3) (by inst3) (by inst3) (by inst3) (by inst3)

example :=
  C92_pmh (⟨4, fun _ => 1⟩ : Vec ℂ) (arange 0 (4 : ℕ)) 8 8 (⟨3, fun _ => 1⟩ : Vec ℂ) 1 (by inst3) (by inst3) (by inst3) (by inst3)

example :=
  C93_stft (⟨4, fun _ => 1⟩ : Vec ℂ) (⟨4, fun _ => 1⟩ : Vec ℂ) (by inst3) (arange 0 (4 : ℕ)) 8 1 (⟨3, fun _ => 1⟩ : Vec ℂ) (⟨3, fun _ => 1⟩ : Vec ℂ) (by inst3) (by inst3) (by inst3)

example :=
  C93_spectrogram (⟨4, fun _ => 1⟩ : Vec ℂ) (⟨4, fun _ => 1⟩ : Vec ℂ) (by inst3) (arange 0 (4 : ℕ)) 8 1 (⟨3, fun _ => 1⟩ : Vec ℂ) (⟨3, fun _ => 1⟩ : Vec ℂ) (by inst3) (by inst3) (by inst3) (by inst3)

example :=
  C93_pwvd (⟨4, fun _ => 1⟩ : Vec ℂ) (⟨4, fun _ => 1⟩ : Vec ℂ) (by inst3) (arange 0 (4 : ℕ)) 8 (⟨3, fun _ => 1⟩ : Vec ℂ) (⟨3, fun _ => 1⟩ : Vec ℂ) (by inst3) 1 (by inst3) (by inst3)

example :=
  C93_pmh (⟨4, fun _ => 1⟩ : Vec ℂ) (⟨4, fun _ => 1⟩ : Vec ℂ) (by inst3) (arange 0 (4 : ℕ)) 8 (⟨3, fun _ => 1⟩ : Vec ℂ) (⟨3, fun _ => 1⟩ : Vec ℂ) (by inst3) 1 (by inst3) (by inst3) (by inst3)

example :=
  C93_margenau_hill (⟨4, fun _ => 1⟩ : Vec ℂ) (⟨4, fun _ => 1⟩ : Vec ℂ) (by inst3) (arange 0 (4 : ℕ)) 8 (by inst3) (by inst3)

example :=
  C93_page (⟨4, fun _ => 1⟩ : Vec ℂ) (⟨4, fun _ => 1⟩ : Vec ℂ) (by inst3) (arange 0 (4 : ℕ)) 8 (by inst3) (by inst3)

example :=
  C94_spectrogram (⟨4, fun _ => 1⟩ : Vec ℂ) (arange 0 (4 : ℕ)) 8 1 (⟨3, fun _ => 1⟩ : Vec ℂ) (by inst3) (by inst3) (by inst3)

example :=
  C94_margenau_hill (⟨4, fun _ => 1⟩ : Vec ℂ) (arange 0 (4 : ℕ)) 8 (by inst3) (by inst3)

example :=
  C94_page (⟨4, fun _ => 1⟩ : Vec ℂ) (arange 0 (4 : ℕ)) 8 (by inst3) (by inst3)

example :=
  C95_spectrogram (⟨4, fun _ => 1⟩ : Vec ℂ) (⟨4, fun _ => 1⟩ : Vec ℂ) (arange 0 (4 : ℕ)) 8 1 (⟨3, fun _ => 1⟩ : Vec ℂ) (by inst3) (by inst3) (by inst3) (by inst3)

example :=
  C95_pmh (⟨4, fun _ => 1⟩ : Vec ℂ) (⟨4, fun _ => 1⟩ : Vec ℂ) (by inst3) (arange 0 (4 : ℕ)) 8 (⟨3, fun _ => 1⟩ : Vec ℂ) 1 (by inst3) (by inst3) (by inst3)

example :=
  C97_stft (⟨4, fun _ => 1⟩ : Vec ℂ) (arange 0 (4 : ℕ)) 8 1 (⟨3, fun _ => 1⟩ : Vec ℂ) (⟨3, fun _ => 1⟩ : Vec ℂ) (by inst3) (by inst3) (by inst3)

example :=
  C97_pwvd (⟨4, fun _ => 1⟩ : Vec ℂ) (arange 0 (4 : ℕ)) 8 (⟨3, fun _ => 1⟩ : Vec ℂ) (⟨3, fun _ => 1⟩ : Vec ℂ) (by inst3) 1 (by inst3) (by inst3)

example :=
  C98_pmh (⟨4, fun _ => 1⟩ : Vec ℂ) (arange 0 (4 : ℕ)) 8 (⟨3, fun _ => 1⟩ : Vec ℂ) 1 (by inst3) (by inst3) 1 (by inst3)

example :=
  C98_margenau_hill (⟨4, fun _ => 1⟩ : Vec ℂ) (arange 0 (4 : ℕ)) 8 (by inst3) 1 (by inst3)

example :=
  C98_page (⟨4, fun _ => 1⟩ : Vec ℂ) (arange 0 (4 : ℕ)) 8 (by inst3) 1 (by inst3)

example :=
  C98_spectrogram (⟨4, fun _ => 1⟩ : Vec ℂ) (arange 0 (4 : ℕ)) 8 1 (⟨3, fun _ => 1⟩ : Vec ℂ) (by inst3) (by inst3) 1 (by inst3) (by inst3)

example :=
  C108_tone (⟨4, fun i => 2 * expi (2 * Real.pi * ((1 / 4 : ℝ) * i + 0 * i ^ 2 / 2))⟩ : Vec ℂ) 2 (1/4) (by inst3) (⟨3, fun _ => 1⟩ : Vec ℝ) (⟨3, fun _ => 1⟩ : Vec ℝ) (arange 0 (4 : ℕ)) 8 1 1 (by inst3) (by inst3) (by inst3) (by inst3)

example :=
  C108_bound (⟨4, fun _ => 1⟩ : Vec ℂ) 1 (by inst3) (⟨3, fun _ => 1⟩ : Vec ℝ) (⟨3, fun _ => 1⟩ : Vec ℝ) (arange 0 (4 : ℕ)) 8 1 1 (by inst3) (by inst3) (by inst3) (by inst3)

example :=
  C108_local (⟨4, fun _ => 1⟩ : Vec ℂ) (⟨4, fun _ => 1⟩ : Vec ℂ) (⟨3, fun _ => 1⟩ : Vec ℝ) (⟨3, fun _ => 1⟩ : Vec ℝ) (arange 0 (4 : ℕ)) (arange 0 (4 : ℕ)) 8 1 1 (by inst3) (by inst3) (by inst3) (by inst3)

example :=
  C83_spwv (⟨4, fun _ => 1⟩ : Vec ℂ) (⟨4, fun _ => 1⟩ : Vec ℂ) (by inst4) 2 2 (⟨3, fun _ => 1⟩ : Vec ℂ) (⟨3, fun _ => 1⟩ : Vec ℂ) (arange 0 (4 : ℕ)) 8 1 1 (by inst4) (by inst4) (by inst4) (by inst4) (by inst4)

example :=
  C37_closed_form (⟨4, fun _ => 1⟩ : Vec ℂ) (⟨3, fun _ => 1⟩ : Vec ℂ) (⟨3, fun _ => 1⟩ : Vec ℂ) (arange 0 (4 : ℕ)) 8 1 1 (by inst4) (by inst4) (by inst4) (by inst4) (by inst4)

example :=
  C92_spwv (⟨4, fun _ => 1⟩ : Vec ℂ) (⟨3, fun _ => 1⟩ : Vec ℂ) (⟨3, fun _ => 1⟩ : Vec ℂ) (arange 0 (4 : ℕ)) 8 8 1 1 (by inst4) (by inst4) (by inst4) (by inst4) (by inst4)

example :=
  C93_spwv (⟨4, fun _ => 1⟩ : Vec ℂ) (⟨4, fun _ => 1⟩ : Vec ℂ) (by inst4) (⟨3, fun _ => 1⟩ : Vec ℂ) (⟨3, fun _ => 1⟩ : Vec ℂ) (⟨3, fun _ => 1⟩ : Vec ℂ) (⟨3, fun _ => 1⟩ : Vec ℂ) (by inst4) (by inst4) (arange 0 (4 : ℕ)) 8 1 1 (by inst4) (by inst4) (by inst4) (by inst4) (by inst4)

example :=
  C93_locfreq (⟨4, fun _ => 1⟩ : Vec ℂ) (⟨4, fun _ => 1⟩ : Vec ℂ) (by inst4) (by inst4) (by inst4)

example :=
  C93_locfreq_real (⟨4, fun _ => 1⟩ : Vec ℂ) (by inst4) (by inst4) (by inst4)

example :=
  C97_loctime (⟨4, fun _ => 1⟩ : Vec ℂ) (by inst4)

example :=
  C122_parity_spwv (⟨4, fun _ => 1⟩ : Vec ℂ) (⟨3, fun _ => 1⟩ : Vec ℂ) (⟨3, fun _ => 1⟩ : Vec ℂ) (arange 0 (4 : ℕ)) 8 1 1 (by inst4) (by inst4) (by inst4) (by inst4) (by inst4)

example :=
  C95_page_global 4 1 0 (by inst4) (by inst4) (by inst4)

example :=
  C122_impulses_page 4 1 2 (by inst4) (by inst4) 2 2

end
end Tftb.Props

namespace Tftb
section
open Finset Spec ProcUtils Reassigned ComplexConjugate
open Tftb.Props

example :=
  C71_closed (⟨4, fun _ => 1⟩ : Vec ℂ) (arange 0 (4 : ℕ)) 8 1 (⟨3, fun _ => 1⟩ : Vec ℝ) (by inst3) (by inst3) (by inst3) (by inst3) 0 3 (by inst3) (by inst3) (by inst3) (by inst3)

example :=
  C71_outside (⟨4, fun _ => 1⟩ : Vec ℂ) (arange 0 (4 : ℕ)) 8 1 (⟨3, fun _ => 1⟩ : Vec ℝ) (by inst3) (by inst3) (by inst3) (by inst3) 0 3 (by inst3) (by inst3) (by inst3) (by inst3)

end
end Tftb

namespace Tftb.Props
section
open Tftb Tftb.Spec Tftb.Linear Tftb.Cohen Tftb.FM Finset ComplexConjugate

example :=
  C78_spectrogram_tone (⟨4, fun i => 2 * expi (2 * Real.pi * ((1 / 4 : ℝ) * i + 0 * i ^ 2 / 2))⟩ : Vec ℂ) 2 (1/4) (by inst3) (arange 0 (4 : ℕ)) 8 1 (⟨3, fun _ => 1⟩ : Vec ℂ) (fun _ => (1 : ℝ)) (by inst3) (by inst3) (by inst3) (by inst3)

end
end Tftb.Props

namespace Tftb.Props
section
open Tftb Tftb.Spec Tftb.Linear Tftb.Cohen Tftb.Plot

example :=
  C90_levels (⟨4, 4, fun _ _ => 1⟩ : Mat ℝ) 1 (1/2) (by inst3) (by inst3) (by inst3)

end
end Tftb.Props

namespace Tftb.Props
section
open Tftb Tftb.Linear Tftb.Cohen ComplexConjugate

example :=
  C99_inst_freq (by inst3) (⟨4, fun _ => 1⟩ : Vec ℂ) none

example :=
  C99_reassigned_pwv (by inst3) (⟨4, fun _ => 1⟩ : Vec ℂ) none none none

example :=
  C99_reassigned_spectrogram (by inst3) (⟨4, fun _ => 1⟩ : Vec ℂ) none none none

example :=
  C99_locfreq (by inst3) (⟨4, fun _ => 1⟩ : Vec ℂ)

example :=
  C99_group_delay (by inst3) (⟨4, fun _ => 1⟩ : Vec ℂ)

example :=
  C99_group_delay_at (by inst3) (⟨4, fun _ => 1⟩ : Vec ℂ) (⟨4, fun i => (i : ℝ) + 1⟩ : Vec ℝ)

end
end Tftb.Props

namespace Tftb.Props
section
open Tftb ComplexConjugate

example :=
  C100_scalogram (by inst3) (⟨4, fun _ => 1⟩ : Vec ℂ) none none none none

example :=
  C100_wide_band (by inst3) (⟨4, fun _ => 1⟩ : Vec ℂ) none none none

example :=
  C100_morlet_scalogram (by inst3) (⟨4, fun _ => 1⟩ : Vec ℂ) none none 1

end
end Tftb.Props

namespace Tftb.Props
section
open Tftb Tftb.Cohen Finset Spec ProcUtils Post

example :=
  C103_friedman_reassigned (by inst3) (⟨4, fun _ => 1⟩ : Vec ℂ) none none none

example :=
  C103_renyi (by inst3) (⟨4, fun _ => 1⟩ : Vec ℂ) none none none none none none none 3

example :=
  C103_hough_spwv (by inst3) (⟨4, fun _ => 1⟩ : Vec ℂ) none none none none none none

end
end Tftb.Props

namespace Tftb.Props
section
open Tftb Tftb.Spec Tftb.Cohen Finset ProcUtils Reassigned ComplexConjugate

example :=
  C104_pwv_delay (⟨4, fun _ => 1⟩ : Vec ℂ) (arange 0 (4 : ℕ)) 8 1 1 (⟨3, fun _ => 1⟩ : Vec ℝ) (by inst3) (by inst3) (by inst3) 0 3 (by inst3) (by inst3) (by inst3) (by inst3)

example :=
  C104_spectrogram_conj (⟨4, fun _ => 1⟩ : Vec ℂ) (⟨4, fun _ => 1⟩ : Vec ℂ) (by inst3) (arange 0 (4 : ℕ)) 8 1 (⟨3, fun _ => 1⟩ : Vec ℝ) (by inst3) (by inst3) (by inst3) (by inst3) (by inst3) (by inst3) 0 3 (by inst3) (by inst3) (by inst3)

example :=
  C104_constant 4 8 1 1 (arange 0 (4 : ℕ)) (⟨3, fun _ => 1⟩ : Vec ℝ) (by inst4) (by inst4) (by inst4) (by inst4) 0 3 (by inst4) (by inst4) (by inst4) (by inst4) (by inst4) (by inst4) (by inst4)

end
end Tftb.Props

namespace Tftb.Props
section
open Tftb Tftb.Spec Tftb.Linear Tftb.Cohen Tftb.Reassigned Finset ComplexConjugate

example :=
  C106_every_size (⟨4, fun _ => 1⟩ : Vec ℂ) (⟨4, fun _ => 1⟩ : Vec ℂ) (by inst3) (arange 0 (4 : ℕ)) 8 (by inst3)

example :=
  C106_narrow_band (⟨4, fun _ => 1⟩ : Vec ℂ) (⟨4, fun _ => 1⟩ : Vec ℂ) (by inst3) none none

example :=
  C106_reassigned (⟨4, fun _ => 1⟩ : Vec ℂ) (⟨4, fun _ => 1⟩ : Vec ℂ) (by inst3) 8 1 (⟨3, fun _ => 1⟩ : Vec ℝ) (by inst3) (by inst3) (by inst3) (by inst3) (arange 0 (4 : ℕ)) 0 3 (by inst3) (by inst3) (by inst3) (by inst3)

example :=
  C106_spwv (⟨4, fun _ => 1⟩ : Vec ℂ) (⟨4, fun _ => 1⟩ : Vec ℂ) (by inst4) (⟨3, fun _ => 1⟩ : Vec ℂ) (⟨3, fun _ => 1⟩ : Vec ℂ) (arange 0 (4 : ℕ)) 8 1 1 (by inst4) (by inst4) (by inst4) (by inst4) (by inst4)

end
end Tftb.Props

namespace Tftb.Props
section
open Tftb Tftb.Spec Tftb.Linear Tftb.Cohen Tftb.TF Finset ComplexConjugate

example :=
  C126_margenau_hill (⟨4, fun _ => 1⟩ : Vec ℂ) (⟨4, fun _ => 1⟩ : Vec ℂ) (by inst3) (arange 0 (4 : ℕ)) 8 (by inst3) (by inst3)

example :=
  C126_spectrogram (⟨4, fun _ => 1⟩ : Vec ℂ) (⟨4, fun _ => 1⟩ : Vec ℂ) (by inst3) (arange 0 (4 : ℕ)) 8 1 (⟨3, fun _ => 1⟩ : Vec ℂ) (by inst3) (by inst3) (by inst3)

end
end Tftb.Props

namespace Tftb.Props
section
open Tftb Tftb.TF Tftb.Spec Finset

example :=
  C44_range (⟨4, fun _ => 1⟩ : Vec ℂ) (by inst4)

example :=
  C44_delay (⟨4, fun _ => 1⟩ : Vec ℂ) 1 (by inst4)

example :=
  C45_locfreq (⟨4, fun _ => 1⟩ : Vec ℂ) (by inst4) (by inst4)

example :=
  C45_range (⟨4, fun _ => 1⟩ : Vec ℂ) (by inst4) (by inst4)

example :=
  C45_scale (⟨4, fun _ => 1⟩ : Vec ℂ) 2 (by inst4) (by inst4) (by inst4)

example :=
  C45_rotate (⟨4, fun _ => 1⟩ : Vec ℂ) 1 (by inst4) (by inst4)

end
end Tftb.Props

namespace Tftb.Props
section
open Tftb Tftb.Spec Tftb.TF Finset

example :=
  C96_time_zero (⟨4, fun _ => 1⟩ : Vec ℂ) (by inst4) 1

example :=
  C96_not_both (⟨4, fun _ => 1⟩ : Vec ℂ) (by inst4) (by inst4) (by inst4)

example :=
  C96_time_max (⟨4, fun _ => 1⟩ : Vec ℂ) (by inst4)

example :=
  C96_freq_max (⟨4, fun _ => 1⟩ : Vec ℂ) (by inst4) (by inst4)

example :=
  C96_product_max (⟨4, fun _ => 1⟩ : Vec ℂ) (by inst4) (by inst4)

example :=
  C133_uncertainty (⟨4, fun _ => 1⟩ : Vec ℂ) (by inst4) (by inst4)

end
end Tftb.Props

namespace Tftb.Props
section
open Finset Spec GenUtils

example :=
  C17_scale_invariance (⟨4, fun _ => 1⟩ : Vec ℂ) (⟨4, fun _ => 1⟩ : Vec ℂ) 1 1 1 (by inst4) (by inst4) (by inst4) (by inst4)

end
end Tftb.Props

namespace Tftb.Props
section
open Tftb Tftb.Spec Tftb.ProcUtils Tftb.GenUtils Finset

example :=
  C131_sharp 8 0 1 (by inst4) (by inst4) (by inst4) 2

example :=
  C131_two_tones 8 0 1 (by inst4) (by inst4) (by inst4) 2 2 (by inst4) (by inst4) 1

end
end Tftb.Props

namespace Tftb.Props
section
open Tftb Tftb.Spec Tftb.Linear Tftb.Cohen Tftb.Analytic Finset

example :=
  C127_psk 8 1 (1/4) (fun _ => (1/2 : ℝ)) (by inst4) (by inst4) (by inst4) (by inst4) (arange 0 (4 : ℕ)) 8 1 (⟨3, fun _ => 1⟩ : Vec ℂ) (fun _ => (1 : ℝ)) (by inst4) (by inst4) (by inst4) (by inst4) (by inst4)

example :=
  C127_ask 8 1 (1/4) (fun _ => (1/2 : ℝ)) (by inst4) (by inst4) (by inst4) (by inst4) (by inst4) (arange 0 (4 : ℕ)) 8 1 (⟨3, fun _ => 1⟩ : Vec ℂ) (fun _ => (1 : ℝ)) (by inst4) (by inst4) (by inst4) (by inst4) (by inst4)

end
end Tftb.Props

namespace Tftb.Props
section
open Finset Spec WideBand

example :=
  C57_voices (⟨4, fun _ => 1⟩ : Vec ℂ) (by inst4) (1/4) (1/2) (by inst4) (by inst4)

example :=
  C57_one_voice (⟨4, fun _ => 1⟩ : Vec ℂ) (by inst4) (1/4) (1/2) (by inst4) (by inst4)

end
end Tftb.Props

namespace Tftb.Props
section
open Finset Spec Analytic FM ComplexConjugate

example :=
  C20_empty 0 none (by inst4)

example :=
  C64_short none 0 (by inst4)

end
end Tftb.Props

namespace Tftb.Props
section
open Tftb AffDist

example :=
  C67_negative (-1) (by inst4)

end
end Tftb.Props

namespace Tftb.Props
section
open Tftb Tftb.Utils Finset

example :=
  C01_divider_negative (-1) (by inst4)

end
end Tftb.Props

namespace Tftb.Props
section
open Tftb Tftb.FM Tftb.Spec

example :=
  C12_fmhyp 8 1 2 1 1 (by inst4) (by inst4) (by inst4)

example :=
  C12_fmhyp_formula 8 1 2 1 1 (by inst4) (by inst4) (by inst4)

example :=
  C14_fmsin 8 (1/8) (3/8) 1 (1/4) 1 1 (by inst4) (by inst4) (by inst4) (by inst4)

end
end Tftb.Props
