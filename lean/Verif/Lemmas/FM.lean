import Verif.Model.FM
import Verif.Spec
import Verif.Lemmas.Array
import Mathlib.Analysis.SpecialFunctions.Trigonometric.Inverse

/-! # Helper lemmas for the frequency modulated generators -/

namespace Tftb

namespace Spec

theorem expi_add (a b : ℝ) : expi (a + b) = expi a * expi b := by
  unfold expi; rw [← Complex.exp_add]; congr 1; push_cast; ring

@[simp] theorem expi_zero : expi 0 = 1 := by unfold expi; simp

theorem expi_neg (a : ℝ) : expi (-a) = (expi a)⁻¹ := by
  unfold expi; rw [← Complex.exp_neg]; congr 1; push_cast; ring

theorem expi_sub (a b : ℝ) : expi (a - b) = expi a / expi b := by
  rw [sub_eq_add_neg, expi_add, expi_neg, div_eq_mul_inv]

@[simp] theorem norm_expi (a : ℝ) : ‖expi a‖ = 1 := Complex.norm_exp_ofReal_mul_I a

theorem expi_ne_zero (a : ℝ) : expi a ≠ 0 := Complex.exp_ne_zero _

theorem conj_expi (a : ℝ) : (starRingEnd ℂ) (expi a) = expi (-a) := by
  rw [expi_neg, Complex.inv_def, Complex.normSq_eq_norm_sq]; simp

theorem expi_eq_of_sub (a b : ℝ) (m : ℤ) (h : a - b = 2 * Real.pi * m) : expi a = expi b := by
  have : a = b + 2 * Real.pi * m := by linarith
  rw [this, expi_add]
  have : expi (2 * Real.pi * m) = 1 := by
    unfold expi
    have e : (((2 * Real.pi * m : ℝ)) : ℂ) * Complex.I = (m : ℂ) * (2 * Real.pi * Complex.I) := by
      push_cast; ring
    rw [e, Complex.exp_int_mul_two_pi_mul_I]
  rw [this, mul_one]

end Spec

namespace FM
open Spec

theorem exp_I_two (f t : ℝ) :
    Complex.exp (Complex.I * 2.0 * Real.pi * f * t) = expi (2 * Real.pi * f * t) := by
  unfold expi; congr 1; push_cast; norm_num; ring

theorem exp_I_two' (s : ℝ) :
    Complex.exp (Complex.I * 2.0 * Real.pi * s) = expi (2 * Real.pi * s) := by
  unfold expi; congr 1; push_cast; norm_num; ring

theorem exp_I (p : ℝ) : Complex.exp (Complex.I * p) = expi p := by
  unfold expi; congr 1; ring

theorem truncInt_natCast (k : ℕ) : truncInt (k : ℝ) = k := by
  unfold truncInt; rw [if_pos (by positivity)]; simp

/-- Closed form of `fmconst` for an integer time centre inside the signal. -/
theorem fmconst_ok (n k : ℕ) (f : ℝ) (hk : k < n) (hf : |f| ≤ 1 / 2) :
    fmconst n f (some k) = .ok (⟨n, fun i => expi (2 * Real.pi * f * ((i : ℝ) - k))⟩, ⟨n, fun _ => f⟩) := by
  have hn' : ¬ (n : ℤ) ≤ 0 := by omega
  have hf' : ¬ |f| > 0.5 := by norm_num; linarith
  have hy : ((arange 0 (n : ℤ)).map (fun t : ℤ => (t : ℝ) - (k : ℝ))).map
      (fun t : ℝ => Complex.exp (Complex.I * 2.0 * Real.pi * f * t))
      = ⟨n, fun i => expi (2 * Real.pi * f * ((i : ℝ) - k))⟩ := by
    simp only [Vec.map, arange]
    congr 1
    funext i
    rw [exp_I_two]; push_cast; rw [zero_add]
  simp only [fmconst, AM.defaultT0, if_neg hn', if_neg hf', hy, truncInt_natCast]
  rw [Vec.item_ok (by omega) (by show (k : ℤ) < (n : ℤ); omega)]
  have h1 : expi (2 * Real.pi * f * (((k : ℤ).toNat : ℝ) - k)) = 1 := by
    have : (((k : ℤ).toNat : ℕ) : ℝ) = k := by simp
    rw [this]; simp
  simp only [ok_bind, h1]
  simp [Vec.map]

theorem round_half_lt (n : ℕ) (hn : 1 ≤ n) :
    0 ≤ roundEven ((n : ℝ) / 2) ∧ roundEven ((n : ℝ) / 2) < n := by
  rw [roundEven_half]; split <;> omega

theorem round_half_pos (n : ℕ) (hn : 2 ≤ n) :
    1 ≤ roundEven ((n : ℝ) / 2) ∧ roundEven ((n : ℝ) / 2) ≤ n := by
  rw [roundEven_half]; split <;> omega

theorem fmconst_default (n : ℕ) (f : ℝ) :
    fmconst n f none = fmconst n f (some ((roundEven ((n : ℝ) / 2) : ℤ) : ℝ)) := by
  simp [fmconst, AM.defaultT0]

/-- Phase (in cycles) of `fmlin` at sample time `t = 0, 1, …`. -/
noncomputable def linPhase (n : ℕ) (fi ff t : ℝ) : ℝ := fi * t + (ff - fi) / (2 * ((n : ℝ) - 1)) * t ^ 2

theorem fmlin_ok (n k : ℕ) (fi ff : ℝ) (hn : 2 ≤ n) (hk : 1 ≤ k) (hkn : k ≤ n)
    (hi : |fi| ≤ 1 / 2) (hf : |ff| ≤ 1 / 2) :
    fmlin n fi ff (some k) = .ok (⟨n, fun i => expi (2 * Real.pi *
      (linPhase n fi ff i - linPhase n fi ff ((k : ℝ) - 1)))⟩, linspace fi ff n) := by
  have hn' : ¬ (n : ℤ) ≤ 0 := by omega
  have hf' : ¬ (|fi| > 0.5 ∨ |ff| > 0.5) := by
    rw [not_or]; norm_num; constructor <;> linarith
  have hnr : (2 : ℝ) ≤ n := by exact_mod_cast hn
  have hz : ¬ (2.0 * (((n : ℤ) : ℝ) - 1) = 0) := by
    push_cast
    intro h
    have : (2.0 : ℝ) = 2 := by norm_num
    rw [this] at h
    linarith
  have hy : (((arange 1 ((n : ℤ) + 1)).map (fun t : ℤ => (t : ℝ))).map (fun y => fi * (y - (k : ℝ))
      + ((ff - fi) / (2.0 * (((n : ℤ) : ℝ) - 1))) * ((y - 1) ^ 2 - ((k : ℝ) - 1) ^ 2))).map
      (fun y : ℝ => Complex.exp (Complex.I * 2.0 * Real.pi * y))
      = ⟨n, fun i => expi (2 * Real.pi *
        (linPhase n fi ff i - linPhase n fi ff ((k : ℝ) - 1)))⟩ := by
    simp only [Vec.map, arange]
    congr 1
    · omega
    · funext i
      rw [exp_I_two']
      have h2 : (2.0 : ℝ) = 2 := by norm_num
      unfold linPhase
      rw [h2]; push_cast
      congr 2; ring
  simp only [fmlin, AM.defaultT0, if_neg hn', if_neg hf', if_neg hz, hy, truncInt_natCast]
  rw [Vec.item_ok (by omega) (by show (k : ℤ) - 1 < (n : ℤ); omega)]
  have h1 : ((((k : ℤ) - 1).toNat : ℕ) : ℝ) = (k : ℝ) - 1 := by
    have : ((((k : ℤ) - 1).toNat : ℤ) : ℝ) = (((k : ℤ) - 1 : ℤ) : ℝ) := by
      rw [Int.toNat_of_nonneg (by omega)]
    push_cast at this ⊢
    exact this
  simp only [ok_bind, h1, sub_self, mul_zero, expi_zero]
  simp [Vec.map]

end FM
end Tftb
