import Mathlib.Analysis.Convex.StrictConvexSpace
import Mathlib.Analysis.InnerProductSpace.Convex
import Mathlib.Analysis.Complex.Convex
import Verif.Lemmas.Wvd

/-! # Sums of rotating unit vectors -/

namespace Tftb

open Finset ComplexConjugate Spec

theorem expi_re (a : ℝ) : (expi a).re = Real.cos a := by
  unfold expi; exact Complex.exp_ofReal_mul_I_re a

theorem expi_eq_one_iff (θ : ℝ) : expi (2 * Real.pi * θ) = 1 ↔ ∃ m : ℤ, θ = m := by
  unfold expi
  rw [Complex.exp_eq_one_iff]
  have hpi : (Real.pi : ℂ) ≠ 0 := Complex.ofReal_ne_zero.2 Real.pi_ne_zero
  constructor
  · rintro ⟨m, hm⟩
    refine ⟨m, ?_⟩
    have h2 : ((2 * Real.pi * θ : ℝ) : ℂ) = ((2 * Real.pi * m : ℝ) : ℂ) := by
      apply mul_right_cancel₀ Complex.I_ne_zero
      rw [hm]; push_cast; ring
    have h3 : 2 * Real.pi * θ = 2 * Real.pi * m := by exact_mod_cast h2
    exact mul_left_cancel₀ (by positivity) h3
  · rintro ⟨m, rfl⟩
    exact ⟨m, by push_cast; ring⟩

/-- Dirichlet's kernel. -/
theorem sum_cos_mul_sin (T : ℕ) (θ : ℝ) :
    (∑ τ ∈ Finset.Icc (-(T : ℤ)) T, Real.cos (2 * Real.pi * (τ * θ))) * Real.sin (Real.pi * θ)
      = Real.sin ((2 * T + 1) * (Real.pi * θ)) := by
  induction T with
  | zero => simp
  | succ T ih =>
    have hset : Finset.Icc (-((T + 1 : ℕ) : ℤ)) ((T + 1 : ℕ) : ℤ)
        = insert (((T + 1 : ℕ) : ℤ)) (insert (-((T + 1 : ℕ) : ℤ)) (Finset.Icc (-(T : ℤ)) T)) := by
      ext j
      simp only [Finset.mem_insert, Finset.mem_Icc]
      push_cast
      omega
    rw [hset, Finset.sum_insert, Finset.sum_insert, add_mul, add_mul, ih]
    · push_cast
      have h2 : Real.cos (2 * Real.pi * (-((T : ℝ) + 1) * θ)) = Real.cos (2 * Real.pi * (((T : ℝ) + 1) * θ)) := by
        rw [← Real.cos_neg]; congr 1; ring
      rw [show Real.sin ((2 * ((T : ℝ) + 1) + 1) * (Real.pi * θ))
          = Real.sin (2 * Real.pi * (((T : ℝ) + 1) * θ) + Real.pi * θ) by congr 1; ring,
        show Real.sin ((2 * (T : ℝ) + 1) * (Real.pi * θ))
          = Real.sin (2 * Real.pi * (((T : ℝ) + 1) * θ) - Real.pi * θ) by congr 1; ring,
        Real.sin_add, Real.sin_sub]
      rw [h2]; ring
    · simp only [Finset.mem_Icc]; push_cast; omega
    · simp only [Finset.mem_insert, Finset.mem_Icc]; push_cast; omega

/-- A weighted sum of cosines is at most the total weight. -/
theorem sum_weight_cos_le (S : Finset ℤ) (w : ℤ → ℝ) (hw : ∀ τ ∈ S, 0 ≤ w τ) (θ : ℝ) :
    ∑ τ ∈ S, w τ * Real.cos (2 * Real.pi * (τ * θ)) ≤ ∑ τ ∈ S, w τ :=
  Finset.sum_le_sum (fun τ hτ => mul_le_of_le_one_right (hw τ hτ) (Real.cos_le_one _))

/-- It is the total weight exactly when the rotation is a whole number of turns, as soon as the lag 1 has a positive weight. -/
theorem sum_weight_cos_eq_iff (S : Finset ℤ) (w : ℤ → ℝ) (hw : ∀ τ ∈ S, 0 ≤ w τ) (h1 : (1 : ℤ) ∈ S) (hw1 : 0 < w 1) (θ : ℝ) :
    ∑ τ ∈ S, w τ * Real.cos (2 * Real.pi * (τ * θ)) = ∑ τ ∈ S, w τ ↔ ∃ m : ℤ, θ = m := by
  constructor
  · intro h
    have h2 := (Finset.sum_eq_sum_iff_of_le
      (fun τ hτ => mul_le_of_le_one_right (hw τ hτ) (Real.cos_le_one (2 * Real.pi * ((τ : ℝ) * θ))))).1 h 1 h1
    have h3 : Real.cos (2 * Real.pi * (((1 : ℤ) : ℝ) * θ)) = 1 := by
      have : w 1 * Real.cos (2 * Real.pi * (((1 : ℤ) : ℝ) * θ)) = w 1 * 1 := by rw [h2, mul_one]
      exact mul_left_cancel₀ hw1.ne' this
    obtain ⟨m, hm⟩ := (Real.cos_eq_one_iff _).1 h3
    refine ⟨m, ?_⟩
    have : 2 * Real.pi * θ = 2 * Real.pi * m := by
      rw [show 2 * Real.pi * θ = 2 * Real.pi * (((1 : ℤ) : ℝ) * θ) by push_cast; ring, ← hm]; ring
    exact mul_left_cancel₀ (by positivity) this
  · rintro ⟨m, rfl⟩
    apply Finset.sum_congr rfl
    intro τ _
    rw [show 2 * Real.pi * ((τ : ℝ) * (m : ℝ)) = ((τ * m : ℤ) : ℝ) * (2 * Real.pi) by push_cast; ring,
      Real.cos_int_mul_two_pi, mul_one]

/-- A weighted sum of rotating unit vectors is no longer than the total weight. -/
theorem norm_sum_weight_le (S : Finset ℤ) (w : ℤ → ℝ) (hw : ∀ τ ∈ S, 0 ≤ w τ) (θ : ℝ) :
    ‖∑ τ ∈ S, (w τ : ℂ) * expi (2 * Real.pi * (τ * θ))‖ ≤ ∑ τ ∈ S, w τ := by
  refine (norm_sum_le _ _).trans (Finset.sum_le_sum (fun τ hτ => ?_))
  rw [norm_mul, norm_expi, mul_one, Complex.norm_real, Real.norm_of_nonneg (hw τ hτ)]

/-- It is as long exactly when the rotation is a whole number of turns, as soon as two neighbouring lags have positive weights. -/
theorem norm_sum_weight_eq_iff (S : Finset ℤ) (w : ℤ → ℝ) (hw : ∀ τ ∈ S, 0 ≤ w τ) {a : ℤ} (ha : a ∈ S) (hb : a + 1 ∈ S)
    (hwa : 0 < w a) (hwb : 0 < w (a + 1)) (θ : ℝ) :
    ‖∑ τ ∈ S, (w τ : ℂ) * expi (2 * Real.pi * (τ * θ))‖ = ∑ τ ∈ S, w τ ↔ ∃ m : ℤ, θ = m := by
  have hnorm : ∀ τ ∈ S, ‖(w τ : ℂ) * expi (2 * Real.pi * (τ * θ))‖ = w τ := by
    intro τ hτ
    rw [norm_mul, norm_expi, mul_one, Complex.norm_real, Real.norm_of_nonneg (hw τ hτ)]
  constructor
  · intro h
    have hab : a + 1 ∈ S.erase a := Finset.mem_erase.2 ⟨by omega, hb⟩
    rw [← Finset.add_sum_erase S _ ha, ← Finset.add_sum_erase S _ ha,
      ← Finset.add_sum_erase (S.erase a) _ hab, ← Finset.add_sum_erase (S.erase a) _ hab, ← add_assoc, ← add_assoc] at h
    have hrest : ‖∑ τ ∈ (S.erase a).erase (a + 1), (w τ : ℂ) * expi (2 * Real.pi * (τ * θ))‖
        ≤ ∑ τ ∈ (S.erase a).erase (a + 1), w τ :=
      norm_sum_weight_le _ _ (fun τ hτ => hw τ (Finset.mem_of_mem_erase (Finset.mem_of_mem_erase hτ))) θ
    have htri := norm_add_le ((w a : ℂ) * expi (2 * Real.pi * (a * θ)) + (w (a + 1) : ℂ) * expi (2 * Real.pi * (((a + 1 : ℤ) : ℝ) * θ)))
      (∑ τ ∈ (S.erase a).erase (a + 1), (w τ : ℂ) * expi (2 * Real.pi * (τ * θ)))
    have h2 := norm_add_le ((w a : ℂ) * expi (2 * Real.pi * (a * θ))) ((w (a + 1) : ℂ) * expi (2 * Real.pi * (((a + 1 : ℤ) : ℝ) * θ)))
    rw [hnorm a ha, hnorm (a + 1) hb] at h2
    have h3 : ‖(w a : ℂ) * expi (2 * Real.pi * (a * θ)) + (w (a + 1) : ℂ) * expi (2 * Real.pi * (((a + 1 : ℤ) : ℝ) * θ))‖
        = ‖(w a : ℂ) * expi (2 * Real.pi * (a * θ))‖ + ‖(w (a + 1) : ℂ) * expi (2 * Real.pi * (((a + 1 : ℤ) : ℝ) * θ))‖ := by
      rw [hnorm a ha, hnorm (a + 1) hb]
      linarith
    have h4 := (sameRay_iff_norm_add.2 h3).norm_smul_eq
    rw [hnorm a ha, hnorm (a + 1) hb, Complex.real_smul, Complex.real_smul] at h4
    rw [← expi_eq_one_iff]
    have h5 : expi (2 * Real.pi * (((a + 1 : ℤ) : ℝ) * θ)) = expi (2 * Real.pi * (a * θ)) * expi (2 * Real.pi * θ) := by
      rw [← expi_add]; congr 1; push_cast; ring
    rw [h5] at h4
    have h6 : (w a : ℂ) * ((w (a + 1) : ℂ) * expi (2 * Real.pi * (a * θ))) ≠ 0 := by
      refine mul_ne_zero (Complex.ofReal_ne_zero.2 hwa.ne') (mul_ne_zero (Complex.ofReal_ne_zero.2 hwb.ne') ?_)
      exact norm_ne_zero_iff.1 (by rw [norm_expi]; exact one_ne_zero)
    apply mul_left_cancel₀ h6
    rw [mul_one]
    linear_combination h4
  · rintro ⟨m, rfl⟩
    have : ∀ τ ∈ S, (w τ : ℂ) * expi (2 * Real.pi * ((τ : ℝ) * (m : ℝ))) = (w τ : ℂ) := by
      intro τ _
      rw [show 2 * Real.pi * ((τ : ℝ) * (m : ℝ)) = 2 * Real.pi * (((τ * m : ℤ)) : ℝ) by push_cast; ring,
        (expi_eq_one_iff _).2 ⟨_, rfl⟩, mul_one]
    rw [Finset.sum_congr rfl this, ← Complex.ofReal_sum, Complex.norm_real,
      Real.norm_of_nonneg (Finset.sum_nonneg hw)]

end Tftb
