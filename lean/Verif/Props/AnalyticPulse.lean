import Verif.Props.Analytic
import Verif.Props.TimeFreq
import Mathlib.Analysis.SpecialFunctions.Trigonometric.Bounds
import Mathlib.Analysis.Real.Pi.Bounds

/-! # The analytic impulse in time and frequency (C117) -/

namespace Tftb.Props

open Tftb Finset Tftb.Spec Tftb.Analytic Tftb.TF

/-! ## Sums -/

/-- The one-sided sum `1 + 2 ζ + … + 2 ζ ^ (M - 1)`. -/
theorem sum_half_mask (ζ : ℂ) (M : ℕ) (hM : 1 ≤ M) :
    (1 - ζ) * ∑ k ∈ range M, (if k = 0 then 1 else 2) * ζ ^ k = 1 + ζ - 2 * ζ ^ M := by
  induction M, hM using Nat.le_induction with
  | base => simp; ring
  | succ M hM ih =>
    rw [Finset.sum_range_succ, mul_add, ih, if_neg (by omega)]
    ring

theorem sum_mask_split (n : ℕ) (hn : 1 ≤ n) (f : ℕ → ℂ) :
    ∑ k ∈ range n, (hilbertMask n k : ℂ) * f k
      = ∑ k ∈ range ((n + 1) / 2), (if k = 0 then 1 else 2) * f k + if n % 2 = 0 then f (n / 2) else 0 := by
  have h1 : ∀ k ∈ range ((n + 1) / 2), (hilbertMask n k : ℂ) * f k = (if k = 0 then 1 else 2) * f k := by
    intro k hk
    have hk' := Finset.mem_range.1 hk
    unfold hilbertMask
    split_ifs <;> first | (push_cast; rfl) | (exfalso; omega)
  have e : n = (n + 1) / 2 + n / 2 := by omega
  conv_lhs => rw [e]
  rw [Finset.sum_range_add, ← e, Finset.sum_congr rfl h1]
  congr 1
  by_cases h2 : n % 2 = 0
  · rw [if_pos h2, Finset.sum_eq_single_of_mem 0 (Finset.mem_range.2 (by omega))]
    · have : (n + 1) / 2 + 0 = n / 2 := by omega
      rw [this]
      unfold hilbertMask
      rw [if_neg (by omega), if_neg (by omega), if_pos (by omega)]
      simp
    · intro j _ hj
      unfold hilbertMask
      rw [if_neg (by omega), if_neg (by omega), if_neg (by omega)]
      simp
  · rw [if_neg h2]
    apply Finset.sum_eq_zero
    intro j _
    unfold hilbertMask
    rw [if_neg (by omega), if_neg (by omega), if_neg (by omega)]
    simp

/-- `exp (i π d / n)` to the power `n`. -/
theorem half_root_pow (n : ℕ) (hn : 1 ≤ n) (d : ℤ) :
    Complex.exp (((Real.pi * d / n : ℝ) : ℂ) * Complex.I) ^ n = if Even d then 1 else -1 := by
  have hn' : (n : ℂ) ≠ 0 := by exact_mod_cast (by omega : n ≠ 0)
  rw [← Complex.exp_nat_mul]
  have : (n : ℂ) * (((Real.pi * d / n : ℝ) : ℂ) * Complex.I) = (d : ℂ) * (Real.pi * Complex.I) := by
    push_cast; field_simp
  rw [this, Complex.exp_int_mul, Complex.exp_pi_mul_I]
  by_cases h : Even d
  · rw [if_pos h, h.neg_one_zpow]
  · rw [if_neg h, (Int.not_even_iff_odd.1 h).neg_one_zpow]

/-- The analytic impulse as a sum. -/
theorem pulse_sum (n p : ℕ) (hp : p < n) : ∃ z, anapulse n (some (p : ℝ)) = .ok z ∧ z.len = n ∧
    (∀ t < n, (z.get t).re = if t = p then 1 else 0) ∧ (∀ k < n, ‖dft z k‖ = hilbertMask n k) ∧
    ∀ t < n, z.get t = (∑ k ∈ range n, (hilbertMask n k : ℂ) * Complex.exp (((2 * (Real.pi * ((t : ℤ) - (p : ℤ) : ℤ) / n) : ℝ) : ℂ) * Complex.I) ^ k) / n := by
  have hn : n ≠ 0 := by omega
  obtain ⟨z, hz, hl, hre, hs⟩ := hilbert_spec (x := ⟨n, fun t => if (t : ℝ) = (p : ℝ) then 1 else 0⟩) hn
  have hX : ∀ k : ℕ, dftC n (fun t => (((if (t : ℝ) = (p : ℝ) then 1 else 0 : ℝ)) : ℂ)) k = rootPow n ((p : ℤ) * k) := by
    intro k
    unfold dftC
    rw [Finset.sum_eq_single_of_mem p (Finset.mem_range.2 hp)]
    · simp
    · intro j _ hj
      dsimp only
      rw [if_neg (by exact_mod_cast hj)]
      simp
  refine ⟨z, ?_, hl, fun t ht => ?_, fun k hk => ?_, fun t ht => ?_⟩
  · unfold anapulse
    rw [← hz]
    simp only [arange, Vec.map, Option.getD_some]
    congr 2
    funext t
    simp
  · rw [hre t ht]
    simp
  · rw [dft_eq_dftC, hl, hs k hk]
    show ‖_ * dftC n _ _‖ = _
    rw [hX, norm_mul, norm_rootPow, mul_one, Complex.norm_real, Real.norm_eq_abs, abs_of_nonneg]
    unfold hilbertMask
    split_ifs <;> norm_num
  · rw [← idftC_dftC hn z.get ht]
    unfold idftC
    congr 1
    refine Finset.sum_congr rfl fun k hk => ?_
    have := hs k (Finset.mem_range.1 hk)
    dsimp only at this ⊢
    rw [this, hX, mul_assoc, ← rootPow_add, show (p : ℤ) * (k : ℤ) + -((k : ℤ) * (t : ℤ)) = (((p : ℤ) - t)) * (k : ℕ) by ring, rootPow_nat_mul, rootPow_eq_exp]
    congr 4
    push_cast
    ring

theorem exp_split (x : ℝ) : Complex.exp ((x : ℂ) * Complex.I) = (Real.cos x : ℂ) + (Real.sin x : ℂ) * Complex.I := by
  rw [Complex.exp_mul_I, ← Complex.ofReal_cos, ← Complex.ofReal_sin]

theorem sin_offset_ne {n : ℕ} {d : ℤ} (h0 : d ≠ 0) (h1 : |d| < n) : Real.sin (Real.pi * d / n) ≠ 0 := by
  have hn : (0 : ℝ) < n := by
    have : (0 : ℤ) < n := lt_of_le_of_lt (abs_nonneg d) h1
    exact_mod_cast this
  intro h
  obtain ⟨m, hm⟩ := Real.sin_eq_zero_iff.1 h
  have hd : (d : ℝ) = m * n := by
    have := hm
    rw [eq_div_iff hn.ne'] at this
    have hpi := Real.pi_ne_zero
    apply mul_left_cancel₀ hpi
    linarith
  have hd' : d = m * n := by exact_mod_cast hd
  rcases eq_or_ne m 0 with rfl | hm0
  · exact h0 (by simpa using hd')
  · have : (1 : ℤ) ≤ |m| := Int.one_le_abs hm0
    rw [hd', abs_mul, Nat.abs_cast] at h1
    nlinarith

/-- The imaginary part at distance `d` of the impulse. -/
theorem pulse_im (n p : ℕ) (hp : p < n) : ∃ z, anapulse n (some (p : ℝ)) = .ok z ∧ z.len = n ∧
    (∀ t < n, (z.get t).re = if t = p then 1 else 0) ∧ (∀ k < n, ‖dft z k‖ = hilbertMask n k) ∧
    ∀ t < n, (t = p → (z.get t).im = 0) ∧ (t ≠ p → ∀ d : ℤ, d = (t : ℤ) - p →
      (z.get t).im = (if n % 2 = 0 then (1 - if Even d then 1 else -1) * Real.cos (Real.pi * d / n)
        else Real.cos (Real.pi * d / n) - if Even d then 1 else -1) / (n * Real.sin (Real.pi * d / n))) := by
  obtain ⟨z, e, hl, hre, hdft, hz⟩ := pulse_sum n p hp
  have hn : (n : ℂ) ≠ 0 := by exact_mod_cast (by omega : n ≠ 0)
  have hnR : (n : ℝ) ≠ 0 := by exact_mod_cast (by omega : n ≠ 0)
  refine ⟨z, e, hl, hre, hdft, fun t ht => ⟨fun htp => ?_, fun htp d hd => ?_⟩⟩
  · subst htp
    rw [hz t ht]
    have : ∀ k ∈ range n, (hilbertMask n k : ℂ) * Complex.exp (((2 * (Real.pi * ((t : ℤ) - (t : ℤ) : ℤ) / n) : ℝ) : ℂ) * Complex.I) ^ k = ((hilbertMask n k : ℝ) : ℂ) := by
      intro k _
      simp
    rw [Finset.sum_congr rfl this, ← Complex.ofReal_sum, ← Complex.ofReal_natCast, ← Complex.ofReal_div, Complex.ofReal_im]
  · have hd0 : d ≠ 0 := by omega
    have hdn : |d| < n := by rw [abs_lt]; omega
    have hs := sin_offset_ne hd0 hdn
    set c := Real.cos (Real.pi * d / n) with hc
    set s := Real.sin (Real.pi * d / n) with hsdef
    set h := Complex.exp (((Real.pi * d / n : ℝ) : ℂ) * Complex.I) with hh
    have hcs : h = (c : ℂ) + (s : ℂ) * Complex.I := exp_split _
    have h2 : Complex.exp (((2 * (Real.pi * ((t : ℤ) - (p : ℤ) : ℤ) / n) : ℝ) : ℂ) * Complex.I) = h ^ 2 := by
      rw [hh, ← Complex.exp_nat_mul, hd]
      congr 1
      push_cast
      ring
    have hone : (c : ℂ) ^ 2 + (s : ℂ) ^ 2 = 1 := by
      have := Real.cos_sq_add_sin_sq (Real.pi * d / n)
      rw [← hc, ← hsdef] at this
      exact_mod_cast this
    have hI : Complex.I ^ 2 = -1 := Complex.I_sq
    have hplus : 1 + h ^ 2 = 2 * c * h := by rw [hcs]; linear_combination (-1 : ℂ) * hone + (s : ℂ) ^ 2 * hI
    have hminus : 1 - h ^ 2 = -2 * Complex.I * s * h := by rw [hcs]; linear_combination (-1 : ℂ) * hone + (s : ℂ) ^ 2 * hI
    have hh0 : h ≠ 0 := Complex.exp_ne_zero _
    have hpow := half_root_pow n (by omega) d
    rw [← hh] at hpow
    set ε : ℝ := if Even d then 1 else -1 with hε
    have hpow' : h ^ n = (ε : ℂ) := by rw [hpow, hε]; split_ifs <;> simp
    have hsum := hz t ht
    rw [h2, sum_mask_split n (by omega)] at hsum
    have hzn : z.get t * n = ∑ k ∈ range ((n + 1) / 2), (if k = 0 then 1 else 2) * (h ^ 2) ^ k + if n % 2 = 0 then (h ^ 2) ^ (n / 2) else 0 := by
      rw [hsum]; field_simp
    have hS := sum_half_mask (h ^ 2) ((n + 1) / 2) (by omega)
    have key : z.get t * n * s = Complex.I * (if n % 2 = 0 then (1 - ε) * c else c - ε : ℝ) := by
      have hmain : (1 - h ^ 2) * (z.get t * n) = -2 * Complex.I * h * (Complex.I * (if n % 2 = 0 then (1 - ε) * c else c - ε : ℝ)) := by
        rw [hzn, mul_add, hS]
        by_cases hev : n % 2 = 0
        · rw [if_pos hev, if_pos hev, ← pow_mul, ← pow_mul, show 2 * ((n + 1) / 2) = n by omega, show 2 * (n / 2) = n by omega, hpow']
          push_cast
          linear_combination (1 - (ε : ℂ)) * hplus + 2 * h * (1 - (ε : ℂ)) * (c : ℂ) * hI
        · rw [if_neg hev, if_neg hev, ← pow_mul, show 2 * ((n + 1) / 2) = n + 1 by omega, pow_succ h n, hpow']
          push_cast
          linear_combination hplus + 2 * h * ((c : ℂ) - ε) * hI
      rw [hminus] at hmain
      have h2I : (-2 * Complex.I * h : ℂ) ≠ 0 := mul_ne_zero (mul_ne_zero (by norm_num) Complex.I_ne_zero) hh0
      apply mul_left_cancel₀ h2I
      linear_combination hmain
    have him := congrArg Complex.im key
    have e1 : (z.get t * n * s).im = (z.get t).im * n * s := by
      rw [Complex.im_mul_ofReal, ← Complex.ofReal_natCast, Complex.im_mul_ofReal]
    rw [e1, Complex.I_mul_im, Complex.ofReal_re] at him
    rw [eq_div_iff (mul_ne_zero hnR hs), ← mul_assoc, him]

/-! ## The statements -/

/-- **Even length.**  The analytic impulse at sample `p` of `n`: 1 at `p`, zero at every other sample at even distance, `i 2 / n cot(π d / n)` at odd distance `d`. -/
theorem C117_even (n p : ℕ) (hp : p < n) (hn : n % 2 = 0) : ∃ z, anapulse n (some (p : ℝ)) = .ok z ∧ z.len = n ∧ z.get p = 1 ∧
    ∀ t < n, t ≠ p → ∀ d : ℤ, d = (t : ℤ) - p → (d % 2 = 0 → z.get t = 0) ∧
      (d % 2 = 1 → z.get t = Complex.I * ((2 * Real.cos (Real.pi * d / n) / (n * Real.sin (Real.pi * d / n)) : ℝ) : ℂ)) := by
  obtain ⟨z, e, hl, hre, -, him⟩ := pulse_im n p hp
  refine ⟨z, e, hl, Complex.ext (by rw [hre p hp, if_pos rfl]; rfl) (by rw [(him p hp).1 rfl]; rfl), fun t ht htp d hd => ⟨fun h => ?_, fun h => ?_⟩⟩
  · have := (him t ht).2 htp d hd
    rw [if_pos hn, if_pos (Int.even_iff.2 h), sub_self, zero_mul, zero_div] at this
    exact Complex.ext (by rw [hre t ht, if_neg htp]; rfl) this
  · have := (him t ht).2 htp d hd
    rw [if_pos hn, if_neg (by rw [Int.even_iff]; omega)] at this
    refine Complex.ext ?_ ?_
    · rw [hre t ht, if_neg htp, Complex.I_mul_re, Complex.ofReal_im, neg_zero]
    · rw [this, Complex.I_mul_im, Complex.ofReal_re]
      norm_num

/-- **Odd length.**  At distance `d` from the impulse: `-i / n tan(π d / (2 n))` for even, `i / n cot(π d / (2 n))` for odd distances, here as
`(cos x - 1) / sin x` and `(cos x + 1) / sin x` with `x = π d / n`. -/
theorem C117_odd (n p : ℕ) (hp : p < n) (hn : n % 2 = 1) : ∃ z, anapulse n (some (p : ℝ)) = .ok z ∧ z.len = n ∧ z.get p = 1 ∧
    ∀ t < n, t ≠ p → ∀ d : ℤ, d = (t : ℤ) - p →
      (d % 2 = 0 → z.get t = Complex.I * (((Real.cos (Real.pi * d / n) - 1) / (n * Real.sin (Real.pi * d / n)) : ℝ) : ℂ)) ∧
      (d % 2 = 1 → z.get t = Complex.I * (((Real.cos (Real.pi * d / n) + 1) / (n * Real.sin (Real.pi * d / n)) : ℝ) : ℂ)) := by
  obtain ⟨z, e, hl, hre, -, him⟩ := pulse_im n p hp
  have hn' : ¬ n % 2 = 0 := by omega
  refine ⟨z, e, hl, Complex.ext (by rw [hre p hp, if_pos rfl]; rfl) (by rw [(him p hp).1 rfl]; rfl), fun t ht htp d hd => ⟨fun h => ?_, fun h => ?_⟩⟩
  · have := (him t ht).2 htp d hd
    rw [if_neg hn', if_pos (Int.even_iff.2 h)] at this
    refine Complex.ext ?_ ?_
    · rw [hre t ht, if_neg htp, Complex.I_mul_re, Complex.ofReal_im, neg_zero]
    · rw [this, Complex.I_mul_im, Complex.ofReal_re]
  · have := (him t ht).2 htp d hd
    rw [if_neg hn', if_neg (by rw [Int.even_iff]; omega), sub_neg_eq_add] at this
    refine Complex.ext ?_ ?_
    · rw [hre t ht, if_neg htp, Complex.I_mul_re, Complex.ofReal_im, neg_zero]
    · rw [this, Complex.I_mul_im, Complex.ofReal_re]

theorem mul_cos_le_sin {x : ℝ} (h0 : 0 ≤ x) (h1 : x ≤ Real.pi / 2) : x * Real.cos x ≤ Real.sin x := by
  rcases h1.lt_or_eq with h | h
  · have hc : 0 < Real.cos x := Real.cos_pos_of_mem_Ioo ⟨by linarith [Real.pi_pos], h⟩
    have := Real.le_tan h0 h
    rw [Real.tan_eq_sin_div_cos, le_div_iff₀ hc] at this
    exact this
  · rw [h, Real.cos_pi_div_two, Real.sin_pi_div_two]; simp

/-- `(1 + cos x) / sin x ≤ 2 / x`. -/
theorem one_add_cos_mul_le {x : ℝ} (h0 : 0 ≤ x) (h1 : x ≤ Real.pi / 2) : (1 + Real.cos x) * x ≤ 2 * Real.sin x := by
  have h := mul_cos_le_sin (x := x / 2) (by linarith) (by linarith [Real.pi_pos])
  have hc : 0 ≤ Real.cos (x / 2) := Real.cos_nonneg_of_mem_Icc ⟨by linarith [Real.pi_pos], by linarith [Real.pi_pos]⟩
  have e1 : Real.cos x = 2 * Real.cos (x / 2) ^ 2 - 1 := by rw [← Real.cos_two_mul]; congr 1; ring
  have e2 : Real.sin x = 2 * Real.sin (x / 2) * Real.cos (x / 2) := by rw [← Real.sin_two_mul]; congr 1; ring
  rw [e1, e2]
  nlinarith

/-- **Decay.**  Away from the impulse the modulus is at most `2 / π` over the circular distance; in particular it is largest, and 1, at the impulse only. -/
theorem C117_decay (n p : ℕ) (hp : p < n) : ∃ z, anapulse n (some (p : ℝ)) = .ok z ∧ z.get p = 1 ∧
    ∀ t < n, t ≠ p → ∀ δ : ℕ, 1 ≤ δ → 2 * δ ≤ n → ((t : ℤ) - p = δ ∨ (t : ℤ) - p = -δ ∨ (t : ℤ) - p = n - δ ∨ (t : ℤ) - p = δ - n) →
      ‖z.get t‖ ≤ 2 / (Real.pi * δ) ∧ ‖z.get t‖ < 1 := by
  obtain ⟨z, e, hl, hre, -, him⟩ := pulse_im n p hp
  refine ⟨z, e, Complex.ext (by rw [hre p hp, if_pos rfl]; rfl) (by rw [(him p hp).1 rfl]; rfl), fun t ht htp δ h1 h2 hδ => ?_⟩
  have hn0 : (0 : ℝ) < n := by exact_mod_cast (by omega : 0 < n)
  have hδ1 : (1 : ℝ) ≤ δ := by exact_mod_cast h1
  have hδ2 : (2 : ℝ) * δ ≤ n := by exact_mod_cast h2
  set x := Real.pi * δ / n with hx
  have hpi := Real.pi_pos
  have hx0 : 0 < x := by rw [hx]; positivity
  have hx1 : x ≤ Real.pi / 2 := by rw [hx, div_le_div_iff₀ hn0 two_pos]; nlinarith
  set d : ℤ := (t : ℤ) - p with hd
  have htrig : |Real.cos (Real.pi * d / n)| = Real.cos x ∧ |Real.sin (Real.pi * d / n)| = Real.sin x := by
    have hcx : 0 ≤ Real.cos x := Real.cos_nonneg_of_mem_Icc ⟨by linarith, hx1⟩
    have hsx : 0 ≤ Real.sin x := Real.sin_nonneg_of_nonneg_of_le_pi hx0.le (by linarith)
    rcases hδ with h | h | h | h
    · have : Real.pi * d / n = x := by rw [h, hx]; push_cast; ring
      rw [this, abs_of_nonneg hcx, abs_of_nonneg hsx]; exact ⟨rfl, rfl⟩
    · have : Real.pi * d / n = -x := by rw [h, hx]; push_cast; ring
      rw [this, Real.cos_neg, Real.sin_neg, abs_neg, abs_of_nonneg hcx, abs_of_nonneg hsx]; exact ⟨rfl, rfl⟩
    · have : Real.pi * d / n = Real.pi - x := by rw [h, hx]; push_cast; field_simp
      rw [this, Real.cos_pi_sub, Real.sin_pi_sub, abs_neg, abs_of_nonneg hcx, abs_of_nonneg hsx]; exact ⟨rfl, rfl⟩
    · have : Real.pi * d / n = x - Real.pi := by rw [h, hx]; push_cast; field_simp
      rw [this, Real.cos_sub_pi, Real.sin_sub_pi, abs_neg, abs_neg, abs_of_nonneg hcx, abs_of_nonneg hsx]; exact ⟨rfl, rfl⟩
  have hsin : 0 < Real.sin x := Real.sin_pos_of_pos_of_lt_pi hx0 (by linarith)
  have hzi : ‖z.get t‖ = |(z.get t).im| := by
    have : z.get t = ((z.get t).im : ℂ) * Complex.I := Complex.ext (by rw [hre t ht, if_neg htp]; simp) (by simp)
    conv_lhs => rw [this]
    rw [norm_mul, Complex.norm_I, mul_one, Complex.norm_real, Real.norm_eq_abs]
  have hnum : |(z.get t).im| ≤ (1 + Real.cos x) / (n * Real.sin x) := by
    rw [(him t ht).2 htp d hd, abs_div, abs_mul, htrig.2, Nat.abs_cast]
    refine div_le_div_of_nonneg_right ?_ (by positivity)
    rw [← htrig.1]
    have hc1 := Real.abs_cos_le_one (Real.pi * d / n)
    have hlo := neg_abs_le (Real.cos (Real.pi * d / n))
    have hhi := le_abs_self (Real.cos (Real.pi * d / n))
    split_ifs <;> rw [abs_le] <;> constructor <;> linarith
  have hbound : (1 + Real.cos x) / (n * Real.sin x) ≤ 2 / (Real.pi * δ) := by
    rw [div_le_div_iff₀ (by positivity) (by positivity)]
    have := one_add_cos_mul_le hx0.le hx1
    have hxn : Real.pi * δ = x * n := by rw [hx]; field_simp
    rw [hxn]
    nlinarith
  have hfin : ‖z.get t‖ ≤ 2 / (Real.pi * δ) := by rw [hzi]; exact hnum.trans hbound
  refine ⟨hfin, lt_of_le_of_lt hfin ?_⟩
  rw [div_lt_one (by positivity)]
  nlinarith [Real.pi_gt_three]

/-- **Peak.**  The sample of the impulse is the only one of largest modulus. -/
theorem C117_peak (n p : ℕ) (hp : p < n) : ∃ z, anapulse n (some (p : ℝ)) = .ok z ∧ ∀ t < n, t ≠ p → ‖z.get t‖ < ‖z.get p‖ := by
  obtain ⟨z, e, h1, h⟩ := C117_decay n p hp
  refine ⟨z, e, fun t ht htp => ?_⟩
  rw [h1, norm_one]
  rcases Nat.lt_or_ge t p with hlt | hge
  · by_cases h2 : 2 * (p - t) ≤ n
    · exact (h t ht htp (p - t) (by omega) h2 (by omega)).2
    · exact (h t ht htp (n - (p - t)) (by omega) (by omega) (by omega)).2
  · by_cases h2 : 2 * (t - p) ≤ n
    · exact (h t ht htp (t - p) (by omega) h2 (by omega)).2
    · exact (h t ht htp (n - (t - p)) (by omega) (by omega) (by omega)).2

theorem mask_sq_sum (n : ℕ) (hn : 1 ≤ n) : ∑ k ∈ range n, hilbertMask n k ^ 2 = if n % 2 = 0 then 2 * (n : ℝ) - 2 else 2 * (n : ℝ) - 1 := by
  have hhalf : ∀ M : ℕ, 1 ≤ M → ∑ k ∈ range M, (if k = 0 then (1 : ℝ) else 2) ^ 2 = 4 * M - 3 := by
    intro M hM
    induction M, hM using Nat.le_induction with
    | base => norm_num
    | succ M hM ih => rw [Finset.sum_range_succ, ih, if_neg (by omega)]; push_cast; ring
  have h1 : ∀ k ∈ range ((n + 1) / 2), hilbertMask n k ^ 2 = (if k = 0 then (1 : ℝ) else 2) ^ 2 := by
    intro k hk
    have hk' := Finset.mem_range.1 hk
    unfold hilbertMask
    split_ifs <;> first | rfl | (exfalso; omega)
  have e : n = (n + 1) / 2 + n / 2 := by omega
  conv_lhs => rw [e]
  rw [Finset.sum_range_add, ← e, Finset.sum_congr rfl h1, hhalf _ (by omega)]
  by_cases h2 : n % 2 = 0
  · rw [if_pos h2, Finset.sum_eq_single_of_mem 0 (Finset.mem_range.2 (by omega))]
    · unfold hilbertMask
      rw [if_neg (by omega), if_neg (by omega), if_pos (by omega)]
      have : (n : ℝ) = 2 * ((n + 1) / 2 : ℕ) := by exact_mod_cast (by omega : n = 2 * ((n + 1) / 2))
      rw [this]; ring
    · intro j _ hj
      unfold hilbertMask
      rw [if_neg (by omega), if_neg (by omega), if_neg (by omega)]
      simp
  · rw [if_neg h2, Finset.sum_eq_zero]
    · have : (n : ℝ) + 1 = 2 * ((n + 1) / 2 : ℕ) := by exact_mod_cast (by omega : n + 1 = 2 * ((n + 1) / 2))
      linarith
    · intro j _
      unfold hilbertMask
      rw [if_neg (by omega), if_neg (by omega), if_neg (by omega)]
      simp

/-- **Energy and spectrum.**  The energy is `2 - 2 / n` (even) or `2 - 1 / n` (odd lengths), not that of the impulse; all bins of positive frequency have modulus 2. -/
theorem C117_energy (n p : ℕ) (hp : p < n) : ∃ z, anapulse n (some (p : ℝ)) = .ok z ∧
    energy z = (if n % 2 = 0 then 2 - 2 / (n : ℝ) else 2 - 1 / (n : ℝ)) ∧ ‖dft z 0‖ = 1 ∧ (∀ k, 0 < k → 2 * k < n → ‖dft z k‖ = 2) := by
  obtain ⟨z, e, hl, -, hdft, -⟩ := pulse_im n p hp
  have hn : n ≠ 0 := by omega
  have hnR : (n : ℝ) ≠ 0 := by exact_mod_cast hn
  refine ⟨z, e, ?_, ?_, fun k h0 h1 => ?_⟩
  · have h := parseval hn z.get
    have h1 : ∀ k ∈ range n, ‖dftC n z.get k‖ ^ 2 = hilbertMask n k ^ 2 := by
      intro k hk
      rw [← hdft k (Finset.mem_range.1 hk), dft_eq_dftC, hl]
    rw [Finset.sum_congr rfl h1, mask_sq_sum n (by omega)] at h
    unfold energy
    rw [hl]
    apply mul_left_cancel₀ hnR
    rw [← h]
    split_ifs <;> field_simp
  · rw [hdft 0 (by omega)]; unfold hilbertMask; rw [if_pos rfl]
  · rw [hdft k (by omega)]; unfold hilbertMask; rw [if_neg (by omega), if_pos h1]

theorem wmean_symmetric {n : ℕ} {w : ℕ → ℝ} (hw : ∀ i < n, w (n - 1 - i) = w i) (hS : ∑ i ∈ range n, w i ≠ 0) :
    wmean n (fun i => (i : ℝ)) w = ((n : ℝ) - 1) / 2 := by
  unfold wmean
  rw [div_eq_iff hS]
  have h := Finset.sum_range_reflect (fun i => (i : ℝ) * w i) n
  have h2 : ∑ i ∈ range n, (((n - 1 - i : ℕ) : ℝ)) * w (n - 1 - i) = ∑ i ∈ range n, ((n : ℝ) - 1 - i) * w i := by
    refine Finset.sum_congr rfl fun i hi => ?_
    have hi' := Finset.mem_range.1 hi
    rw [hw i hi', Nat.cast_sub (by omega), Nat.cast_sub (by omega)]
    simp
  rw [h2] at h
  have h3 : ∑ i ∈ range n, ((n : ℝ) - 1 - i) * w i = ((n : ℝ) - 1) * ∑ i ∈ range n, w i - ∑ i ∈ range n, (i : ℝ) * w i := by
    rw [Finset.mul_sum, ← Finset.sum_sub_distrib]
    exact Finset.sum_congr rfl fun i _ => by ring
  linarith

/-- **Where `loctime` finds it.**  An analytic impulse in the middle, at sample `n / 2` of an even or `(n - 1) / 2` of an odd number, is located exactly there. -/
theorem C117_loctime (n p : ℕ) (hn : 1 ≤ n) (hp : 2 * p = n ∨ 2 * p + 1 = n) : ∃ z T, anapulse n (some (p : ℝ)) = .ok z ∧ loctime z = .ok ((p : ℝ), T) := by
  obtain ⟨z, e, hl, hre, -, him⟩ := pulse_im n p (by omega)
  have hzp : z.get p = 1 := Complex.ext (by rw [hre p (by omega), if_pos rfl]; rfl) (by rw [(him p (by omega)).1 rfl]; rfl)
  have hE : energy z ≠ 0 := by
    have : (1 : ℝ) ≤ energy z := by
      have h := Finset.single_le_sum (f := fun i => ‖z.get i‖ ^ 2) (fun i _ => sq_nonneg _) (Finset.mem_range.2 (show p < z.len by omega))
      simp only [hzp, norm_one, one_pow] at h
      exact h
    linarith
  have hnorm : ∀ t < n, ‖z.get t‖ ^ 2 = (if t = p then 1 else 0) + (z.get t).im ^ 2 := by
    intro t ht
    rw [← Complex.normSq_eq_norm_sq, Complex.normSq_apply, hre t ht]
    split_ifs <;> ring
  have hsym : ∀ t < n, ∀ u < n, (t : ℤ) - p = p - u → ‖z.get t‖ ^ 2 = ‖z.get u‖ ^ 2 := by
    intro t ht u hu h
    rw [hnorm t ht, hnorm u hu]
    by_cases htp : t = p
    · have hup : u = p := by omega
      rw [htp, hup]
    · have hup : u ≠ p := by omega
      rw [if_neg htp, if_neg hup, (him t ht).2 htp _ rfl, (him u hu).2 hup _ rfl]
      have hd : ((t : ℤ) - p) = -((u : ℤ) - p) := by omega
      rw [hd]
      simp only [even_neg, Int.cast_neg, mul_neg, neg_div, Real.cos_neg, Real.sin_neg, div_neg, neg_sq]
  refine ⟨z, 2 * Real.sqrt (Real.pi * wvar z.len (fun i => (i : ℝ)) (fun i => ‖z.get i‖ ^ 2)), e, ?_⟩
  rw [C44_loctime z hE, hl]
  congr 2
  have hS : ∑ i ∈ range n, ‖z.get i‖ ^ 2 ≠ 0 := by
    have := hE
    unfold energy at this
    rwa [hl] at this
  rcases hp with h | h
  · obtain ⟨m, rfl⟩ : ∃ m, n = m + 1 := ⟨n - 1, by omega⟩
    have h0 : ‖z.get 0‖ ^ 2 = 0 := by
      have hp0 : (0 : ℕ) ≠ p := by omega
      rw [hnorm 0 (by omega), if_neg hp0, (him 0 (by omega)).2 hp0 _ rfl, if_pos (by omega)]
      have : Real.pi * (((0 : ℕ) : ℤ) - (p : ℤ) : ℤ) / ((m + 1 : ℕ) : ℝ) = -(Real.pi / 2) := by
        rw [← h]
        have : (p : ℝ) ≠ 0 := by exact_mod_cast (by omega : p ≠ 0)
        push_cast
        field_simp
        ring
      rw [this, Real.cos_neg, Real.cos_pi_div_two]
      simp
    have hS' := hS
    unfold wmean
    rw [Finset.sum_range_succ', Finset.sum_range_succ']
    dsimp only
    rw [h0, mul_zero, add_zero, add_zero]
    rw [Finset.sum_range_succ', h0, add_zero] at hS'
    have h1 := wmean_shift (n := m) (p := fun i => (i : ℝ)) (w := fun i => ‖z.get (i + 1)‖ ^ 2) 1 hS'
    have h2 := wmean_symmetric (n := m) (w := fun i => ‖z.get (i + 1)‖ ^ 2) (fun i hi => hsym _ (by omega) _ (by omega) (by omega)) hS'
    unfold wmean at h1 h2
    rw [h2] at h1
    simp only [Nat.cast_add, Nat.cast_one]
    rw [h1]
    have : (2 : ℝ) * p = m + 1 := by exact_mod_cast h
    linarith
  · rw [wmean_symmetric (fun i hi => hsym _ (by omega) _ hi (by omega)) hS]
    have : (2 : ℝ) * p + 1 = n := by exact_mod_cast h
    linarith

/-- **Where `locfreq` finds it**, even lengths: `(n - 3) / (4 (n - 1))`, for every position. -/
theorem C117_locfreq (n p : ℕ) (hp : p < n) (hn : n % 2 = 0) :
    ∃ z B, anapulse n (some (p : ℝ)) = .ok z ∧ locfreq z = .ok (((n : ℝ) - 3) / (4 * ((n : ℝ) - 1)), B) := by
  obtain ⟨z, e, hl, hre, hdft, -⟩ := pulse_im n p hp
  have hE : energy z ≠ 0 := by
    intro h0
    unfold energy at h0
    have := (Finset.sum_eq_zero_iff_of_nonneg (fun i _ => sq_nonneg _)).1 h0 p (Finset.mem_range.2 (by omega))
    have hz0 : z.get p = 0 := by simpa using this
    have := hre p hp
    rw [hz0, if_pos rfl] at this
    norm_num at this
  refine ⟨z, 2 * Real.sqrt (Real.pi * wvar z.len (binFreq z.len) (fun k => ‖dft z k‖ ^ 2)), e, ?_⟩
  rw [C45_locfreq z (by omega) hE, hl]
  congr 2
  obtain ⟨M, rfl⟩ : ∃ M, n = M + M := ⟨n / 2, by omega⟩
  have hM : 1 ≤ M := by omega
  have hMR : (1 : ℝ) ≤ M := by exact_mod_cast hM
  have hw : ∀ k < M + M, ‖dft z k‖ ^ 2 = hilbertMask (M + M) k ^ 2 := fun k hk => by rw [hdft k hk]
  unfold wmean
  rw [Finset.sum_congr rfl (fun k hk => hw k (Finset.mem_range.1 hk)), mask_sq_sum _ (by omega), if_pos hn,
    Finset.sum_congr (g := fun k => binFreq (M + M) k * hilbertMask (M + M) k ^ 2) rfl
      (fun k hk => by dsimp only; rw [hw k (Finset.mem_range.1 hk)]), Finset.sum_range_add]
  have h1 : ∑ k ∈ range M, binFreq (M + M) k * hilbertMask (M + M) k ^ 2 = (M : ℝ) - 1 := by
    have : ∀ k ∈ range M, binFreq (M + M) k * hilbertMask (M + M) k ^ 2 = (k : ℝ) * (4 / ((M + M : ℕ) : ℝ)) := by
      intro k hk
      have hk' := Finset.mem_range.1 hk
      unfold binFreq hilbertMask
      rw [if_pos (by omega)]
      by_cases h0 : k = 0
      · rw [h0]; simp
      · rw [if_neg h0, if_pos (by omega)]; ring
    rw [Finset.sum_congr rfl this, ← Finset.sum_mul]
    have hg : (∑ k ∈ range M, (k : ℝ)) * 2 = (M : ℝ) * ((M : ℝ) - 1) := by
      have := Finset.sum_range_id_mul_two M
      have h' : (((∑ k ∈ range M, k) * 2 : ℕ) : ℝ) = ((M * (M - 1) : ℕ) : ℝ) := by exact_mod_cast this
      push_cast [Nat.cast_sub hM] at h'
      exact h'
    have hM0 : (M : ℝ) ≠ 0 := by linarith
    rw [show (∑ k ∈ range M, (k : ℝ)) = (M : ℝ) * ((M : ℝ) - 1) / 2 by linarith]
    push_cast
    field_simp
    ring
  have h2 : ∑ k ∈ range M, binFreq (M + M) (M + k) * hilbertMask (M + M) (M + k) ^ 2 = -(1 / 2) := by
    rw [Finset.sum_eq_single_of_mem 0 (Finset.mem_range.2 (by omega))]
    · unfold binFreq hilbertMask
      rw [if_neg (by omega), if_neg (by omega), if_neg (by omega), if_pos (by omega)]
      have hM0 : (M : ℝ) ≠ 0 := by linarith
      push_cast
      field_simp
      ring
    · intro j _ hj
      unfold hilbertMask
      rw [if_neg (by omega), if_neg (by omega), if_neg (by omega)]
      simp
  rw [h1, h2]
  have hne : (4 : ℝ) * (((M + M : ℕ) : ℝ) - 1) ≠ 0 := by push_cast; nlinarith
  have hne2 : (2 : ℝ) * ((M + M : ℕ) : ℝ) - 2 ≠ 0 := by push_cast; nlinarith
  rw [div_eq_div_iff hne2 hne]
  push_cast
  ring

/-- **The step** is the running sum of the impulses: two steps one sample apart differ by the impulse at the later sample. -/
theorem C117_step (n p : ℕ) (hp : p + 1 < n) : ∃ s s' z, anastep n (some (p : ℝ)) = .ok s ∧ anastep n (some ((p + 1 : ℕ) : ℝ)) = .ok s' ∧
    anapulse n (some ((p + 1 : ℕ) : ℝ)) = .ok z ∧ ∀ t < n, s.get t - s'.get t = z.get t := by
  obtain ⟨s, e, hs⟩ := C20_anastep n p (by omega)
  obtain ⟨s', e', hs'⟩ := C20_anastep n (p + 1 : ℕ) (by omega)
  obtain ⟨z, e'', hz⟩ := C20_anapulse n (p + 1 : ℕ) (by omega)
  refine ⟨s, s', z, e, e', e'', fun t ht => ?_⟩
  have hd : ∀ k, dft (⟨n, fun t => s.get t - s'.get t⟩ : Vec ℂ) k = dft s k - dft s' k := by
    intro k
    rw [dft_eq_dftC, dft_eq_dftC, dft_eq_dftC, hs.len, hs'.len]
    unfold dftC
    show ∑ j ∈ range n, _ = ∑ j ∈ range n, _ - ∑ j ∈ range n, _
    rw [← Finset.sum_sub_distrib]
    exact Finset.sum_congr rfl fun j _ => by ring
  have ha : IsAnalytic ⟨n, fun t => if (t : ℝ) = ((p + 1 : ℕ) : ℝ) then 1 else 0⟩ (⟨n, fun t => s.get t - s'.get t⟩ : Vec ℂ) := by
    refine ⟨rfl, fun t ht => ?_, fun k hk h2 => ?_, ?_, fun k hk => ?_⟩
    · have h1 := hs.re t ht
      have h2 := hs'.re t ht
      dsimp only at h1 h2 ⊢
      rw [Complex.sub_re, h1, h2]
      have c1 : ((p : ℝ) < t) ↔ p < t := by exact_mod_cast Iff.rfl
      have c2 : (((p + 1 : ℕ) : ℝ) < t) ↔ p + 1 < t := by exact_mod_cast Iff.rfl
      have c3 : ((t : ℝ) = ((p + 1 : ℕ) : ℝ)) ↔ t = p + 1 := by exact_mod_cast Iff.rfl
      simp only [c1, c2, c3]
      split_ifs <;> first | omega | norm_num
    · rw [hd, hs.neg k hk h2, hs'.neg k hk h2, sub_self]
    · rw [hd, Complex.sub_im, hs.zero, hs'.zero, sub_self]
    · rw [hd, Complex.sub_im, hs.nyquist k hk, hs'.nyquist k hk, sub_self]
  exact (C20_unique _ _ _ ha hz).2 t ht

/-! ## Examples -/

/-- Four samples, impulse at 2: `0, -i/2, 1, i/2`. -/
example : ∃ z, anapulse 4 (some 2) = .ok z ∧ z.get 0 = 0 ∧ z.get 1 = -Complex.I / 2 ∧ z.get 2 = 1 ∧ z.get 3 = Complex.I / 2 := by
  obtain ⟨z, e, -, h2, h⟩ := C117_even 4 2 (by norm_num) (by norm_num)
  refine ⟨z, by simpa using e, (h 0 (by norm_num) (by norm_num) (-2) (by norm_num)).1 (by norm_num), ?_, h2, ?_⟩
  · rw [(h 1 (by norm_num) (by norm_num) (-1) (by norm_num)).2 (by norm_num)]
    have : Real.pi * ((-1 : ℤ) : ℝ) / ((4 : ℕ) : ℝ) = -(Real.pi / 4) := by push_cast; ring
    rw [this, Real.cos_neg, Real.sin_neg, Real.cos_pi_div_four, Real.sin_pi_div_four]
    have : Real.sqrt 2 ≠ 0 := by positivity
    have : 2 * (Real.sqrt 2 / 2) / (((4 : ℕ) : ℝ) * -(Real.sqrt 2 / 2)) = -1 / 2 := by push_cast; field_simp; norm_num
    rw [this]; push_cast; ring
  · rw [(h 3 (by norm_num) (by norm_num) 1 (by norm_num)).2 (by norm_num)]
    have : Real.pi * ((1 : ℤ) : ℝ) / ((4 : ℕ) : ℝ) = Real.pi / 4 := by push_cast; ring
    rw [this, Real.cos_pi_div_four, Real.sin_pi_div_four]
    have : Real.sqrt 2 ≠ 0 := by positivity
    have : 2 * (Real.sqrt 2 / 2) / (((4 : ℕ) : ℝ) * (Real.sqrt 2 / 2)) = 1 / 2 := by push_cast; field_simp; norm_num
    rw [this]; push_cast; ring

/-- The impulse in the middle of eight samples: found at 4, at frequency 5/28. -/
example : ∃ z T B, anapulse 8 (some 4) = .ok z ∧ loctime z = .ok (4, T) ∧ locfreq z = .ok (5 / 28, B) ∧ energy z = 7 / 4 := by
  obtain ⟨z, T, e, h1⟩ := C117_loctime 8 4 (by norm_num) (.inl (by norm_num))
  obtain ⟨z', B, e', h2⟩ := C117_locfreq 8 4 (by norm_num) (by norm_num)
  obtain ⟨z'', e'', h3, -⟩ := C117_energy 8 4 (by norm_num)
  obtain rfl : z = z' := by rw [e] at e'; injection e'
  obtain rfl : z = z'' := by rw [e] at e''; injection e''
  refine ⟨z, T, B, by simpa using e, by simpa using h1, ?_, ?_⟩
  · rw [h2]; congr 2; norm_num
  · rw [h3]; norm_num

/-- Three samples, impulse at 0: the next sample has modulus at most 2/π. -/
example : ∃ z, anapulse 3 (some 0) = .ok z ∧ ‖z.get 1‖ ≤ 2 / Real.pi ∧ ‖z.get 2‖ < 1 := by
  obtain ⟨z, e, -, h⟩ := C117_decay 3 0 (by norm_num)
  refine ⟨z, by simpa using e, ?_, (h 2 (by norm_num) (by norm_num) 1 (le_refl 1) (by norm_num) (.inr (.inr (.inl (by norm_num))))).2⟩
  simpa using (h 1 (by norm_num) (by norm_num) 1 (le_refl 1) (by norm_num) (.inl (by norm_num))).1

/-- Three samples, impulse at 0: `1, i/√3, -i/√3`. -/
example : ∃ z, anapulse 3 (some 0) = .ok z ∧ z.get 1 = Complex.I * ((1 / Real.sqrt 3 : ℝ) : ℂ) := by
  obtain ⟨z, e, -, -, h⟩ := C117_odd 3 0 (by norm_num) (by norm_num)
  refine ⟨z, by simpa using e, ?_⟩
  rw [(h 1 (by norm_num) (by norm_num) 1 (by norm_num)).2 (by norm_num)]
  have : Real.pi * ((1 : ℤ) : ℝ) / ((3 : ℕ) : ℝ) = Real.pi / 3 := by push_cast; ring
  rw [this, Real.cos_pi_div_three, Real.sin_pi_div_three]
  have h3 : Real.sqrt 3 ≠ 0 := by positivity
  congr 2
  push_cast
  field_simp
  norm_num

/-- The steps at 0 and 1 of four samples differ at sample 1 by 1. -/
example : ∃ s s', anastep 4 (some 0) = .ok s ∧ anastep 4 (some 1) = .ok s' ∧ s.get 1 - s'.get 1 = 1 := by
  obtain ⟨s, s', z, e, e', e'', h⟩ := C117_step 4 0 (by norm_num)
  obtain ⟨z', f, -, h1, -⟩ := C117_even 4 1 (by norm_num) (by norm_num)
  have : z = z' := by
    have : anapulse 4 (some ((0 + 1 : ℕ) : ℝ)) = anapulse 4 (some ((1 : ℕ) : ℝ)) := by norm_num
    have := (e''.symm.trans this).trans f
    injection this
  exact ⟨s, s', by simpa using e, by simpa using e', by rw [h 1 (by norm_num), this, h1]⟩

end Tftb.Props
