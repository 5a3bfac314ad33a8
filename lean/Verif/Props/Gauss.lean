import Verif.Props.Duration
import Verif.Props.Misc
import Verif.Lemmas.Theta
import Mathlib.Analysis.SpecialFunctions.Trigonometric.Series
import Mathlib.Analysis.SpecialFunctions.Trigonometric.DerivHyp
import Mathlib.Analysis.Complex.ExponentialBounds

/-! # C132 — the Gaussian envelope: sum, energy, points of inflection, duration -/

namespace Tftb.Props

open Tftb Tftb.Spec Tftb.AM Tftb.TF Tftb.Theta Finset

/-- **Sum.**  The samples of `amgauss` with the centre inside the signal add up to the spread, up to a sampling error below
`2 s e^(-π s²) / (1 - e^(-2π s²))` and what the two ends cut off. -/
theorem C132_sum (n : ℕ) (t0 s : ℝ) (hs : 0 < s) (h0 : 0 < t0) (h1 : t0 < n + 1) (y : Vec ℝ) (hy : amgauss n (some t0) (some s) = .ok y) :
    |y.sum - s| ≤ 2 * s * (Real.exp (-Real.pi * s ^ 2) / (1 - Real.exp (-2 * Real.pi * s ^ 2)))
      + Real.exp (-Real.pi * (t0 / s) ^ 2) / (1 - Real.exp (-2 * Real.pi * t0 / s ^ 2))
      + Real.exp (-Real.pi * ((n + 1 - t0) / s) ^ 2) / (1 - Real.exp (-2 * Real.pi * (n + 1 - t0) / s ^ 2)) := by
  have hn : 1 ≤ n := by
    by_contra hc
    obtain rfl : n = 0 := by omega
    unfold amgauss at hy
    simp [defaultSpread] at hy
  obtain ⟨y', e1, e2, e3, _⟩ := C07_amgauss n hn t0 s hs
  rw [hy] at e1
  injection e1 with e1
  subst e1
  have ha : 0 < 1 / s ^ 2 := by positivity
  have h := mass ha n t0 h0 h1
  have hsq : 1 / Real.sqrt (1 / s ^ 2) = s := by
    rw [Real.sqrt_div zero_le_one, Real.sqrt_one, Real.sqrt_sq hs.le, one_div_one_div]
  have hsq2 : 2 / Real.sqrt (1 / s ^ 2) = 2 * s := by
    rw [Real.sqrt_div zero_le_one, Real.sqrt_one, Real.sqrt_sq hs.le]; field_simp
  have hsum : y.sum = ∑ i ∈ range n, Real.exp (-Real.pi * (1 / s ^ 2) * ((i : ℝ) + 1 - t0) ^ 2) := by
    unfold Vec.sum
    rw [e2]
    refine Finset.sum_congr rfl fun i hi => ?_
    rw [e3 i (Finset.mem_range.1 hi)]
    congr 1
    field_simp
  rw [hsum]
  rw [hsq, hsq2] at h
  unfold rest at h
  refine h.trans (le_of_eq ?_)
  congr 1
  · congr 1
    · congr 2
      · congr 1; field_simp
      · congr 2; field_simp
    · congr 2
      · field_simp
      · congr 1; field_simp
  · congr 2
    · field_simp
    · congr 1; field_simp

/-- **Energy.**  A signal with that modulus has the energy `s / √2`, with errors of the same kind. -/
theorem C132_energy (n : ℕ) (t0 s : ℝ) (hs : 0 < s) (h0 : 0 < t0) (h1 : t0 < n + 1) (y : Vec ℝ) (hy : amgauss n (some t0) (some s) = .ok y)
    (x : Vec ℂ) (hl : x.len = n) (hx : ∀ i < n, ‖x.get i‖ = y.get i) :
    |energy x - s / Real.sqrt 2| ≤ Real.sqrt 2 * s * (Real.exp (-Real.pi * s ^ 2 / 2) / (1 - Real.exp (-Real.pi * s ^ 2)))
      + Real.exp (-2 * Real.pi * (t0 / s) ^ 2) / (1 - Real.exp (-4 * Real.pi * t0 / s ^ 2))
      + Real.exp (-2 * Real.pi * ((n + 1 - t0) / s) ^ 2) / (1 - Real.exp (-4 * Real.pi * (n + 1 - t0) / s ^ 2)) := by
  have hn : 1 ≤ n := by
    by_contra hc
    obtain rfl : n = 0 := by omega
    unfold amgauss at hy
    simp [defaultSpread] at hy
  obtain ⟨y', e1, e2, e3, _⟩ := C07_amgauss n hn t0 s hs
  rw [hy] at e1
  injection e1 with e1
  subst e1
  have ha : 0 < 2 / s ^ 2 := by positivity
  have h2 : Real.sqrt 2 * Real.sqrt 2 = 2 := Real.mul_self_sqrt (by norm_num)
  have h20 : 0 < Real.sqrt 2 := Real.sqrt_pos.2 (by norm_num)
  have h := mass ha n t0 h0 h1
  have hsq : 1 / Real.sqrt (2 / s ^ 2) = s / Real.sqrt 2 := by
    rw [Real.sqrt_div (by norm_num), Real.sqrt_sq hs.le, one_div_div]
  have hsq2 : 2 / Real.sqrt (2 / s ^ 2) = Real.sqrt 2 * s := by
    rw [Real.sqrt_div (by norm_num), Real.sqrt_sq hs.le, div_div_eq_mul_div, div_eq_iff h20.ne']; linear_combination -s * h2
  have hsum : energy x = ∑ i ∈ range n, Real.exp (-Real.pi * (2 / s ^ 2) * ((i : ℝ) + 1 - t0) ^ 2) := by
    unfold energy
    rw [hl]
    refine Finset.sum_congr rfl fun i hi => ?_
    rw [hx i (Finset.mem_range.1 hi), e3 i (Finset.mem_range.1 hi), ← Real.exp_nat_mul]
    congr 1
    push_cast
    field_simp
  rw [hsum]
  rw [hsq, hsq2] at h
  unfold rest at h
  refine h.trans (le_of_eq ?_)
  congr 1
  · congr 1
    · congr 2
      · congr 1; field_simp
      · congr 2; field_simp
    · congr 2
      · field_simp
      · congr 1; field_simp; ring
  · congr 2
    · field_simp
    · congr 1; field_simp; ring

theorem one_add_half_sq_le_cosh (u : ℝ) (hu : 0 ≤ u) : 1 + u ^ 2 / 2 ≤ Real.cosh u := by
  have h := Real.cosh_two_mul (u / 2)
  rw [show 2 * (u / 2) = u by ring, Real.cosh_sq] at h
  have h1 : u / 2 ≤ Real.sinh (u / 2) := Real.self_le_sinh_iff.2 (by linarith)
  nlinarith

/-- Second difference of the samples of a Gaussian. -/
theorem gauss_second_diff (a d : ℝ) : Real.exp (-a * (d - 1) ^ 2) + Real.exp (-a * (d + 1) ^ 2) = 2 * Real.exp (-a * d ^ 2) * (Real.exp (-a) * Real.cosh (2 * a * d)) := by
  rw [Real.cosh_eq, show -a * (d - 1) ^ 2 = -a * d ^ 2 + -a + 2 * a * d by ring, show -a * (d + 1) ^ 2 = -a * d ^ 2 + -a + -(2 * a * d) by ring]
  simp only [Real.exp_add]
  ring

/-- **Points of inflection.**  `amgauss` bends down at the samples nearer to the centre than `s / √(2π)`, and up at those farther than that plus half a sample. -/
theorem C132_inflection (n : ℕ) (t0 s : ℝ) (hs : 0 < s) (y : Vec ℝ) (hy : amgauss n (some t0) (some s) = .ok y) (i : ℕ) (hi0 : 1 ≤ i) (hi1 : i + 1 < n) :
    (|(i : ℝ) + 1 - t0| < s / Real.sqrt (2 * Real.pi) → y.get (i - 1) + y.get (i + 1) < 2 * y.get i) ∧
    (s / Real.sqrt (2 * Real.pi) + 1 / 2 ≤ |(i : ℝ) + 1 - t0| → 2 * y.get i < y.get (i - 1) + y.get (i + 1)) := by
  obtain ⟨y', e1, e2, e3, _⟩ := C07_amgauss n (by omega) t0 s hs
  rw [hy] at e1
  injection e1 with e1
  subst e1
  have hpi := Real.pi_pos
  set a : ℝ := Real.pi / s ^ 2 with ha
  have ha0 : 0 < a := by positivity
  set d : ℝ := (i : ℝ) + 1 - t0 with hd
  set σ : ℝ := Real.sqrt (2 * a) with hσ
  have hσ0 : 0 < σ := Real.sqrt_pos.2 (by positivity)
  have hσ2 : σ ^ 2 = 2 * a := Real.sq_sqrt (by positivity)
  have hc : s / Real.sqrt (2 * Real.pi) = 1 / σ := by
    rw [hσ, ha, show 2 * (Real.pi / s ^ 2) = (2 * Real.pi) / s ^ 2 by ring, Real.sqrt_div (by positivity), Real.sqrt_sq hs.le, one_div_div]
  have hv : ∀ z : ℝ, -Real.pi * (z / s) ^ 2 = -a * z ^ 2 := fun z => by rw [ha]; field_simp
  have hm : y.get (i - 1) + y.get (i + 1) = 2 * Real.exp (-a * d ^ 2) * (Real.exp (-a) * Real.cosh (2 * a * d)) := by
    rw [e3 (i - 1) (by omega), e3 (i + 1) (by omega), hv, hv, ← gauss_second_diff, Nat.cast_sub hi0]
    push_cast
    congr 3 <;> rw [hd] <;> ring
  have h0 : y.get i = Real.exp (-a * d ^ 2) := by rw [e3 i (by omega), hv]
  have hE := Real.exp_pos (-a * d ^ 2)
  have hinv : Real.exp (-a) * Real.exp a = 1 := by rw [← Real.exp_add, neg_add_cancel, Real.exp_zero]
  have hEa := Real.exp_pos (-a)
  rw [hm, h0, hc]
  constructor
  · intro h
    have hlt : Real.cosh (2 * a * d) < Real.exp a := by
      refine (Real.cosh_le_exp_half_sq _).trans_lt ?_
      rw [Real.exp_lt_exp]
      have h1 : |d| * σ < 1 := by rwa [lt_div_iff₀ hσ0] at h
      have h2 : d ^ 2 * (2 * a) < 1 := by
        rw [← hσ2, ← sq_abs d, ← mul_pow]
        have := mul_nonneg (abs_nonneg d) hσ0.le
        nlinarith
      nlinarith
    have : Real.exp (-a) * Real.cosh (2 * a * d) < 1 := by rw [← hinv]; gcongr
    nlinarith
  · intro h
    have hu : σ + σ ^ 2 / 2 ≤ 2 * a * |d| := by
      have : 2 * a * (1 / σ + 1 / 2) ≤ 2 * a * |d| := by gcongr
      have e : 2 * a * (1 / σ + 1 / 2) = σ + σ ^ 2 / 2 := by rw [← hσ2]; field_simp
      linarith
    have hcosh : Real.cosh (σ + σ ^ 2 / 2) ≤ Real.cosh (2 * a * d) := by
      rw [Real.cosh_le_cosh, abs_of_nonneg (by positivity), abs_mul, abs_of_pos (by positivity : 0 < 2 * a)]
      exact hu
    have hgt : Real.exp a < Real.cosh (σ + σ ^ 2 / 2) := by
      have hax : a = σ ^ 2 / 2 := by linarith
      rw [hax]
      by_cases h2 : σ ^ 2 ≤ 2
      · have hx1 : |σ ^ 2 / 2| ≤ 1 := by rw [abs_of_nonneg (by positivity)]; linarith
        have hex := (abs_le.1 (Real.abs_exp_sub_one_sub_id_le hx1)).2
        have hch := one_add_half_sq_le_cosh (σ + σ ^ 2 / 2) (by positivity)
        have hσ2' : σ < 2 := by nlinarith
        have : 0 < σ ^ 3 * (4 - σ) := by
          have : 0 < 4 - σ := by linarith
          positivity
        nlinarith
      · have h2 := not_le.1 h2
        have hσ1 : 1 < σ := by nlinarith
        have he := Real.add_one_le_exp σ
        rw [Real.cosh_eq, Real.exp_add]
        have hp := Real.exp_pos (σ ^ 2 / 2)
        have hq := Real.exp_pos (-(σ + σ ^ 2 / 2))
        nlinarith
    have : 1 < Real.exp (-a) * Real.cosh (2 * a * d) := by
      rw [← hinv]
      have := hgt.trans_le hcosh
      gcongr
    nlinarith

/-- **Duration.**  A signal of `2c + 1` samples whose modulus is `amgauss` with the middle as its centre: the measured centre is the middle, the measured duration
at most the spread asked for, and nearly that. -/
theorem C132_duration (c : ℕ) (s : ℝ) (hs : 0 < s) (y : Vec ℝ) (hy : amgauss ((2 * c + 1 : ℕ) : ℤ) (some ((c : ℝ) + 1)) (some s) = .ok y) (x : Vec ℂ)
    (hl : x.len = 2 * c + 1) (hx : ∀ i < 2 * c + 1, ‖x.get i‖ = y.get i) :
    ∃ T : ℝ, loctime x = .ok ((c : ℝ), T) ∧ 0 ≤ T ∧ T ≤ s ∧
      s ^ 2 - T ^ 2 ≤ 2 * Real.pi * s ^ 4 * rest2 (s ^ 2 / 2) 1 + 8 * Real.sqrt 2 * Real.pi / s * rest2 (2 / s ^ 2) (c + 1) := by
  obtain ⟨y', e1, e2, e3, _⟩ := C07_amgauss (2 * c + 1) (by omega) ((c : ℝ) + 1) s hs
  rw [hy] at e1
  injection e1 with e1
  subst e1
  have hpi := Real.pi_pos
  have hs2 : 0 < s ^ 2 := by positivity
  set a : ℝ := 2 / s ^ 2 with ha
  have ha0 : 0 < a := by positivity
  have hia : 1 / a = s ^ 2 / 2 := by rw [ha, one_div_div]
  have hsa : Real.sqrt a = Real.sqrt 2 / s := by rw [ha, Real.sqrt_div (by norm_num), Real.sqrt_sq hs.le]
  have h20 : 0 < Real.sqrt 2 := Real.sqrt_pos.2 (by norm_num)
  have h22 : Real.sqrt 2 * Real.sqrt 2 = 2 := Real.mul_self_sqrt (by norm_num)
  set φ : ℕ → ℝ := fun k => if k ≤ c then Real.exp (-Real.pi * a * (k : ℝ) ^ 2) else 0 with hφ
  have hmod : ∀ i < x.len, ‖x.get i‖ ^ 2 = φ ((i : ℤ) - c).natAbs := by
    intro i hi
    rw [hφ]
    dsimp only
    rw [if_pos (by omega), hx i (by omega), e3 i (by omega), ← Real.exp_nat_mul, Nat.cast_natAbs]
    congr 1
    push_cast
    rw [sq_abs, show (i : ℝ) + 1 - (c + 1) = i - c by ring, ha]
    field_simp
  -- the sums
  have hφ0 : φ 0 = 1 := by simp [hφ]
  have hA : half a = ∑ k ∈ range c, φ (k + 1) + ∑' j : ℕ, Real.exp (-Real.pi * a * (j + ((c : ℝ) + 1)) ^ 2) := by
    unfold half
    rw [← Summable.sum_add_tsum_nat_add c (summable_tail ha0 one_pos)]
    congr 1
    · refine Finset.sum_congr rfl fun k hk => ?_
      have := Finset.mem_range.1 hk
      rw [hφ]
      dsimp only
      rw [if_pos (by omega)]
      push_cast
      rfl
    · refine tsum_congr fun j => ?_
      push_cast
      congr 2
      ring
  have hB : half2 a = ∑ k ∈ range c, ((k : ℝ) + 1) ^ 2 * φ (k + 1) + ∑' j : ℕ, (j + ((c : ℝ) + 1)) ^ 2 * Real.exp (-Real.pi * a * (j + ((c : ℝ) + 1)) ^ 2) := by
    unfold half2
    rw [← Summable.sum_add_tsum_nat_add c (summable_sq_tail ha0 one_pos)]
    congr 1
    · refine Finset.sum_congr rfl fun k hk => ?_
      have := Finset.mem_range.1 hk
      rw [hφ]
      dsimp only
      rw [if_pos (by omega)]
      push_cast
      rfl
    · refine tsum_congr fun j => ?_
      push_cast
      congr 2
      · ring
      · congr 1; ring
  have hc1 : (0 : ℝ) < (c : ℝ) + 1 := by positivity
  set P := ∑ k ∈ range c, φ (k + 1) with hP
  set Q := ∑ k ∈ range c, ((k : ℝ) + 1) ^ 2 * φ (k + 1) with hQ
  set W := ∑' j : ℕ, Real.exp (-Real.pi * a * (j + ((c : ℝ) + 1)) ^ 2) with hW
  set V := ∑' j : ℕ, (j + ((c : ℝ) + 1)) ^ 2 * Real.exp (-Real.pi * a * (j + ((c : ℝ) + 1)) ^ 2) with hV
  have hφn : ∀ k, 0 ≤ φ k := fun k => by rw [hφ]; dsimp only; split <;> positivity
  have hP0 : 0 ≤ P := Finset.sum_nonneg fun k _ => hφn _
  have hQ0 : 0 ≤ Q := Finset.sum_nonneg fun k _ => mul_nonneg (sq_nonneg _) (hφn _)
  have hW0 : 0 ≤ W := tail_nonneg a _
  have hV0 : 0 ≤ V := tsum_nonneg fun _ => by positivity
  have hQP : Q ≤ (c : ℝ) ^ 2 * P := by
    rw [hQ, hP, Finset.mul_sum]
    refine Finset.sum_le_sum fun k hk => mul_le_mul_of_nonneg_right ?_ (hφn _)
    have : ((k : ℝ) + 1) ≤ c := by exact_mod_cast Finset.mem_range.1 hk
    gcongr
  have hVW : (c : ℝ) ^ 2 * W ≤ V := by
    rw [hW, ← tsum_mul_left]
    refine Summable.tsum_le_tsum (fun j => ?_) ((summable_tail ha0 hc1).mul_left _) (summable_sq_tail ha0 hc1)
    refine mul_le_mul_of_nonneg_right ?_ (Real.exp_pos _).le
    have : (0 : ℝ) ≤ j := Nat.cast_nonneg j
    have : (0 : ℝ) ≤ c := Nat.cast_nonneg c
    gcongr
    linarith
  have hVle : V ≤ rest2 a (c + 1) := sq_tail_le ha0 hc1
  have hsm := second_moment ha0
  have hja := jacobi ha0
  have hF : 1 / Real.sqrt a ≤ 1 + 2 * half a := by
    rw [hja]
    have h := half_nonneg (1 / a)
    have : 0 < 1 / Real.sqrt a := by rw [hsa]; positivity
    nlinarith
  have hu0 := half2_nonneg (1 / a)
  have hule := half2_le (show 0 < 1 / a by rw [hia]; positivity)
  -- mean of the squares inside the window
  have hS : φ 0 + 2 * P ≠ 0 := by rw [hφ0]; positivity
  have hloc := C130_symmetric x c c φ le_rfl (by omega) hmod (fun k hk => by rw [hφ]; dsimp only; exact if_neg (by omega)) hS
  rw [hφ0] at hloc
  have hSp : 0 < 1 + 2 * P := by positivity
  have hM0 : 0 ≤ 2 * Q / (1 + 2 * P) := by positivity
  have hFp : 0 < 1 + 2 * half a := by have := half_nonneg a; positivity
  have hup : 2 * Q / (1 + 2 * P) ≤ 2 * half2 a / (1 + 2 * half a) := by
    rw [div_le_div_iff₀ hSp hFp, hA, hB]
    nlinarith [mul_nonneg hP0 hW0, mul_le_mul_of_nonneg_right hQP hW0, mul_le_mul_of_nonneg_right hVW hP0]
  have hlow : (2 * half2 a - 2 * V) / (1 + 2 * half a) ≤ 2 * Q / (1 + 2 * P) := by
    have : 2 * half2 a - 2 * V = 2 * Q := by rw [hB]; ring
    rw [this]
    have : 1 + 2 * P ≤ 1 + 2 * half a := by rw [hA]; linarith
    gcongr
  have hfull : 2 * half2 a / (1 + 2 * half a) = 1 / (2 * Real.pi * a) - 1 / (Real.sqrt a * a ^ 2) * (2 * half2 (1 / a)) / (1 + 2 * half a) := by
    rw [hsm, sub_div]
    congr 1
    rw [div_right_comm, div_self hFp.ne']
  have hsa0 : 0 < Real.sqrt a := Real.sqrt_pos.2 ha0
  have hT2 : (2 * Real.sqrt (Real.pi * (2 * Q / (1 + 2 * P)))) ^ 2 = 4 * Real.pi * (2 * Q / (1 + 2 * P)) := by
    rw [mul_pow, Real.sq_sqrt (by positivity)]; ring
  have h4 : 4 * Real.pi * (1 / (2 * Real.pi * a)) = s ^ 2 := by rw [ha]; field_simp; ring
  refine ⟨_, hloc, by positivity, ?_, ?_⟩
  · refine le_of_sq_le_sq ?_ hs.le
    rw [hT2, ← h4]
    have hn : 0 ≤ 1 / (Real.sqrt a * a ^ 2) * (2 * half2 (1 / a)) / (1 + 2 * half a) := by positivity
    exact mul_le_mul_of_nonneg_left (by linarith) (by positivity)
  · rw [hT2]
    have hd1 : 1 / (Real.sqrt a * a ^ 2) * (2 * half2 (1 / a)) / (1 + 2 * half a) ≤ 1 / a ^ 2 * (2 * half2 (1 / a)) := by
      rw [div_le_iff₀ hFp]
      calc 1 / (Real.sqrt a * a ^ 2) * (2 * half2 (1 / a)) = 1 / a ^ 2 * (2 * half2 (1 / a)) * (1 / Real.sqrt a) := by field_simp
        _ ≤ _ := by gcongr
    have hd2 : 2 * V / (1 + 2 * half a) ≤ 2 * V * Real.sqrt a := by
      rw [div_le_iff₀ hFp]
      calc 2 * V = 2 * V * Real.sqrt a * (1 / Real.sqrt a) := by field_simp
        _ ≤ _ := by gcongr
    rw [sub_div, hfull] at hlow
    have hb1 : 4 * Real.pi * (1 / a ^ 2 * (2 * half2 (1 / a))) ≤ 2 * Real.pi * s ^ 4 * rest2 (s ^ 2 / 2) 1 := by
      have e : 2 * Real.pi * s ^ 4 * rest2 (s ^ 2 / 2) 1 = 4 * Real.pi * (1 / a ^ 2 * (2 * rest2 (1 / a) 1)) := by
        rw [hia]
        generalize rest2 (s ^ 2 / 2) 1 = r
        rw [ha]
        field_simp
        ring
      rw [e]
      gcongr
    have hb2 : 4 * Real.pi * (2 * V * Real.sqrt a) ≤ 8 * Real.sqrt 2 * Real.pi / s * rest2 a (c + 1) := by
      have e : 8 * Real.sqrt 2 * Real.pi / s * rest2 a (c + 1) = 4 * Real.pi * (2 * rest2 a (c + 1) * Real.sqrt a) := by
        rw [hsa]
        ring
      rw [e]
      gcongr
    have hmul : 4 * Real.pi * (1 / (2 * Real.pi * a)) - 4 * Real.pi * (2 * Q / (1 + 2 * P))
        ≤ 4 * Real.pi * (1 / a ^ 2 * (2 * half2 (1 / a))) + 4 * Real.pi * (2 * V * Real.sqrt a) := by
      have : 1 / (2 * Real.pi * a) - 2 * Q / (1 + 2 * P) ≤ 1 / a ^ 2 * (2 * half2 (1 / a)) + 2 * V * Real.sqrt a := by linarith
      have := mul_le_mul_of_nonneg_left this (by positivity : 0 ≤ 4 * Real.pi)
      rwa [mul_sub, mul_add] at this
    linarith

/-! ## The Mexican hat -/

theorem hasDerivAt_hat (x : ℝ) : HasDerivAt (fun x : ℝ => Real.exp (-x) * (1 - 2 * x)) (Real.exp (-x) * (2 * x - 3)) x := by
  have h1 : HasDerivAt (fun x : ℝ => Real.exp (-x)) (Real.exp (-x) * -1) x := (hasDerivAt_neg x).exp
  have h2 : HasDerivAt (fun x : ℝ => 1 - 2 * x) (-2) x := by simpa using ((hasDerivAt_id x).const_mul 2).const_sub 1
  have := h1.mul h2
  refine HasDerivAt.congr_deriv this ?_
  ring

theorem hat_anti : StrictAntiOn (fun x : ℝ => Real.exp (-x) * (1 - 2 * x)) (Set.Iic (3 / 2)) := by
  refine strictAntiOn_of_deriv_neg (convex_Iic _) (fun x _ => (hasDerivAt_hat x).continuousAt.continuousWithinAt) fun x hx => ?_
  rw [interior_Iic] at hx
  rw [(hasDerivAt_hat x).deriv]
  have : x < 3 / 2 := hx
  exact mul_neg_of_pos_of_neg (Real.exp_pos _) (by linarith)

theorem hat_mono : StrictMonoOn (fun x : ℝ => Real.exp (-x) * (1 - 2 * x)) (Set.Ici (3 / 2)) := by
  refine strictMonoOn_of_deriv_pos (convex_Ici _) (fun x _ => (hasDerivAt_hat x).continuousAt.continuousWithinAt) fun x hx => ?_
  rw [interior_Ici] at hx
  rw [(hasDerivAt_hat x).deriv]
  have : 3 / 2 < x := hx
  exact mul_pos (Real.exp_pos _) (by linarith)

/-- **Shape of `mexhat`.**  Positive nearer to the middle than `1 / (√2 π ν)`; falling up to `√(3/2) / (π ν)` from the middle and rising from there on; never below
`-e^(-3/2) ν √π`. -/
theorem C25_shape (ν : ℝ) (h0 : 0 < ν) (h1 : ν ≤ 1 / 2) : ∃ (h : Vec ℝ) (m : ℕ), Misc.mexhat ν = .ok h ∧ h.len = 2 * m + 1 ∧
    (∀ i < 2 * m + 1, 0 < h.get i ↔ (Real.pi * ν * ((i : ℝ) - m)) ^ 2 < 1 / 2) ∧
    (∀ i < 2 * m + 1, ∀ j < 2 * m + 1, |(i : ℝ) - m| < |(j : ℝ) - m| → (Real.pi * ν * ((j : ℝ) - m)) ^ 2 ≤ 3 / 2 → h.get j < h.get i) ∧
    (∀ i < 2 * m + 1, ∀ j < 2 * m + 1, |(i : ℝ) - m| < |(j : ℝ) - m| → 3 / 2 ≤ (Real.pi * ν * ((i : ℝ) - m)) ^ 2 → h.get i < h.get j) ∧
    (∀ i < 2 * m + 1, -(Real.exp (-3 / 2) * ν * Real.sqrt Real.pi) ≤ h.get i) := by
  obtain ⟨h, m, e1, _, e2, e3, _⟩ := C25_mexhat ν h0 h1
  have hpi := Real.pi_pos
  have hk : 0 < ν * Real.sqrt Real.pi / 2 := by have := Real.sqrt_pos.2 hpi; positivity
  have hsq : ∀ i j : ℕ, |(i : ℝ) - m| < |(j : ℝ) - m| → (Real.pi * ν * ((i : ℝ) - m)) ^ 2 < (Real.pi * ν * ((j : ℝ) - m)) ^ 2 := by
    intro i j hij
    rw [mul_pow, mul_pow _ ((j : ℝ) - m)]
    have := sq_lt_sq.2 hij
    gcongr
  refine ⟨h, m, e1, e2, fun i hi => ?_, fun i hi j hj hij hb => ?_, fun i hi j hj hij hb => ?_, fun i hi => ?_⟩
  · rw [e3 i hi, mul_pos_iff_of_pos_left (mul_pos hk (Real.exp_pos _))]
    constructor <;> intro h <;> linarith
  · rw [e3 i hi, e3 j hj, mul_assoc, mul_assoc (ν * Real.sqrt Real.pi / 2)]
    refine mul_lt_mul_of_pos_left ?_ hk
    have := hsq i j hij
    exact hat_anti (this.le.trans hb) hb this
  · rw [e3 i hi, e3 j hj, mul_assoc, mul_assoc (ν * Real.sqrt Real.pi / 2)]
    refine mul_lt_mul_of_pos_left ?_ hk
    have := hsq i j hij
    exact hat_mono hb (hb.trans this.le) this
  · rw [e3 i hi, mul_assoc]
    have key : ∀ x : ℝ, Real.exp (-(3 / 2)) * (1 - 2 * (3 / 2)) ≤ Real.exp (-x) * (1 - 2 * x) := by
      intro x
      rcases le_total x (3 / 2) with hx | hx
      · exact hat_anti.antitoneOn (show x ≤ 3 / 2 from hx) (show (3 / 2 : ℝ) ≤ 3 / 2 from le_rfl) hx
      · exact hat_mono.monotoneOn (show (3 / 2 : ℝ) ≤ 3 / 2 from le_rfl) (show 3 / 2 ≤ x from hx) hx
    have := mul_le_mul_of_nonneg_left (key ((Real.pi * ν * ((i : ℝ) - m)) ^ 2)) hk.le
    rw [show (-3 / 2 : ℝ) = -(3 / 2) by ring]
    linarith

/-- The case of the project's own test: 128 samples, centre 63, spread 10.  The samples add up to 10, to more than seven places. -/
example (y : Vec ℝ) (hy : amgauss (128 : ℕ) (some 63) (some 10) = .ok y) : |y.sum - 10| < 1 / 10 ^ 7 := by
  have h := C132_sum 128 63 10 (by norm_num) (by norm_num) (by norm_num) y hy
  have hpi3 := Real.pi_gt_three
  have small : ∀ x : ℝ, x ≤ -100 → Real.exp x ≤ 1 / 10 ^ 20 := by
    intro x hx
    have h1 : Real.exp x ≤ Real.exp (-1) ^ 100 := by
      rw [← Real.exp_nat_mul, Real.exp_le_exp]; push_cast; linarith
    have h2 : Real.exp (-1) ≤ 1 / 2 := by
      rw [Real.exp_neg, inv_eq_one_div]
      have := Real.add_one_le_exp (1 : ℝ)
      exact one_div_le_one_div_of_le (by norm_num) (by linarith)
    calc Real.exp x ≤ Real.exp (-1) ^ 100 := h1
      _ ≤ (1 / 2 : ℝ) ^ 100 := pow_le_pow_left₀ (Real.exp_pos _).le h2 _
      _ ≤ _ := by norm_num
  have low : ∀ x : ℝ, x ≤ -1 → Real.exp x ≤ 1 / 2 := by
    intro x hx
    have h1 := Real.exp_le_exp.2 hx
    have h2 : Real.exp (-1) ≤ 1 / 2 := by
      rw [Real.exp_neg, inv_eq_one_div]
      have := Real.add_one_le_exp (1 : ℝ)
      exact one_div_le_one_div_of_le (by norm_num) (by linarith)
    linarith
  have frac : ∀ u v : ℝ, u ≤ -100 → v ≤ -1 → Real.exp u / (1 - Real.exp v) ≤ 2 / 10 ^ 20 := by
    intro u v hu hv
    have := small u hu
    have := low v hv
    rw [div_le_iff₀ (by linarith)]
    nlinarith [Real.exp_pos u]
  have f1 := frac (-Real.pi * 10 ^ 2) (-2 * Real.pi * 10 ^ 2) (by linarith) (by linarith)
  have f2 := frac (-Real.pi * (63 / 10) ^ 2) (-2 * Real.pi * 63 / 10 ^ 2) (by linarith) (by linarith)
  have f3 := frac (-Real.pi * ((((128 : ℕ) : ℝ) + 1 - 63) / 10) ^ 2) (-2 * Real.pi * (((128 : ℕ) : ℝ) + 1 - 63) / 10 ^ 2) (by push_cast; linarith) (by push_cast; linarith)
  refine h.trans_lt ?_
  norm_num at f1 f2 f3 ⊢
  linarith

/-- 201 samples with the spread 20: the measured duration is 20, within `10^(-10)`. -/
example (y : Vec ℝ) (hy : amgauss ((2 * 100 + 1 : ℕ) : ℤ) (some (((100 : ℕ) : ℝ) + 1)) (some 20) = .ok y) (x : Vec ℂ) (hl : x.len = 2 * 100 + 1)
    (hx : ∀ i < 2 * 100 + 1, ‖x.get i‖ = y.get i) : ∃ T : ℝ, loctime x = .ok (((100 : ℕ) : ℝ), T) ∧ T ≤ 20 ∧ 20 - 1 / 10 ^ 10 < T := by
  obtain ⟨T, h1, h2, h3, h4⟩ := C132_duration 100 20 (by norm_num) y hy x hl hx
  refine ⟨T, h1, h3, ?_⟩
  have hpi3 := Real.pi_gt_three
  have hpi4 := Real.pi_lt_four
  have he : Real.exp (-1) ≤ 1 / 2 := by
    rw [Real.exp_neg, inv_eq_one_div]
    have := Real.add_one_le_exp (1 : ℝ)
    exact one_div_le_one_div_of_le (by norm_num) (by linarith)
  have small : ∀ x : ℝ, x ≤ -100 → Real.exp x ≤ 1 / 10 ^ 30 := by
    intro x hx
    have h1 : Real.exp x ≤ Real.exp (-1) ^ 100 := by
      rw [← Real.exp_nat_mul, Real.exp_le_exp]; push_cast; linarith
    calc Real.exp x ≤ Real.exp (-1) ^ 100 := h1
      _ ≤ (1 / 2 : ℝ) ^ 100 := pow_le_pow_left₀ (Real.exp_pos _).le he _
      _ ≤ _ := by norm_num
  have bound : ∀ a D : ℝ, 0 < D → D ≤ 101 → -Real.pi * a * D ^ 2 ≤ -100 → -2 * Real.pi * a * D ≤ -1 → rest2 a D ≤ 30000 / 10 ^ 30 := by
    intro a D hD hD' hu hv
    unfold rest2
    have hq := (Real.exp_le_exp.2 hv).trans he
    have hg : 1 / (1 - Real.exp (-2 * Real.pi * a * D)) ≤ 2 := by
      rw [div_le_iff₀ (by linarith)]; linarith
    have hg0 : 0 < 1 / (1 - Real.exp (-2 * Real.pi * a * D)) := by
      have : 0 < 1 - Real.exp (-2 * Real.pi * a * D) := by linarith
      positivity
    set g := 1 / (1 - Real.exp (-2 * Real.pi * a * D))
    have hX : D ^ 2 * g + 2 * D * g ^ 2 + 2 * g ^ 3 ≤ 101 ^ 2 * 2 + 2 * 101 * 2 ^ 2 + 2 * 2 ^ 3 := by gcongr
    have hX0 : 0 ≤ D ^ 2 * g + 2 * D * g ^ 2 + 2 * g ^ 3 := by positivity
    have hX1 : D ^ 2 * g + 2 * D * g ^ 2 + 2 * g ^ 3 ≤ 30000 := by norm_num at hX ⊢; linarith
    calc _ ≤ 1 / 10 ^ 30 * 30000 := mul_le_mul (small _ hu) hX1 hX0 (by positivity)
      _ = _ := by ring
  have b1 := bound (20 ^ 2 / 2) 1 (by norm_num) (by norm_num) (by linarith) (by linarith)
  have b2 := bound (2 / 20 ^ 2) (((100 : ℕ) : ℝ) + 1) (by norm_num) (by norm_num) (by push_cast; linarith) (by push_cast; linarith)
  have hsq2 : Real.sqrt 2 ≤ 2 := by rw [Real.sqrt_le_left (by norm_num)]; norm_num
  have t1 : 2 * Real.pi * 20 ^ 4 * rest2 (20 ^ 2 / 2) 1 ≤ 2 * 4 * 20 ^ 4 * (30000 / 10 ^ 30) := by
    have := rest2_nonneg (a := 20 ^ 2 / 2) (D := 1) (by norm_num) (by norm_num)
    gcongr
  have t2 : 8 * Real.sqrt 2 * Real.pi / 20 * rest2 (2 / 20 ^ 2) (((100 : ℕ) : ℝ) + 1) ≤ 8 * 2 * 4 / 20 * (30000 / 10 ^ 30) := by
    have := rest2_nonneg (a := 2 / 20 ^ 2) (D := ((100 : ℕ) : ℝ) + 1) (by norm_num) (by norm_num)
    gcongr
  by_contra hc
  have hc := not_lt.1 hc
  have : T ^ 2 ≤ (20 - 1 / 10 ^ 10) ^ 2 := by gcongr
  norm_num at *
  linarith

end Tftb.Props
