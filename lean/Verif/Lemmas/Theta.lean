import Mathlib.Analysis.SpecialFunctions.Gaussian.PoissonSummation
import Mathlib.Analysis.Calculus.SmoothSeries
import Mathlib.Topology.Algebra.InfiniteSum.NatInt
import Mathlib.Analysis.SpecialFunctions.Log.Basic
import Mathlib.Analysis.SpecificLimits.Normed

/-! # Sums of samples of a Gaussian -/

namespace Tftb.Theta

open Finset

/-- Bound of a one-sided sum of samples. -/
noncomputable def rest (a D : ℝ) : ℝ := Real.exp (-Real.pi * a * D ^ 2) / (1 - Real.exp (-2 * Real.pi * a * D))

theorem ratio_lt_one {a D : ℝ} (ha : 0 < a) (hD : 0 < D) : Real.exp (-2 * Real.pi * a * D) < 1 := by
  rw [Real.exp_lt_one_iff]
  have := Real.pi_pos
  nlinarith [mul_pos (mul_pos this ha) hD]

theorem rest_pos {a D : ℝ} (ha : 0 < a) (hD : 0 < D) : 0 < rest a D :=
  div_pos (Real.exp_pos _) (by linarith [ratio_lt_one ha hD])

theorem term_le {a D : ℝ} (ha : 0 < a) (n : ℕ) :
    Real.exp (-Real.pi * a * (n + D) ^ 2) ≤ Real.exp (-Real.pi * a * D ^ 2) * Real.exp (-2 * Real.pi * a * D) ^ n := by
  rw [← Real.exp_nat_mul, ← Real.exp_add, Real.exp_le_exp]
  have := mul_pos Real.pi_pos ha
  nlinarith [mul_nonneg this.le (sq_nonneg (n : ℝ))]

theorem hasSum_bound {a D : ℝ} (ha : 0 < a) (hD : 0 < D) :
    HasSum (fun n : ℕ => Real.exp (-Real.pi * a * D ^ 2) * Real.exp (-2 * Real.pi * a * D) ^ n) (rest a D) := by
  unfold rest
  rw [div_eq_mul_inv]
  exact (hasSum_geometric_of_lt_one (Real.exp_pos _).le (ratio_lt_one ha hD)).mul_left _

theorem summable_tail {a D : ℝ} (ha : 0 < a) (hD : 0 < D) : Summable fun n : ℕ => Real.exp (-Real.pi * a * (n + D) ^ 2) :=
  Summable.of_nonneg_of_le (fun _ => (Real.exp_pos _).le) (term_le ha) (hasSum_bound ha hD).summable

theorem tail_le {a D : ℝ} (ha : 0 < a) (hD : 0 < D) : ∑' n : ℕ, Real.exp (-Real.pi * a * (n + D) ^ 2) ≤ rest a D := by
  rw [← (hasSum_bound ha hD).tsum_eq]
  exact (summable_tail ha hD).tsum_le_tsum (term_le ha) (hasSum_bound ha hD).summable

theorem tail_nonneg (a D : ℝ) : 0 ≤ ∑' n : ℕ, Real.exp (-Real.pi * a * (n + D) ^ 2) := tsum_nonneg fun _ => (Real.exp_pos _).le

/-! ## Second moments -/

theorem sq_term_le {a : ℝ} (ha : 0 < a) (z : ℝ) : z ^ 2 * Real.exp (-Real.pi * a * z ^ 2) ≤ 1 / (Real.pi * a) * Real.exp (-Real.pi * (a / 2) * z ^ 2) := by
  have hpa := mul_pos Real.pi_pos ha
  have h2 := @Real.two_mul_le_exp (Real.pi * (a / 2) * z ^ 2)
  have hsplit : Real.exp (-Real.pi * a * z ^ 2) = Real.exp (-Real.pi * (a / 2) * z ^ 2) * Real.exp (-Real.pi * (a / 2) * z ^ 2) := by
    rw [← Real.exp_add]; congr 1; ring
  have hinv : Real.exp (Real.pi * (a / 2) * z ^ 2) * Real.exp (-Real.pi * (a / 2) * z ^ 2) = 1 := by
    rw [← Real.exp_add, show Real.pi * (a / 2) * z ^ 2 + -Real.pi * (a / 2) * z ^ 2 = 0 by ring, Real.exp_zero]
  rw [hsplit]
  have hE := Real.exp_pos (-Real.pi * (a / 2) * z ^ 2)
  set E := Real.exp (-Real.pi * (a / 2) * z ^ 2)
  have h3 : Real.pi * a * z ^ 2 * E ≤ 1 := by nlinarith
  rw [div_mul_eq_mul_div, le_div_iff₀ hpa]
  nlinarith

theorem summable_sq_tail {a D : ℝ} (ha : 0 < a) (hD : 0 < D) : Summable fun n : ℕ => ((n : ℝ) + D) ^ 2 * Real.exp (-Real.pi * a * (n + D) ^ 2) :=
  Summable.of_nonneg_of_le (fun _ => by positivity) (fun n => sq_term_le ha ((n : ℝ) + D)) ((summable_tail (half_pos ha) hD).mul_left _)

/-- Bound of a one-sided second moment. -/
noncomputable def rest2 (a D : ℝ) : ℝ :=
  Real.exp (-Real.pi * a * D ^ 2) * (D ^ 2 * (1 / (1 - Real.exp (-2 * Real.pi * a * D))) + 2 * D * (1 / (1 - Real.exp (-2 * Real.pi * a * D))) ^ 2
    + 2 * (1 / (1 - Real.exp (-2 * Real.pi * a * D))) ^ 3)

theorem sq_tail_le {a D : ℝ} (ha : 0 < a) (hD : 0 < D) : ∑' n : ℕ, ((n : ℝ) + D) ^ 2 * Real.exp (-Real.pi * a * (n + D) ^ 2) ≤ rest2 a D := by
  set r := Real.exp (-2 * Real.pi * a * D) with hr
  have hr0 : 0 < r := Real.exp_pos _
  have hr1 : ‖r‖ < 1 := by rw [Real.norm_eq_abs, abs_of_pos hr0]; exact ratio_lt_one ha hD
  have h0 := hasSum_choose_mul_geometric_of_norm_lt_one 0 hr1
  have h1 := hasSum_choose_mul_geometric_of_norm_lt_one 1 hr1
  have h2 := hasSum_choose_mul_geometric_of_norm_lt_one 2 hr1
  have h := (((h0.mul_left (D ^ 2)).add (h1.mul_left (2 * D))).add (h2.mul_left 2)).mul_left (Real.exp (-Real.pi * a * D ^ 2))
  have hval : Real.exp (-Real.pi * a * D ^ 2) * (D ^ 2 * (1 / (1 - r) ^ (0 + 1)) + 2 * D * (1 / (1 - r) ^ (1 + 1)) + 2 * (1 / (1 - r) ^ (2 + 1))) = rest2 a D := by
    unfold rest2
    rw [← hr, one_div_pow, one_div_pow, pow_one]
  rw [hval] at h
  rw [← h.tsum_eq]
  refine (summable_sq_tail ha hD).tsum_le_tsum (fun n => ?_) h.summable
  have ht := term_le (D := D) ha n
  rw [← hr] at ht
  have hc2 : (((n + 2).choose 2 : ℕ) : ℝ) = ((n : ℝ) + 2) * (n + 1) / 2 := by
    rw [Nat.cast_choose_two]; push_cast; ring
  have hn0 : (0 : ℝ) ≤ n := Nat.cast_nonneg n
  rw [Nat.choose_zero_right, Nat.choose_one_right, hc2]
  push_cast
  calc ((n : ℝ) + D) ^ 2 * Real.exp (-Real.pi * a * (n + D) ^ 2) ≤ ((n : ℝ) + D) ^ 2 * (Real.exp (-Real.pi * a * D ^ 2) * r ^ n) := by gcongr
    _ = Real.exp (-Real.pi * a * D ^ 2) * (((n : ℝ) + D) ^ 2 * r ^ n) := by ring
    _ ≤ Real.exp (-Real.pi * a * D ^ 2) * ((D ^ 2 + 2 * D * (n + 1) + 2 * (((n : ℝ) + 2) * (n + 1) / 2)) * r ^ n) := by
        gcongr
        nlinarith
    _ = _ := by ring

theorem rest2_nonneg {a D : ℝ} (ha : 0 < a) (hD : 0 < D) : 0 ≤ rest2 a D := (tsum_nonneg fun _ => by positivity).trans (sq_tail_le ha hD)

/-! ## Poisson summation -/

/-- Half the sum over the non-zero integers. -/
noncomputable def half (a : ℝ) : ℝ := ∑' n : ℕ, Real.exp (-Real.pi * a * (n + 1) ^ 2)

/-- Half the second moment. -/
noncomputable def half2 (a : ℝ) : ℝ := ∑' n : ℕ, ((n : ℝ) + 1) ^ 2 * Real.exp (-Real.pi * a * (n + 1) ^ 2)

theorem half_nonneg (a : ℝ) : 0 ≤ half a := tail_nonneg a 1

theorem half_le {a : ℝ} (ha : 0 < a) : half a ≤ rest a 1 := tail_le ha one_pos

theorem half2_nonneg (a : ℝ) : 0 ≤ half2 a := tsum_nonneg fun _ => by positivity

theorem half2_le {a : ℝ} (ha : 0 < a) : half2 a ≤ rest2 a 1 := sq_tail_le ha one_pos

/-- Sum over all integers of the samples around a real centre. -/
theorem poisson {a : ℝ} (ha : 0 < a) (t D : ℝ) (hD : 0 < D) (ht : D = t + 1) (n : ℕ) (hn : 0 < (n : ℝ) - t) :
    |∑ i ∈ range n, Real.exp (-Real.pi * a * ((i : ℝ) - t) ^ 2) + ∑' j : ℕ, Real.exp (-Real.pi * a * (j + (n - t)) ^ 2)
      + ∑' j : ℕ, Real.exp (-Real.pi * a * (j + D) ^ 2) - 1 / Real.sqrt a| ≤ 2 / Real.sqrt a * half (1 / a) := by
  have hsa := Real.sqrt_pos.2 ha
  have hia : 0 < 1 / a := by positivity
  -- the side of the samples
  have hnat : Summable fun i : ℕ => Real.exp (-Real.pi * a * ((i : ℝ) - t) ^ 2) := by
    rw [← summable_nat_add_iff n]
    refine (summable_tail ha hn).congr fun j => ?_
    push_cast
    congr 2
    ring
  have hneg : Summable fun j : ℕ => Real.exp (-Real.pi * a * (((-((j : ℤ) + 1) : ℤ) : ℝ) - t) ^ 2) := by
    refine (summable_tail ha hD).congr fun j => ?_
    push_cast
    rw [ht]
    congr 1
    ring
  have hL : ∑' k : ℤ, Real.exp (-Real.pi * a * ((k : ℝ) - t) ^ 2) = ∑ i ∈ range n, Real.exp (-Real.pi * a * ((i : ℝ) - t) ^ 2)
      + ∑' j : ℕ, Real.exp (-Real.pi * a * (j + (n - t)) ^ 2) + ∑' j : ℕ, Real.exp (-Real.pi * a * (j + D) ^ 2) := by
    rw [tsum_of_nat_of_neg_add_one (f := fun k : ℤ => Real.exp (-Real.pi * a * ((k : ℝ) - t) ^ 2)) (by simpa using hnat) hneg]
    congr 1
    · rw [← Summable.sum_add_tsum_nat_add n (by simpa using hnat)]
      congr 1
      refine tsum_congr fun j => ?_
      push_cast
      congr 2
      ring
    · refine tsum_congr fun j => ?_
      push_cast
      rw [ht]
      congr 1
      ring
  rw [← hL]
  -- the side of the frequencies
  have hP := Complex.tsum_exp_neg_quadratic (a := ((1 / a : ℝ) : ℂ)) (by simpa using ha) (Complex.I * t)
  have hre : ∀ k : ℤ, Complex.exp (-Real.pi / ((1 / a : ℝ) : ℂ) * (k + Complex.I * (Complex.I * t)) ^ 2) = ((Real.exp (-Real.pi * a * ((k : ℝ) - t) ^ 2) : ℝ) : ℂ) := by
    intro k
    rw [Complex.ofReal_exp]
    congr 1
    push_cast
    rw [← mul_assoc Complex.I, Complex.I_mul_I, one_div, div_inv_eq_mul]
    ring
  have hpow : ((1 / a : ℝ) : ℂ) ^ (1 / 2 : ℂ) = ((1 / Real.sqrt a : ℝ) : ℂ) := by
    rw [show (1 / 2 : ℂ) = ((1 / 2 : ℝ) : ℂ) by push_cast; rfl, ← Complex.ofReal_cpow hia.le, ← Real.sqrt_eq_rpow, Real.sqrt_div zero_le_one, Real.sqrt_one]
  rw [tsum_congr hre, ← Complex.ofReal_tsum, hpow] at hP
  set L := ∑' k : ℤ, Real.exp (-Real.pi * a * ((k : ℝ) - t) ^ 2)
  set f : ℤ → ℂ := fun k => Complex.exp (-Real.pi * ((1 / a : ℝ) : ℂ) * (k : ℂ) ^ 2 + 2 * Real.pi * (Complex.I * t) * k) with hf
  have hnorm : ∀ k : ℤ, ‖f k‖ = Real.exp (-Real.pi * (1 / a) * (k : ℝ) ^ 2) := by
    intro k
    rw [hf]
    dsimp only
    rw [Complex.norm_exp]
    congr 1
    have : (-Real.pi * ((1 / a : ℝ) : ℂ) * (k : ℂ) ^ 2 + 2 * Real.pi * (Complex.I * t) * k)
        = ((-Real.pi * (1 / a) * (k : ℝ) ^ 2 : ℝ) : ℂ) + ((2 * Real.pi * t * k : ℝ) : ℂ) * Complex.I := by push_cast; ring
    rw [this, Complex.add_re, Complex.ofReal_re, Complex.re_ofReal_mul, Complex.I_re, mul_zero, add_zero]
  have hs1 : Summable fun j : ℕ => ‖f ((j : ℤ) + 1)‖ := by
    refine (summable_tail hia one_pos).congr fun j => ?_
    rw [hnorm]
    push_cast
    rfl
  have hs2 : Summable fun j : ℕ => ‖f (-((j : ℤ) + 1))‖ := by
    refine (summable_tail hia one_pos).congr fun j => ?_
    rw [hnorm]
    push_cast
    congr 1
    ring
  have hs0 : Summable fun j : ℕ => f j := by
    rw [← summable_nat_add_iff 1]
    exact (hs1.of_norm).congr fun j => by push_cast; rfl
  have hf0 : f 0 = 1 := by rw [hf]; simp
  have hsum : ∑' k : ℤ, f k = 1 + (∑' j : ℕ, f ((j : ℤ) + 1) + ∑' j : ℕ, f (-((j : ℤ) + 1))) := by
    rw [tsum_of_nat_of_neg_add_one hs0 hs2.of_norm, hs0.tsum_eq_zero_add, ← add_assoc]
    congr 2
  have hb1 : ‖∑' j : ℕ, f ((j : ℤ) + 1)‖ ≤ half (1 / a) := by
    refine (norm_tsum_le_tsum_norm hs1).trans (le_of_eq (tsum_congr fun j => ?_))
    rw [hnorm]
    push_cast
    rfl
  have hb2 : ‖∑' j : ℕ, f (-((j : ℤ) + 1))‖ ≤ half (1 / a) := by
    refine (norm_tsum_le_tsum_norm hs2).trans (le_of_eq (tsum_congr fun j => ?_))
    rw [hnorm]
    push_cast
    congr 1
    ring
  have hLf : (L : ℂ) = ((1 / Real.sqrt a : ℝ) : ℂ) * ∑' k : ℤ, f k := by
    rw [show ∑' k : ℤ, f k = _ from hP]
    have : ((1 / Real.sqrt a : ℝ) : ℂ) ≠ 0 := by
      rw [Complex.ofReal_ne_zero]; positivity
    field_simp
  rw [hsum, mul_add, mul_one] at hLf
  have hdiff : ((L - 1 / Real.sqrt a : ℝ) : ℂ) = ((1 / Real.sqrt a : ℝ) : ℂ) * (∑' j : ℕ, f ((j : ℤ) + 1) + ∑' j : ℕ, f (-((j : ℤ) + 1))) := by
    rw [Complex.ofReal_sub, hLf]; ring
  rw [← Real.norm_eq_abs, ← Complex.norm_real, hdiff, norm_mul, Complex.norm_real, Real.norm_eq_abs, abs_of_pos (by positivity : 0 < 1 / Real.sqrt a)]
  calc 1 / Real.sqrt a * ‖∑' j : ℕ, f ((j : ℤ) + 1) + ∑' j : ℕ, f (-((j : ℤ) + 1))‖ ≤ 1 / Real.sqrt a * (half (1 / a) + half (1 / a)) := by
        gcongr
        exact (norm_add_le _ _).trans (add_le_add hb1 hb2)
    _ = _ := by ring

/-- Sum of the samples of a Gaussian around a centre inside the signal. -/
theorem mass {a : ℝ} (ha : 0 < a) (n : ℕ) (t0 : ℝ) (h0 : 0 < t0) (h1 : t0 < n + 1) :
    |∑ i ∈ range n, Real.exp (-Real.pi * a * ((i : ℝ) + 1 - t0) ^ 2) - 1 / Real.sqrt a| ≤ 2 / Real.sqrt a * rest (1 / a) 1 + rest a t0 + rest a (n + 1 - t0) := by
  have hsa := Real.sqrt_pos.2 ha
  have hia : 0 < 1 / a := by positivity
  have hD : (0 : ℝ) < n - (t0 - 1) := by linarith
  have h := poisson ha (t0 - 1) t0 h0 (by ring) n hD
  have e1 : ∀ i : ℕ, (i : ℝ) - (t0 - 1) = i + 1 - t0 := fun i => by ring
  simp only [e1] at h hD
  have b1 := tail_le ha h0
  have b2 := tail_le ha hD
  have n1 := tail_nonneg a t0
  have n2 := tail_nonneg a ((n : ℝ) + 1 - t0)
  have b3 := half_le hia
  have b4 : 2 / Real.sqrt a * half (1 / a) ≤ 2 / Real.sqrt a * rest (1 / a) 1 := by gcongr
  rw [abs_le] at h ⊢
  constructor <;> linarith [h.1, h.2, rest_pos ha h0, rest_pos ha hD]

/-- Jacobi's formula for the sum over all integers. -/
theorem jacobi {a : ℝ} (ha : 0 < a) : 1 + 2 * half a = 1 / Real.sqrt a * (1 + 2 * half (1 / a)) := by
  have key : ∀ b : ℝ, 0 < b → ∑' k : ℤ, Real.exp (-Real.pi * b * (k : ℝ) ^ 2) = 1 + 2 * half b := by
    intro b hb
    have s1 : Summable fun j : ℕ => Real.exp (-Real.pi * b * (((j : ℤ) : ℝ)) ^ 2) := by
      rw [← summable_nat_add_iff 1]
      exact (summable_tail hb one_pos).congr fun j => by push_cast; rfl
    have s2 : Summable fun j : ℕ => Real.exp (-Real.pi * b * (((-((j : ℤ) + 1) : ℤ) : ℝ)) ^ 2) := by
      refine (summable_tail hb one_pos).congr fun j => ?_
      push_cast; congr 1; ring
    rw [tsum_of_nat_of_neg_add_one (f := fun k : ℤ => Real.exp (-Real.pi * b * (k : ℝ) ^ 2)) s1 s2, s1.tsum_eq_zero_add]
    have e1 : ∑' j : ℕ, Real.exp (-Real.pi * b * ((((j + 1 : ℕ) : ℤ) : ℝ)) ^ 2) = half b := tsum_congr fun j => by push_cast; rfl
    have e2 : ∑' j : ℕ, Real.exp (-Real.pi * b * (((-((j : ℤ) + 1) : ℤ) : ℝ)) ^ 2) = half b :=
      tsum_congr fun j => by push_cast; congr 1; ring
    rw [e1, e2]
    simp
    ring
  have := Real.tsum_exp_neg_mul_int_sq ha
  rw [key a ha] at this
  rw [this, ← Real.sqrt_eq_rpow]
  congr 1
  rw [← key (1 / a) (by positivity)]
  refine tsum_congr fun k => ?_
  congr 2
  ring

theorem hasDerivAt_half {a : ℝ} (ha : 0 < a) : HasDerivAt half (-Real.pi * half2 a) a := by
  have hopen : IsOpen (Set.Ioi (a / 2)) := isOpen_Ioi
  have hpre : IsPreconnected (Set.Ioi (a / 2)) := isPreconnected_Ioi
  have h := hasDerivAt_tsum_of_isPreconnected (𝕜 := ℝ) (g := fun (n : ℕ) (b : ℝ) => Real.exp (-Real.pi * b * ((n : ℝ) + 1) ^ 2))
    (g' := fun (n : ℕ) (b : ℝ) => Real.exp (-Real.pi * b * ((n : ℝ) + 1) ^ 2) * (-Real.pi * ((n : ℝ) + 1) ^ 2))
    (u := fun n : ℕ => Real.pi * (((n : ℝ) + 1) ^ 2 * Real.exp (-Real.pi * (a / 2) * ((n : ℝ) + 1) ^ 2))) (t := Set.Ioi (a / 2)) (y₀ := a) (y := a)
    ((summable_sq_tail (half_pos ha) one_pos).mul_left _) hopen hpre ?_ ?_ (by simp [ha]) (summable_tail ha one_pos) (by simp [ha])
  · have he : ∑' n : ℕ, Real.exp (-Real.pi * a * ((n : ℝ) + 1) ^ 2) * (-Real.pi * ((n : ℝ) + 1) ^ 2) = -Real.pi * half2 a := by
      unfold half2
      rw [← tsum_mul_left]
      exact tsum_congr fun n => by ring
    rw [he] at h
    exact h
  · intro n y _
    have : HasDerivAt (fun b : ℝ => -Real.pi * b * ((n : ℝ) + 1) ^ 2) (-Real.pi * ((n : ℝ) + 1) ^ 2) y := by
      have h1 := ((hasDerivAt_id y).const_mul (-Real.pi)).mul_const (((n : ℝ) + 1) ^ 2)
      simpa using h1
    exact this.exp
  · intro n y hy
    have hy : a / 2 < y := hy
    rw [norm_mul, Real.norm_eq_abs, Real.norm_eq_abs, abs_of_pos (Real.exp_pos _), abs_mul, abs_neg, abs_of_pos Real.pi_pos, abs_of_nonneg (sq_nonneg _),
      mul_comm, mul_assoc]
    have hexp : Real.exp (-Real.pi * y * ((n : ℝ) + 1) ^ 2) ≤ Real.exp (-Real.pi * (a / 2) * ((n : ℝ) + 1) ^ 2) := by
      rw [Real.exp_le_exp]
      nlinarith [mul_nonneg Real.pi_pos.le (sq_nonneg ((n : ℝ) + 1))]
    have := Real.pi_pos
    gcongr

/-- The second moment of the samples of a Gaussian: a little less than that of the Gaussian. -/
theorem second_moment {a : ℝ} (ha : 0 < a) : 2 * half2 a = (1 + 2 * half a) / (2 * Real.pi * a) - 1 / (Real.sqrt a * a ^ 2) * (2 * half2 (1 / a)) := by
  have hsa := Real.sqrt_pos.2 ha
  have hia : 0 < 1 / a := by positivity
  have hpi := Real.pi_pos
  have d1 : HasDerivAt (fun b => 1 + 2 * half b) (2 * (-Real.pi * half2 a)) a := by
    simpa using ((hasDerivAt_half ha).const_mul 2).const_add 1
  have dinv : HasDerivAt (fun b : ℝ => 1 / b) (-(1 / a ^ 2)) a := by
    simpa [one_div] using hasDerivAt_inv ha.ne'
  have dsq : HasDerivAt (fun b : ℝ => 1 / Real.sqrt b) (-(1 / (2 * Real.sqrt a)) / Real.sqrt a ^ 2) a := by
    exact ((Real.hasDerivAt_sqrt ha.ne').inv hsa.ne').congr_of_eventuallyEq (Filter.Eventually.of_forall fun b => by simp)
  have d2 : HasDerivAt (fun b => 1 + 2 * half (1 / b)) (2 * (-Real.pi * half2 (1 / a) * -(1 / a ^ 2))) a := by
    have := ((hasDerivAt_half hia).comp a dinv)
    simpa [Function.comp_def] using (this.const_mul 2).const_add 1
  have d3 := dsq.mul d2
  have heq : (fun b => 1 + 2 * half b) =ᶠ[nhds a] fun b => 1 / Real.sqrt b * (1 + 2 * half (1 / b)) := by
    filter_upwards [lt_mem_nhds ha] with b hb using jacobi hb
  have := (d3.congr_of_eventuallyEq heq).unique d1
  have hs2 : Real.sqrt a ^ 2 = a := Real.sq_sqrt ha.le
  have hj := jacobi ha
  rw [hj]
  rw [hs2] at this
  generalize half2 (1 / a) = u at this ⊢
  generalize half2 a = v at this ⊢
  generalize half (1 / a) = w at this ⊢
  set r := Real.sqrt a
  have h4 : v = (-(1 / (2 * r)) / a * (1 + 2 * w) + 1 / r * (2 * (-Real.pi * u * -(1 / a ^ 2)))) / (-2 * Real.pi) := by
    rw [this]; field_simp
  rw [h4]
  field_simp
  ring

end Tftb.Theta
