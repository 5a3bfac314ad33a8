import Verif.Props.WvdNegative
import Verif.Props.Cohen
import Mathlib.Analysis.Real.Pi.Bounds
import Mathlib.Analysis.SpecialFunctions.Trigonometric.Bounds

/-! # C140 — where the pseudo Wigner-Ville and Margenau-Hill distributions and the Page representation are negative -/

namespace Tftb.Props

open Tftb Tftb.Spec Tftb.Linear Tftb.Cohen Tftb.Post Finset ComplexConjugate

/-- Two moments whose product has no moment (Bessel's inequality). -/
theorem norm_weights_two (n : ℕ) (w : ℕ → ℝ) (z y : ℕ → ℂ) (hw : ∀ k < n, 0 ≤ w k) (hz : ∀ k, ‖z k‖ = 1) (hy : ∀ k, ‖y k‖ = 1)
    (h0 : ∑ k ∈ range n, (w k : ℂ) * (z k * y k) = 0) :
    ‖∑ k ∈ range n, (w k : ℂ) * z k‖ ^ 2 + ‖∑ k ∈ range n, (w k : ℂ) * y k‖ ^ 2 ≤ (∑ k ∈ range n, w k) ^ 2 := by
  set P := ∑ k ∈ range n, (w k : ℂ) * z k with hP
  set Q := ∑ k ∈ range n, (w k : ℂ) * y k with hQ
  set S := ∑ k ∈ range n, w k with hS
  have hSn : 0 ≤ S := Finset.sum_nonneg fun k hk => hw k (Finset.mem_range.1 hk)
  have hPS : ‖P‖ ≤ S := norm_weights_le n w z hw hz
  have hQS : ‖Q‖ ≤ S := norm_weights_le n w y hw hy
  rcases hSn.eq_or_lt with hS0 | hS0
  · have e1 : ‖P‖ = 0 := le_antisymm (by linarith) (norm_nonneg _)
    have e2 : ‖Q‖ = 0 := le_antisymm (by linarith) (norm_nonneg _)
    rw [e1, e2, ← hS0]
    norm_num
  have hzz : ∀ k, z k * conj (z k) = 1 := fun k => by rw [Complex.mul_conj, Complex.normSq_eq_norm_sq, hz]; norm_num
  have hyy : ∀ k, y k * conj (y k) = 1 := fun k => by rw [Complex.mul_conj, Complex.normSq_eq_norm_sq, hy]; norm_num
  have hnn : 0 ≤ ∑ k ∈ range n, w k * ‖(S : ℂ) - conj P * z k - Q * conj (y k)‖ ^ 2 :=
    Finset.sum_nonneg fun k hk => mul_nonneg (hw k (Finset.mem_range.1 hk)) (sq_nonneg _)
  have hconj : ∀ v : ℕ → ℂ, ∑ k ∈ range n, (w k : ℂ) * conj (v k) = conj (∑ k ∈ range n, (w k : ℂ) * v k) := by
    intro v
    rw [map_sum]
    exact Finset.sum_congr rfl fun k _ => by rw [map_mul, Complex.conj_ofReal]
  have hex : ((∑ k ∈ range n, w k * ‖(S : ℂ) - conj P * z k - Q * conj (y k)‖ ^ 2 : ℝ) : ℂ) = S * (S ^ 2 - P * conj P - Q * conj Q) := by
    have hterm : ∀ k ∈ range n, ((w k * ‖(S : ℂ) - conj P * z k - Q * conj (y k)‖ ^ 2 : ℝ) : ℂ)
        = ((S : ℂ) ^ 2 + P * conj P + Q * conj Q) * (w k : ℂ) - S * conj P * ((w k : ℂ) * z k) - S * P * ((w k : ℂ) * conj (z k))
          - S * Q * ((w k : ℂ) * conj (y k)) - S * conj Q * ((w k : ℂ) * y k) + conj P * conj Q * ((w k : ℂ) * (z k * y k))
          + P * Q * ((w k : ℂ) * conj (z k * y k)) := by
      intro k _
      push_cast
      rw [← Complex.mul_conj']
      simp only [map_sub, map_mul, Complex.conj_ofReal, Complex.conj_conj]
      linear_combination (w k : ℂ) * P * conj P * hzz k + (w k : ℂ) * Q * conj Q * hyy k
    rw [Complex.ofReal_sum, Finset.sum_congr rfl hterm]
    simp only [Finset.sum_add_distrib, Finset.sum_sub_distrib, ← Finset.mul_sum]
    rw [hconj, hconj, hconj, h0, ← hP, ← hQ, ← Complex.ofReal_sum, ← hS, map_zero]
    ring
  have hre : ∑ k ∈ range n, w k * ‖(S : ℂ) - conj P * z k - Q * conj (y k)‖ ^ 2 = S * (S ^ 2 - ‖P‖ ^ 2 - ‖Q‖ ^ 2) := by
    rw [Complex.mul_conj', Complex.mul_conj'] at hex
    exact_mod_cast hex
  rw [hre] at hnn
  have := nonneg_of_mul_nonneg_right hnn hS0
  linarith

/-- **Two lags in the Wigner-Ville distribution.**  A column without negative entry: at two lags that together leave the signal, the squares of the products of the moduli of the
symmetric samples are together at most the fourth power of the modulus at the instant. -/
theorem C139_two {τ : Type} (x : Vec ℂ) (ts : Vec τ) (n : ℕ) (hn : 2 ≤ n) (M : Mat ℝ) (hM : WvdReturns x ts n M) (t : ℕ) (ht : t < x.len) (h0 : ∀ k < n, 0 ≤ M.get k t)
    (a b : ℕ) (hat : a ≤ t) (hbt : b ≤ t) (hax : t + a < x.len) (hbx : t + b < x.len) (hab : t < a + b ∨ x.len ≤ t + (a + b))
    (habn : (a : ℤ) + b + min (t : ℤ) ((x.len : ℤ) - 1 - t) < n) :
    (‖x.get (t + a)‖ * ‖x.get (t - a)‖) ^ 2 + (‖x.get (t + b)‖ * ‖x.get (t - b)‖) ^ 2 ≤ ‖x.get t‖ ^ 4 := by
  have hn0 : (0 : ℝ) < n := by exact_mod_cast (by omega : 0 < n)
  have h1 := norm_weights_two n (fun k => M.get k t) (fun k => rootPow n (-(k : ℤ)) ^ a) (fun k => rootPow n (-(k : ℤ)) ^ b) h0
    (fun k => by rw [norm_pow, norm_rootPow, one_pow]) (fun k => by rw [norm_pow, norm_rootPow, one_pow]) (by
      rw [← (column_moments x ts n hn M hM t ht (a + b)).2 (by push_cast; omega) (by push_cast; omega)]
      exact Finset.sum_congr rfl fun k _ => by rw [pow_add])
  rw [column_sum x ts n hn M hM t ht a (by omega), column_sum x ts n hn M hM t ht b (by omega), C34_time_marginal x ts n hn M hM t ht, mul_pow (n : ℝ),
    mul_pow (n : ℝ), mul_pow (n : ℝ), ← mul_add, ← pow_mul] at h1
  exact le_of_mul_le_mul_left h1 (by positivity)

/-- Five samples of modulus 1, 1, 1.1, 1, 1 and six bins: the middle column has a negative entry. -/
example (M : Mat ℝ) (hM : WvdReturns ⟨5, fun i => if i = 2 then 1.1 else 1⟩ (arange 0 (5 : ℕ)) 6 M) : ∃ k < 6, M.get k 2 < 0 := by
  by_contra hc
  push Not at hc
  have := C139_two _ _ 6 (by norm_num) M hM 2 (by norm_num) hc 1 2 (by norm_num) (by norm_num) (by norm_num) (by norm_num) (Or.inl (by norm_num)) (by norm_num)
  norm_num at this

/-! ## The pseudo Wigner-Ville distribution -/

/-- The moments of column `t` of a pseudo Wigner-Ville distribution with a Hermitian window. -/
theorem pwvd_moments {τ : Type} (x : Vec ℂ) (ts : Vec τ) (n : ℕ) (h : Vec ℂ) (L : ℕ) (hh : h.len = 2 * L + 1) (hL : (L : ℤ) < roundEven ((n : ℝ) / 2))
    (hsym : ∀ i ≤ 2 * L, h.get (2 * L - i) = conj (h.get i)) (M : Mat ℝ) (hM : PwvdReturns x ts n (some h) M) (t : ℕ) (ht : t < ts.len) (m : ℕ) :
    (m ≤ L → ∑ k ∈ range n, (M.get k t : ℂ) * rootPow n (-(k : ℤ)) ^ m = n * (h.get (L + m) * wignerKernel x t m)) ∧
    (L < m → m + L < n → ∑ k ∈ range n, (M.get k t : ℂ) * rootPow n (-(k : ℤ)) ^ m = 0) := by
  have hn : 2 * L + 1 ≤ n := by
    rw [roundEven_half] at hL
    split_ifs at hL <;> omega
  have e : ∑ k ∈ range n, (M.get k t : ℂ) * rootPow n (-(k : ℤ)) ^ m
      = ∑ k ∈ range n, lagSum L n (fun τ => h.get ((L : ℤ) + τ).toNat * wignerKernel x t τ) k * rootPow n (-((m : ℤ) * k)) := by
    refine Finset.sum_congr rfl fun k hk => ?_
    rw [C36_real x ts n h L hh hL hsym M hM k (Finset.mem_range.1 hk) t ht, ← rootPow_nat_mul]
    congr 2
    ring
  rw [e]
  refine ⟨fun hm => ?_, fun hm hmn => ?_⟩
  · rw [lagSum_inv (by omega) (by omega) _ (by omega) (by omega)]
    congr 3
  · refine lagSum_outside (by omega) _ fun τ h1 h2 h3 => ?_
    obtain ⟨q, hq⟩ := h3
    have h5 : (n : ℤ) * q < 0 := by omega
    have h6 : -(n : ℤ) < n * q := by omega
    have hq0 : q < 0 := by
      by_contra hc
      have : 0 ≤ (n : ℤ) * q := mul_nonneg (by omega) (by omega)
      omega
    have : (n : ℤ) * q ≤ -n := by nlinarith
    omega

/-- **Symmetric products.**  A column of the pseudo Wigner-Ville distribution without negative entry: the modulus of the window at lag `m` times the product of the moduli of the two
samples symmetric about the instant is at most the middle sample of the window times the squared modulus at the instant. -/
theorem C140_products {τ : Type} (x : Vec ℂ) (ts : Vec τ) (n : ℕ) (h : Vec ℂ) (L : ℕ) (hh : h.len = 2 * L + 1) (hL : (L : ℤ) < roundEven ((n : ℝ) / 2))
    (hsym : ∀ i ≤ 2 * L, h.get (2 * L - i) = conj (h.get i)) (M : Mat ℝ) (hM : PwvdReturns x ts n (some h) M) (t : ℕ) (ht : t < ts.len)
    (h0 : ∀ k < n, 0 ≤ M.get k t) (m : ℕ) (hmL : m ≤ L) (hmt : m ≤ t) (hmx : t + m < x.len) :
    ‖h.get (L + m)‖ * (‖x.get (t + m)‖ * ‖x.get (t - m)‖) ≤ (h.get L).re * ‖x.get t‖ ^ 2 := by
  have hn : 0 < n := by
    rw [roundEven_half] at hL
    split_ifs at hL <;> omega
  have hn0 : (0 : ℝ) < n := by exact_mod_cast hn
  have h1 := norm_weights_le n (fun k => M.get k t) (fun k => rootPow n (-(k : ℤ)) ^ m) h0 (fun k => by rw [norm_pow, norm_rootPow, one_pow])
  rw [(pwvd_moments x ts n h L hh hL hsym M hM t ht m).1 hmL, C36_time_marginal x ts n h L hh hL M hM t ht (by omega)] at h1
  unfold wignerKernel at h1
  rw [zext_of_mem (by omega) (by omega), zext_of_mem (by omega) (by omega), norm_mul, norm_mul, norm_mul, RCLike.norm_conj,
    show ((t : ℤ) + (m : ℤ)).toNat = t + m by omega, show ((t : ℤ) - (m : ℤ)).toNat = t - m by omega, Complex.norm_natCast, mul_assoc (n : ℝ)] at h1
  exact le_of_mul_le_mul_left h1 hn0

/-- **Windows without taper.**  If the window is as large at lag one as in its middle, then at every instant where the modulus is not zero and is the geometric mean of its
neighbours' (every signal of constant modulus) the column has a negative entry, unless it has as many lags as bins. -/
theorem C140_flat {τ : Type} (x : Vec ℂ) (ts : Vec τ) (n : ℕ) (h : Vec ℂ) (L : ℕ) (hh : h.len = 2 * L + 1) (hL : (L : ℤ) < roundEven ((n : ℝ) / 2))
    (hsym : ∀ i ≤ 2 * L, h.get (2 * L - i) = conj (h.get i)) (M : Mat ℝ) (hM : PwvdReturns x ts n (some h) M) (t : ℕ) (ht : t < ts.len)
    (hL1 : 1 ≤ L) (hLn : 2 * L + 1 < n) (hpos : 0 < (h.get L).re) (hflat : ‖h.get (L + 1)‖ = (h.get L).re) (h1 : 1 ≤ t) (h2 : t + 1 < x.len)
    (hx : x.get t ≠ 0) (hg : ‖x.get (t + 1)‖ * ‖x.get (t - 1)‖ = ‖x.get t‖ ^ 2) : ∃ k < n, M.get k t < 0 := by
  by_contra hc
  push Not at hc
  have hn0 : (0 : ℝ) < n := by exact_mod_cast (by omega : 0 < n)
  have hm := C36_time_marginal x ts n h L hh hL M hM t ht (by omega)
  have e1 := congrArg norm ((pwvd_moments x ts n h L hh hL hsym M hM t ht 1).1 hL1)
  unfold wignerKernel at e1
  rw [zext_of_mem (by omega) (by omega), zext_of_mem (by omega) (by omega), norm_mul, norm_mul, norm_mul, RCLike.norm_conj,
    show ((t : ℤ) + ((1 : ℕ) : ℤ)).toNat = t + 1 by omega, show ((t : ℤ) - ((1 : ℕ) : ℤ)).toNat = t - 1 by omega, Complex.norm_natCast, hg, hflat, ← mul_assoc, ← hm] at e1
  simp only [pow_one] at e1
  have e2 := norm_weights_eq n (fun k => M.get k t) (fun k => rootPow n (-(k : ℤ))) hc (fun k => norm_rootPow _ _) e1 (L + 1)
  rw [(pwvd_moments x ts n h L hh hL hsym M hM t ht (L + 1)).2 (by omega) (by omega), norm_zero, hm] at e2
  have : 0 < (n : ℝ) * (h.get L).re * ‖x.get t‖ ^ 2 := by positivity
  linarith

/-- **Two lags.**  A column without negative entry: at two lags of the window, the sum of which is outside it, the squares of the products are together at most the square of the
value at lag zero. -/
theorem C140_two {τ : Type} (x : Vec ℂ) (ts : Vec τ) (n : ℕ) (h : Vec ℂ) (L : ℕ) (hh : h.len = 2 * L + 1) (hL : (L : ℤ) < roundEven ((n : ℝ) / 2))
    (hsym : ∀ i ≤ 2 * L, h.get (2 * L - i) = conj (h.get i)) (M : Mat ℝ) (hM : PwvdReturns x ts n (some h) M) (t : ℕ) (ht : t < ts.len)
    (h0 : ∀ k < n, 0 ≤ M.get k t) (a b : ℕ) (haL : a ≤ L) (hbL : b ≤ L) (hab : L < a + b) (habn : a + b + L < n)
    (hat : a ≤ t) (hbt : b ≤ t) (hax : t + a < x.len) (hbx : t + b < x.len) :
    (‖h.get (L + a)‖ * (‖x.get (t + a)‖ * ‖x.get (t - a)‖)) ^ 2 + (‖h.get (L + b)‖ * (‖x.get (t + b)‖ * ‖x.get (t - b)‖)) ^ 2
      ≤ ((h.get L).re * ‖x.get t‖ ^ 2) ^ 2 := by
  have hn0 : (0 : ℝ) < n := by exact_mod_cast (by omega : 0 < n)
  have hmom := pwvd_moments x ts n h L hh hL hsym M hM t ht
  have h1 := norm_weights_two n (fun k => M.get k t) (fun k => rootPow n (-(k : ℤ)) ^ a) (fun k => rootPow n (-(k : ℤ)) ^ b) h0
    (fun k => by rw [norm_pow, norm_rootPow, one_pow]) (fun k => by rw [norm_pow, norm_rootPow, one_pow]) (by
      rw [← (hmom (a + b)).2 hab habn]
      exact Finset.sum_congr rfl fun k _ => by rw [pow_add])
  have hval : ∀ m : ℕ, m ≤ L → m ≤ t → t + m < x.len →
      ‖∑ k ∈ range n, (M.get k t : ℂ) * rootPow n (-(k : ℤ)) ^ m‖ = n * (‖h.get (L + m)‖ * (‖x.get (t + m)‖ * ‖x.get (t - m)‖)) := by
    intro m m1 m2 m3
    rw [(hmom m).1 m1]
    unfold wignerKernel
    rw [zext_of_mem (by omega) (by omega), zext_of_mem (by omega) (by omega), norm_mul, norm_mul, norm_mul, RCLike.norm_conj,
      show ((t : ℤ) + (m : ℤ)).toNat = t + m by omega, show ((t : ℤ) - (m : ℤ)).toNat = t - m by omega, Complex.norm_natCast]
  rw [hval a haL hat hax, hval b hbL hbt hbx, C36_time_marginal x ts n h L hh hL M hM t ht (by omega), mul_assoc, mul_pow (n : ℝ), mul_pow (n : ℝ), mul_pow (n : ℝ), ← mul_add] at h1
  exact le_of_mul_le_mul_left h1 (by positivity)

/-- **The default window.**  With at least 216 bins and the default window, of half-length `L = n / 8`, the column of every instant has a negative entry where the modulus is not
zero, at most the geometric mean of its neighbours', and at most that of the moduli `L` samples before and after. -/
theorem C140_default {τ : Type} (x : Vec ℂ) (ts : Vec τ) (n : ℕ) (hn : 216 ≤ n) (M : Mat ℝ) (hM : PwvdReturns x ts n none M) (t : ℕ) (ht : t < ts.len)
    (hLt : n / 8 ≤ t) (hLx : t + n / 8 < x.len) (hx : x.get t ≠ 0) (h1 : ‖x.get t‖ ^ 2 ≤ ‖x.get (t + 1)‖ * ‖x.get (t - 1)‖)
    (h2 : ‖x.get t‖ ^ 2 ≤ ‖x.get (t + n / 8)‖ * ‖x.get (t - n / 8)‖) : ∃ k < n, M.get k t < 0 := by
  by_contra hc
  push Not at hc
  obtain ⟨L, hL⟩ : ∃ L, L = n / 8 := ⟨_, rfl⟩
  have hl : (makeWindow n).len = 2 * L + 1 := by
    show n / 4 + (1 - n / 4 % 2) = 2 * L + 1
    omega
  have hg : ∀ i, (makeWindow n).get i = ((hamming (2 * L + 1)).get i : ℂ) := by
    intro i
    rw [← hl]; rfl
  rw [← hL] at hLt hLx h2
  have hL27 : 27 ≤ L := by omega
  have hLR : (27 : ℝ) ≤ L := by exact_mod_cast hL27
  have hL0 : (L : ℝ) ≠ 0 := by linarith
  have hkey := C140_two x ts n (makeWindow n) L hl (by rw [roundEven_half]; split <;> omega)
    (fun i hi => by rw [hg, hg, (hamming_odd L i hi).1, Complex.conj_ofReal]) M hM t ht hc 1 L (by omega) le_rfl (by omega) (by omega) (by omega) hLt (by omega) hLx
  rw [hg, hg, hg, (hamming_odd L L (by omega)).2, Complex.norm_real, Complex.norm_real] at hkey
  have e1 : (hamming (2 * L + 1)).get (L + 1) = 0.54 + 0.46 * Real.cos (Real.pi / L) := by
    unfold hamming
    simp only
    rw [if_neg (by omega)]
    have : 2 * Real.pi * ((L + 1 : ℕ) : ℝ) / (((2 * L + 1 : ℕ) : ℝ) - 1) = Real.pi / L + Real.pi := by push_cast; field_simp; ring
    rw [this, Real.cos_add_pi]
    ring
  have e2 : (hamming (2 * L + 1)).get (L + L) = 0.08 := by
    unfold hamming
    simp only
    rw [if_neg (by omega)]
    have : 2 * Real.pi * ((L + L : ℕ) : ℝ) / (((2 * L + 1 : ℕ) : ℝ) - 1) = 2 * Real.pi := by push_cast; field_simp; ring
    rw [this, Real.cos_two_pi]
    norm_num
  have hcos : 1 - (0.1164 : ℝ) ^ 2 / 2 ≤ Real.cos (Real.pi / L) := by
    have hp : Real.pi / L ≤ 0.1164 := by
      rw [div_le_iff₀ (by linarith)]
      have := Real.pi_lt_d4
      nlinarith
    have hp0 : 0 ≤ Real.pi / L := by have := Real.pi_pos; positivity
    have := Real.one_sub_sq_div_two_le_cos (x := Real.pi / L)
    nlinarith
  rw [e1, e2] at hkey
  have hq : (0.9968 : ℝ) ≤ ‖0.54 + 0.46 * Real.cos (Real.pi / L)‖ := by
    rw [Real.norm_of_nonneg (by nlinarith)]
    nlinarith
  have hr : ‖(0.08 : ℝ)‖ = 0.08 := by rw [Real.norm_of_nonneg (by norm_num)]
  rw [hr, Complex.ofReal_re, one_mul] at hkey
  have hx0 : 0 < ‖x.get t‖ ^ 2 := by positivity
  have f1 : 0.9968 * ‖x.get t‖ ^ 2 ≤ ‖0.54 + 0.46 * Real.cos (Real.pi / L)‖ * (‖x.get (t + 1)‖ * ‖x.get (t - 1)‖) :=
    mul_le_mul hq h1 hx0.le (norm_nonneg _)
  have f2 : 0.08 * ‖x.get t‖ ^ 2 ≤ 0.08 * (‖x.get (t + L)‖ * ‖x.get (t - L)‖) := mul_le_mul_of_nonneg_left h2 (by norm_num)
  have g1 := pow_le_pow_left₀ (by positivity) f1 2
  have g2 := pow_le_pow_left₀ (by positivity) f2 2
  have : 0 < (‖x.get t‖ ^ 2) ^ 2 := by positivity
  nlinarith

/-- `renyi_information` of order one refuses the pseudo Wigner-Ville distribution with the default window and at least 216 bins of every signal of constant modulus that is longer than
the window. -/
theorem C140_default_shannon {τ : Type} (x : Vec ℂ) (ts : Vec τ) (n : ℕ) (hn : 216 ≤ n) (M : Mat ℝ) (hM : PwvdReturns x ts n none M) (t f : Option (Vec ℝ))
    (hts : ts.len = x.len) (hlen : 2 * (n / 8) < x.len) (r : ℝ) (hr : r ≠ 0) (hx : ∀ i < x.len, ‖x.get i‖ = r) : renyiInformation M t f 1 = .error .valueError := by
  obtain ⟨M', L, h1, hrow, hcol, _⟩ := C36_default x ts n (by omega)
  obtain rfl := pwvd_unique hM h1
  obtain ⟨k, hk, hneg⟩ := C140_default x ts n hn M hM (n / 8) (by omega) le_rfl (by omega) (by
      intro h0
      have := hx (n / 8) (by omega)
      rw [h0, norm_zero] at this
      exact hr this.symm)
    (by rw [hx _ (by omega), hx _ (by omega), hx _ (by omega), pow_two]) (by rw [hx _ (by omega), hx _ (by omega), hx _ (by omega), pow_two])
  exact C49_negative M t f ⟨k, by omega, n / 8, by omega, hneg⟩

/-- A constant of 256 samples, default arguments. -/
example : ∃ M, PwvdReturns ⟨256, fun _ => 1⟩ (arange 0 (256 : ℕ)) 256 none M ∧ renyiInformation M none none 1 = .error .valueError := by
  obtain ⟨M, _, h1, _⟩ := C36_default ⟨256, fun _ => 1⟩ (arange 0 (256 : ℕ)) 256 (by norm_num)
  exact ⟨M, h1, C140_default_shannon _ _ 256 (by norm_num) M h1 none none (by rw [arange_len]; rfl) (by norm_num) 1 one_ne_zero (fun _ _ => by simp)⟩

/-! ## The Margenau-Hill distribution -/

/-- **The first column.**  The first column of the Margenau-Hill distribution sums to zero: it is silent or has a negative entry. -/
theorem C140_first (x : Vec ℂ) (hx : x.len ≠ 0) (M : Mat ℝ) (hM : MhReturns x (arange 0 x.len) x.len M) (k : ℕ) (hk : k < x.len) (hne : M.get k 0 ≠ 0) :
    ∃ j < x.len, M.get j 0 < 0 := by
  by_contra hc
  push Not at hc
  exact hne ((Finset.sum_eq_zero_iff_of_nonneg (fun j hj => hc j (Finset.mem_range.1 hj))).1 (C38_time_marginal x hx M hM).2 k (Finset.mem_range.2 hk))

/-- **The Shannon information.**  `renyi_information` of order one refuses the Margenau-Hill distribution of every signal of which the first sample is not orthogonal to the sum of the
others. -/
theorem C140_shannon (x : Vec ℂ) (M : Mat ℝ) (hM : MhReturns x (arange 0 x.len) x.len M) (t f : Option (Vec ℝ)) (hx : x.len ≠ 0)
    (h : (x.get 0 * conj (∑ s ∈ Finset.Ico 1 x.len, x.get s)).re ≠ 0) : renyiInformation M t f 1 = .error .valueError := by
  obtain ⟨hl, hg⟩ := arange_default x.len
  obtain ⟨M', h1, hr, hc, h4⟩ := C38_margenau_hill x (arange 0 x.len) x.len hx (fun c hc => by rw [hl] at hc; rw [hg]; omega)
  obtain rfl := mh_unique hM h1
  have e : M.get 0 0 = (x.get 0 * conj (∑ s ∈ Finset.Ico 1 x.len, x.get s)).re := by
    rw [h4 0 (by omega) 0 (by omega)]
    congr 1
    rw [map_sum, Finset.mul_sum, hg, min_self]
    refine Finset.sum_congr rfl fun s _ => ?_
    unfold expi
    simp
  obtain ⟨j, hj, hneg⟩ := C140_first x hx M hM 0 (by omega) (by rw [e]; exact h)
  exact C49_negative M t f ⟨j, by omega, 0, by omega, hneg⟩

/-- **Other columns.**  A column `t ≥ 1` without negative entry bounds the mean of two samples symmetric about its instant: `|x[t] conj x[t-m] + conj x[t] x[t+m]| ≤ 2 |x[t]|²`. -/
theorem C140_mean (x : Vec ℂ) (M : Mat ℝ) (hM : MhReturns x (arange 0 x.len) x.len M) (t m : ℕ) (hm : m < t) (htm : t + m < x.len) (h0 : ∀ k < x.len, 0 ≤ M.get k t) :
    ‖x.get t * conj (x.get (t - m)) + conj (x.get t) * x.get (t + m)‖ ≤ 2 * ‖x.get t‖ ^ 2 := by
  have hx : x.len ≠ 0 := by omega
  have hn0 : (0 : ℝ) < x.len := by exact_mod_cast (by omega : 0 < x.len)
  obtain ⟨hl, hg⟩ := arange_default x.len
  obtain ⟨M', h1, hr, hc, h4⟩ := C38_margenau_hill x (arange 0 x.len) x.len hx (fun c hc => by rw [hl] at hc; rw [hg]; omega)
  obtain rfl := mh_unique hM h1
  have h5 := norm_weights_le x.len (fun k => M.get k t) (fun k => rootPow x.len (-(k : ℤ)) ^ m) h0 (fun k => by rw [norm_pow, norm_rootPow, one_pow])
  rw [(C38_time_marginal x hx M hM).1 t (by omega) (by omega)] at h5
  have hA : ∀ k < x.len, (M.get k t : ℂ) = (∑ s ∈ Finset.Ico 1 x.len, (x.get t * conj (x.get s) * rootPow x.len ((k : ℤ) * ((t : ℤ) - s))
      + conj (x.get t) * x.get s * rootPow x.len ((k : ℤ) * ((s : ℤ) - t)))) / 2 := by
    intro k hk
    rw [h4 k hk t (by omega), Complex.re_eq_add_conj, map_sum, ← Finset.sum_add_distrib, min_self, hg]
    congr 1
    refine Finset.sum_congr rfl fun s _ => ?_
    have e1 : expi (-(2 * Real.pi * ((k : ℝ) * (((t : ℤ) : ℝ) - (s : ℝ)) / x.len))) = rootPow x.len ((k : ℤ) * ((t : ℤ) - s)) := by
      rw [rootPow_eq_expi]
      push_cast
      rfl
    rw [e1, map_mul, map_mul, Complex.conj_conj, conj_rootPow, Int.toNat_natCast, show -((k : ℤ) * ((t : ℤ) - s)) = (k : ℤ) * ((s : ℤ) - t) by ring]
  have hsum : ∑ k ∈ range x.len, (M.get k t : ℂ) * rootPow x.len (-(k : ℤ)) ^ m
      = x.len * (x.get t * conj (x.get (t - m)) + conj (x.get t) * x.get (t + m)) / 2 := by
    have h6 : ∀ k ∈ range x.len, (M.get k t : ℂ) * rootPow x.len (-(k : ℤ)) ^ m
        = ∑ s ∈ Finset.Ico 1 x.len, (x.get t * conj (x.get s) / 2 * rootPow x.len ((k : ℤ) * ((t : ℤ) - s - m))
          + conj (x.get t) * x.get s / 2 * rootPow x.len ((k : ℤ) * ((s : ℤ) - t - m))) := by
      intro k hk
      rw [hA k (Finset.mem_range.1 hk), ← rootPow_nat_mul, Finset.sum_div, Finset.sum_mul]
      refine Finset.sum_congr rfl fun s _ => ?_
      rw [show (k : ℤ) * ((t : ℤ) - s - m) = (k : ℤ) * ((t : ℤ) - s) + -(k : ℤ) * m by ring,
        show (k : ℤ) * ((s : ℤ) - t - m) = (k : ℤ) * ((s : ℤ) - t) + -(k : ℤ) * m by ring, rootPow_add, rootPow_add]
      ring
    rw [Finset.sum_congr rfl h6, Finset.sum_comm]
    have h7 : ∀ s ∈ Finset.Ico 1 x.len, ∑ k ∈ range x.len, (x.get t * conj (x.get s) / 2 * rootPow x.len ((k : ℤ) * ((t : ℤ) - s - m))
          + conj (x.get t) * x.get s / 2 * rootPow x.len ((k : ℤ) * ((s : ℤ) - t - m)))
        = (if s = t - m then x.get t * conj (x.get (t - m)) / 2 * x.len else 0) + (if s = t + m then conj (x.get t) * x.get (t + m) / 2 * x.len else 0) := by
      intro s hs
      rw [Finset.mem_Ico] at hs
      rw [Finset.sum_add_distrib, ← Finset.mul_sum, ← Finset.mul_sum, sum_rootPow' hx, sum_rootPow' hx]
      have d1 : (x.len : ℤ) ∣ (t : ℤ) - s - m ↔ s = t - m := by
        rw [show (t : ℤ) - s - m = ((t - m : ℕ) : ℤ) - s by omega, natCast_dvd_sub_iff (by omega) hs.2]
        exact eq_comm
      have d2 : (x.len : ℤ) ∣ (s : ℤ) - t - m ↔ s = t + m := by
        rw [show (s : ℤ) - t - m = (s : ℤ) - ((t + m : ℕ) : ℤ) by push_cast; ring, natCast_dvd_sub_iff hs.2 (by omega)]
      congr 1
      · by_cases hs1 : s = t - m
        · rw [if_pos (d1.2 hs1), if_pos hs1, hs1]
        · rw [if_neg (fun hh => hs1 (d1.1 hh)), if_neg hs1, mul_zero]
      · by_cases hs1 : s = t + m
        · rw [if_pos (d2.2 hs1), if_pos hs1, hs1]
        · rw [if_neg (fun hh => hs1 (d2.1 hh)), if_neg hs1, mul_zero]
    rw [Finset.sum_congr rfl h7, Finset.sum_add_distrib, Finset.sum_ite_eq' (Finset.Ico 1 x.len) (t - m), Finset.sum_ite_eq' (Finset.Ico 1 x.len) (t + m),
      if_pos (Finset.mem_Ico.2 ⟨by omega, by omega⟩), if_pos (Finset.mem_Ico.2 ⟨by omega, by omega⟩)]
    ring
  rw [hsum, norm_div, norm_mul, Complex.norm_natCast, Complex.norm_ofNat] at h5
  have h8 : (x.len : ℝ) * ‖x.get t * conj (x.get (t - m)) + conj (x.get t) * x.get (t + m)‖ ≤ x.len * (2 * ‖x.get t‖ ^ 2) := by linarith
  exact le_of_mul_le_mul_left h8 hn0

/-! ## The Page representation -/

/-- **High frequencies.**  The row of the Page representation of every bin above a quarter of the sampling frequency in which the signal has energy has a negative entry; so has the
column of every sample that points away from the sample before (the last one, for the first). -/
theorem C140_page (x : Vec ℂ) (M : Mat ℝ) (hM : PageReturns x (arange 0 x.len) x.len M) :
    (∀ k, x.len < 4 * k → 4 * k < 3 * x.len → dft x k ≠ 0 → ∃ t < x.len, M.get k t < 0) ∧
    ∀ t < x.len, (x.get t * conj (x.get ((t + x.len - 1) % x.len))).re < 0 → ∃ k < x.len, M.get k t < 0 := by
  constructor
  · intro k h1 h2 hX
    by_contra hc
    push Not at hc
    have hn0 : (0 : ℝ) < x.len := by exact_mod_cast (by omega : 0 < x.len)
    have hs := C39_row_sum x (by omega) M hM k (by omega)
    have hcos : Real.cos (2 * Real.pi * k / x.len) < 0 := by
      have e1 : (x.len : ℝ) < 4 * k := by exact_mod_cast h1
      have e2 : (4 : ℝ) * k < 3 * x.len := by exact_mod_cast h2
      have hpi := Real.pi_pos
      apply Real.cos_neg_of_pi_div_two_lt_of_lt
      · rw [lt_div_iff₀ hn0]; nlinarith
      · rw [div_lt_iff₀ hn0]; nlinarith
    have h3 : 0 ≤ ∑ t ∈ range x.len, M.get k t := Finset.sum_nonneg fun t ht => hc t (Finset.mem_range.1 ht)
    have h4 : 0 < ‖dft x k‖ ^ 2 := by positivity
    rw [hs] at h3
    linarith [mul_neg_of_neg_of_pos hcos h4]
  · intro t ht hneg
    by_contra hc
    push Not at hc
    have hn0 : (0 : ℝ) < x.len := by exact_mod_cast (by omega : 0 < x.len)
    have h3 : 0 ≤ ∑ k ∈ range x.len, M.get k t := Finset.sum_nonneg fun k hk => hc k (Finset.mem_range.1 hk)
    rw [C39_column_sum x (by omega) M hM t ht] at h3
    linarith [mul_neg_of_pos_of_neg hn0 hneg]

/-- `renyi_information` of order one refuses the Page representation of every signal with energy above a quarter of the sampling frequency. -/
theorem C140_page_shannon (x : Vec ℂ) (M : Mat ℝ) (hM : PageReturns x (arange 0 x.len) x.len M) (t f : Option (Vec ℝ)) (k : ℕ)
    (h1 : x.len < 4 * k) (h2 : 4 * k < 3 * x.len) (hX : dft x k ≠ 0) : renyiInformation M t f 1 = .error .valueError := by
  obtain ⟨M', a1, hr, hc, _⟩ := C39_default x (by omega)
  obtain rfl := page_unique hM a1
  obtain ⟨i, hi, hneg⟩ := (C140_page x M hM).1 k h1 h2 hX
  exact C49_negative M t f ⟨k, by omega, i, by omega, hneg⟩

/-- An impulse has energy in every bin. -/
example (M : Mat ℝ) (hM : PageReturns ⟨4, fun i => if i = 0 then 1 else 0⟩ (arange 0 (4 : ℕ)) 4 M) : renyiInformation M none none 1 = .error .valueError :=
  C140_page_shannon ⟨4, fun i => if i = 0 then 1 else 0⟩ M hM none none 2 (by norm_num) (by norm_num) (by
    unfold dft dtft
    simp [expi])

/-- A constant under a rectangular window of three samples; the Margenau-Hill distribution of a constant; a dip in a constant. -/
example (M M' M'' : Mat ℝ) (hM : PwvdReturns ⟨4, fun _ => 1⟩ (arange 0 (4 : ℕ)) 4 (some ⟨3, fun _ => 1⟩) M)
    (hM' : MhReturns ⟨4, fun _ => 1⟩ (arange 0 (4 : ℕ)) 4 M') (hM'' : MhReturns ⟨4, fun i => if i = 2 then 1 / 2 else 1⟩ (arange 0 (4 : ℕ)) 4 M'') :
    (∃ k < 4, M.get k 1 < 0) ∧ renyiInformation M' none none 1 = .error .valueError ∧ ∃ k < 4, M''.get k 2 < 0 := by
  refine ⟨C140_flat ⟨4, fun _ => 1⟩ (arange 0 (4 : ℕ)) 4 ⟨3, fun _ => 1⟩ 1 rfl (by rw [roundEven_half]; norm_num) (fun _ _ => by simp) M hM 1
      (by rw [arange_len]; norm_num) le_rfl (by norm_num) (by norm_num) (by norm_num) le_rfl (by norm_num) (by norm_num) (by norm_num),
    C140_shannon ⟨4, fun _ => 1⟩ M' hM' none none (by norm_num) (by simp), ?_⟩
  by_contra hc
  push Not at hc
  have := C140_mean _ M'' hM'' 2 1 (by norm_num) (by norm_num) hc
  norm_num [map_ofNat] at this

/-- The runs of the example return. -/
example : (∃ M, PwvdReturns ⟨4, fun _ => 1⟩ (arange 0 (4 : ℕ)) 4 (some ⟨3, fun _ => 1⟩) M) ∧ ∃ M, MhReturns ⟨4, fun _ => (1 : ℂ)⟩ (arange 0 (4 : ℕ)) 4 M := by
  obtain ⟨M, h, _⟩ := C36_pwvd ⟨4, fun _ => 1⟩ (arange 0 (4 : ℕ)) 4 ⟨3, fun _ => 1⟩ 1 rfl (by rw [roundEven_half]; norm_num)
  obtain ⟨M', h', _⟩ := C38_default ⟨4, fun _ => (1 : ℂ)⟩ (by norm_num)
  exact ⟨⟨M, h⟩, ⟨M', h'⟩⟩

end Tftb.Props
