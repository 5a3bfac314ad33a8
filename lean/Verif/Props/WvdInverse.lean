import Verif.Lemmas.WvdInverse
import Verif.Props.Wvd
import Verif.Props.Ambiguity

/-! # What the Wigner-Ville distribution keeps of the signal (C73) -/

namespace Tftb.Props

open Tftb Tftb.Spec Tftb.Linear Tftb.Cohen Finset ComplexConjugate

theorem wvd_sizes {τ : Type} {x : Vec ℂ} {ts : Vec τ} {n : ℕ} (hn : 2 ≤ n) {M : Mat ℝ} (hM : WvdReturns x ts n M) :
    (x.len : ℤ) ≤ 2 * (roundEven ((n : ℝ) / 2) - 1) + 2 ∧ 2 * (roundEven ((n : ℝ) / 2) - 1) + 1 ≤ n ∧
    ∀ k < n, ∀ t < x.len, (M.get k t : ℂ) = lagSum (roundEven ((n : ℝ) / 2) - 1) n (wignerKernel x t) k := by
  obtain ⟨hts, hN⟩ := (C32_returns_iff x ts n (by omega)).1 ⟨M, hM⟩
  obtain ⟨M', h1, _, _, h4⟩ := C33_wvd x ts n (by omega) hts hN
  obtain rfl := wvd_unique hM h1
  refine ⟨?_, ?_, h4⟩
  · rw [roundEven_half] at hN ⊢
    split at hN <;> split <;> omega
  · rw [roundEven_half]
    split <;> omega

/-- Whenever the run returns, the matrix gives back the product of any two samples whose indices have the same parity: column `(a + b) / 2`, inverse Fourier sum at
lag `(a - b) / 2`. -/
theorem C73_products {τ : Type} (x : Vec ℂ) (ts : Vec τ) (n : ℕ) (hn : 2 ≤ n) (M : Mat ℝ) (hM : WvdReturns x ts n M) (a b : ℕ) (ha : a < x.len) (hb : b < x.len)
    (hab : a % 2 = b % 2) :
    x.get a * conj (x.get b) = 1 / n * ∑ k ∈ range n, M.get k ((a + b) / 2) * expi (2 * Real.pi * (k * ((a - b) / 2) / n)) := by
  obtain ⟨hN, hR, h4⟩ := wvd_sizes hn hM
  set R := roundEven ((n : ℝ) / 2) - 1 with hRdef
  have hn0 : (n : ℂ) ≠ 0 := by exact_mod_cast (by omega : n ≠ 0)
  have hs : 2 * (((a : ℤ) - b) / 2) = a - b := by omega
  have hinv := lagSum_inv (n := n) (by omega) hR (wignerKernel x ((a + b) / 2 : ℕ)) (σ := ((a : ℤ) - b) / 2) (by omega) (by omega)
  have hker : wignerKernel x ((a + b) / 2 : ℕ) (((a : ℤ) - b) / 2) = x.get a * conj (x.get b) := by
    unfold wignerKernel
    rw [show (((a + b) / 2 : ℕ) : ℤ) + ((a : ℤ) - b) / 2 = a by omega, show (((a + b) / 2 : ℕ) : ℤ) - ((a : ℤ) - b) / 2 = b by omega,
      zext_of_mem (by omega) (by omega), zext_of_mem (by omega) (by omega)]
    rfl
  rw [hker] at hinv
  have hsum : ∑ k ∈ range n, (M.get k ((a + b) / 2) : ℂ) * expi (2 * Real.pi * (k * ((a - b) / 2) / n))
      = ∑ k ∈ range n, lagSum R n (wignerKernel x ((a + b) / 2 : ℕ)) k * rootPow n (-(((a : ℤ) - b) / 2 * (k : ℤ))) := by
    refine Finset.sum_congr rfl fun k hk => ?_
    rw [h4 k (Finset.mem_range.1 hk) ((a + b) / 2) (by omega), rootPow_eq_expi]
    congr 2
    have hsR : 2 * ((((a : ℤ) - b) / 2 : ℤ) : ℝ) = a - b := by exact_mod_cast hs
    push_cast
    rw [show ((a : ℝ) - b) / 2 = ((((a : ℤ) - b) / 2 : ℤ) : ℝ) by linarith]
    ring
  rw [hsum, hinv, ← mul_assoc, one_div, inv_mul_cancel₀ hn0, one_mul]

/-- The matrix determines the signal exactly up to two phase factors, one for the samples of even index and one for those of odd index: equal matrices come from
signals which differ by such a pair of factors, and every such pair leaves the matrix unchanged. -/
theorem C73_determines {τ : Type} (x y : Vec ℂ) (ts : Vec τ) (n : ℕ) (hn : 2 ≤ n) (hlen : y.len = x.len) (M M' : Mat ℝ) (hM : WvdReturns x ts n M)
    (hM' : WvdReturns y ts n M') :
    (∀ k < n, ∀ t < x.len, M.get k t = M'.get k t) ↔
      ∃ α β : ℂ, ‖α‖ = 1 ∧ ‖β‖ = 1 ∧ ∀ i < x.len, y.get i = (if i % 2 = 0 then α else β) * x.get i := by
  constructor
  · intro h
    have hprod : ∀ a < x.len, ∀ b < x.len, a % 2 = b % 2 → x.get a * conj (x.get b) = y.get a * conj (y.get b) := by
      intro a ha b hb hab
      rw [C73_products x ts n hn M hM a b ha hb hab, C73_products y ts n hn M' hM' a b (by omega) (by omega) hab]
      congr 1
      refine Finset.sum_congr rfl fun k hk => ?_
      rw [h k (Finset.mem_range.1 hk) _ (by omega)]
    have hphase : ∀ p : ℕ, ∃ α : ℂ, ‖α‖ = 1 ∧ ∀ i < x.len, i % 2 = p → y.get i = α * x.get i := by
      intro p
      have hnorm : ∀ i < x.len, ‖y.get i‖ = ‖x.get i‖ := by
        intro i hi
        have e := congrArg norm (hprod i hi i hi rfl)
        rw [norm_mul, norm_mul, Complex.norm_conj, Complex.norm_conj] at e
        nlinarith [norm_nonneg (x.get i), norm_nonneg (y.get i)]
      by_cases hz : ∃ b < x.len, b % 2 = p ∧ x.get b ≠ 0
      · obtain ⟨b, hb, hbp, hxb⟩ := hz
        refine ⟨y.get b / x.get b, ?_, fun i hi hip => ?_⟩
        · rw [norm_div, hnorm b hb, div_self (norm_ne_zero_iff.2 hxb)]
        · have hyb : y.get b ≠ 0 := by rw [← norm_ne_zero_iff, hnorm b hb, norm_ne_zero_iff]; exact hxb
          have e1 := hprod i hi b hb (by omega)
          have e2 := hprod b hb b hb rfl
          have hc : conj (y.get b) ≠ 0 := by simpa using hyb
          rw [div_mul_eq_mul_div, eq_div_iff hxb]
          apply mul_right_cancel₀ hc
          calc y.get i * x.get b * conj (y.get b) = (y.get i * conj (y.get b)) * x.get b := by ring
            _ = x.get i * (x.get b * conj (x.get b)) := by rw [← e1]; ring
            _ = y.get b * x.get i * conj (y.get b) := by rw [e2]; ring
      · push Not at hz
        refine ⟨1, by simp, fun i hi hip => ?_⟩
        have h0 := hz i hi hip
        have := hnorm i hi
        rw [h0, norm_zero, norm_eq_zero] at this
        rw [this, h0, mul_zero]
    obtain ⟨α, h1, h2⟩ := hphase 0
    obtain ⟨β, h3, h4⟩ := hphase 1
    refine ⟨α, β, h1, h3, fun i hi => ?_⟩
    by_cases hp : i % 2 = 0
    · rw [if_pos hp, h2 i hi hp]
    · rw [if_neg hp, h4 i hi (by omega)]
  · rintro ⟨α, β, hα, hβ, h⟩ k hk t ht
    rw [← one_mul (M'.get k t), eq_comm, one_mul, ← one_mul (M.get k t)]
    refine wvd_transfer (by omega) hM hM' hk hk ht (by omega) 1 ?_
    rw [Complex.ofReal_one, one_mul]
    apply lagSum_congr
    intro σ _ _
    unfold wignerKernel
    have hz : ∀ i : ℤ, zext y i = (if i % 2 = 0 then α else β) * zext x i := by
      intro i
      by_cases hi : 0 ≤ i ∧ i < x.len
      · rw [zext_of_mem hi.1 (by omega), zext_of_mem hi.1 hi.2, h _ (by omega)]
        by_cases hp : i % 2 = 0
        · rw [if_pos hp, if_pos (by omega)]
        · rw [if_neg hp, if_neg (by omega)]
      · rw [zext_of_not_mem (by omega), zext_of_not_mem (by omega), mul_zero]
    have hunit : ∀ z : ℂ, ‖z‖ = 1 → z * conj z = 1 := by
      intro z h
      rw [Complex.mul_conj, Complex.normSq_eq_norm_sq, h]
      simp
    rw [hz, hz, map_mul]
    by_cases hp : ((t : ℤ) + σ) % 2 = 0
    · rw [if_pos hp, if_pos (by omega)]
      linear_combination (zext x (t + σ) * conj (zext x (t - σ))) * hunit α hα
    · rw [if_neg hp, if_neg (by omega)]
      linear_combination (zext x (t + σ) * conj (zext x (t - σ))) * hunit β hβ

/-- Moyal's formula has two terms: the scalar product of two matrices is `n` times the sum of the squared moduli of the scalar products of the even samples and of the odd samples (for
an undersampled kernel the two halves do not interfere). -/
theorem C73_moyal {τ : Type} (x y : Vec ℂ) (ts : Vec τ) (n : ℕ) (hn : 2 ≤ n) (hlen : y.len = x.len) (M M' : Mat ℝ) (hM : WvdReturns x ts n M)
    (hM' : WvdReturns y ts n M') :
    ∑ t ∈ range x.len, ∑ k ∈ range n, M.get k t * M'.get k t
      = n * (‖∑ i ∈ range x.len, if i % 2 = 0 then x.get i * conj (y.get i) else 0‖ ^ 2
        + ‖∑ i ∈ range x.len, if i % 2 = 1 then x.get i * conj (y.get i) else 0‖ ^ 2) := by
  obtain ⟨hN, hR, h4⟩ := wvd_sizes hn hM
  obtain ⟨-, -, h4'⟩ := wvd_sizes hn hM'
  set R := roundEven ((n : ℝ) / 2) - 1 with hRdef
  apply Complex.ofReal_injective
  rw [Complex.ofReal_mul, ← sum_parity_sq x.len (fun i => x.get i * conj (y.get i))]
  have hcol : ∀ t ∈ range x.len, ((∑ k ∈ range n, M.get k t * M'.get k t : ℝ) : ℂ)
      = n * ∑ τ ∈ Finset.Icc (-R) R, wignerKernel x t τ * conj (wignerKernel y t τ) := by
    intro t ht
    rw [← lagSum_inner (by omega) hR, Complex.ofReal_sum]
    refine Finset.sum_congr rfl fun k hk => ?_
    have ht' := Finset.mem_range.1 ht
    rw [← h4 k (Finset.mem_range.1 hk) t ht', ← h4' k (Finset.mem_range.1 hk) t (by omega), Complex.conj_ofReal, Complex.ofReal_mul]
  rw [Complex.ofReal_sum, Finset.sum_congr rfl hcol, ← Finset.mul_sum, Complex.ofReal_natCast]
  congr 1
  have hp := sum_pairs (N := x.len) hN (fun a b => (zext x a * conj (zext y a)) * conj (zext x b * conj (zext y b))) (by
    intro a b hab
    by_cases ha : 0 ≤ a ∧ a < x.len
    · rw [zext_of_not_mem (x := x) (i := b) (by omega)]; simp
    · rw [zext_of_not_mem (x := x) (i := a) (by omega)]; simp)
  rw [show (∑ t ∈ range x.len, ∑ τ ∈ Finset.Icc (-R) R, wignerKernel x t τ * conj (wignerKernel y t τ))
      = ∑ t ∈ range x.len, ∑ τ ∈ Finset.Icc (-R) R, (zext x (t + τ) * conj (zext y (t + τ))) * conj (zext x (t - τ) * conj (zext y (t - τ))) from
    Finset.sum_congr rfl fun t _ => Finset.sum_congr rfl fun τ _ => by
      unfold wignerKernel
      simp only [map_mul, Complex.conj_conj]
      ring, hp]
  refine Finset.sum_congr rfl fun a ha => Finset.sum_congr rfl fun b hb => ?_
  rw [Finset.mem_range] at ha hb
  rw [zext_of_mem (by omega) (by omega), zext_of_mem (by omega) (by omega), zext_of_mem (by omega) (by omega), zext_of_mem (by omega) (by omega)]
  rfl

/-- The two public functions agree: `narrow_band` (default lags, any admissible number of Doppler bins) is the two-dimensional Fourier transform of the Wigner-Ville
matrix, at the returned labels. -/
theorem C73_ambiguity {τ : Type} (x : Vec ℂ) (ts : Vec τ) (n : ℕ) (hn : 2 ≤ n) (hx : 1 ≤ x.len) (M : Mat ℝ) (hM : WvdReturns x ts n M) (nf : Option ℕ) (A : Mat ℂ)
    (l xi : Vec ℝ) (hA : Ambiguity.narrowBand x none nf = .ok (A, l, xi)) :
    ∀ r < A.rows, ∀ c < A.cols, A.get r c
      = 1 / n * ∑ t ∈ range x.len, ∑ k ∈ range n, M.get k t * expi (2 * Real.pi * (k * l.get c / n - xi.get r * t)) := by
  intro r hr c hc
  obtain ⟨e1, e2, e3, -, -, e6⟩ := C42_closed_form x none nf A l xi hA
  obtain ⟨d1, d2⟩ := C42_default_lags x.len hx
  obtain ⟨hN, hR, h4⟩ := wvd_sizes hn hM
  set R := roundEven ((n : ℝ) / 2) - 1 with hRdef
  have hn0 : (n : ℂ) ≠ 0 := by exact_mod_cast (by omega : n ≠ 0)
  have hl : l.get c = (((c : ℤ) - ((x.len - 1) / 2 : ℕ) : ℤ) : ℝ) := by
    rw [e1, Option.getD_none]
    exact d2 c
  have hcl : c < 2 * ((x.len - 1) / 2) + 1 := by
    rw [e3, e1, Option.getD_none, d1] at hc
    exact hc
  rw [e6 r hr c hc, hl, Utils.truncInt_intCast]
  set σ : ℤ := (c : ℤ) - ((x.len - 1) / 2 : ℕ) with hσ
  unfold ambiguity
  rw [Finset.mul_sum]
  refine Finset.sum_congr rfl fun t ht => ?_
  have hinv := lagSum_inv (n := n) (by omega) hR (wignerKernel x t) (σ := σ) (by omega) (by omega)
  have hsum : ∑ k ∈ range n, (M.get k t : ℂ) * expi (2 * Real.pi * (k * (σ : ℝ) / n - xi.get r * t))
      = (∑ k ∈ range n, lagSum R n (wignerKernel x t) k * rootPow n (-(σ * (k : ℤ)))) * expi (-(2 * Real.pi * (xi.get r * t))) := by
    rw [Finset.sum_mul]
    refine Finset.sum_congr rfl fun k hk => ?_
    rw [h4 k (Finset.mem_range.1 hk) t (Finset.mem_range.1 ht), rootPow_eq_expi, mul_assoc (lagSum _ _ _ _), ← expi_add]
    congr 2
    push_cast
    ring
  rw [hsum, hinv]
  field_simp

/-- Changing the sign of every other sample cannot be seen: the tones of frequency `f` and `f + 1/2` have the same distribution. -/
example (x : Vec ℂ) (hx : x.len = 8) : ∃ M M' : Mat ℝ, WvdReturns x (arange 0 8) 8 M ∧
    WvdReturns ⟨8, fun i => (if i % 2 = 0 then 1 else -1) * x.get i⟩ (arange 0 8) 8 M' ∧ ∀ k < 8, ∀ t < 8, M.get k t = M'.get k t := by
  obtain ⟨M, hM⟩ := (C32_returns_iff x (arange 0 8) 8 (by norm_num)).2 ⟨by rw [hx, arange_len]; rfl, .inl (by rw [hx, roundEven_half]; norm_num)⟩
  obtain ⟨M', hM'⟩ := (C32_returns_iff ⟨8, fun i => (if i % 2 = 0 then 1 else -1) * x.get i⟩ (arange 0 8) 8 (by norm_num)).2
    ⟨by rw [arange_len]; rfl, .inl (by rw [roundEven_half]; norm_num)⟩
  refine ⟨M, M', hM, hM', ?_⟩
  have := (C73_determines x _ (arange 0 8) 8 (by norm_num) (by rw [hx]) M M' hM hM').2 ⟨1, -1, by simp, by simp, fun i _ => rfl⟩
  rwa [hx] at this

end Tftb.Props
