import Verif.Props.Chirp
import Verif.Props.Reassigned
import Verif.Props.ReassignedPwv
import Verif.Props.ProcUtils

/-! # Property C120: linear chirps in the short-time Fourier transform and the spectrograms -/

namespace Tftb.Spec

/-- The windowed sum of a chirp of slope `b` seen `ν` away from its instantaneous frequency. -/
noncomputable def chirpSum (R : ℤ) (w : ℤ → ℝ) (b ν : ℝ) : ℂ :=
  ∑ τ ∈ Finset.Icc (-R) R, (w τ : ℂ) * expi (2 * Real.pi * (τ * ν + b * τ ^ 2 / 2))

end Tftb.Spec

namespace Tftb.Props

open Tftb Tftb.Spec Tftb.Linear Tftb.Cohen Tftb.FM Tftb.ProcUtils Tftb.Reassigned Finset ComplexConjugate

/-! ## The windowed sum -/

theorem sum_Icc_neg {M : Type} [AddCommMonoid M] (R : ℤ) (f : ℤ → M) :
    ∑ τ ∈ Finset.Icc (-R) R, f (-τ) = ∑ τ ∈ Finset.Icc (-R) R, f τ := by
  refine Finset.sum_bij' (fun τ _ => -τ) (fun τ _ => -τ) ?_ ?_ ?_ ?_ ?_
  · intro τ h; rw [Finset.mem_Icc] at h ⊢; omega
  · intro τ h; rw [Finset.mem_Icc] at h ⊢; omega
  · intro τ _; exact neg_neg τ
  · intro τ _; exact neg_neg τ
  · intro τ _; rfl

/-- A symmetric window sees the same on both sides of the instantaneous frequency. -/
theorem chirpSum_neg {R : ℤ} {w : ℤ → ℝ} (hw : ∀ τ ∈ Finset.Icc (-R) R, w (-τ) = w τ) (b ν : ℝ) :
    chirpSum R w b (-ν) = chirpSum R w b ν := by
  unfold chirpSum
  rw [← sum_Icc_neg R (fun τ => (w τ : ℂ) * expi (2 * Real.pi * (τ * ν + b * τ ^ 2 / 2)))]
  refine Finset.sum_congr rfl (fun τ hτ => ?_)
  rw [hw τ hτ]
  congr 2
  push_cast
  ring

theorem expi_add_int (θ : ℝ) (q : ℤ) : expi (2 * Real.pi * (θ + q)) = expi (2 * Real.pi * θ) := by
  rw [mul_add, expi_add, (expi_eq_one_iff (q : ℝ)).2 ⟨q, rfl⟩, mul_one]

theorem chirpSum_period (R : ℤ) (w : ℤ → ℝ) (b ν : ℝ) (q : ℤ) : chirpSum R w b (ν + q) = chirpSum R w b ν := by
  unfold chirpSum
  refine Finset.sum_congr rfl (fun τ _ => ?_)
  rw [← expi_add_int (τ * ν + b * τ ^ 2 / 2) (τ * q)]
  congr 3
  push_cast
  ring

theorem expi_im' (a : ℝ) : (expi a).im = Real.sin a := by
  unfold expi; exact Complex.exp_ofReal_mul_I_im a

theorem normSq_sum_expi (S : Finset ℤ) (r θ : ℤ → ℝ) :
    ‖∑ τ ∈ S, (r τ : ℂ) * expi (θ τ)‖ ^ 2 = ∑ p ∈ S ×ˢ S, r p.1 * r p.2 * Real.cos (θ p.1 - θ p.2) := by
  have h1 : (∑ τ ∈ S, (r τ : ℂ) * expi (θ τ)).re = ∑ τ ∈ S, r τ * Real.cos (θ τ) := by
    rw [Complex.re_sum]
    exact Finset.sum_congr rfl (fun τ _ => by rw [Complex.re_ofReal_mul, expi_re])
  have h2 : (∑ τ ∈ S, (r τ : ℂ) * expi (θ τ)).im = ∑ τ ∈ S, r τ * Real.sin (θ τ) := by
    rw [Complex.im_sum]
    exact Finset.sum_congr rfl (fun τ _ => by rw [Complex.im_ofReal_mul, expi_im'])
  rw [← Complex.normSq_eq_norm_sq, Complex.normSq_apply, h1, h2, Finset.sum_mul_sum, Finset.sum_mul_sum, ← Finset.sum_product',
    ← Finset.sum_product', ← Finset.sum_add_distrib]
  refine Finset.sum_congr rfl (fun p _ => ?_)
  rw [Real.cos_sub]
  ring

/-- The symmetric window turns the linear phase into cosines. -/
theorem chirpSum_cos {R : ℤ} {w : ℤ → ℝ} (hw : ∀ τ ∈ Finset.Icc (-R) R, w (-τ) = w τ) (b ν : ℝ) :
    chirpSum R w b ν = ∑ τ ∈ Finset.Icc (-R) R, ((w τ * Real.cos (2 * Real.pi * (τ * ν)) : ℝ) : ℂ) * expi (Real.pi * (b * τ ^ 2)) := by
  have h1 : chirpSum R w b ν = (1 / 2) * (chirpSum R w b ν + chirpSum R w b (-ν)) := by rw [chirpSum_neg hw]; ring
  rw [h1]
  unfold chirpSum
  rw [← Finset.sum_add_distrib, Finset.mul_sum]
  refine Finset.sum_congr rfl (fun τ _ => ?_)
  have h2 : ∀ μ : ℝ, expi (2 * Real.pi * (τ * μ + b * τ ^ 2 / 2)) = expi (2 * Real.pi * (τ * μ)) * expi (Real.pi * (b * τ ^ 2)) := by
    intro μ; rw [← expi_add]; congr 1; ring
  have h3 : (Real.cos (2 * Real.pi * (τ * ν)) : ℂ) = (expi (2 * Real.pi * (τ * ν)) + expi (2 * Real.pi * (τ * (-ν)))) / 2 := by
    rw [Complex.ofReal_cos, Complex.cos, show (2 * Real.pi * (τ * (-ν)) : ℝ) = -(2 * Real.pi * (τ * ν)) by ring]
    unfold expi
    rw [Complex.ofReal_neg]
  rw [h2, h2, Complex.ofReal_mul, h3]
  ring

/-- A slow chirp under a positive symmetric window is seen strongest at its instantaneous frequency, and only there. -/
theorem chirpSum_peak {R : ℤ} {w : ℤ → ℝ} (hw : ∀ τ ∈ Finset.Icc (-R) R, w (-τ) = w τ) (hw0 : ∀ τ ∈ Finset.Icc (-R) R, 0 < w τ) {b : ℝ}
    (hb : |b| * R ^ 2 < 1 / 2) (ν : ℝ) :
    ‖chirpSum R w b ν‖ ≤ ‖chirpSum R w b 0‖ ∧ (1 ≤ R → (‖chirpSum R w b ν‖ = ‖chirpSum R w b 0‖ ↔ ∃ q : ℤ, ν = q)) := by
  have hsq : ∀ μ : ℝ, ‖chirpSum R w b μ‖ ^ 2 = ∑ p ∈ Finset.Icc (-R) R ×ˢ Finset.Icc (-R) R,
      (w p.1 * w p.2 * Real.cos (Real.pi * (b * p.1 ^ 2) - Real.pi * (b * p.2 ^ 2))) *
        (Real.cos (2 * Real.pi * (p.1 * μ)) * Real.cos (2 * Real.pi * (p.2 * μ))) := by
    intro μ
    rw [chirpSum_cos hw, normSq_sum_expi]
    exact Finset.sum_congr rfl (fun p _ => by ring)
  have hpos : ∀ p ∈ Finset.Icc (-R) R ×ˢ Finset.Icc (-R) R,
      0 < w p.1 * w p.2 * Real.cos (Real.pi * (b * p.1 ^ 2) - Real.pi * (b * p.2 ^ 2)) := by
    intro p hp
    rw [Finset.mem_product] at hp
    have hsmall : |b * ((p.1 : ℝ) ^ 2 - (p.2 : ℝ) ^ 2)| < 1 / 2 := by
      rw [abs_mul]
      refine lt_of_le_of_lt (mul_le_mul_of_nonneg_left ?_ (abs_nonneg b)) hb
      have h1 := Finset.mem_Icc.1 hp.1
      have h2 := Finset.mem_Icc.1 hp.2
      have a1 : -(R : ℝ) ≤ p.1 := by exact_mod_cast h1.1
      have a2 : (p.1 : ℝ) ≤ R := by exact_mod_cast h1.2
      have a3 : -(R : ℝ) ≤ p.2 := by exact_mod_cast h2.1
      have a4 : (p.2 : ℝ) ≤ R := by exact_mod_cast h2.2
      rw [abs_le]
      constructor <;> nlinarith [sq_nonneg (p.1 : ℝ), sq_nonneg (p.2 : ℝ)]
    have hc : 0 < Real.cos (Real.pi * (b * p.1 ^ 2) - Real.pi * (b * p.2 ^ 2)) := by
      rw [abs_lt] at hsmall
      apply Real.cos_pos_of_mem_Ioo
      constructor <;> nlinarith [Real.pi_pos]
    exact mul_pos (mul_pos (hw0 _ hp.1) (hw0 _ hp.2)) hc
  have hcc : ∀ u v : ℝ, Real.cos u * Real.cos v ≤ 1 := by
    intro u v
    have := Real.abs_cos_le_one u
    have h2 := Real.abs_cos_le_one v
    have h3 := abs_mul (Real.cos u) (Real.cos v)
    have h4 : |Real.cos u| * |Real.cos v| ≤ 1 := mul_le_one₀ this (abs_nonneg _) h2
    linarith [le_abs_self (Real.cos u * Real.cos v)]
  have h0 : ‖chirpSum R w b 0‖ ^ 2 = ∑ p ∈ Finset.Icc (-R) R ×ˢ Finset.Icc (-R) R,
      (w p.1 * w p.2 * Real.cos (Real.pi * (b * p.1 ^ 2) - Real.pi * (b * p.2 ^ 2))) * 1 := by
    rw [hsq]
    exact Finset.sum_congr rfl (fun p _ => by simp)
  have hle : ‖chirpSum R w b ν‖ ≤ ‖chirpSum R w b 0‖ := by
    refine le_of_sq_le_sq ?_ (norm_nonneg _)
    rw [hsq ν, h0]
    exact Finset.sum_le_sum (fun p hp => mul_le_mul_of_nonneg_left (hcc _ _) (hpos p hp).le)
  refine ⟨hle, fun hR => ⟨fun heq => ?_, ?_⟩⟩
  · by_contra hno
    have hlt : ‖chirpSum R w b ν‖ ^ 2 < ‖chirpSum R w b 0‖ ^ 2 := by
      rw [hsq ν, h0]
      refine Finset.sum_lt_sum (fun p hp => mul_le_mul_of_nonneg_left (hcc _ _) (hpos p hp).le) ⟨((0 : ℤ), (1 : ℤ)), ?_, ?_⟩
      · rw [Finset.mem_product, Finset.mem_Icc, Finset.mem_Icc]
        simp only
        omega
      · refine mul_lt_mul_of_pos_left ?_ (hpos _ ?_)
        · simp only [Int.cast_zero, Int.cast_one, zero_mul, mul_zero, Real.cos_zero, one_mul]
          refine lt_of_le_of_ne (Real.cos_le_one _) (fun h => hno ?_)
          rw [Real.cos_eq_one_iff] at h
          obtain ⟨q, hq⟩ := h
          refine ⟨q, ?_⟩
          have hpi := Real.pi_pos
          have : 2 * Real.pi * (ν - q) = 0 := by linarith
          rcases mul_eq_zero.1 this with h | h
          · linarith
          · linarith
        · rw [Finset.mem_product, Finset.mem_Icc, Finset.mem_Icc]
          simp only
          omega
    rw [heq] at hlt
    exact lt_irrefl _ hlt
  · rintro ⟨q, rfl⟩
    have := chirpSum_period R w b 0 q
    rw [zero_add] at this
    rw [this]

theorem cos_slow {b : ℝ} {R : ℤ} (hb : |b| * R ^ 2 < 1 / 2) : 0 < Real.cos (Real.pi * (b * R ^ 2)) := by
  have h1 : |b * (R : ℝ) ^ 2| < 1 / 2 := by rwa [abs_mul, abs_of_nonneg (sq_nonneg (R : ℝ))]
  rw [abs_lt] at h1
  apply Real.cos_pos_of_mem_Ioo
  constructor <;> nlinarith [Real.pi_pos]

/-- What a slow chirp loses at its own frequency against a tone. -/
theorem chirpSum_level {R : ℤ} {w : ℤ → ℝ} (hw0 : ∀ τ ∈ Finset.Icc (-R) R, 0 ≤ w τ) {b : ℝ} (hb : |b| * R ^ 2 ≤ 1) :
    Real.cos (Real.pi * (b * R ^ 2)) * ∑ τ ∈ Finset.Icc (-R) R, w τ ≤ ‖chirpSum R w b 0‖ := by
  refine le_trans ?_ (Complex.re_le_norm _)
  unfold chirpSum
  rw [Complex.re_sum, Finset.mul_sum]
  refine Finset.sum_le_sum (fun τ hτ => ?_)
  rw [Complex.re_ofReal_mul, expi_re, mul_comm]
  refine mul_le_mul_of_nonneg_left ?_ (hw0 τ hτ)
  rw [Finset.mem_Icc] at hτ
  have a1 : -(R : ℝ) ≤ τ := by exact_mod_cast hτ.1
  have a2 : (τ : ℝ) ≤ R := by exact_mod_cast hτ.2
  have hsq : (τ : ℝ) ^ 2 ≤ (R : ℝ) ^ 2 := sq_le_sq' a1 a2
  rw [← Real.cos_abs (Real.pi * (b * R ^ 2)), ← Real.cos_abs (2 * Real.pi * _)]
  have e1 : |Real.pi * (b * (R : ℝ) ^ 2)| = Real.pi * (|b| * (R : ℝ) ^ 2) := by
    rw [abs_mul, abs_mul, abs_of_pos Real.pi_pos, abs_of_nonneg (sq_nonneg (R : ℝ))]
  have e2 : |2 * Real.pi * ((τ : ℝ) * 0 + b * (τ : ℝ) ^ 2 / 2)| = Real.pi * (|b| * (τ : ℝ) ^ 2) := by
    rw [show 2 * Real.pi * ((τ : ℝ) * 0 + b * (τ : ℝ) ^ 2 / 2) = Real.pi * (b * (τ : ℝ) ^ 2) by ring, abs_mul, abs_mul,
      abs_of_pos Real.pi_pos, abs_of_nonneg (sq_nonneg (τ : ℝ))]
  rw [e1, e2]
  have hpi := Real.pi_pos
  refine Real.cos_le_cos_of_nonneg_of_le_pi (by positivity) ?_ ?_
  · nlinarith
  · gcongr

/-- The windowed Fourier sum of a chirp. -/
theorem chirp_windowed {x : Vec ℂ} {A : ℂ} {a b : ℝ} (hx : IsChirp x A a b) (w : ℤ → ℝ) (R c : ℤ) (h0 : 0 ≤ c - R) (h1 : c + R < x.len)
    (n k : ℕ) :
    ∑ τ ∈ Finset.Icc (-R) R, zext x (c + τ) * (w τ : ℂ) * expi (-(2 * Real.pi * (k * τ / n)))
      = (A * expi (2 * Real.pi * (a * c + b * c ^ 2 / 2))) * chirpSum R w b (a + b * c - k / n) := by
  unfold chirpSum
  rw [Finset.mul_sum]
  refine Finset.sum_congr rfl (fun τ hτ => ?_)
  rw [Finset.mem_Icc] at hτ
  have h3 : 0 ≤ c + τ := by omega
  rw [zext_of_mem h3 (by omega), hx _ (by omega)]
  have e1 : (((c + τ).toNat : ℕ) : ℝ) = (c : ℝ) + τ := by
    have : (((c + τ).toNat : ℤ) : ℝ) = ((c + τ : ℤ) : ℝ) := by rw [Int.toNat_of_nonneg h3]
    push_cast at this; exact this
  rw [e1]
  have e2 : expi (2 * Real.pi * (a * ((c : ℝ) + τ) + b * ((c : ℝ) + τ) ^ 2 / 2)) * expi (-(2 * Real.pi * (k * τ / n)))
      = expi (2 * Real.pi * (a * c + b * c ^ 2 / 2)) * expi (2 * Real.pi * (τ * (a + b * c - k / n) + b * τ ^ 2 / 2)) := by
    rw [← expi_add, ← expi_add]; congr 1; ring
  linear_combination (A * (w τ : ℂ)) * e2

/-! ## Short-time Fourier transform -/

/-- STFT of a chirp under a positive symmetric window inside the signal: a column takes the same value in two rows symmetric about the
instantaneous frequency at its centre; if the chirp is slow (its frequency changes by less than `1/(2L)` over half the window) no row exceeds the
modulus found at the instantaneous frequency, and exactly the rows of that frequency reach it. -/
theorem C120_stft {τ : Type} (x : Vec ℂ) (A : ℂ) (a b : ℝ) (hx : IsChirp x A a b) (ts : Vec τ) (n L : ℕ) (h : Vec ℂ) (w : ℕ → ℝ)
    (hh : h.len = 2 * L + 1 ∨ h.len = 2 * L + 2) (hL : 2 * L < n) (hw : ∀ i, h.get i = (w i : ℂ))
    (hsym : ∀ i ≤ 2 * L, w (2 * L - i) = w i) :
    ∃ M : Mat ℂ, stftOf x ts n (some h) = .ok M ∧ ∀ m < ts.len, L + 1 ≤ m → m + L ≤ x.len →
      let f := a + b * ((m : ℝ) - 1)
      (∀ k < n, ∀ k' < n, (∃ q : ℤ, (k : ℝ) / n + k' / n = 2 * f + q) → M.get k m = M.get k' m) ∧
      ((∀ i ≤ 2 * L, 0 < w i) → |b| * (L : ℝ) ^ 2 < 1 / 2 →
        (∀ k < n, ‖M.get k m‖ ≤ ‖A‖ * ‖chirpSum L (fun τ => w ((L : ℤ) + τ).toNat) b 0‖) ∧
        (A ≠ 0 → 1 ≤ L → ∀ k < n,
          (‖M.get k m‖ = ‖A‖ * ‖chirpSum L (fun τ => w ((L : ℤ) + τ).toNat) b 0‖ ↔ ∃ q : ℤ, f = k / n + q))) := by
  obtain ⟨M, h1, _, _, h4⟩ := C27_stft x ts n L h hh hL
  refine ⟨M, h1, fun m hm hm0 hm1 => ?_⟩
  intro f
  have hM : ∀ k < n, M.get k m = (A * expi (2 * Real.pi * (a * ((m : ℤ) - 1 : ℤ) + b * ((m : ℤ) - 1 : ℤ) ^ 2 / 2))) *
      chirpSum L (fun τ => w ((L : ℤ) + τ).toNat) b (f - k / n) := by
    intro k hk
    have hf : f = a + b * (((m : ℤ) - 1 : ℤ) : ℝ) := by show a + b * ((m : ℝ) - 1) = _; push_cast; ring
    rw [hf, ← chirp_windowed hx (fun τ => w ((L : ℤ) + τ).toNat) L ((m : ℤ) - 1) (by omega) (by omega), h4 k hk m hm]
    unfold windowedDft
    exact Finset.sum_congr rfl (fun τ _ => by rw [hw, Complex.conj_ofReal])
  have hev : ∀ τ ∈ Finset.Icc (-(L : ℤ)) L, w ((L : ℤ) + -τ).toNat = w ((L : ℤ) + τ).toNat := by
    intro τ hτ
    rw [Finset.mem_Icc] at hτ
    rw [← hsym _ (by omega : ((L : ℤ) + τ).toNat ≤ 2 * L)]
    congr 1
    omega
  refine ⟨fun k hk k' hk' ⟨q, hq⟩ => ?_, fun hpos hb => ?_⟩
  · rw [hM k hk, hM k' hk', ← chirpSum_period L _ b (f - k' / n) q, ← chirpSum_neg hev]
    congr 2
    linarith
  · have hw0 : ∀ τ ∈ Finset.Icc (-(L : ℤ)) L, 0 < w ((L : ℤ) + τ).toNat := by
      intro τ hτ
      rw [Finset.mem_Icc] at hτ
      exact hpos _ (by omega)
    have hb' : |b| * (((L : ℤ) : ℝ)) ^ 2 < 1 / 2 := by exact_mod_cast hb
    have hn : ∀ k < n, ‖M.get k m‖ = ‖A‖ * ‖chirpSum L (fun τ => w ((L : ℤ) + τ).toNat) b (f - k / n)‖ := by
      intro k hk
      rw [hM k hk, norm_mul, norm_mul, norm_expi, mul_one]
    refine ⟨fun k hk => ?_, fun hA hL1 k hk => ?_⟩
    · rw [hn k hk]
      exact mul_le_mul_of_nonneg_left (chirpSum_peak hev hw0 hb' _).1 (norm_nonneg _)
    · rw [hn k hk, mul_right_inj' (norm_ne_zero_iff.2 hA), (chirpSum_peak hev hw0 hb' _).2 (by omega)]
      constructor
      · rintro ⟨q, hq⟩; exact ⟨q, by linarith⟩
      · rintro ⟨q, hq⟩; exact ⟨q, by linarith⟩

/-! ## Spectrogram -/

/-- Spectrogram of a chirp under a positive symmetric window, in the columns where the part of the window in use lies inside the signal: rows
symmetric about the instantaneous frequency are equal; if the chirp is slow exactly the rows of that frequency hold the peak value. -/
theorem C120_spectrogram (x : Vec ℂ) (A : ℂ) (a b : ℝ) (hx : IsChirp x A a b) (ts : Vec ℤ) (n L : ℕ) (h : Vec ℂ) (w : ℕ → ℝ)
    (hh : h.len = 2 * L + 1 ∨ h.len = 2 * L + 2) (hn : 2 ≤ n) (hw : ∀ i, h.get i = (w i : ℂ)) (hw0 : ∀ i, 0 < w i)
    (hsym : ∀ i ≤ 2 * L, w (2 * L - i) = w i) :
    ∃ M : Mat ℝ, SpectroReturns x ts n h M ∧ ∀ m < ts.len,
      let R := min (roundEven ((n : ℝ) / 2) - 1) L
      let f := a + b * ((ts.get m : ℝ) - 1)
      let peak := ‖A‖ ^ 2 * ‖chirpSum R (fun τ => w ((L : ℤ) + τ).toNat) b 0‖ ^ 2 / ∑ τ ∈ Finset.Icc (-R) R, w ((L : ℤ) + τ).toNat ^ 2
      R + 1 ≤ ts.get m → ts.get m + R ≤ x.len →
      (∀ k < n, ∀ k' < n, (∃ q : ℤ, (k : ℝ) / n + k' / n = 2 * f + q) → M.get k m = M.get k' m) ∧
      (|b| * (R : ℝ) ^ 2 < 1 / 2 → (∀ k < n, M.get k m ≤ peak) ∧
        ‖A‖ ^ 2 * (Real.cos (Real.pi * (b * R ^ 2)) * ∑ τ ∈ Finset.Icc (-R) R, w ((L : ℤ) + τ).toNat) ^ 2 /
          ∑ τ ∈ Finset.Icc (-R) R, w ((L : ℤ) + τ).toNat ^ 2 ≤ peak ∧
        (A ≠ 0 → 1 ≤ L → 3 ≤ n → ∀ k < n, (M.get k m = peak ↔ ∃ q : ℤ, f = k / n + q))) := by
  have hwin : ∀ N c, windowEnergy h n L N c = ∑ τ ∈ segLags (min (roundEven ((n : ℝ) / 2) - 1) L) N c, w ((L : ℤ) + τ).toNat ^ 2 := by
    intro N c
    unfold windowEnergy
    exact Finset.sum_congr rfl (fun τ _ => by rw [hw, Complex.norm_real, Real.norm_of_nonneg (hw0 _).le])
  have hok : WindowOk h n L x.len ts := by
    intro m _
    rcases Finset.eq_empty_or_nonempty (segLags (min (roundEven ((n : ℝ) / 2) - 1) L) x.len (ts.get m - 1)) with h1 | h1
    · right; exact h1
    · left
      rw [hwin]
      exact (Finset.sum_pos (fun τ _ => by have := hw0 ((L : ℤ) + τ).toNat; positivity) h1).ne'
  obtain ⟨M, h1, _, _, h4⟩ := C31_closed_form x ts n L h hh (by omega) hok
  refine ⟨M, h1, fun m hm => ?_⟩
  intro R f peak hm0 hm1
  have hR0 : 0 ≤ R := by
    have : 1 ≤ roundEven ((n : ℝ) / 2) := by rw [roundEven_half]; split <;> omega
    show 0 ≤ min (roundEven ((n : ℝ) / 2) - 1) (L : ℤ)
    omega
  have hRL : R ≤ L := min_le_right _ _
  have hseg : segLags R x.len (ts.get m - 1) = Finset.Icc (-R) R := by
    unfold segLags
    rw [Finset.filter_true_of_mem]
    intro τ hτ
    rw [Finset.mem_Icc] at hτ
    omega
  set W := ∑ τ ∈ Finset.Icc (-R) R, w ((L : ℤ) + τ).toNat ^ 2 with hW
  have hWpos : 0 < W := by
    rw [hW]
    exact Finset.sum_pos (fun τ _ => by have := hw0 ((L : ℤ) + τ).toNat; positivity) ⟨0, by rw [Finset.mem_Icc]; omega⟩
  have hM : ∀ k < n, M.get k m = ‖A‖ ^ 2 * ‖chirpSum R (fun τ => w ((L : ℤ) + τ).toNat) b (f - k / n)‖ ^ 2 / W := by
    intro k hk
    have hf : f = a + b * ((ts.get m - 1 : ℤ) : ℝ) := by show a + b * ((ts.get m : ℝ) - 1) = _; push_cast; ring
    have h5 := (h4 k hk m hm).2
    rw [hwin] at h5
    change _ * ∑ τ ∈ segLags R x.len (ts.get m - 1), _ = ‖∑ τ ∈ segLags R x.len (ts.get m - 1), _‖ ^ 2 at h5
    rw [hseg] at h5
    rw [eq_div_iff hWpos.ne', hW, h5]
    have h6 := chirp_windowed hx (fun τ => w ((L : ℤ) + τ).toNat) R (ts.get m - 1) (by omega) (by omega) n k
    have h7 : ∑ τ ∈ Finset.Icc (-R) R, zext x (ts.get m - 1 + τ) * conj (h.get ((L : ℤ) + τ).toNat) * expi (-(2 * Real.pi * (k * τ / n)))
        = ∑ τ ∈ Finset.Icc (-R) R, zext x (ts.get m - 1 + τ) * (w ((L : ℤ) + τ).toNat : ℂ) * expi (-(2 * Real.pi * (k * τ / n))) :=
      Finset.sum_congr rfl (fun τ _ => by rw [hw, Complex.conj_ofReal])
    rw [h7, h6, norm_mul, norm_mul, norm_expi, mul_one, mul_pow, hf]
  have hev : ∀ τ ∈ Finset.Icc (-R) R, w ((L : ℤ) + -τ).toNat = w ((L : ℤ) + τ).toNat := by
    intro τ hτ
    rw [Finset.mem_Icc] at hτ
    rw [← hsym _ (by omega : ((L : ℤ) + τ).toNat ≤ 2 * L)]
    congr 1
    omega
  refine ⟨fun k hk k' hk' ⟨q, hq⟩ => ?_, fun hb => ⟨fun k hk => ?_, ?_, fun hA hL1 hn3 k hk => ?_⟩⟩
  · rw [hM k hk, hM k' hk', ← chirpSum_period R _ b (f - k' / n) q, ← chirpSum_neg hev]
    congr 5
    linarith
  · rw [hM k hk]
    have := (chirpSum_peak (w := fun τ => w ((L : ℤ) + τ).toNat) hev (fun τ _ => hw0 _) hb (f - k / n)).1
    show _ ≤ ‖A‖ ^ 2 * _ ^ 2 / W
    gcongr
  · have hlev := chirpSum_level (w := fun τ => w ((L : ℤ) + τ).toNat) (fun τ _ => (hw0 _).le) (by linarith : |b| * (R : ℝ) ^ 2 ≤ 1)
    have hcos : 0 < Real.cos (Real.pi * (b * R ^ 2)) := cos_slow hb
    have hs : 0 ≤ ∑ τ ∈ Finset.Icc (-R) R, w ((L : ℤ) + τ).toNat := Finset.sum_nonneg (fun τ _ => (hw0 _).le)
    show _ ≤ ‖A‖ ^ 2 * _ ^ 2 / W
    gcongr
  · rw [hM k hk]
    show ‖A‖ ^ 2 * _ ^ 2 / W = ‖A‖ ^ 2 * _ ^ 2 / W ↔ _
    have hR1 : 1 ≤ R := by
      have : 2 ≤ roundEven ((n : ℝ) / 2) := by rw [roundEven_half]; split <;> omega
      show 1 ≤ min (roundEven ((n : ℝ) / 2) - 1) (L : ℤ)
      omega
    rw [div_left_inj' hWpos.ne', mul_right_inj' (by have := norm_pos_iff.2 hA; positivity),
      pow_left_inj₀ (norm_nonneg _) (norm_nonneg _) two_ne_zero, (chirpSum_peak (w := fun τ => w ((L : ℤ) + τ).toNat) hev (fun τ _ => hw0 _) hb _).2 hR1]
    constructor
    · rintro ⟨q, hq⟩; exact ⟨q, by linarith⟩
    · rintro ⟨q, hq⟩; exact ⟨q, by linarith⟩

/-- `Spectrogram(y, ts, n).run()` with its default window, for `y, law = fmlin(...)`: in the columns where the window lies inside the signal, and
if the law moves by less than `1/(2L²)` per sample, exactly the rows whose frequency is the law (modulo one) hold the peak of the column. -/
theorem C120_fmlin (N : ℤ) (fi ff : ℝ) (t0 : Option ℝ) (y : Vec ℂ) (law : Vec ℝ) (hy : fmlin N fi ff t0 = .ok (y, law)) (h2 : 2 ≤ y.len)
    (ts : Vec ℤ) (n L : ℕ) (hn : 8 ≤ n) (hL : (makeWindow n).len = 2 * L + 1)
    (hslow : |law.get 1 - law.get 0| * (L : ℝ) ^ 2 < 1 / 2) :
    ∃ (o : TFR ℤ) (M : Mat ℝ), spectroRun (TFR.init makeWindow y ts n none) = .ok o ∧ o.tfr = .real M ∧ ∀ m < ts.len,
      (L : ℤ) + 1 ≤ ts.get m → ts.get m + L ≤ y.len →
      ∃ peak : ℝ, 0 < peak ∧ (∀ k < n, M.get k m ≤ peak) ∧
        ∀ k < n, (M.get k m = peak ↔ ∃ q : ℤ, law.get (ts.get m - 1).toNat = k / n + q) := by
  obtain ⟨_, _, A, a, b, hA, hc, hl⟩ := C77_fmlin_chirp N fi ff t0 y law hy
  have hb : law.get 1 - law.get 0 = b := by
    rw [hl 1 (by omega), hl 0 (by omega)]
    push_cast
    ring
  rw [hb] at hslow
  have hlen : (makeWindow n).len = n / 4 + (1 - n / 4 % 2) := rfl
  obtain ⟨M, ⟨o, h1, h3⟩, h4⟩ := C120_spectrogram y A a b hc ts n L (makeWindow n) (hamming (2 * L + 1)).get (Or.inl hL) (by omega)
    (fun i => by rw [← hL]; rfl) (fun i => hamming_pos _ i) (fun i hi => (hamming_odd L i hi).1)
  refine ⟨o, M, h1, h3, fun m hm hm0 hm1 => ?_⟩
  have hR : min (roundEven ((n : ℝ) / 2) - 1) (L : ℤ) = L := by rw [roundEven_half]; split <;> omega
  have h5 := h4 m hm
  dsimp only at h5
  rw [hR] at h5
  obtain ⟨-, h6⟩ := h5 hm0 hm1
  obtain ⟨h7, hlev, h8⟩ := h6 (by exact_mod_cast hslow)
  have hA0 : A ≠ 0 := norm_ne_zero_iff.1 (by rw [hA]; exact one_ne_zero)
  refine ⟨_, ?_, h7, fun k hk => ?_⟩
  · refine lt_of_lt_of_le ?_ hlev
    have hcos := cos_slow (b := b) (R := (L : ℤ)) (by exact_mod_cast hslow)
    have hs : ∀ g : ℕ → ℝ, (∀ i, 0 < g i) → 0 < ∑ τ ∈ Finset.Icc (-(L : ℤ)) L, g ((L : ℤ) + τ).toNat :=
      fun g hg => Finset.sum_pos (fun τ _ => hg _) ⟨0, by rw [Finset.mem_Icc]; omega⟩
    have hs1 := hs (hamming (2 * L + 1)).get (fun i => hamming_pos _ i)
    have hs2 := hs (fun i => (hamming (2 * L + 1)).get i ^ 2) (fun i => by have := hamming_pos (2 * L + 1) i; positivity)
    rw [hA]
    positivity
  · rw [h8 hA0 (by omega) (by omega) k hk, hl _ (by omega)]
    have : (((ts.get m - 1).toNat : ℕ) : ℝ) = (ts.get m : ℝ) - 1 := by
      have h9 : (((ts.get m - 1).toNat : ℤ) : ℝ) = ((ts.get m - 1 : ℤ) : ℝ) := by rw [Int.toNat_of_nonneg (by omega)]
      push_cast at h9; exact h9
    rw [this]

/-! ## Reassigned spectrogram -/

/-- The reassigned spectrogram of a chirp, at an instant where the symmetric window lies inside the signal and in a row of the instantaneous
frequency: the energy, already on the law, is moved one row down and (except in the first column) one column to the left. -/
theorem C120_reassigned (x : Vec ℂ) (A : ℂ) (α β : ℝ) (hx : IsChirp x A α β) (hA : A ≠ 0) (n L k c : ℕ) (ts : Vec ℤ) (w : Vec ℝ) (hn : 2 ≤ n)
    (hk : k < n) (hw : w.len = 2 * L + 1) (hL : 1 ≤ L) (hR : (L : ℤ) ≤ roundEven ((n : ℝ) / 2) - 1)
    (hsym : ∀ i < w.len, w.get (w.len - 1 - i) = w.get i) (hmid : w.get L ≠ 0)
    (hbig : 1e-6 * ∑ j ∈ range w.len, w.get j ^ 2 < ‖chirpSum L (fun τ => w.get ((L : ℤ) + τ).toNat) β 0‖ ^ 2) (hreg : Regular ts) (a b : ℤ)
    (hab : IsRange ts a b) (ha : 0 ≤ a) (hb : b ≤ x.len) (hc : c < ts.len) (h0 : (L : ℤ) + 1 ≤ ts.get c) (h1 : ts.get c + L ≤ x.len)
    (hlaw : ∃ q : ℤ, α + β * ((ts.get c : ℝ) - 1) = k / n + q) :
    ∃ tfr rtfr v, Reassigned.spectrogram x (some ts) (some n) (some w) = .ok (tfr, rtfr, v) ∧
      tfr.get k c = ‖A‖ ^ 2 * ‖chirpSum L (fun τ => w.get ((L : ℤ) + τ).toNat) β 0‖ ^ 2 / ∑ j ∈ range w.len, w.get j ^ 2 ∧
      v.get k c = some (((((k : ℤ) - 1) % n : ℤ) : ℂ) + Complex.I * (((max c 1 : ℕ) : ℂ))) ∧
      tfr.get k c ≤ rtfr.get (((k : ℤ) - 1) % n).toNat (max c 1 - 1) := by
  obtain ⟨dw, hdw, hl, -⟩ := deriveWindow_eq w (by omega)
  have hN : 1 ≤ x.len := by omega
  obtain ⟨tfr, rtfr, v, e, r1, r2, r3, r4, -, -, r5, r7, r8, r6⟩ := spectrogram_ok (x := x) (ts? := some ts) (n? := some n) (w? := some w)
    (ts := ts) (n := n) (w := w) rfl rfl rfl hn hN hw hL hdw hl hreg hab ha hb
    (fun c hc => reassignMass_ne_zero hn hmid (ha.trans (hab.2.2 c hc).1) ((hab.2.2 c hc).2.trans hb))
  have hle : a ≤ b := by have := hab.2.2 c hc; omega
  have hApos : 0 < ‖A‖ := norm_pos_iff.2 hA
  -- the mean power of a chirp
  have hmean : meanPower x a b = ‖A‖ ^ 2 := by
    unfold meanPower
    have : ∀ t ∈ Finset.Icc a b, ‖cyc x (t - 1)‖ ^ 2 = ‖A‖ ^ 2 := fun t _ => by
      unfold cyc
      have h2 := Int.emod_nonneg (t - 1) (by omega : (x.len : ℤ) ≠ 0)
      have h3 := Int.emod_lt_of_pos (t - 1) (by omega : 0 < (x.len : ℤ))
      rw [hx _ (by omega), norm_mul, norm_expi, mul_one]
    rw [Finset.sum_congr rfl this, Finset.sum_const, Int.card_Icc]
    have h2 : (((b + 1 - a).toNat : ℤ) : ℝ) = ((b + 1 - a : ℤ) : ℝ) := by rw [Int.toNat_of_nonneg (by omega)]
    push_cast at h2
    have h3 : ((b + 1 - a).toNat : ℝ) = (b : ℝ) + 1 - a := by exact_mod_cast h2
    have h4 : (a : ℝ) ≤ b := by exact_mod_cast hle
    rw [nsmul_eq_mul, h3, mul_comm, mul_div_assoc, div_self (by linarith), mul_one]
  rw [hmean] at r6 r7 r8
  set t := ts.get c with ht
  set E := A * expi (2 * Real.pi * (α * ((t - 1 : ℤ) : ℝ) + β * ((t - 1 : ℤ) : ℝ) ^ 2 / 2)) with hE
  have hE0 : E ≠ 0 := mul_ne_zero hA (expi_ne_zero _)
  have hlags : reassignLags n L x.len t = Finset.Icc (-(L : ℤ)) L := by
    rw [reassignLags_eq]
    unfold rLo rHi
    congr 1 <;> omega
  -- sums at the row of the law
  have hsum : ∀ g : ℕ → ℝ, reassignSum x g n L t k = E * chirpSum L (fun τ => g ((L : ℤ) + τ).toNat) β 0 := by
    intro g
    obtain ⟨q, hq⟩ := hlaw
    have h2 := chirp_windowed hx (fun τ => g ((L : ℤ) + τ).toNat) L (t - 1) (by omega) (by omega) n k
    rw [show α + β * ((t - 1 : ℤ) : ℝ) - k / n = 0 + (q : ℝ) by push_cast; linarith, chirpSum_period, ← hE] at h2
    rw [← h2]
    unfold reassignSum
    rw [hlags]
    refine Finset.sum_congr rfl (fun τ hτ => ?_)
    rw [Finset.mem_Icc] at hτ
    rw [zext_of_mem (by omega) (by omega)]
    unfold cyc
    rw [Int.emod_eq_of_lt (by omega) (by omega), show t + τ - 1 = t - 1 + τ by ring]
  have hodd : ∀ g : ℕ → ℝ, (∀ i < w.len, g (w.len - 1 - i) = -g i) → chirpSum L (fun τ => g ((L : ℤ) + τ).toNat) β 0 = 0 := by
    intro g hg
    have h2 : chirpSum L (fun τ => g ((L : ℤ) + τ).toNat) β 0 = -chirpSum L (fun τ => g ((L : ℤ) + τ).toNat) β 0 := by
      unfold chirpSum
      rw [← Finset.sum_neg_distrib, ← sum_Icc_neg (L : ℤ)]
      refine Finset.sum_congr rfl (fun τ hτ => ?_)
      rw [Finset.mem_Icc] at hτ
      have h3 := hg ((L : ℤ) + τ).toNat (by omega)
      rw [show w.len - 1 - ((L : ℤ) + τ).toNat = ((L : ℤ) + -τ).toNat by omega] at h3
      dsimp only
      rw [h3, Complex.ofReal_neg, neg_mul]
      congr 4
      push_cast
      ring
    linear_combination (1 / 2 : ℂ) * h2
  have hmass : reassignMass w.get n L x.len t = ∑ j ∈ range (2 * L + 1), w.get j ^ 2 := by
    unfold reassignMass
    rw [hlags, ← sum_arange, show ((L : ℤ) + 1 - -(L : ℤ)).toNat = 2 * L + 1 by omega]
    refine Finset.sum_congr rfl (fun j _ => ?_)
    rw [show ((L : ℤ) + (-(L : ℤ) + (j : ℤ))).toNat = j by omega]
  have hmpos : 0 < ∑ j ∈ range (2 * L + 1), w.get j ^ 2 := by
    have h2 := Finset.single_le_sum (f := fun j => w.get j ^ 2) (fun _ _ => sq_nonneg _) (Finset.mem_range.2 (by omega : L < 2 * L + 1))
    have : 0 < w.get L ^ 2 := by positivity
    linarith
  have hEn : ‖E‖ = ‖A‖ := by rw [hE, norm_mul, norm_expi, mul_one]
  have hval : tfr.get k c = ‖A‖ ^ 2 * ‖chirpSum L (fun τ => w.get ((L : ℤ) + τ).toNat) β 0‖ ^ 2 / ∑ j ∈ range (2 * L + 1), w.get j ^ 2 := by
    rw [r5 k c hc, hsum, hmass, norm_mul, hEn, mul_pow]
  have hq0 : ∀ g : ℕ → ℝ, (∀ i < w.len, g (w.len - 1 - i) = -g i) → reassignSum x g n L t k / reassignSum x w.get n L t k = 0 := by
    intro g hg
    rw [hsum g, hodd g hg, mul_zero, zero_div]
  have hab' : 1e-6 * ‖A‖ ^ 2 < tfr.get k c := by
    rw [hval, lt_div_iff₀ hmpos, ← hw]
    have : 0 < ‖A‖ ^ 2 := by positivity
    nlinarith
  have hz : roundEven 0 = 0 := by simpa using roundEven_intCast 0
  have hth : ∀ i < w.len, (fun j : ℕ => w.get j * ((j : ℝ) - L)) (w.len - 1 - i) = -(fun j : ℕ => w.get j * ((j : ℝ) - L)) i := by
    intro i hi
    simp only
    rw [hsym i hi]
    have : ((w.len - 1 - i : ℕ) : ℝ) = 2 * L - i := by
      rw [hw, show 2 * L + 1 - 1 - i = 2 * L - i by omega, Nat.cast_sub (by omega)]
      push_cast; ring
    rw [this]
    ring
  have hdest : reassignDest x w.get dw.get n L ts.len (1e-6 * ‖A‖ ^ 2) t k c = (((k : ℤ) - 1) % n, ((max c 1 : ℕ) : ℤ) - 1) := by
    unfold reassignDest
    rw [if_pos (by rw [← r5 k c hc]; exact hab'), hq0 dw.get (C48_antisymmetric w (by omega) hsym dw hdw).1, hq0 _ hth, Complex.zero_im,
      Complex.zero_re, mul_zero, hz]
    refine Prod.ext ?_ ?_
    · simp
    · simp only; push_cast; omega
  refine ⟨tfr, rtfr, v, e, by rw [hw]; exact hval, ?_, ?_⟩
  · rw [r7 k hk c hc hab' _ _ hdest, Int.cast_sub, Int.cast_natCast, Int.cast_one, sub_add_cancel]
  · rw [r6]
    have hr0 : 0 ≤ ((k : ℤ) - 1) % n := Int.emod_nonneg _ (by omega)
    have hnn' : ∀ c' ∈ range ts.len, ∀ i ∈ range n, 0 ≤ (if reassignDest x w.get dw.get n L ts.len (1e-6 * ‖A‖ ^ 2) (ts.get c') i c'
        = (((((k : ℤ) - 1) % n).toNat : ℤ), ((max c 1 - 1 : ℕ) : ℤ)) then tfr.get i c' else 0) := by
      intro c' hc i _
      split_ifs
      · rw [r5 i c' (Finset.mem_range.1 hc)]
        have : 0 ≤ reassignMass w.get n L x.len (ts.get c') := by unfold reassignMass; positivity
        positivity
      · exact le_refl 0
    have s1 := Finset.single_le_sum (fun c' hc' => Finset.sum_nonneg (hnn' c' hc')) (Finset.mem_range.2 hc)
    have s2 := Finset.single_le_sum (hnn' c (Finset.mem_range.2 hc)) (Finset.mem_range.2 hk)
    refine le_trans ?_ (s2.trans s1)
    rw [← ht, hdest, if_pos]
    rw [Prod.mk.injEq]
    constructor
    · rw [Int.toNat_of_nonneg hr0]
    · omega

/-! ## Reassigned pseudo Wigner-Ville distribution -/

/-- The same with `reassigned.pseudo_wigner_ville`, for chirps of any slope and at every instant `1 ≤ t ≤ N`: the row of the instantaneous
frequency at sample `t - 1`, where the distribution is at its largest, is moved one row down. -/
theorem C120_reassigned_pwv (x : Vec ℂ) (A : ℂ) (α β : ℝ) (hx : IsChirp x A α β) (hA : A ≠ 0) (n L k c : ℕ) (ts : Vec ℤ) (w : Vec ℝ) (hk : k < n)
    (hw : w.len = 2 * L + 1) (hL : 1 ≤ L) (hw0 : ∀ j < w.len, 0 ≤ w.get j) (hmid : w.get L ≠ 0)
    (a b : ℤ) (hab : IsRange ts a b) (h0 : 0 ≤ a) (h1 : a < x.len) (hb : b ≤ x.len)
    (hR : (L : ℤ) < roundEven ((n : ℝ) / 2) - 1) (hc : c < ts.len) (ht : 1 ≤ ts.get c)
    (hlaw : ∃ q : ℤ, α + β * ((ts.get c : ℝ) - 1) = k / (2 * n) + q / 2) :
    ∃ tfr rtfr v, pseudoWignerVille x (some ts) (some n) (some w) = .ok (tfr, rtfr, v) ∧
      ‖A‖ ^ 2 ≤ tfr.get k c ∧ (∀ i < n, |tfr.get i c| ≤ tfr.get k c) ∧
      v.get k c = some (((((k : ℤ) - 1) % n : ℤ) : ℂ) + 1) := by
  have hn : n ≠ 0 := by omega
  have hn' : (n : ℝ) ≠ 0 := by exact_mod_cast hn
  obtain ⟨dw, -, -, -, tfr, rtfr, v, e, -, -, -, -, -, -, r7, r8, -⟩ := C71_closed x ts n L w hn hw hL hmid a b hab h0 h1
    (fun c _ => .inr (.inr hR))
  set t := ts.get c with htc
  have htb := hab.2.2 c hc
  rw [← htc] at htb
  set T := min (min (t - 1) (x.len - t)) (L : ℤ) with hT
  set f := α + β * ((t : ℝ) - 1) with hf
  have hApos : 0 < ‖A‖ := norm_pos_iff.2 hA
  -- the lag products of a chirp
  have hker : ∀ (g : ℕ → ℝ) (i : ℕ), pwvSum x g n L t i = ∑ τ ∈ Finset.Icc (-T) T,
      ((‖A‖ ^ 2 * g ((L : ℤ) + τ).toNat : ℝ) : ℂ) * expi (2 * Real.pi * (τ * (2 * f - i / n))) := by
    intro g i
    unfold pwvSum lagSum
    rw [← Finset.sum_subset (s₁ := Finset.Icc (-T) T) (fun τ hτ => ?_) (fun τ hτ hτ' => ?_)]
    rotate_left
    · rw [Finset.mem_Icc] at hτ ⊢; omega
    · rw [Finset.mem_Icc] at hτ hτ'
      simp only
      rw [wignerKernel_outside, mul_zero, zero_mul]
      rcases abs_cases τ with ⟨e, h0⟩ | ⟨e, h0⟩ <;> omega
    · refine Finset.sum_congr rfl (fun τ hτ => ?_)
      rw [Finset.mem_Icc] at hτ
      unfold wignerKernel
      simp only
      rw [zext_of_mem (by omega) (by omega), zext_of_mem (by omega) (by omega), hx _ (by omega), hx _ (by omega), map_mul, conj_expi]
      have e1 : (((t - 1 + τ).toNat : ℕ) : ℝ) = (t : ℝ) - 1 + τ := by
        have : (((t - 1 + τ).toNat : ℤ) : ℝ) = ((t - 1 + τ : ℤ) : ℝ) := by rw [Int.toNat_of_nonneg (by omega)]
        push_cast at this; exact_mod_cast this
      have e2 : (((t - 1 - τ).toNat : ℕ) : ℝ) = (t : ℝ) - 1 - τ := by
        have : (((t - 1 - τ).toNat : ℤ) : ℝ) = ((t - 1 - τ : ℤ) : ℝ) := by rw [Int.toNat_of_nonneg (by omega)]
        push_cast at this; exact_mod_cast this
      rw [e1, e2]
      have e3 : expi (2 * Real.pi * (α * ((t : ℝ) - 1 + τ) + β * ((t : ℝ) - 1 + τ) ^ 2 / 2)) *
          expi (-(2 * Real.pi * (α * ((t : ℝ) - 1 - τ) + β * ((t : ℝ) - 1 - τ) ^ 2 / 2))) * expi (-(2 * Real.pi * (((i : ℕ) : ℤ) * τ / n)))
          = expi (2 * Real.pi * (τ * (2 * f - i / n))) := by
        rw [← expi_add, ← expi_add]
        congr 1
        rw [hf]
        push_cast
        ring
      have e4 : A * conj A = ((‖A‖ ^ 2 : ℝ) : ℂ) := by rw [Complex.mul_conj, Complex.normSq_eq_norm_sq]
      rw [← e3, Complex.ofReal_mul, ← e4]
      ring
  have hlawk : ∀ g : ℕ → ℝ, pwvSum x g n L t k = ((‖A‖ ^ 2 * ∑ τ ∈ Finset.Icc (-T) T, g ((L : ℤ) + τ).toNat : ℝ) : ℂ) := by
    intro g
    obtain ⟨q, hq⟩ := hlaw
    rw [hker, Finset.mul_sum, Complex.ofReal_sum]
    refine Finset.sum_congr rfl (fun τ _ => ?_)
    rw [(expi_eq_one_iff _).2 ⟨τ * q, ?_⟩, mul_one]
    rw [hq]
    push_cast
    field_simp
    ring
  have hmp : 0 < w.get L := lt_of_le_of_ne (hw0 L (by omega)) (Ne.symm hmid)
  have hg0 : ∀ τ ∈ Finset.Icc (-T) T, 0 ≤ w.get ((L : ℤ) + τ).toNat / w.get L := by
    intro τ hτ
    rw [Finset.mem_Icc] at hτ
    exact div_nonneg (hw0 _ (by omega)) hmp.le
  have hv : tfr.get k c = ‖A‖ ^ 2 * ∑ τ ∈ Finset.Icc (-T) T, w.get ((L : ℤ) + τ).toNat / w.get L := by
    rw [r7 k hk c hc, ← htc, hlawk, Complex.ofReal_re]
  have h1' : ‖A‖ ^ 2 ≤ tfr.get k c := by
    rw [hv]
    refine le_mul_of_one_le_right (by positivity) ?_
    have : (1 : ℝ) = w.get ((L : ℤ) + 0).toNat / w.get L := by
      rw [show ((L : ℤ) + 0).toNat = L by omega, div_self hmid]
    rw [this]
    exact Finset.single_le_sum (f := fun τ : ℤ => w.get ((L : ℤ) + τ).toNat / w.get L) hg0 (by rw [Finset.mem_Icc]; omega)
  have hpow : slicePower x a b = ‖A‖ ^ 2 := by
    unfold slicePower
    have hm : a ≤ min b ((x.len : ℤ) - 1) := by omega
    have : ∀ s ∈ Finset.Icc a (min b ((x.len : ℤ) - 1)), ‖zext x s‖ ^ 2 = ‖A‖ ^ 2 := by
      intro s hs
      rw [Finset.mem_Icc] at hs
      rw [zext_of_mem (by omega) (by omega), hx _ (by omega), norm_mul, norm_expi, mul_one]
    rw [Finset.sum_congr rfl this, Finset.sum_const, Int.card_Icc, nsmul_eq_mul]
    have h2 : (((min b ((x.len : ℤ) - 1) + 1 - a).toNat : ℤ) : ℝ) = ((min b ((x.len : ℤ) - 1) + 1 - a : ℤ) : ℝ) := by
      rw [Int.toNat_of_nonneg (by omega)]
    push_cast at h2
    rw [h2, mul_comm, mul_div_assoc, div_self, mul_one]
    have h3 : ((a : ℤ) : ℝ) ≤ ((min b ((x.len : ℤ) - 1) : ℤ) : ℝ) := by exact_mod_cast hm
    push_cast at h3
    linarith
  refine ⟨tfr, rtfr, v, e, h1', fun i hi => ?_, ?_⟩
  · rw [hv, r7 i hi c hc, ← htc, hker, Finset.mul_sum]
    refine (Complex.abs_re_le_norm _).trans ((norm_sum_le _ _).trans (Finset.sum_le_sum (fun τ hτ => ?_)))
    rw [norm_mul, norm_expi, mul_one, Complex.norm_real, Real.norm_of_nonneg (mul_nonneg (by positivity) (hg0 τ hτ))]
  · have hth : 1e-6 * slicePower x a b < |tfr.get k c| := by
      have : 0 < ‖A‖ ^ 2 := by positivity
      rw [hpow, abs_of_nonneg (by linarith)]
      norm_num at h1' ⊢
      linarith
    rw [r8 k hk c hc, if_pos hth]
    unfold pwvDest
    rw [if_pos hth, ← htc, hlawk, Complex.ofReal_im, zero_div, mul_zero]
    have : roundEven (0 : ℝ) = 0 := by simpa using roundEven_intCast 0
    rw [this, sub_zero]

/-! ## Concrete cases -/

/-- A chirp of 9 samples, of frequency `t/8` at sample `t`. -/
noncomputable def chirp9 : Vec ℂ := ⟨9, fun i => 3 * expi (2 * Real.pi * (0 * i + 1 / 8 * (i : ℝ) ^ 2 / 2))⟩

theorem chirp9_isChirp : IsChirp chirp9 3 0 (1 / 8) := fun _ _ => rfl

/-- Its spectrogram with the window 1, 2, 1 and 8 rows at instant 3 (sample 2): rows 1 and 3 are equal, so are rows 0 and 4, and row 2 alone
holds the peak. -/
example : ∃ (M : Mat ℝ) (peak : ℝ), SpectroReturns chirp9 ⟨1, fun _ => 3⟩ 8 ⟨3, fun i => ((if i = 1 then 2 else 1 : ℝ) : ℂ)⟩ M ∧
    M.get 1 0 = M.get 3 0 ∧ M.get 0 0 = M.get 4 0 ∧ ∀ k < 8, M.get k 0 ≤ peak ∧ (M.get k 0 = peak ↔ k = 2) := by
  obtain ⟨M, h1, h2⟩ := C120_spectrogram chirp9 3 0 (1 / 8) chirp9_isChirp ⟨1, fun _ => 3⟩ 8 1
    ⟨3, fun i => ((if i = 1 then 2 else 1 : ℝ) : ℂ)⟩ (fun i => if i = 1 then 2 else 1) (Or.inl rfl) (by norm_num) (fun _ => rfl)
    (fun i => by split_ifs <;> norm_num) (fun i hi => by
      have : i = 0 ∨ i = 1 ∨ i = 2 := by omega
      rcases this with rfl | rfl | rfl <;> norm_num)
  have hR : min (roundEven (((8 : ℕ) : ℝ) / 2) - 1) ((1 : ℕ) : ℤ) = 1 := by rw [roundEven_half]; norm_num
  have h3 := h2 0 (by norm_num)
  dsimp only at h3
  rw [hR] at h3
  obtain ⟨h4, h5⟩ := h3 (by norm_num) (by show (3 : ℤ) + 1 ≤ ((9 : ℕ) : ℤ); norm_num)
  obtain ⟨h6, -, h7⟩ := h5 (by norm_num [abs_of_pos])
  refine ⟨M, _, h1, h4 1 (by norm_num) 3 (by norm_num) ⟨0, by norm_num⟩, h4 0 (by norm_num) 4 (by norm_num) ⟨0, by norm_num⟩,
    fun k hk => ⟨h6 k hk, (h7 (by norm_num) (by norm_num) (by norm_num) k hk).trans ?_⟩⟩
  constructor
  · rintro ⟨q, hq⟩
    have h8 : (2 : ℤ) = k + 8 * q := by
      have : (2 : ℝ) = k + 8 * q := by push_cast at hq; linarith
      exact_mod_cast this
    omega
  · rintro rfl
    exact ⟨0, by norm_num⟩

/-- The reassigned spectrogram of the same chirp at all instants: the energy of row 2 at instant 3, on the law, goes to row 1 of column 2. -/
example : ∃ tfr rtfr v, Reassigned.spectrogram chirp9 (some (arange 0 (9 : ℕ))) (some 8) (some ⟨3, fun i => if i = 1 then 2 else 1⟩)
      = .ok (tfr, rtfr, v) ∧ v.get 2 3 = some (1 + Complex.I * 3) ∧ 6 ≤ tfr.get 2 3 ∧ tfr.get 2 3 ≤ rtfr.get 1 2 := by
  set w : Vec ℝ := ⟨3, fun i => if i = 1 then 2 else 1⟩ with hw
  have hsq : ∑ j ∈ range w.len, w.get j ^ 2 = 6 := by
    show ∑ j ∈ range 3, (if j = 1 then (2 : ℝ) else 1) ^ 2 = 6
    rw [Finset.sum_range_succ, Finset.sum_range_succ, Finset.sum_range_succ, Finset.sum_range_zero]
    norm_num
  have hlev : 2 ≤ ‖chirpSum ((1 : ℕ) : ℤ) (fun τ => w.get (((1 : ℕ) : ℤ) + τ).toNat) (1 / 8) 0‖ := by
    have h1 := chirpSum_level (R := ((1 : ℕ) : ℤ)) (w := fun τ => w.get (((1 : ℕ) : ℤ) + τ).toNat) (b := 1 / 8)
      (fun τ _ => by show 0 ≤ (if _ = 1 then (2 : ℝ) else 1); split_ifs <;> norm_num) (by norm_num [abs_of_pos])
    have h2 : ∑ τ ∈ Finset.Icc (-((1 : ℕ) : ℤ)) ((1 : ℕ) : ℤ), w.get (((1 : ℕ) : ℤ) + τ).toNat = 4 := by
      have h3 : Finset.Icc (-((1 : ℕ) : ℤ)) ((1 : ℕ) : ℤ) = {-1, 0, 1} := by rfl
      rw [h3, Finset.sum_insert (by decide), Finset.sum_insert (by decide), Finset.sum_singleton]
      show (if (0 : ℕ) = 1 then (2 : ℝ) else 1) + ((if (1 : ℕ) = 1 then (2 : ℝ) else 1) + (if (2 : ℕ) = 1 then (2 : ℝ) else 1)) = 4
      norm_num
    have h4 : 1 / 2 ≤ Real.cos (Real.pi * (1 / 8 * (((1 : ℕ) : ℤ) : ℝ) ^ 2)) := by
      rw [← Real.cos_pi_div_three]
      have hpi := Real.pi_pos
      refine Real.cos_le_cos_of_nonneg_of_le_pi (by positivity) (by linarith) ?_
      push_cast
      linarith
    rw [h2] at h1
    linarith
  obtain ⟨tfr, rtfr, v, h1, h2, h3, h4⟩ := C120_reassigned chirp9 3 0 (1 / 8) chirp9_isChirp (by norm_num) 8 1 2 3 (arange 0 (9 : ℕ)) w
    (by norm_num) (by norm_num) rfl le_rfl (by rw [roundEven_half]; norm_num)
    (fun i hi => by
      have h5 : i < 3 := hi
      have : i = 0 ∨ i = 1 ∨ i = 2 := by omega
      rcases this with rfl | rfl | rfl <;> rfl) (by show (if (1 : ℕ) = 1 then (2 : ℝ) else 1) ≠ 0; norm_num)
    (by rw [hsq]; nlinarith) (arange_regular 9) 0 8 (arange_range (N := 9) (by norm_num)) le_rfl (by show (8 : ℤ) ≤ ((9 : ℕ) : ℤ); norm_num)
    (by show 3 < 9; norm_num) (by show (2 : ℤ) ≤ 0 + 3; norm_num) (by show (0 : ℤ) + 3 + 1 ≤ 9; norm_num)
    ⟨0, by show 0 + 1 / 8 * ((((0 : ℤ) + ((3 : ℕ) : ℤ) : ℤ) : ℝ) - 1) = _; norm_num⟩
  refine ⟨tfr, rtfr, v, h1, by rw [h3]; norm_num, ?_, h4⟩
  rw [h2, hsq, Complex.norm_ofNat]
  nlinarith

/-- `fmlin(9, 0.125, 0.25)` has frequency 3/16 at sample 4: row 3 of 16 alone holds the peak of the default spectrogram at instant 5. -/
example : ∃ (y : Vec ℂ) (law : Vec ℝ) (o : TFR ℤ) (M : Mat ℝ) (peak : ℝ), fmlin 9 0.125 0.25 none = .ok (y, law) ∧
    spectroRun (TFR.init makeWindow y ⟨1, fun _ => 5⟩ 16 none) = .ok o ∧ o.tfr = .real M ∧ 0 < peak ∧
      ∀ k < 16, M.get k 0 ≤ peak ∧ (M.get k 0 = peak ↔ k = 3) := by
  obtain ⟨k, hk1, hk2, _, hk⟩ := C10_fmlin_default 9 0.125 0.25 (by norm_num)
  obtain ⟨y, law, h1, h2, h3, -, -, h4, h5, -⟩ := C10_fmlin 9 k 0.125 0.25 (by norm_num) hk1 hk2 (by rw [abs_of_pos (by norm_num)]; norm_num)
    (by rw [abs_of_pos (by norm_num)]; norm_num)
  have hok := hk.trans h1
  obtain ⟨-, -, A, a, b, -, -, hl⟩ := C77_fmlin_chirp 9 0.125 0.25 none y law hok
  have e0 := hl 0 (by omega)
  have e1 := hl 1 (by omega)
  have e4 := hl 4 (by omega)
  have e8 := hl 8 (by omega)
  rw [h4] at e0
  rw [show (8 : ℕ) = 9 - 1 from rfl, h5] at e8
  push_cast at e0 e1 e4 e8
  have hb : b = 1 / 64 := by norm_num at e0 e8; linarith
  have ha : a = 1 / 8 := by norm_num at e0; linarith
  have hl4 : law.get 4 = 3 / 16 := by rw [e4, ha, hb]; norm_num
  have hl1 : law.get 1 - law.get 0 = 1 / 64 := by rw [e1, h4, ha, hb]; norm_num
  obtain ⟨o, M, r1, r2, r3⟩ := C120_fmlin 9 0.125 0.25 none y law hok (by omega) ⟨1, fun _ => 5⟩ 16 2 (by norm_num) rfl
    (by rw [hl1, abs_of_pos (by norm_num)]; norm_num)
  obtain ⟨peak, p0, p1, p2⟩ := r3 0 (by norm_num) (by norm_num) (by show (5 : ℤ) + 2 ≤ y.len; omega)
  refine ⟨y, law, o, M, peak, hok, r1, r2, p0, fun k hk => ⟨p1 k hk, (p2 k hk).trans ?_⟩⟩
  show (∃ q : ℤ, law.get 4 = _) ↔ _
  rw [hl4]
  constructor
  · rintro ⟨q, hq⟩
    have h8 : (3 : ℤ) = k + 16 * q := by
      have : (3 : ℝ) = k + 16 * q := by push_cast at hq; linarith
      exact_mod_cast this
    omega
  · rintro rfl
    exact ⟨0, by norm_num⟩

/-- The STFT of the chirp of 9 samples: column 3 (sample 2) has equal values in rows 1 and 3. -/
example : ∃ M : Mat ℂ, stftOf chirp9 (arange 0 (9 : ℕ)) 8 (some ⟨3, fun i => ((if i = 1 then 2 else 1 : ℝ) : ℂ)⟩) = .ok M ∧
    M.get 1 3 = M.get 3 3 ∧ M.get 2 3 ≠ M.get 3 3 := by
  obtain ⟨M, h1, h2⟩ := C120_stft chirp9 3 0 (1 / 8) chirp9_isChirp (arange 0 (9 : ℕ)) 8 1
    ⟨3, fun i => ((if i = 1 then 2 else 1 : ℝ) : ℂ)⟩ (fun i => if i = 1 then 2 else 1) (Or.inl rfl) (by norm_num) (fun _ => rfl)
    (fun i hi => by
      have : i = 0 ∨ i = 1 ∨ i = 2 := by omega
      rcases this with rfl | rfl | rfl <;> norm_num)
  obtain ⟨h3, h4⟩ := h2 3 (by show 3 < 9; norm_num) (by norm_num) (by show 3 + 1 ≤ 9; norm_num)
  obtain ⟨-, h6⟩ := h4 (fun i _ => by split_ifs <;> norm_num) (by norm_num [abs_of_pos])
  refine ⟨M, h1, h3 1 (by norm_num) 3 (by norm_num) ⟨0, by norm_num⟩, fun h => ?_⟩
  have h7 := (h6 (by norm_num) le_rfl 2 (by norm_num)).2 ⟨0, by norm_num⟩
  rw [h] at h7
  obtain ⟨q, hq⟩ := (h6 (by norm_num) le_rfl 3 (by norm_num)).1 h7
  have h8 : (2 : ℤ) = 3 + 8 * q := by
    have : (2 : ℝ) = 3 + 8 * q := by push_cast at hq; linarith
    exact_mod_cast this
  omega

/-- The reassigned pseudo Wigner-Ville distribution of the chirp of 9 samples (8 rows): at instant 3 the frequency is 2/8 and row 4 (of
frequency 4/16) holds the largest value; it is moved to row 3. -/
example : ∃ tfr rtfr v, pseudoWignerVille chirp9 (some (arange 0 (9 : ℕ))) (some 8) (some ⟨3, fun i => if i = 1 then 2 else 1⟩)
      = .ok (tfr, rtfr, v) ∧ 9 ≤ tfr.get 4 3 ∧ (∀ i < 8, |tfr.get i 3| ≤ tfr.get 4 3) ∧ v.get 4 3 = some 4 := by
  obtain ⟨tfr, rtfr, v, h1, h2, h3, h4⟩ := C120_reassigned_pwv chirp9 3 0 (1 / 8) chirp9_isChirp (by norm_num) 8 1 4 3 (arange 0 (9 : ℕ))
    ⟨3, fun i => if i = 1 then 2 else 1⟩ (by norm_num) rfl le_rfl (fun j _ => by show 0 ≤ (if j = 1 then (2 : ℝ) else 1); split_ifs <;> norm_num)
    (by show (if (1 : ℕ) = 1 then (2 : ℝ) else 1) ≠ 0; norm_num) 0 8 (arange_range (N := 9) (by norm_num)) le_rfl
    (by show (0 : ℤ) < ((9 : ℕ) : ℤ); norm_num) (by show (8 : ℤ) ≤ ((9 : ℕ) : ℤ); norm_num) (by rw [roundEven_half]; norm_num)
    (by show 3 < 9; norm_num) (by show (1 : ℤ) ≤ 0 + 3; norm_num)
    ⟨0, by show 0 + 1 / 8 * ((((0 : ℤ) + ((3 : ℕ) : ℤ) : ℤ) : ℝ) - 1) = _; norm_num⟩
  refine ⟨tfr, rtfr, v, h1, ?_, h3, by rw [h4]; norm_num⟩
  rw [Complex.norm_ofNat] at h2
  linarith

end Tftb.Props
