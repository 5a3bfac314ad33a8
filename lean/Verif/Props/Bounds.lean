import Verif.Props.Bins
import Verif.Props.Cohen

/-! # C94 Entries are bounded by the energy, and small perturbations of the signal move them little

The bounds hold for all signals, instants, bins and windows: no entry of the Wigner-Ville distribution or of the spectrogram exceeds the energy of the
signal, and the entries depend continuously on the signal (the Wigner-Ville distribution is quadratic, the transform linear).
-/

namespace Tftb.Props

open Tftb Tftb.Spec Tftb.Linear Tftb.Cohen Finset ComplexConjugate

/-- Sample by sample difference of two signals of the same length. -/
def diff (x y : Vec ℂ) : Vec ℂ := ⟨x.len, fun i => x.get i - y.get i⟩

theorem zext_diff {x y : Vec ℂ} (h : y.len = x.len) (i : ℤ) : zext (diff x y) i = zext x i - zext y i := by
  unfold zext diff
  rw [h]
  simp only
  split <;> simp

theorem energy_nonneg (x : Vec ℂ) : 0 ≤ energy x := Finset.sum_nonneg (fun _ _ => by positivity)

/-- A sum of squared samples at distinct places is at most the energy. -/
theorem sum_sq_zext_le (x : Vec ℂ) (S : Finset ℤ) (f : ℤ → ℤ) (hf : Function.Injective f) : ∑ τ ∈ S, ‖zext x (f τ)‖ ^ 2 ≤ energy x := by
  unfold energy
  rw [← Finset.sum_filter_add_sum_filter_not S (fun τ => 0 ≤ f τ ∧ f τ < x.len)]
  rw [Finset.sum_eq_zero (s := S.filter (fun τ => ¬ (0 ≤ f τ ∧ f τ < x.len))), add_zero]
  · have e : ∑ τ ∈ S.filter (fun τ => 0 ≤ f τ ∧ f τ < x.len), ‖zext x (f τ)‖ ^ 2
        = ∑ t ∈ (S.filter (fun τ => 0 ≤ f τ ∧ f τ < x.len)).image (fun τ => (f τ).toNat), ‖x.get t‖ ^ 2 := by
      rw [Finset.sum_image]
      · refine Finset.sum_congr rfl (fun τ hτ => ?_)
        rw [Finset.mem_filter] at hτ
        rw [zext_of_mem hτ.2.1 hτ.2.2]
      · intro a ha b hb hab
        rw [Finset.mem_coe, Finset.mem_filter] at ha hb
        simp only at hab
        exact hf (by omega)
    rw [e]
    refine Finset.sum_le_sum_of_subset_of_nonneg (fun i hi => ?_) (fun _ _ _ => by positivity)
    rw [Finset.mem_image] at hi
    obtain ⟨τ, hτ, rfl⟩ := hi
    rw [Finset.mem_filter] at hτ
    rw [Finset.mem_range]
    omega
  · intro τ hτ
    rw [Finset.mem_filter] at hτ
    rw [zext_of_not_mem hτ.2]
    simp

/-- Cauchy-Schwarz for products of samples at distinct places. -/
theorem sum_cross_le (x y : Vec ℂ) (S : Finset ℤ) (f g : ℤ → ℤ) (hf : Function.Injective f) (hg : Function.Injective g) :
    ∑ τ ∈ S, ‖zext x (f τ)‖ * ‖zext y (g τ)‖ ≤ Real.sqrt (energy x) * Real.sqrt (energy y) := by
  have h := Finset.sum_mul_sq_le_sq_mul_sq S (fun τ => ‖zext x (f τ)‖) (fun τ => ‖zext y (g τ)‖)
  have h1 := sum_sq_zext_le x S f hf
  have h2 := sum_sq_zext_le y S g hg
  rw [← Real.sqrt_mul (energy_nonneg x)]
  refine Real.le_sqrt_of_sq_le (h.trans ?_)
  exact mul_le_mul h1 h2 (Finset.sum_nonneg (fun _ _ => by positivity)) (energy_nonneg x)

theorem inj_add (t : ℤ) : Function.Injective (fun τ : ℤ => t + τ) := fun a b h => by simp only at h; omega

theorem inj_sub (t : ℤ) : Function.Injective (fun τ : ℤ => t - τ) := fun a b h => by simp only at h; omega

theorem norm_lagSum_le (R : ℤ) (n : ℕ) (v : ℤ → ℂ) (k : ℤ) : ‖lagSum R n v k‖ ≤ ∑ τ ∈ Finset.Icc (-R) R, ‖v τ‖ := by
  unfold lagSum
  refine (norm_sum_le _ _).trans (Finset.sum_le_sum (fun τ _ => ?_))
  rw [norm_mul, norm_expi, mul_one]

/-- The products over the lags at one instant, weighted by at most `H`, add up to at most `H` times the energy. -/
theorem sum_kernel_lags_le (x : Vec ℂ) (t : ℤ) (S : Finset ℤ) (w : ℤ → ℂ) (H : ℝ) (hw : ∀ τ ∈ S, ‖w τ‖ ≤ H) (hH : 0 ≤ H) :
    ∑ τ ∈ S, ‖w τ * wignerKernel x t τ‖ ≤ H * energy x := by
  have h := sum_cross_le x x S (fun τ => t + τ) (fun τ => t - τ) (inj_add t) (inj_sub t)
  rw [Real.mul_self_sqrt (energy_nonneg x)] at h
  refine le_trans ?_ (mul_le_mul_of_nonneg_left h hH)
  rw [Finset.mul_sum]
  refine Finset.sum_le_sum (fun τ hτ => ?_)
  unfold wignerKernel
  rw [norm_mul, norm_mul, Complex.norm_conj]
  exact mul_le_mul_of_nonneg_right (hw τ hτ) (by positivity)

/-- The same for the difference of the products of two signals. -/
theorem sum_kernel_diff_le (x y : Vec ℂ) (hl : y.len = x.len) (t : ℤ) (S : Finset ℤ) (w : ℤ → ℂ) (H : ℝ) (hw : ∀ τ ∈ S, ‖w τ‖ ≤ H) (hH : 0 ≤ H) :
    ∑ τ ∈ S, ‖w τ * (wignerKernel x t τ - wignerKernel y t τ)‖ ≤ H * ((Real.sqrt (energy x) + Real.sqrt (energy y)) * Real.sqrt (energy (diff x y))) := by
  have h1 := sum_cross_le x (diff x y) S (fun τ => t + τ) (fun τ => t - τ) (inj_add t) (inj_sub t)
  have h2 := sum_cross_le (diff x y) y S (fun τ => t + τ) (fun τ => t - τ) (inj_add t) (inj_sub t)
  have h3 : (Real.sqrt (energy x) + Real.sqrt (energy y)) * Real.sqrt (energy (diff x y)) =
      Real.sqrt (energy x) * Real.sqrt (energy (diff x y)) + Real.sqrt (energy (diff x y)) * Real.sqrt (energy y) := by ring
  rw [h3]
  refine le_trans ?_ (mul_le_mul_of_nonneg_left (add_le_add h1 h2) hH)
  rw [← Finset.sum_add_distrib, Finset.mul_sum]
  refine Finset.sum_le_sum (fun τ hτ => ?_)
  have e : wignerKernel x t τ - wignerKernel y t τ =
      zext x (t + τ) * conj (zext (diff x y) (t - τ)) + zext (diff x y) (t + τ) * conj (zext y (t - τ)) := by
    unfold wignerKernel
    rw [zext_diff hl, zext_diff hl, map_sub]
    ring
  rw [norm_mul, e]
  refine mul_le_mul (hw τ hτ) ((norm_add_le _ _).trans ?_) (norm_nonneg _) hH
  rw [norm_mul, norm_mul, Complex.norm_conj, Complex.norm_conj]

theorem lagSum_sub (R : ℤ) (n : ℕ) (v w : ℤ → ℂ) (k : ℤ) : lagSum R n v k - lagSum R n w k = lagSum R n (fun τ => v τ - w τ) k := by
  unfold lagSum
  rw [← Finset.sum_sub_distrib]
  exact Finset.sum_congr rfl (fun τ _ => (sub_mul _ _ _).symm)

/-! ## The bounds -/

/-- Wigner-Ville: no entry exceeds the energy, in absolute value. -/
theorem C94_wvd {τ : Type} (x : Vec ℂ) (ts : Vec τ) (n : ℕ) (hn : n ≠ 0) (hts : ts.len = x.len)
    (hN : (x.len : ℤ) ≤ 2 * roundEven ((n : ℝ) / 2) ∨ x.len ≤ 1) :
    ∃ M, WvdReturns x ts n M ∧ ∀ k < n, ∀ t < x.len, |M.get k t| ≤ energy x := by
  obtain ⟨M, h1, -, -, h4⟩ := C33_wvd x ts n hn hts hN
  refine ⟨M, h1, fun k hk t ht => ?_⟩
  rw [← Real.norm_eq_abs, ← Complex.norm_real, h4 k hk t ht]
  refine (norm_lagSum_le _ _ _ _).trans ?_
  have := sum_kernel_lags_le x t (Finset.Icc (-(roundEven ((n : ℝ) / 2) - 1)) (roundEven ((n : ℝ) / 2) - 1)) (fun _ => 1) 1 (fun _ _ => by simp) zero_le_one
  simpa using this

/-- Wigner-Ville: perturbations. -/
theorem C94_wvd_stable {τ : Type} (x y : Vec ℂ) (hl : y.len = x.len) (ts : Vec τ) (n : ℕ) (hn : n ≠ 0) (hts : ts.len = x.len)
    (hN : (x.len : ℤ) ≤ 2 * roundEven ((n : ℝ) / 2) ∨ x.len ≤ 1) :
    ∃ X Y, WvdReturns x ts n X ∧ WvdReturns y ts n Y ∧
      ∀ k < n, ∀ t < x.len, |X.get k t - Y.get k t| ≤ (Real.sqrt (energy x) + Real.sqrt (energy y)) * Real.sqrt (energy (diff x y)) := by
  obtain ⟨X, h1, -, -, h4⟩ := C33_wvd x ts n hn hts hN
  obtain ⟨Y, g1, -, -, g4⟩ := C33_wvd y ts n hn (hts.trans hl.symm) (by rw [hl]; exact hN)
  refine ⟨X, Y, h1, g1, fun k hk t ht => ?_⟩
  rw [← Real.norm_eq_abs, ← Complex.norm_real, Complex.ofReal_sub, h4 k hk t ht, g4 k hk t (by omega), lagSum_sub]
  refine (norm_lagSum_le _ _ _ _).trans ?_
  have := sum_kernel_diff_le x y hl t (Finset.Icc (-(roundEven ((n : ℝ) / 2) - 1)) (roundEven ((n : ℝ) / 2) - 1)) (fun _ => 1) 1 (fun _ _ => by simp) zero_le_one
  simpa using this

/-- Pseudo Wigner-Ville with a window of values at most `H`. -/
theorem C94_pwvd {τ : Type} (x : Vec ℂ) (ts : Vec τ) (n : ℕ) (h : Vec ℂ) (L : ℕ) (hh : h.len = 2 * L + 1)
    (hL : (L : ℤ) < roundEven ((n : ℝ) / 2)) (H : ℝ) (hH : ∀ j < h.len, ‖h.get j‖ ≤ H) :
    ∃ M, PwvdReturns x ts n (some h) M ∧ ∀ k < n, ∀ t < ts.len, |M.get k t| ≤ H * energy x := by
  obtain ⟨M, h1, -, -, h4⟩ := C36_pwvd x ts n h L hh hL
  refine ⟨M, h1, fun k hk t ht => ?_⟩
  rw [h4 k hk t ht]
  refine (Complex.abs_re_le_norm _).trans ((norm_lagSum_le _ _ _ _).trans ?_)
  exact sum_kernel_lags_le x t _ (fun τ => h.get ((L : ℤ) + τ).toNat) H (fun τ hτ => by
    rw [Finset.mem_Icc] at hτ
    exact hH _ (by omega)) ((norm_nonneg _).trans (hH 0 (by omega)))

/-- Pseudo Wigner-Ville: perturbations. -/
theorem C94_pwvd_stable {τ : Type} (x y : Vec ℂ) (hl : y.len = x.len) (ts : Vec τ) (n : ℕ) (h : Vec ℂ) (L : ℕ) (hh : h.len = 2 * L + 1)
    (hL : (L : ℤ) < roundEven ((n : ℝ) / 2)) (H : ℝ) (hH : ∀ j < h.len, ‖h.get j‖ ≤ H) :
    ∃ X Y, PwvdReturns x ts n (some h) X ∧ PwvdReturns y ts n (some h) Y ∧ ∀ k < n, ∀ t < ts.len,
      |X.get k t - Y.get k t| ≤ H * ((Real.sqrt (energy x) + Real.sqrt (energy y)) * Real.sqrt (energy (diff x y))) := by
  obtain ⟨X, h1, -, -, h4⟩ := C36_pwvd x ts n h L hh hL
  obtain ⟨Y, g1, -, -, g4⟩ := C36_pwvd y ts n h L hh hL
  refine ⟨X, Y, h1, g1, fun k hk t ht => ?_⟩
  rw [h4 k hk t ht, g4 k hk t ht, ← Complex.sub_re, lagSum_sub]
  refine (Complex.abs_re_le_norm _).trans ((norm_lagSum_le _ _ _ _).trans ?_)
  have := sum_kernel_diff_le x y hl t (Finset.Icc (-(L : ℤ)) L) (fun τ => h.get ((L : ℤ) + τ).toNat) H (fun τ hτ => by
    rw [Finset.mem_Icc] at hτ
    exact hH _ (by omega)) ((norm_nonneg _).trans (hH 0 (by omega)))
  simpa only [mul_sub] using this

theorem norm_windowedDft_le (x h : Vec ℂ) (L n : ℕ) (hh : h.len = 2 * L + 1 ∨ h.len = 2 * L + 2) (c : ℤ) (k : ℕ) :
    ‖windowedDft x h L n c k‖ ≤ Real.sqrt (energy x) * Real.sqrt (energy h) := by
  unfold windowedDft
  refine (norm_sum_le _ _).trans ?_
  refine le_trans (Finset.sum_le_sum (fun τ hτ => ?_)) (sum_cross_le x h (Finset.Icc (-(L : ℤ)) L) (fun τ => c + τ) (fun τ => (L : ℤ) + τ) (inj_add c) (inj_add L))
  rw [Finset.mem_Icc] at hτ
  rw [norm_mul, norm_mul, norm_expi, mul_one, Complex.norm_conj, zext_of_mem (x := h) (i := (L : ℤ) + τ) (by omega) (by omega)]

/-- Short-time Fourier transform: at most the norm of the signal times that of the window. -/
theorem C94_stft {τ : Type} (x : Vec ℂ) (ts : Vec τ) (n L : ℕ) (h : Vec ℂ) (hh : h.len = 2 * L + 1 ∨ h.len = 2 * L + 2) (hL : 2 * L < n) :
    ∃ M : Mat ℂ, stftOf x ts n (some h) = .ok M ∧ ∀ k < n, ∀ m < ts.len, ‖M.get k m‖ ≤ Real.sqrt (energy x) * Real.sqrt (energy h) := by
  obtain ⟨M, h1, -, -, h4⟩ := C27_stft x ts n L h hh hL
  refine ⟨M, h1, fun k hk m hm => ?_⟩
  rw [h4 k hk m hm]
  exact norm_windowedDft_le x h L n hh _ k

theorem windowedDft_diff (x y h g : Vec ℂ) (hl : y.len = x.len) (L n : ℕ) (c : ℤ) (k : ℕ) :
    windowedDft x h L n c k - windowedDft y g L n c k = windowedDft (diff x y) h L n c k + windowedDft y (diff h g) L n c k := by
  unfold windowedDft
  rw [← Finset.sum_sub_distrib, ← Finset.sum_add_distrib]
  refine Finset.sum_congr rfl (fun τ _ => ?_)
  have hd : (diff h g).get ((L : ℤ) + τ).toNat = h.get ((L : ℤ) + τ).toNat - g.get ((L : ℤ) + τ).toNat := rfl
  rw [zext_diff hl, hd, map_sub]
  ring

/-- Short-time Fourier transform: perturbations of the signal and of the window. -/
theorem C94_stft_stable {τ : Type} (x y : Vec ℂ) (hl : y.len = x.len) (ts : Vec τ) (n L : ℕ) (h g : Vec ℂ) (hh : h.len = 2 * L + 1 ∨ h.len = 2 * L + 2)
    (hg : g.len = h.len) (hL : 2 * L < n) :
    ∃ X Y : Mat ℂ, stftOf x ts n (some h) = .ok X ∧ stftOf y ts n (some g) = .ok Y ∧ ∀ k < n, ∀ m < ts.len,
      ‖X.get k m - Y.get k m‖ ≤ Real.sqrt (energy (diff x y)) * Real.sqrt (energy h) + Real.sqrt (energy y) * Real.sqrt (energy (diff h g)) := by
  obtain ⟨X, h1, -, -, h4⟩ := C27_stft x ts n L h hh hL
  obtain ⟨Y, g1, -, -, g4⟩ := C27_stft y ts n L g (by rw [hg]; exact hh) hL
  refine ⟨X, Y, h1, g1, fun k hk m hm => ?_⟩
  rw [h4 k hk m hm, g4 k hk m hm, windowedDft_diff x y h g hl]
  have b1 := norm_windowedDft_le (diff x y) h L n hh ((m : ℤ) - 1) k
  have hdl : (diff h g).len = h.len := rfl
  have b2 := norm_windowedDft_le y (diff h g) L n (by rw [hdl]; exact hh) ((m : ℤ) - 1) k
  exact (norm_add_le _ _).trans (add_le_add b1 b2)

/-- Spectrogram: no entry exceeds the energy, whatever the window. -/
theorem C94_spectrogram (x : Vec ℂ) (ts : Vec ℤ) (n L : ℕ) (h : Vec ℂ) (hh : h.len = 2 * L + 1 ∨ h.len = 2 * L + 2) (hn : n ≠ 0)
    (hw : WindowOk h n L x.len ts) :
    ∃ M, SpectroReturns x ts n h M ∧ ∀ k < n, ∀ m < ts.len, 0 ≤ M.get k m ∧ M.get k m ≤ energy x := by
  obtain ⟨M, h1, -, -, h4⟩ := C31_closed_form x ts n L h hh hn hw
  refine ⟨M, h1, fun k hk m hm => ?_⟩
  obtain ⟨h5, h6⟩ := h4 k hk m hm
  rcases hw m hm with h0 | h0
  · set S := segLags (min (roundEven ((n : ℝ) / 2) - 1) L) x.len (ts.get m - 1) with hS
    have hWn : 0 ≤ windowEnergy h n L x.len (ts.get m - 1) := windowEnergy_nonneg _ _ _ _ _
    have hpos : 0 < windowEnergy h n L x.len (ts.get m - 1) := lt_of_le_of_ne hWn (Ne.symm h0)
    have hx := sum_sq_zext_le x S (fun τ => ts.get m - 1 + τ) (inj_add _)
    have hcs := Finset.sum_mul_sq_le_sq_mul_sq S (fun τ => ‖zext x (ts.get m - 1 + τ)‖) (fun τ => ‖h.get ((L : ℤ) + τ).toNat‖)
    have hns : ‖∑ τ ∈ S, zext x (ts.get m - 1 + τ) * conj (h.get ((L : ℤ) + τ).toNat) * expi (-(2 * Real.pi * (k * τ / n)))‖ ≤
        ∑ τ ∈ S, ‖zext x (ts.get m - 1 + τ)‖ * ‖h.get ((L : ℤ) + τ).toNat‖ := by
      refine (norm_sum_le _ _).trans (Finset.sum_le_sum (fun τ _ => ?_))
      rw [norm_mul, norm_mul, norm_expi, mul_one, Complex.norm_conj]
    have hle : M.get k m * windowEnergy h n L x.len (ts.get m - 1) ≤ energy x * windowEnergy h n L x.len (ts.get m - 1) := by
      rw [h6]
      refine (pow_le_pow_left₀ (norm_nonneg _) hns 2).trans (hcs.trans ?_)
      exact mul_le_mul_of_nonneg_right hx hWn
    refine ⟨?_, le_of_mul_le_mul_right hle hpos⟩
    by_contra hcon
    have h7 : M.get k m * windowEnergy h n L x.len (ts.get m - 1) < 0 := mul_neg_of_neg_of_pos (not_le.1 hcon) hpos
    rw [h6] at h7
    exact absurd h7 (not_lt.2 (by positivity))
  · rw [h5 h0]
    exact ⟨le_rfl, energy_nonneg x⟩

/-- Margenau-Hill: at most the modulus of the sample at that instant times the sum of the moduli. -/
theorem C94_margenau_hill (x : Vec ℂ) (ts : Vec ℤ) (n : ℕ) (hn : n ≠ 0) (hts : ∀ c < ts.len, 0 ≤ ts.get c ∧ ts.get c < x.len) :
    ∃ M, MhReturns x ts n M ∧ ∀ k < n, ∀ c < ts.len, |M.get k c| ≤ ‖x.get (ts.get c).toNat‖ * ∑ s ∈ range x.len, ‖x.get s‖ := by
  obtain ⟨M, h1, -, -, h4⟩ := C38_margenau_hill x ts n hn hts
  refine ⟨M, h1, fun k hk c hc => ?_⟩
  rw [h4 k hk c hc]
  refine (Complex.abs_re_le_norm _).trans ((norm_sum_le _ _).trans ?_)
  rw [Finset.mul_sum]
  refine le_trans (Finset.sum_le_sum (fun s _ => ?_)) (Finset.sum_le_sum_of_subset_of_nonneg (fun s hs => ?_) (fun _ _ _ => by positivity))
  · rw [norm_mul, norm_mul, norm_expi, mul_one, Complex.norm_conj]
  · rw [Finset.mem_Ico] at hs
    rw [Finset.mem_range]
    omega

/-- Page: the same bound. -/
theorem C94_page (x : Vec ℂ) (ts : Vec ℤ) (n : ℕ) (hn : n ≠ 0) (hts : ∀ c < ts.len, 0 ≤ ts.get c ∧ ts.get c < x.len) :
    ∃ M, PageReturns x ts n M ∧ ∀ k < n, ∀ c < ts.len, |M.get k c| ≤ ‖x.get (ts.get c).toNat‖ * ∑ s ∈ range x.len, ‖x.get s‖ := by
  obtain ⟨M, h1, -, -, h4⟩ := C39_page x ts n hn hts
  refine ⟨M, h1, fun k hk c hc => ?_⟩
  rw [h4 k hk c hc]
  refine (Complex.abs_re_le_norm _).trans ((norm_sum_le _ _).trans ?_)
  rw [Finset.mul_sum]
  refine le_trans (Finset.sum_le_sum (fun s _ => ?_)) (Finset.sum_le_sum_of_subset_of_nonneg (fun s hs => ?_) (fun _ _ _ => by positivity))
  · rw [norm_mul, norm_mul, norm_expi, mul_one, Complex.norm_conj]
  · rw [Finset.mem_range] at hs ⊢
    omega

/-- The first bound is attained: at the centre of a tone of `2 L + 1` samples, on the bin of its frequency, Wigner-Ville gives the whole energy. -/
theorem C94_wvd_sharp {τ : Type} (L n k0 : ℕ) (hk : k0 < n) (ts : Vec τ) (hts : ts.len = 2 * L + 1)
    (hN : ((2 * L + 1 : ℕ) : ℤ) ≤ 2 * roundEven ((n : ℝ) / 2)) :
    ∃ M, WvdReturns ⟨2 * L + 1, fun m => expi (2 * Real.pi * (k0 * m / (2 * n)))⟩ ts n M ∧
      M.get k0 L = energy ⟨2 * L + 1, fun m => expi (2 * Real.pi * (k0 * m / (2 * n)))⟩ ∧ M.get k0 L = 2 * L + 1 := by
  have hn : n ≠ 0 := by omega
  have hn' : (n : ℝ) ≠ 0 := by exact_mod_cast hn
  set x : Vec ℂ := ⟨2 * L + 1, fun m => expi (2 * Real.pi * (k0 * m / (2 * n)))⟩ with hx
  obtain ⟨M, h1, -, -, h4⟩ := C33_wvd x ts n hn hts (Or.inl hN)
  have hE : energy x = 2 * L + 1 := by
    unfold energy
    simp [hx]
  have hv : M.get k0 L = 2 * L + 1 := by
    have h5 := h4 k0 hk L (by show L < 2 * L + 1; omega)
    unfold lagSum at h5
    have hz : ∀ i : ℤ, 0 ≤ i → i < (2 * L + 1 : ℕ) → zext x i = expi (2 * Real.pi * (k0 * i / (2 * n))) := fun i h0 h1 => by
      rw [zext_of_mem h0 h1]
      show expi _ = _
      have : ((i.toNat : ℕ) : ℝ) = (i : ℝ) := by
        have : ((i.toNat : ℕ) : ℤ) = i := by omega
        exact_mod_cast this
      rw [this]
    have hterm : ∀ σ ∈ Finset.Icc (-(roundEven ((n : ℝ) / 2) - 1)) (roundEven ((n : ℝ) / 2) - 1),
        wignerKernel x (L : ℕ) σ * expi (-(2 * Real.pi * (((k0 : ℕ) : ℤ) * σ / n))) = if -(L : ℤ) ≤ σ ∧ σ ≤ L then 1 else 0 := fun σ _ => by
      by_cases hσ : -(L : ℤ) ≤ σ ∧ σ ≤ L
      · rw [if_pos hσ]
        unfold wignerKernel
        rw [hz _ (by omega) (by push_cast; omega), hz _ (by omega) (by push_cast; omega), conj_expi, ← expi_add, ← expi_add]
        convert expi_zero using 2
        push_cast
        field_simp
        ring
      · rw [if_neg hσ]
        unfold wignerKernel
        rcases not_and_or.1 hσ with h | h
        · rw [zext_of_not_mem (x := x) (i := ((L : ℕ) : ℤ) + σ) (by omega), zero_mul, zero_mul]
        · rw [zext_of_not_mem (x := x) (i := ((L : ℕ) : ℤ) + σ) (by show ¬ (_ ∧ _ < ((2 * L + 1 : ℕ) : ℤ)); push_cast; omega), zero_mul, zero_mul]
    rw [Finset.sum_congr rfl hterm, ← Finset.sum_filter] at h5
    have hset : (Finset.Icc (-(roundEven ((n : ℝ) / 2) - 1)) (roundEven ((n : ℝ) / 2) - 1)).filter (fun σ => -(L : ℤ) ≤ σ ∧ σ ≤ L) = Finset.Icc (-(L : ℤ)) L := by
      ext σ
      rw [Finset.mem_filter, Finset.mem_Icc, Finset.mem_Icc]
      push_cast at hN
      omega
    rw [hset, Finset.sum_const, Int.card_Icc, nsmul_eq_mul, mul_one] at h5
    have h6 : ((((L : ℤ) + 1 - -(L : ℤ)).toNat : ℕ) : ℂ) = ((2 * (L : ℝ) + 1 : ℝ) : ℂ) := by
      have : ((L : ℤ) + 1 - -(L : ℤ)).toNat = 2 * L + 1 := by omega
      rw [this]
      push_cast
      ring
    rw [h6] at h5
    exact_mod_cast h5
  exact ⟨M, h1, by rw [hv, hE], hv⟩

/-- Three samples 1, i, 2, three columns, eight bins: no entry beyond 6. -/
example : ∃ M, WvdReturns ⟨3, fun m => if m = 0 then 1 else if m = 1 then Complex.I else 2⟩ (arange 0 3) 8 M ∧ ∀ k < 8, ∀ t < 3, |M.get k t| ≤ 6 := by
  obtain ⟨M, h1, h2⟩ := C94_wvd ⟨3, fun m => if m = 0 then 1 else if m = 1 then Complex.I else 2⟩ (arange 0 3) 8 (by norm_num) rfl
    (Or.inl (by
      have h := roundEven_half 8
      rw [h]
      norm_num))
  refine ⟨M, h1, fun k hk t ht => (h2 k hk t ht).trans ?_⟩
  unfold energy
  simp [Finset.sum_range_succ]
  norm_num

end Tftb.Props
