import Verif.Props.Scalogram
import Verif.Lemmas.Chirp
import Verif.Lemmas.TimeFreq

/-! # Tones in the scalogram; linearity of the wavelet coefficients (C123) -/

namespace Tftb.Props

open Finset Spec Aff

/-- A tone with a whole number `k` of periods in `n` samples and complex amplitude `A`. -/
noncomputable def binTone (n k : ℕ) (A : ℂ) : Vec ℂ := ⟨n, fun t => A * expi (2 * Real.pi * ((k : ℝ) / n) * t)⟩

/-- The response of voice `p` of the Morlet scalogram (`n` samples, band `fmin`, `fmax`, wavelet parameter `w`) to frequency `ν`. -/
noncomputable def voiceResponse (n : ℕ) (fmin fmax w : ℝ) (p : ℕ) (ν : ℝ) : ℝ :=
  ∑ τ ∈ Icc (-(halfLength n fmin fmax w p : ℤ)) (halfLength n fmin fmax w p),
    (10 : ℝ) ^ (-(2 * ((τ : ℝ) / (w * (fmax / voiceFreq n fmin fmax p))) ^ 2)) * Real.cos (2 * Real.pi * (ν - voiceFreq n fmin fmax p) * τ)

theorem binTone_dft {n k : ℕ} (hk : k < n) (A : ℂ) : ∀ j < n, dft (binTone n k A) j = if j = k then A * (n : ℂ) else 0 := by
  intro j hj
  rw [dft_eq_dftC, ← dftC_tone (by omega) A hk hj]
  congr 1
  funext t
  unfold binTone expi rootPow
  dsimp only
  congr 2
  push_cast
  ring

theorem binTone_analytic {x : Vec ℂ} {k : ℕ} (h0 : 0 < k) (hk : 2 * k < x.len) {A : ℂ}
    (hx : ∀ t < x.len, (x.get t).re = ((binTone x.len k A).get t).re) : IsAnalytic (centredReal x) (binTone x.len k A) := by
  have hd := binTone_dft (n := x.len) (k := k) (by omega) A
  have hsum : ∑ t ∈ range x.len, (x.get t).re = 0 := by
    rw [Finset.sum_congr rfl (fun t ht => hx t (mem_range.1 ht)), ← Complex.re_sum]
    have h := hd 0 (by omega)
    rw [if_neg (by omega)] at h
    have : ∑ t ∈ range x.len, (binTone x.len k A).get t = dft (binTone x.len k A) 0 := by
      unfold dft dtft
      refine Finset.sum_congr rfl fun t _ => ?_
      simp
    rw [this, h, Complex.zero_re]
  refine ⟨rfl, fun t ht => ?_, fun j hj hj2 => ?_, ?_, fun j hj => ?_⟩
  · show _ = (x.get t).re - (∑ j ∈ range x.len, (x.get j).re) / x.len
    rw [hsum, zero_div, sub_zero, hx t ht]
  · have hj2' : x.len < 2 * j := hj2
    rw [hd j hj, if_neg (by omega)]
  · rw [hd 0 (by omega), if_neg (by omega), Complex.zero_im]
  · have hj' : 2 * j = x.len := hj
    rw [hd j (by omega), if_neg (by omega), Complex.zero_im]

/-- Filtering a tone where the filter fits: the tone times the frequency response. -/
theorem filtered_tone (n k : ℕ) (A : ℂ) (r : ℕ) (g : ℤ → ℂ) (t : ℤ) (h0 : (r : ℤ) ≤ t) (h1 : t + r < n) :
    filtered (binTone n k A) r g t = A * expi (2 * Real.pi * ((k : ℝ) / n) * t) *
      ∑ τ ∈ Icc (-(r : ℤ)) r, g τ * expi (-(2 * Real.pi * ((k : ℝ) / n) * τ)) := by
  unfold filtered
  rw [← Finset.sum_filter, Finset.mul_sum]
  refine Finset.sum_bij' (fun j _ => t - (j : ℤ)) (fun τ _ => (t - τ).toNat) ?_ ?_ ?_ ?_ ?_
  · intro j hj
    rw [mem_filter, abs_le] at hj
    rw [mem_Icc]
    exact hj.2
  · intro τ hτ
    rw [mem_Icc] at hτ
    rw [mem_filter, mem_range, Int.toNat_of_nonneg (by omega), abs_le]
    refine ⟨?_, by omega, by omega⟩
    show _ < n
    omega
  · intro j _
    omega
  · intro τ hτ
    rw [mem_Icc] at hτ
    rw [Int.toNat_of_nonneg (by omega)]
    ring
  · intro j _
    unfold binTone
    dsimp only
    have e : expi (2 * Real.pi * ((k : ℝ) / n) * j) = expi (2 * Real.pi * ((k : ℝ) / n) * t) * expi (-(2 * Real.pi * ((k : ℝ) / n) * ((t - (j : ℤ) : ℤ) : ℝ))) := by
      rw [← expi_add]
      congr 1
      push_cast
      ring
    rw [e]
    ring

theorem morlet_response (n : ℕ) (fmin fmax w : ℝ) (p : ℕ) (ν : ℝ) :
    ∑ τ ∈ Icc (-(halfLength n fmin fmax w p : ℤ)) (halfLength n fmin fmax w p),
      morletAt (w * (fmax / voiceFreq n fmin fmax p)) (voiceFreq n fmin fmax p) τ * expi (-(2 * Real.pi * ν * τ))
        = (voiceResponse n fmin fmax w p ν : ℂ) := by
  set r : ℤ := (halfLength n fmin fmax w p : ℤ) with hr
  set f := voiceFreq n fmin fmax p with hf
  have hre : ∀ τ : ℤ, morletAt (w * (fmax / f)) f τ * expi (-(2 * Real.pi * ν * τ))
      = (((10 : ℝ) ^ (-(2 * ((τ : ℝ) / (w * (fmax / f))) ^ 2)) : ℝ) : ℂ) * expi (-(2 * Real.pi * (ν - f) * τ)) := by
    intro τ
    unfold morletAt
    rw [mul_assoc, ← expi_add]
    congr 2
    ring
  apply Complex.ext
  · rw [Complex.ofReal_re, Complex.re_sum]
    unfold voiceResponse
    refine Finset.sum_congr rfl fun τ _ => ?_
    rw [hre, Complex.re_ofReal_mul, expi_re, Real.cos_neg]
  · rw [Complex.ofReal_im, Complex.im_sum]
    have hodd : ∑ τ ∈ Icc (-r) r, (morletAt (w * (fmax / f)) f τ * expi (-(2 * Real.pi * ν * τ))).im
        = -∑ τ ∈ Icc (-r) r, (morletAt (w * (fmax / f)) f τ * expi (-(2 * Real.pi * ν * τ))).im := by
      rw [← Finset.sum_neg_distrib]
      refine Finset.sum_bij' (fun τ _ => -τ) (fun τ _ => -τ) ?_ ?_ (fun τ _ => neg_neg τ) (fun τ _ => neg_neg τ) ?_
      · intro τ h
        rw [mem_Icc] at h ⊢
        omega
      · intro τ h
        rw [mem_Icc] at h ⊢
        omega
      · intro τ _
        rw [hre, hre, Complex.im_ofReal_mul, Complex.im_ofReal_mul]
        have e1 : -(2 * ((((-τ : ℤ)) : ℝ) / (w * (fmax / f))) ^ 2) = -(2 * ((τ : ℝ) / (w * (fmax / f))) ^ 2) := by
          push_cast
          rw [neg_div, neg_sq]
        have e2 : (expi (-(2 * Real.pi * (ν - f) * ((-τ : ℤ) : ℝ)))).im = -(expi (-(2 * Real.pi * (ν - f) * τ))).im := by
          unfold expi
          rw [Complex.exp_ofReal_mul_I_im, Complex.exp_ofReal_mul_I_im, ← Real.sin_neg]
          congr 1
          push_cast
          ring
        rw [e1, e2, mul_neg, neg_neg]
    linarith

theorem halfLength_pos {n : ℕ} (hn : 2 ≤ n) {fmin fmax w : ℝ} (hw : 1 / 2 < w) (h0 : 0 < fmin) (h1 : fmin < fmax) {p : ℕ} (hp : p < n) :
    1 ≤ halfLength n fmin fmax w p := by
  have ha1 : 1 ≤ fmax / voiceFreq n fmin fmax p := by
    rw [le_div_iff₀ (voiceFreq_pos h0 h1 p), one_mul]; exact voiceFreq_le hn h0 h1 hp
  have := half_round_pos (a := w * (fmax / voiceFreq n fmin fmax p)) (by nlinarith)
  unfold halfLength
  omega

/-- **A voice answers most to its own frequency.**  The response of voice `p` to a frequency `ν` strictly between 0 and 1/2 is at most its
response to its own frequency, which is positive, and reaches it for no other frequency. -/
theorem C123_response_max {n : ℕ} (hn : 2 ≤ n) {fmin fmax w : ℝ} (hw : 1 / 2 < w) (h0 : 0 < fmin) (h1 : fmin < fmax) (h2 : fmax ≤ 1) {p : ℕ} (hp : p < n)
    {ν : ℝ} (hν0 : 0 < ν) (hν1 : ν < 1 / 2) :
    0 < voiceResponse n fmin fmax w p (voiceFreq n fmin fmax p) ∧
    |voiceResponse n fmin fmax w p ν| ≤ voiceResponse n fmin fmax w p (voiceFreq n fmin fmax p) ∧
    (|voiceResponse n fmin fmax w p ν| = voiceResponse n fmin fmax w p (voiceFreq n fmin fmax p) ↔ ν = voiceFreq n fmin fmax p) := by
  have hr := halfLength_pos hn hw h0 h1 hp
  have hfp := voiceFreq_pos (n := n) h0 h1 p
  have hfl := voiceFreq_le hn h0 h1 hp
  unfold voiceResponse
  set f := voiceFreq n fmin fmax p with hf
  set r := halfLength n fmin fmax w p with hrr
  set g : ℤ → ℝ := fun τ => (10 : ℝ) ^ (-(2 * ((τ : ℝ) / (w * (fmax / f))) ^ 2)) with hg
  have hgp : ∀ τ, 0 < g τ := fun τ => Real.rpow_pos_of_pos (by norm_num) _
  have h0m : (0 : ℤ) ∈ Icc (-(r : ℤ)) r := by rw [mem_Icc]; omega
  have h1m : (1 : ℤ) ∈ Icc (-(r : ℤ)) r := by rw [mem_Icc]; omega
  have hown : ∑ τ ∈ Icc (-(r : ℤ)) r, g τ * Real.cos (2 * Real.pi * (f - f) * τ) = ∑ τ ∈ Icc (-(r : ℤ)) r, g τ :=
    Finset.sum_congr rfl fun τ _ => by rw [sub_self, mul_zero, zero_mul, Real.cos_zero, mul_one]
  have hlow : -∑ τ ∈ Icc (-(r : ℤ)) r, g τ < ∑ τ ∈ Icc (-(r : ℤ)) r, g τ * Real.cos (2 * Real.pi * (ν - f) * τ) := by
    rw [← Finset.sum_neg_distrib]
    refine Finset.sum_lt_sum (fun τ _ => ?_) ⟨0, h0m, ?_⟩
    · nlinarith [hgp τ, Real.neg_one_le_cos (2 * Real.pi * (ν - f) * τ)]
    · rw [Int.cast_zero, mul_zero, Real.cos_zero]
      linarith [hgp 0]
  have hup : ∑ τ ∈ Icc (-(r : ℤ)) r, g τ * Real.cos (2 * Real.pi * (ν - f) * τ) ≤ ∑ τ ∈ Icc (-(r : ℤ)) r, g τ :=
    Finset.sum_le_sum fun τ _ => by nlinarith [hgp τ, Real.cos_le_one (2 * Real.pi * (ν - f) * τ)]
  have hstrict : ν ≠ f → ∑ τ ∈ Icc (-(r : ℤ)) r, g τ * Real.cos (2 * Real.pi * (ν - f) * τ) < ∑ τ ∈ Icc (-(r : ℤ)) r, g τ := by
    intro hne
    refine Finset.sum_lt_sum (fun τ _ => by nlinarith [hgp τ, Real.cos_le_one (2 * Real.pi * (ν - f) * τ)]) ⟨1, h1m, ?_⟩
    have hc : Real.cos (2 * Real.pi * (ν - f) * ((1 : ℤ) : ℝ)) ≠ 1 := by
      rw [Int.cast_one, mul_one]
      intro h
      have hpi := Real.pi_pos
      rw [Real.cos_eq_one_iff_of_lt_of_lt (by nlinarith) (by nlinarith)] at h
      rcases mul_eq_zero.1 h with h | h
      · linarith
      · exact hne (by linarith)
    have := lt_of_le_of_ne (Real.cos_le_one _) hc
    nlinarith [hgp 1]
  rw [hown]
  refine ⟨Finset.sum_pos (fun τ _ => hgp τ) ⟨0, h0m⟩, abs_le.2 ⟨hlow.le, hup⟩, fun h => ?_, fun h => ?_⟩
  · by_contra hne
    exact absurd h (abs_lt.2 ⟨hlow, hstrict hne⟩).ne
  · rw [h, hown, abs_of_pos (Finset.sum_pos (fun τ _ => hgp τ) ⟨0, h0m⟩)]

theorem morlet_tone {n k : ℕ} (A : ℂ) (fmin fmax w : ℝ) (p : ℕ) (t : ℤ) (h0 : (halfLength n fmin fmax w p : ℤ) ≤ t)
    (h1 : t + halfLength n fmin fmax w p < n) :
    morletCoeff (binTone n k A) fmin fmax w p t = A * expi (2 * Real.pi * ((k : ℝ) / n) * t) * (voiceResponse n fmin fmax w p ((k : ℝ) / n) : ℂ) := by
  rw [← morlet_response]
  exact filtered_tone n k A _ _ t h0 h1

theorem norm_expi' (θ : ℝ) : ‖expi θ‖ = 1 := Complex.norm_exp_ofReal_mul_I θ

theorem bandBin_lt {n : ℕ} (hn : 2 ≤ n) {f : ℝ} (hf : 0 ≤ f) (h1 : f ≤ 1) : bandBin n f < n := by
  have hc := bandBin_cast hn hf
  have hn2 : (2 : ℝ) ≤ n := by exact_mod_cast hn
  have h := (roundEven_bounds (f * ((n : ℝ) - 2))).2
  have : (roundEven (f * ((n : ℝ) - 2)) : ℝ) < (n : ℝ) - 1 := by nlinarith
  have : roundEven (f * ((n : ℝ) - 2)) < (n : ℤ) - 1 := by exact_mod_cast this
  omega

/-- **Tones in the Morlet scalogram.**  The real part of `x` is that of a tone with `k` periods over the signal, `0 < k < n/2`.  (1) If some
voice that fits into the signal answers to the frequency of the tone, the scalogram is computed.  (2) Away from the edges (a half-length of the
wavelet of the voice), row `p` is constant: the square of the response of voice `p` to the frequency of the tone, weighted by the
frequency of the voice.  The wavelet coefficients of row `p` are the tone itself, late by the half-length of the wavelet, times that response.  (3) If bin
`k` is outside the bins of the band used for the normalisation, the whole scalogram is zero. -/
theorem C123_morlet_tone (x : Vec ℂ) (k : ℕ) (h0k : 0 < k) (hk : 2 * k < x.len) (A : ℂ) (hA : A ≠ 0)
    (hx : ∀ t < x.len, (x.get t).re = ((binTone x.len k A).get t).re)
    (fmin fmax : ℝ) (h0 : 0 < fmin) (h1 : fmin < fmax) (h2 : fmax ≤ 1) (nv? : Option ℕ) (hnv : nv? = none ∨ nv? = some x.len) (w? : Option ℝ)
    (w : ℝ) (hw : w = w?.getD (Real.sqrt x.len)) (hw1 : 1 / 2 < w) :
    ((∃ p < x.len, 2 * halfLength x.len fmin fmax w p < x.len ∧ voiceResponse x.len fmin fmax w p ((k : ℝ) / x.len) ≠ 0) →
      ∃ M, scalogram x (some fmin) (some fmax) nv? w? = .ok M) ∧
    ∀ M : ScalResult, scalogram x (some fmin) (some fmax) nv? w? = .ok M →
      (∃ C, 0 ≤ C ∧ (bandBin x.len fmin ≤ k → k ≤ bandBin x.len fmax → 0 < C) ∧
        ∀ p < x.len, M.f.get p = voiceFreq x.len fmin fmax p ∧
        (∀ t, halfLength x.len fmin fmax w p ≤ t → t + halfLength x.len fmin fmax w p < x.len →
          M.tfr.get p t = C * voiceFreq x.len fmin fmax p * voiceResponse x.len fmin fmax w p ((k : ℝ) / x.len) ^ 2) ∧
        ∀ t, 2 * halfLength x.len fmin fmax w p ≤ t → t < x.len →
          M.wt.get p t = (binTone x.len k A).get (t - halfLength x.len fmin fmax w p)
            * (voiceResponse x.len fmin fmax w p ((k : ℝ) / x.len) / Real.sqrt (fmax / voiceFreq x.len fmin fmax p) : ℝ)) ∧
      ((k < bandBin x.len fmin ∨ bandBin x.len fmax < k) → ∀ p < x.len, ∀ t < x.len, M.tfr.get p t = 0) := by
  have hn : 2 ≤ x.len := by omega
  have hz := binTone_analytic h0k hk hx
  obtain ⟨B1, B2⟩ := C56_morlet x hn _ _ w? nv? fmin fmax _ _ w (init_given x _ (by linarith)) h0 h1 h2 hnv hw hw1 _ hz
  have hn0 : (0 : ℝ) < x.len := by exact_mod_cast (by omega : 0 < x.len)
  have hfm : 0 < fmax := h0.trans h1
  have hA2 : 0 < ‖A‖ := norm_pos_iff.2 hA
  constructor
  · rintro ⟨p, hp, hl, hne⟩
    obtain ⟨M, C, hM, -⟩ := B2 ⟨p, hp, halfLength x.len fmin fmax w p, by omega, by
      rw [morlet_tone A fmin fmax w p _ le_rfl (by omega)]
      refine mul_ne_zero (mul_ne_zero hA ?_) (by exact_mod_cast hne)
      rw [← norm_ne_zero_iff, norm_expi']
      exact one_ne_zero⟩
    exact ⟨M, hM⟩
  · intro M hM
    by_cases hall : ∀ p < x.len, ∀ t : ℕ, t < x.len → morletCoeff (binTone x.len k A) fmin fmax w p t = 0
    · rw [B1 hall] at hM
      exact absurd hM (by simp)
    push Not at hall
    obtain ⟨M0, C, hM0, r1, r2, -, hf, -, -, htfr, hwt, hC, hen⟩ := B2 hall
    rw [hM0] at hM
    injection hM with hM
    subst hM
    have hbin : ∑ j ∈ Finset.Icc (bandBin x.len fmin) (bandBin x.len fmax), ‖dft (binTone x.len k A) j‖ ^ 2
        = if bandBin x.len fmin ≤ k ∧ k ≤ bandBin x.len fmax then (‖A‖ * x.len) ^ 2 else 0 := by
      have hb : bandBin x.len fmax < x.len := bandBin_lt hn hfm.le h2
      have hd := binTone_dft (n := x.len) (k := k) (by omega) A
      rw [Finset.sum_congr rfl (g := fun j => if j = k then (‖A‖ * x.len) ^ 2 else 0) (fun j hj => ?_), Finset.sum_ite_eq']
      · exact if_congr (by rw [mem_Icc]) rfl rfl
      · rw [mem_Icc] at hj
        rw [hd j (by omega)]
        split_ifs
        · rw [norm_mul, Complex.norm_natCast]
        · simp
    refine ⟨⟨C * ‖A‖ ^ 2 / fmax, by positivity, fun ha hb => ?_, fun p hp => ⟨by rw [hf], fun t ht0 ht1 => ?_, fun t ht0 ht1 => ?_⟩⟩, fun hout p hp t ht => ?_⟩
    · rcases hC.eq_or_lt with h | h
      · exfalso
        rw [hbin, if_pos ⟨ha, hb⟩] at hen
        have : trapz2 M0.tfr (fun t => t) (voiceFreq x.len fmin fmax) = 0 := by
          unfold trapz2
          rw [r1, r2]
          rw [trapz_congr (x' := voiceFreq x.len fmin fmax) (f' := fun j => (0 : ℝ) * (1 : ℝ)) (fun _ _ => rfl) (fun j hj => ?_), trapz_smul, zero_mul]
          rw [trapz_congr (x' := fun t => (t : ℝ)) (f' := fun j => (0 : ℝ) * (1 : ℝ)) (fun _ _ => rfl) (fun t ht => ?_), trapz_smul, zero_mul, zero_mul]
          rw [htfr j hj t ht, ← h]
          ring
        rw [this, zero_mul] at hen
        have : 0 < (‖A‖ * x.len) ^ 2 := by positivity
        linarith
      · positivity
    · rw [htfr p hp t (by omega), morlet_tone A fmin fmax w p t (by omega) (by omega), norm_mul, norm_mul, norm_expi', mul_one, mul_pow, Complex.norm_real,
        Real.norm_eq_abs, sq_abs]
      ring
    · rw [hwt p hp t ht1, morlet_tone A fmin fmax w p _ (by omega) (by omega)]
      unfold binTone
      dsimp only
      rw [Nat.cast_sub (by omega)]
      push_cast
      ring
    · rw [hbin, if_neg (by omega)] at hen
      have hI : trapz2 M0.tfr (fun t => t) (voiceFreq x.len fmin fmax) = 0 := (mul_eq_zero.1 hen).resolve_right hn0.ne'
      have hinc : ∀ p, p + 1 < x.len → voiceFreq x.len fmin fmax p < voiceFreq x.len fmin fmax (p + 1) := by
        intro p _
        have hn1 : (0 : ℝ) < (x.len : ℝ) - 1 := by have : (2 : ℝ) ≤ x.len := by exact_mod_cast hn
                                                   linarith
        refine mul_lt_mul_of_pos_left (Real.rpow_lt_rpow_of_exponent_lt (by rw [lt_div_iff₀ h0]; linarith) ?_) h0
        push_cast
        rw [div_lt_div_iff_of_pos_right hn1]
        linarith
      set E : ℕ → ℕ → ℝ := fun p t => C * (voiceFreq x.len fmin fmax p / fmax) * ‖morletCoeff (binTone x.len k A) fmin fmax w p t‖ ^ 2 with hE
      have h3 := trapz2_eq_zero hn E (fun p t => by
        have := (voiceFreq_pos (n := x.len) h0 h1 p).le
        simp only [hE]
        positivity) _ hinc (by
          rw [← hI]
          unfold trapz2
          rw [r1, r2]
          refine trapz_congr (fun _ _ => rfl) (fun j hj => ?_)
          exact trapz_congr (fun _ _ => rfl) (fun t ht => by rw [htfr j hj t ht])) p hp t ht
      rw [htfr p hp t ht]
      exact h3

/-- **A tone on the lower edge of the band is lost.**  With `fmin` the frequency `k/n` of the tone itself, below 1/4, every entry of the
scalogram is zero: the normalisation counts the bins from `k + 1` on. -/
theorem C123_edge_tone (x : Vec ℂ) (k : ℕ) (h0k : 0 < k) (hk : 4 * k < x.len) (A : ℂ) (hA : A ≠ 0)
    (hx : ∀ t < x.len, (x.get t).re = ((binTone x.len k A).get t).re) (fmax : ℝ) (h1 : (k : ℝ) / x.len < fmax) (h2 : fmax ≤ 1)
    (nv? : Option ℕ) (hnv : nv? = none ∨ nv? = some x.len) (w? : Option ℝ) (hw1 : 1 / 2 < w?.getD (Real.sqrt x.len)) (M : ScalResult)
    (hM : scalogram x (some ((k : ℝ) / x.len)) (some fmax) nv? w? = .ok M) : ∀ p < x.len, ∀ t < x.len, M.tfr.get p t = 0 := by
  have hn0 : (0 : ℝ) < x.len := by exact_mod_cast (by omega : 0 < x.len)
  have hk0 : (0 : ℝ) < k := by exact_mod_cast h0k
  have hk4 : 4 * (k : ℝ) < x.len := by exact_mod_cast hk
  refine ((C123_morlet_tone x k h0k (by omega) A hA hx _ fmax (by positivity) h1 h2 nv? hnv w? _ rfl hw1).2 M hM).2 (Or.inl ?_)
  have hc := bandBin_cast (n := x.len) (by omega) (f := (k : ℝ) / x.len) (by positivity)
  have h := (roundEven_bounds ((k : ℝ) / x.len * ((x.len : ℝ) - 2))).1
  have e : (k : ℝ) / x.len * ((x.len : ℝ) - 2) = k - 2 * k / x.len := by field_simp
  have e2 : 2 * (k : ℝ) / x.len < 1 / 2 := by rw [div_lt_iff₀ hn0]; linarith
  have : (k : ℝ) - 1 < roundEven ((k : ℝ) / x.len * ((x.len : ℝ) - 2)) := by linarith
  have : (k : ℤ) - 1 < roundEven ((k : ℝ) / x.len * ((x.len : ℝ) - 2)) := by exact_mod_cast this
  omega

/-- The response of the Mexican hat of frequency `f` to frequency `ν`. -/
noncomputable def hatResponse (f ν : ℝ) : ℝ :=
  ∑ τ ∈ Icc (-(⌈3 / (2 * f)⌉.toNat : ℤ)) (⌈3 / (2 * f)⌉.toNat : ℤ),
    f * Real.sqrt Real.pi / 2 * Real.exp (-(Real.pi * f * τ) ^ 2) * (1 - 2 * (Real.pi * f * τ) ^ 2) * Real.cos (2 * Real.pi * ν * τ)

theorem hat_response (f ν : ℝ) :
    ∑ τ ∈ Icc (-(⌈3 / (2 * f)⌉.toNat : ℤ)) (⌈3 / (2 * f)⌉.toNat : ℤ), mexhatAt f τ * expi (-(2 * Real.pi * ν * τ)) = (hatResponse f ν : ℂ) := by
  set r : ℤ := (⌈3 / (2 * f)⌉.toNat : ℤ) with hr
  apply Complex.ext
  · rw [Complex.ofReal_re, Complex.re_sum]
    unfold hatResponse
    refine Finset.sum_congr rfl fun τ _ => ?_
    unfold mexhatAt
    rw [Complex.re_ofReal_mul, expi_re, Real.cos_neg]
  · rw [Complex.ofReal_im, Complex.im_sum]
    have hodd : ∑ τ ∈ Icc (-r) r, (mexhatAt f τ * expi (-(2 * Real.pi * ν * τ))).im
        = -∑ τ ∈ Icc (-r) r, (mexhatAt f τ * expi (-(2 * Real.pi * ν * τ))).im := by
      rw [← Finset.sum_neg_distrib]
      refine Finset.sum_bij' (fun τ _ => -τ) (fun τ _ => -τ) ?_ ?_ (fun τ _ => neg_neg τ) (fun τ _ => neg_neg τ) ?_
      · intro τ h
        rw [mem_Icc] at h ⊢
        omega
      · intro τ h
        rw [mem_Icc] at h ⊢
        omega
      · intro τ _
        have e1 : mexhatAt f (-τ) = mexhatAt f τ := by
          unfold mexhatAt
          rw [show Real.pi * f * ((-τ : ℤ) : ℝ) = -(Real.pi * f * τ) by push_cast; ring, neg_sq]
        have e2 : (expi (-(2 * Real.pi * ν * ((-τ : ℤ) : ℝ)))).im = -(expi (-(2 * Real.pi * ν * τ))).im := by
          unfold expi
          rw [Complex.exp_ofReal_mul_I_im, Complex.exp_ofReal_mul_I_im, ← Real.sin_neg]
          congr 1
          push_cast
          ring
        rw [e1]
        unfold mexhatAt
        rw [Complex.im_ofReal_mul, Complex.im_ofReal_mul, e2, mul_neg, neg_neg]
    linarith

/-- **Tones in the Mexican hat scalogram** (`waveparams = 0`): the same away from the edges, with the response of the Mexican hat and everything stored one
sample early. -/
theorem C123_mexhat_tone (x : Vec ℂ) (k : ℕ) (h0k : 0 < k) (hk : 2 * k < x.len) (A : ℂ)
    (hx : ∀ t < x.len, (x.get t).re = ((binTone x.len k A).get t).re)
    (fmin fmax : ℝ) (h0 : 0 < fmin) (h1 : fmin < fmax) (h2 : fmax ≤ 1 / 2) (nv? : Option ℕ) (hnv : nv? = none ∨ nv? = some x.len) (M : ScalResult)
    (hM : scalogram x (some fmin) (some fmax) nv? (some 0) = .ok M) :
    ∃ C, 0 ≤ C ∧ ∀ p < x.len, M.f.get p = voiceFreq x.len fmin fmax p ∧
      ∀ t, ⌈3 / (2 * voiceFreq x.len fmin fmax p)⌉.toNat ≤ t + 1 → t + 1 + ⌈3 / (2 * voiceFreq x.len fmin fmax p)⌉.toNat < x.len →
        M.tfr.get p t = C * voiceFreq x.len fmin fmax p * hatResponse (voiceFreq x.len fmin fmax p) ((k : ℝ) / x.len) ^ 2 ∧
        M.wt.get p t = (binTone x.len k A).get (t + 1)
          * (hatResponse (voiceFreq x.len fmin fmax p) ((k : ℝ) / x.len) / Real.sqrt (fmax / voiceFreq x.len fmin fmax p) : ℝ) := by
  have hn : 2 ≤ x.len := by omega
  have hz := binTone_analytic h0k hk hx
  obtain ⟨B1, B2⟩ := C56_mexhat x hn _ _ nv? fmin fmax _ _ (init_given x _ (by linarith)) h0 h1 h2 hnv _ hz
  by_cases hall : ∀ p < x.len, ∀ t : ℕ, t < x.len → mexhatCoeff (binTone x.len k A) (voiceFreq x.len fmin fmax p) (t + 1) = 0
  · rw [B1 hall] at hM
    exact absurd hM (by simp)
  push Not at hall
  obtain ⟨M0, C, hM0, r1, r2, -, hf, -, -, htfr, hwt, hC, -⟩ := B2 hall
  rw [hM0] at hM
  injection hM with hM
  subst hM
  have hfm : 0 < fmax := h0.trans h1
  refine ⟨C * ‖A‖ ^ 2 / fmax, by positivity, fun p hp => ⟨by rw [hf], fun t ht0 ht1 => ?_⟩⟩
  have hco : mexhatCoeff (binTone x.len k A) (voiceFreq x.len fmin fmax p) (t + 1)
      = A * expi (2 * Real.pi * ((k : ℝ) / x.len) * ((t : ℤ) + 1 : ℤ)) * (hatResponse (voiceFreq x.len fmin fmax p) ((k : ℝ) / x.len) : ℂ) := by
    rw [← hat_response]
    exact filtered_tone x.len k A _ _ _ (by omega) (by omega)
  constructor
  · rw [htfr p hp t (by omega), hco, norm_mul, norm_mul, norm_expi', mul_one, mul_pow, Complex.norm_real, Real.norm_eq_abs, sq_abs]
    ring
  · rw [hwt p hp t (by omega), hco]
    unfold binTone
    dsimp only
    push_cast
    ring

theorem combo_isAnalytic {s u v : Vec ℝ} {z y : Vec ℂ} (hz : IsAnalytic s z) (hy : IsAnalytic u y) (a b : ℝ) (hl : u.len = s.len) (hv : v.len = s.len)
    (h : ∀ t < s.len, v.get t = a * s.get t + b * u.get t) : IsAnalytic v ⟨z.len, fun t => a * z.get t + b * y.get t⟩ := by
  have hzy : y.len = z.len := by rw [hz.len, hy.len, hl]
  have hd : ∀ k, dft (⟨z.len, fun t => a * z.get t + b * y.get t⟩ : Vec ℂ) k = a * dft z k + b * dft y k := fun k => by
    rw [dft_eq_dftC, dft_eq_dftC, dft_eq_dftC, hzy]
    unfold dftC
    rw [Finset.mul_sum, Finset.mul_sum, ← Finset.sum_add_distrib]
    exact Finset.sum_congr rfl fun t _ => by ring
  refine ⟨hz.len.trans hv.symm, fun t ht => ?_, fun k hk h2 => ?_, ?_, fun k hk => ?_⟩
  · rw [h t (by omega), ← hz.re t (by omega), ← hy.re t (by omega)]
    simp
  · rw [hd, hz.neg k (by omega) (by omega), hy.neg k (by omega) (by omega), mul_zero, mul_zero, add_zero]
  · rw [hd, Complex.add_im, Complex.im_ofReal_mul, Complex.im_ofReal_mul, hz.zero, hy.zero, mul_zero, mul_zero, add_zero]
  · rw [hd, Complex.add_im, Complex.im_ofReal_mul, Complex.im_ofReal_mul, hz.nyquist k (by omega), hy.nyquist k (by omega), mul_zero, mul_zero, add_zero]

theorem centred_combo {x y v : Vec ℂ} {a b : ℝ} (hl : y.len = x.len) (hv : v.len = x.len) (h : ∀ t < x.len, (v.get t).re = a * (x.get t).re + b * (y.get t).re)
    {t : ℕ} (ht : t < x.len) : (centredReal v).get t = a * (centredReal x).get t + b * (centredReal y).get t := by
  show (v.get t).re - (∑ j ∈ range v.len, (v.get j).re) / v.len = a * ((x.get t).re - (∑ j ∈ range x.len, (x.get j).re) / x.len)
    + b * ((y.get t).re - (∑ j ∈ range y.len, (y.get j).re) / y.len)
  rw [hl, hv, h t ht, Finset.sum_congr rfl (fun j hj => h j (mem_range.1 hj)), Finset.sum_add_distrib, ← Finset.mul_sum, ← Finset.mul_sum]
  ring

theorem filtered_combo {z y : Vec ℂ} (h : y.len = z.len) (a b : ℝ) (r : ℕ) (g : ℤ → ℂ) (t : ℤ) :
    filtered ⟨z.len, fun t => a * z.get t + b * y.get t⟩ r g t = a * filtered z r g t + b * filtered y r g t := by
  unfold filtered
  rw [h, Finset.mul_sum, Finset.mul_sum, ← Finset.sum_add_distrib]
  refine Finset.sum_congr rfl fun j _ => ?_
  split_ifs
  · ring
  · ring

/-- **The wavelet coefficients are linear** in the (real part of the) signal, for the Morlet wavelet and for the Mexican hat. -/
theorem C123_linear (x y v : Vec ℂ) (hn : 2 ≤ x.len) (hl : y.len = x.len) (hv : v.len = x.len) (a b : ℝ)
    (h : ∀ t < x.len, (v.get t).re = a * (x.get t).re + b * (y.get t).re) (fmin fmax : ℝ) (h0 : 0 < fmin) (h1 : fmin < fmax)
    (nv? : Option ℕ) (hnv : nv? = none ∨ nv? = some x.len) (w? : Option ℝ)
    (hw : (1 / 2 < w?.getD (Real.sqrt x.len) ∧ fmax ≤ 1) ∨ (w? = some 0 ∧ fmax ≤ 1 / 2)) (M N P : ScalResult)
    (hM : scalogram x (some fmin) (some fmax) nv? w? = .ok M) (hN : scalogram y (some fmin) (some fmax) nv? w? = .ok N)
    (hP : scalogram v (some fmin) (some fmax) nv? w? = .ok P) :
    ∀ p < x.len, ∀ t < x.len, P.wt.get p t = a * M.wt.get p t + b * N.wt.get p t := by
  obtain ⟨zx, -, hzx, -⟩ := hilbert_analytic (x := centredReal x) (by show x.len ≠ 0; omega)
  obtain ⟨zy, -, hzy, -⟩ := hilbert_analytic (x := centredReal y) (by show y.len ≠ 0; omega)
  have hzv := combo_isAnalytic (v := centredReal v) hzx hzy a b hl hv (fun t ht => centred_combo hl hv h ht)
  have hlen : zy.len = zx.len := by rw [hzx.len, hzy.len]; exact hl
  have hlx : zx.len = x.len := hzx.len
  rcases hw with ⟨hw1, h2⟩ | ⟨rfl, h2⟩
  · have key : ∀ (u : Vec ℂ) (hu : u.len = x.len) (z : Vec ℂ) (hz : IsAnalytic (centredReal u) z) (Q : ScalResult)
        (hQ : scalogram u (some fmin) (some fmax) nv? w? = .ok Q), ∀ p < x.len, ∀ t < x.len,
        Q.wt.get p t = morletCoeff z fmin fmax (w?.getD (Real.sqrt x.len)) p ((t : ℤ) - halfLength x.len fmin fmax (w?.getD (Real.sqrt x.len)) p)
          / (Real.sqrt (fmax / voiceFreq x.len fmin fmax p) : ℂ) := by
      intro u hu z hz Q hQ p hp t ht
      obtain ⟨B1, B2⟩ := C56_morlet u (by omega) _ _ w? nv? fmin fmax _ _ _ (init_given u _ (by linarith)) h0 h1 h2 (by rw [hu]; exact hnv) rfl
        (by rw [hu]; exact hw1) z hz
      rw [hu] at B1 B2
      by_cases hall : ∀ p < x.len, ∀ t : ℕ, t < x.len → morletCoeff z fmin fmax (w?.getD (Real.sqrt x.len)) p t = 0
      · rw [B1 hall] at hQ
        exact absurd hQ (by simp)
      push Not at hall
      obtain ⟨M0, C, hM0, -, -, -, -, -, -, -, hwt, -⟩ := B2 hall
      rw [hM0] at hQ
      injection hQ with hQ
      subst hQ
      exact hwt p hp t ht
    intro p hp t ht
    rw [key v hv _ hzv P hP p hp t ht, key x rfl _ hzx M hM p hp t ht, key y hl _ hzy N hN p hp t ht]
    unfold morletCoeff
    dsimp only
    rw [filtered_combo hlen, hlen]
    ring
  · have key : ∀ (u : Vec ℂ) (hu : u.len = x.len) (z : Vec ℂ) (hz : IsAnalytic (centredReal u) z) (Q : ScalResult)
        (hQ : scalogram u (some fmin) (some fmax) nv? (some 0) = .ok Q), ∀ p < x.len, ∀ t < x.len,
        Q.wt.get p t = mexhatCoeff z (voiceFreq x.len fmin fmax p) (t + 1) / (Real.sqrt (fmax / voiceFreq x.len fmin fmax p) : ℂ) := by
      intro u hu z hz Q hQ p hp t ht
      obtain ⟨B1, B2⟩ := C56_mexhat u (by omega) _ _ nv? fmin fmax _ _ (init_given u _ (by linarith)) h0 h1 h2 (by rw [hu]; exact hnv) z hz
      rw [hu] at B1 B2
      by_cases hall : ∀ p < x.len, ∀ t : ℕ, t < x.len → mexhatCoeff z (voiceFreq x.len fmin fmax p) (t + 1) = 0
      · rw [B1 hall] at hQ
        exact absurd hQ (by simp)
      push Not at hall
      obtain ⟨M0, C, hM0, -, -, -, -, -, -, -, hwt, -⟩ := B2 hall
      rw [hM0] at hQ
      injection hQ with hQ
      subst hQ
      exact hwt p hp t ht
    intro p hp t ht
    rw [key v hv _ hzv P hP p hp t ht, key x rfl _ hzx M hM p hp t ht, key y hl _ hzy N hN p hp t ht]
    unfold mexhatCoeff
    rw [filtered_combo hlen]
    ring

theorem halfLength_int {n : ℕ} {fmin fmax w : ℝ} {p : ℕ} (m : ℕ) (h : w * (fmax / voiceFreq n fmin fmax p) = m) : halfLength n fmin fmax w p = m := by
  unfold halfLength
  rw [h, roundEven_natCast, Int.toNat_natCast]

/-- Eight samples, two periods of a cosine, band `[1/8, 1/4]`, `waveparams = 1`: the scalogram is computed, and the row of the last voice, tuned to
the tone, is constant and positive from instant 1 to instant 6. -/
theorem two_periods : ∃ M, scalogram ⟨8, fun t => ((Real.cos (Real.pi / 2 * t) : ℝ) : ℂ)⟩ (some (1 / 8)) (some (1 / 4)) none (some 1) = .ok M ∧
    0 < M.tfr.get 7 1 ∧ ∀ t, 1 ≤ t → t < 7 → M.tfr.get 7 t = M.tfr.get 7 1 := by
  set x : Vec ℂ := ⟨8, fun t => ((Real.cos (Real.pi / 2 * t) : ℝ) : ℂ)⟩ with hx
  have hxl : x.len = 8 := rfl
  have hv : voiceFreq 8 (1 / 8) (1 / 4) 7 = 1 / 4 := (voiceFreq_ends (n := 8) (by norm_num) (by norm_num)).2
  have hh : halfLength 8 (1 / 8) (1 / 4) 1 7 = 1 := halfLength_int 1 (by rw [hv]; norm_num)
  have hre : ∀ t < x.len, (x.get t).re = ((binTone x.len 2 1).get t).re := fun t _ => by
    show ((Real.cos (Real.pi / 2 * t) : ℝ) : ℂ).re = (1 * expi (2 * Real.pi * (((2 : ℕ) : ℝ) / ((8 : ℕ) : ℝ)) * t)).re
    rw [Complex.ofReal_re, one_mul, expi_re]
    congr 1
    push_cast
    ring
  have hmax := C123_response_max (n := 8) (by norm_num) (w := 1) (fmin := 1 / 8) (fmax := 1 / 4) (by norm_num) (by norm_num) (by norm_num) (by norm_num)
    (p := 7) (by norm_num) (ν := 1 / 4) (by norm_num) (by norm_num)
  rw [hv] at hmax
  obtain ⟨B1, B2⟩ := C123_morlet_tone x 2 (by norm_num) (by rw [hxl]; norm_num) 1 one_ne_zero hre (1 / 8) (1 / 4) (by norm_num) (by norm_num) (by norm_num)
    none (Or.inl rfl) (some 1) 1 rfl (by norm_num)
  have hnu : (((2 : ℕ) : ℝ) / (x.len : ℝ)) = 1 / 4 := by rw [hxl]; norm_num
  rw [hnu, hxl] at B1 B2
  obtain ⟨M, hM⟩ := B1 ⟨7, by norm_num, by rw [hh]; norm_num, hmax.1.ne'⟩
  obtain ⟨C, hC, hCp, hrow⟩ := (B2 M hM).1
  have hb1 : bandBin 8 (1 / 8) ≤ 2 := by
    unfold bandBin
    have := (roundEven_bounds ((1 / 8 : ℝ) * (((8 : ℕ) : ℝ) - 2))).2
    have h2 : (roundEven ((1 / 8 : ℝ) * (((8 : ℕ) : ℝ) - 2)) : ℝ) < 2 := by refine this.trans_lt ?_; norm_num
    have : roundEven ((1 / 8 : ℝ) * (((8 : ℕ) : ℝ) - 2)) < 2 := by exact_mod_cast h2
    omega
  have hb2 : 2 ≤ bandBin 8 (1 / 4) := by
    unfold bandBin
    have := (roundEven_bounds ((1 / 4 : ℝ) * (((8 : ℕ) : ℝ) - 2))).1
    have h2 : (0 : ℝ) < (roundEven ((1 / 4 : ℝ) * (((8 : ℕ) : ℝ) - 2)) : ℝ) := by refine lt_of_lt_of_le ?_ this; norm_num
    have : 0 < roundEven ((1 / 4 : ℝ) * (((8 : ℕ) : ℝ) - 2)) := by exact_mod_cast h2
    omega
  have hrow7 := (hrow 7 (by norm_num)).2.1
  rw [hh, hv] at hrow7
  refine ⟨M, hM, ?_, fun t h1 h7 => ?_⟩
  · rw [hrow7 1 le_rfl (by norm_num)]
    have := hCp hb1 hb2
    have := hmax.1
    positivity
  · rw [hrow7 1 le_rfl (by norm_num), hrow7 t h1 (by omega)]

/-- Eight samples, one period of a cosine, band `[1/8, 1/4]`, `waveparams = 1`: the scalogram is computed and is zero everywhere. -/
theorem one_period : ∃ M, scalogram ⟨8, fun t => ((Real.cos (Real.pi / 4 * t) : ℝ) : ℂ)⟩ (some (1 / 8)) (some (1 / 4)) none (some 1) = .ok M ∧
    ∀ p < 8, ∀ t < 8, M.tfr.get p t = 0 := by
  set x : Vec ℂ := ⟨8, fun t => ((Real.cos (Real.pi / 4 * t) : ℝ) : ℂ)⟩ with hx
  have hxl : x.len = 8 := rfl
  have hv : voiceFreq 8 (1 / 8) (1 / 4) 0 = 1 / 8 := (voiceFreq_ends (n := 8) (by norm_num) (by norm_num)).1
  have hh : halfLength 8 (1 / 8) (1 / 4) 1 0 = 2 := halfLength_int 2 (by rw [hv]; norm_num)
  have hre : ∀ t < x.len, (x.get t).re = ((binTone x.len 1 1).get t).re := fun t _ => by
    show ((Real.cos (Real.pi / 4 * t) : ℝ) : ℂ).re = (1 * expi (2 * Real.pi * (((1 : ℕ) : ℝ) / ((8 : ℕ) : ℝ)) * t)).re
    rw [Complex.ofReal_re, one_mul, expi_re]
    congr 1
    push_cast
    ring
  have hmax := C123_response_max (n := 8) (by norm_num) (w := 1) (fmin := 1 / 8) (fmax := 1 / 4) (by norm_num) (by norm_num) (by norm_num) (by norm_num)
    (p := 0) (by norm_num) (ν := 1 / 8) (by norm_num) (by norm_num)
  rw [hv] at hmax
  have hnu : (((1 : ℕ) : ℝ) / (x.len : ℝ)) = 1 / 8 := by rw [hxl]; norm_num
  obtain ⟨M, hM⟩ := (C123_morlet_tone x 1 (by norm_num) (by rw [hxl]; norm_num) 1 one_ne_zero hre (1 / 8) (1 / 4) (by norm_num) (by norm_num) (by norm_num)
    none (Or.inl rfl) (some 1) 1 rfl (by norm_num)).1 ⟨0, by rw [hxl]; norm_num, by rw [hxl, hh]; norm_num, by rw [hnu, hxl]; exact hmax.1.ne'⟩
  refine ⟨M, hM, C123_edge_tone x 1 (by norm_num) (by rw [hxl]; norm_num) 1 one_ne_zero hre (1 / 4) (by rw [hnu]; norm_num) (by norm_num) none (Or.inl rfl)
    (some 1) (by norm_num) M (by rw [hnu]; exact hM)⟩

/-- Linearity on eight samples: one period and two periods of a cosine, and their sum, for which the scalogram is computed too. -/
example : ∃ M N P, scalogram ⟨8, fun t => ((Real.cos (Real.pi / 2 * t) : ℝ) : ℂ)⟩ (some (1 / 8)) (some (1 / 4)) none (some 1) = .ok M ∧
    scalogram ⟨8, fun t => ((Real.cos (Real.pi / 4 * t) : ℝ) : ℂ)⟩ (some (1 / 8)) (some (1 / 4)) none (some 1) = .ok N ∧
    scalogram ⟨8, fun t => ((Real.cos (Real.pi / 2 * t) + Real.cos (Real.pi / 4 * t) : ℝ) : ℂ)⟩ (some (1 / 8)) (some (1 / 4)) none (some 1) = .ok P ∧
    ∀ p < 8, ∀ t < 8, P.wt.get p t = M.wt.get p t + N.wt.get p t := by
  obtain ⟨M, hM, -⟩ := two_periods
  obtain ⟨N, hN, -⟩ := one_period
  set x : Vec ℂ := ⟨8, fun t => ((Real.cos (Real.pi / 2 * t) : ℝ) : ℂ)⟩ with hx
  set y : Vec ℂ := ⟨8, fun t => ((Real.cos (Real.pi / 4 * t) : ℝ) : ℂ)⟩ with hy
  set v : Vec ℂ := ⟨8, fun t => ((Real.cos (Real.pi / 2 * t) + Real.cos (Real.pi / 4 * t) : ℝ) : ℂ)⟩ with hv
  have hxl : x.len = 8 := rfl
  have hyl : y.len = 8 := rfl
  have hadd : ∀ t < x.len, (v.get t).re = (1 : ℝ) * (x.get t).re + (1 : ℝ) * (y.get t).re := fun t _ => by
    simp only [hx, hy, hv, Complex.ofReal_re, one_mul]
  have hf : voiceFreq 8 (1 / 8) (1 / 4) 7 = 1 / 4 := (voiceFreq_ends (n := 8) (by norm_num) (by norm_num)).2
  have hh : halfLength 8 (1 / 8) (1 / 4) 1 7 = 1 := halfLength_int 1 (by rw [hf]; norm_num)
  have hzx : IsAnalytic (centredReal x) (binTone 8 2 1) := binTone_analytic (x := x) (k := 2) (A := 1) (by norm_num) (by rw [hxl]; norm_num) fun t _ => by
    show ((Real.cos (Real.pi / 2 * t) : ℝ) : ℂ).re = (1 * expi (2 * Real.pi * (((2 : ℕ) : ℝ) / ((8 : ℕ) : ℝ)) * t)).re
    rw [Complex.ofReal_re, one_mul, expi_re]
    congr 1
    push_cast
    ring
  have hzy : IsAnalytic (centredReal y) (binTone 8 1 1) := binTone_analytic (x := y) (k := 1) (A := 1) (by norm_num) (by rw [hyl]; norm_num) fun t _ => by
    show ((Real.cos (Real.pi / 4 * t) : ℝ) : ℂ).re = (1 * expi (2 * Real.pi * (((1 : ℕ) : ℝ) / ((8 : ℕ) : ℝ)) * t)).re
    rw [Complex.ofReal_re, one_mul, expi_re]
    congr 1
    push_cast
    ring
  have hzv := combo_isAnalytic (v := centredReal v) hzx hzy 1 1 rfl rfl (fun t ht => centred_combo (x := x) (y := y) (v := v) rfl rfl hadd ht)
  have hmax := C123_response_max (n := 8) (by norm_num) (w := 1) (fmin := 1 / 8) (fmax := 1 / 4) (by norm_num) (by norm_num) (by norm_num) (by norm_num)
    (p := 7) (by norm_num) (ν := 1 / 8) (by norm_num) (by norm_num)
  rw [hf] at hmax
  have hlt : |voiceResponse 8 (1 / 8) (1 / 4) 1 7 (1 / 8)| < voiceResponse 8 (1 / 8) (1 / 4) 1 7 (1 / 4) :=
    lt_of_le_of_ne hmax.2.1 fun h => absurd (hmax.2.2.1 h) (by norm_num)
  obtain ⟨P, C, hP, -⟩ := (C56_morlet v (by show 2 ≤ 8; norm_num) _ _ (some 1) none (1 / 8) (1 / 4) _ _ 1 (init_given v _ (by norm_num)) (by norm_num) (by norm_num)
    (by norm_num) (Or.inl rfl) rfl (by norm_num) _ hzv).2 ⟨7, by show 7 < 8; norm_num, 1, by show 1 < 8; norm_num, by
      have e : morletCoeff ⟨(binTone 8 2 1).len, fun t => ((1 : ℝ) : ℂ) * (binTone 8 2 1).get t + ((1 : ℝ) : ℂ) * (binTone 8 1 1).get t⟩ (1 / 8) (1 / 4) 1 7 ((1 : ℕ) : ℤ)
          = ((1 : ℝ) : ℂ) * morletCoeff (binTone 8 2 1) (1 / 8) (1 / 4) 1 7 ((1 : ℕ) : ℤ) + ((1 : ℝ) : ℂ) * morletCoeff (binTone 8 1 1) (1 / 8) (1 / 4) 1 7 ((1 : ℕ) : ℤ) :=
        filtered_combo (z := binTone 8 2 1) (y := binTone 8 1 1) rfl 1 1 _ _ _
      rw [e, morlet_tone 1 _ _ _ _ _ (by rw [hh]) (by rw [hh]; norm_num), morlet_tone 1 _ _ _ _ _ (by rw [hh]) (by rw [hh]; norm_num)]
      intro h0
      have hn := congrArg norm (eq_neg_of_add_eq_zero_left h0)
      simp only [norm_neg, norm_mul, norm_expi', Complex.norm_real, Real.norm_eq_abs, norm_one, one_mul] at hn
      rw [show (((2 : ℕ) : ℝ) / ((8 : ℕ) : ℝ)) = 1 / 4 by norm_num, show (((1 : ℕ) : ℝ) / ((8 : ℕ) : ℝ)) = 1 / 8 by norm_num, abs_of_pos hmax.1] at hn
      linarith⟩
  refine ⟨M, N, P, hM, hN, hP, fun p hp t ht => ?_⟩
  have := C123_linear x y v (by rw [hxl]; norm_num) rfl rfl 1 1 hadd (1 / 8) (1 / 4) (by norm_num) (by norm_num) none (Or.inl rfl) (some 1)
    (Or.inl ⟨by norm_num, by norm_num⟩) M N P hM hN hP p hp t ht
  rw [this, Complex.ofReal_one, one_mul, one_mul]

/-- The Mexican hat on two periods of a cosine, eight samples, band `[1/4, 1/2]`: the last row has equal entries at instants 2 and 3. -/
example : ∃ M, scalogram ⟨8, fun t => ((Real.cos (Real.pi / 2 * t) : ℝ) : ℂ)⟩ (some (1 / 4)) (some (1 / 2)) none (some 0) = .ok M ∧
    M.tfr.get 7 2 = M.tfr.get 7 3 := by
  set x : Vec ℂ := ⟨8, fun t => ((Real.cos (Real.pi / 2 * t) : ℝ) : ℂ)⟩ with hx
  have hxl : x.len = 8 := rfl
  have hf : voiceFreq 8 (1 / 4) (1 / 2) 7 = 1 / 2 := (voiceFreq_ends (n := 8) (by norm_num) (by norm_num)).2
  have hre : ∀ t < x.len, (x.get t).re = ((binTone x.len 2 1).get t).re := fun t _ => by
    show ((Real.cos (Real.pi / 2 * t) : ℝ) : ℂ).re = (1 * expi (2 * Real.pi * (((2 : ℕ) : ℝ) / ((8 : ℕ) : ℝ)) * t)).re
    rw [Complex.ofReal_re, one_mul, expi_re]
    congr 1
    push_cast
    ring
  have hz := binTone_analytic (x := x) (k := 2) (A := 1) (by norm_num) (by rw [hxl]; norm_num) hre
  have hc : ⌈(3 : ℝ) / (2 * (1 / 2))⌉.toNat = 3 := by
    rw [show (3 : ℝ) / (2 * (1 / 2)) = ((3 : ℤ) : ℝ) by norm_num, Int.ceil_intCast]
    rfl
  have hresp : 0 < hatResponse (1 / 2) (1 / 4) := by
    unfold hatResponse
    rw [hc]
    have hI : Icc (-((3 : ℕ) : ℤ)) ((3 : ℕ) : ℤ) = {-3, -2, -1, 0, 1, 2, 3} := by decide
    have c1 : Real.cos (2 * Real.pi * 4⁻¹) = 0 := by rw [← Real.cos_pi_div_two]; congr 1; ring
    have c2 : Real.cos (2 * Real.pi * 4⁻¹ * 2) = -1 := by rw [← Real.cos_pi]; congr 1; ring
    have c3 : Real.cos (2 * Real.pi * 4⁻¹ * 3) = 0 := by
      rw [show 2 * Real.pi * 4⁻¹ * 3 = Real.pi / 2 + Real.pi by ring, Real.cos_add_pi, Real.cos_pi_div_two, neg_zero]
    have hp := Real.two_le_pi
    have hs : 0 < Real.sqrt Real.pi := Real.sqrt_pos.2 Real.pi_pos
    rw [hI]
    simp [c1, c2, c3]
    have he := Real.exp_pos (-Real.pi ^ 2)
    have h1 : 0 ≤ Real.sqrt Real.pi * Real.exp (-Real.pi ^ 2) * (2 * Real.pi ^ 2 - 1) := mul_nonneg (mul_pos hs he).le (by nlinarith)
    linarith
  obtain ⟨M, C, hM, -⟩ := (C56_mexhat x (by rw [hxl]; norm_num) _ _ none (1 / 4) (1 / 2) _ _ (init_given x _ (by norm_num)) (by norm_num) (by norm_num) le_rfl (Or.inl rfl) _ hz).2
    ⟨7, by rw [hxl]; norm_num, 2, by rw [hxl]; norm_num, by
      rw [hxl, hf]
      have : mexhatCoeff (binTone 8 2 1) (1 / 2) (((2 : ℕ) : ℤ) + 1)
          = 1 * expi (2 * Real.pi * (((2 : ℕ) : ℝ) / ((8 : ℕ) : ℝ)) * ((((2 : ℕ) : ℤ) + 1 : ℤ) : ℝ)) * (hatResponse (1 / 2) (((2 : ℕ) : ℝ) / ((8 : ℕ) : ℝ)) : ℂ) := by
        rw [← hat_response]
        exact filtered_tone 8 2 1 _ _ _ (by rw [hc]; norm_num) (by rw [hc]; norm_num)
      rw [this, show (((2 : ℕ) : ℝ) / ((8 : ℕ) : ℝ)) = 1 / 4 by norm_num]
      refine mul_ne_zero (mul_ne_zero one_ne_zero ?_) (by exact_mod_cast hresp.ne')
      rw [← norm_ne_zero_iff, norm_expi']
      exact one_ne_zero⟩
  obtain ⟨C, -, hrow⟩ := C123_mexhat_tone x 2 (by norm_num) (by rw [hxl]; norm_num) 1 hre (1 / 4) (1 / 2) (by norm_num) (by norm_num) le_rfl none (Or.inl rfl) M hM
  have h7 := (hrow 7 (by rw [hxl]; norm_num)).2
  rw [hxl, hf, hc] at h7
  refine ⟨M, hM, ?_⟩
  rw [(h7 2 (by norm_num) (by norm_num)).1, (h7 3 (by norm_num) (by norm_num)).1]

end Tftb.Props
