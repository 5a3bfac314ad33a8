import Verif.Props.Chirp
import Verif.Props.AM
import Verif.Props.TimeFreq

/-! # Amplitude-modulated tones and chirps (C107) -/

namespace Tftb.Spec

/-- `x` is a chirp with a real envelope: amplitude `|A| g t` and instantaneous frequency `a + b t` at sample `t`. -/
def IsAmChirp (x : Vec ℂ) (A : ℂ) (g : ℕ → ℝ) (a b : ℝ) : Prop :=
  ∀ i < x.len, x.get i = A * g i * expi (2 * Real.pi * (a * i + b * i ^ 2 / 2))

end Tftb.Spec

namespace Tftb.Props

open Tftb Tftb.Spec Tftb.Linear Tftb.Cohen Tftb.FM Finset ComplexConjugate

/-- The same samples without their envelope. -/
noncomputable def carrier (N : ℕ) (A : ℂ) (a b : ℝ) : Vec ℂ := ⟨N, fun i => A * expi (2 * Real.pi * (a * i + b * i ^ 2 / 2))⟩

theorem carrier_chirp (N : ℕ) (A : ℂ) (a b : ℝ) : IsChirp (carrier N A a b) A a b := fun _ _ => rfl

theorem amChirp_zext {x : Vec ℂ} {A : ℂ} {g : ℕ → ℝ} {a b : ℝ} (hx : IsAmChirp x A g a b) (i : ℤ) :
    zext x i = (g i.toNat : ℂ) * zext (carrier x.len A a b) i := by
  by_cases h : 0 ≤ i ∧ i < x.len
  · rw [zext_of_mem h.1 h.2, zext_of_mem (x := carrier x.len A a b) h.1 h.2, hx _ (by omega)]
    show A * (g i.toNat : ℂ) * _ = (g i.toNat : ℂ) * (A * _)
    ring
  · rw [zext_of_not_mem h, zext_of_not_mem (x := carrier x.len A a b) h, mul_zero]

theorem amChirp_kernel {x : Vec ℂ} {A : ℂ} {g : ℕ → ℝ} {a b : ℝ} (hx : IsAmChirp x A g a b) (t τ : ℤ) :
    wignerKernel x t τ = ((g (t + τ).toNat * g (t - τ).toNat : ℝ) : ℂ) * wignerKernel (carrier x.len A a b) t τ := by
  unfold wignerKernel
  rw [amChirp_zext hx, amChirp_zext hx, map_mul, Complex.conj_ofReal]
  push_cast
  ring

/-- Real part of the windowed lag sum of an amplitude-modulated chirp. -/
theorem amChirp_lagSum {x : Vec ℂ} {A : ℂ} {g : ℕ → ℝ} {a b : ℝ} (hx : IsAmChirp x A g a b) (n : ℕ) (R : ℤ) (w : ℤ → ℝ) (k : ℤ) {t : ℕ} :
    (lagSum R n (fun τ => (w τ : ℂ) * wignerKernel x t τ) k).re
      = ‖A‖ ^ 2 * ∑ τ ∈ Finset.Icc (-(lagReach R x.len t)) (lagReach R x.len t),
          w τ * (g ((t : ℤ) + τ).toNat * g ((t : ℤ) - τ).toNat) * Real.cos (2 * Real.pi * (τ * (2 * (a + b * t) - k / n))) := by
  have h := chirp_lagSum (carrier_chirp x.len A a b) n R (fun τ => w τ * (g ((t : ℤ) + τ).toNat * g ((t : ℤ) - τ).toNat)) k (t := t)
  refine Eq.trans ?_ h
  congr 1
  refine lagSum_congr (fun τ _ _ => ?_) k
  rw [amChirp_kernel hx]
  push_cast
  ring

/-- Wigner-Ville distribution of a chirp with a non-negative envelope: at every instant a sum of cosines weighted by products of the envelope on both
sides of that instant, largest at the instantaneous frequency, and only there if the envelope does not vanish at the two neighbours. -/
theorem C107_wvd {τ : Type} (x : Vec ℂ) (A : ℂ) (g : ℕ → ℝ) (a b : ℝ) (hx : IsAmChirp x A g a b) (hg : ∀ i < x.len, 0 ≤ g i) (ts : Vec τ) (n : ℕ) (hn : 2 ≤ n)
    (M : Mat ℝ) (hM : WvdReturns x ts n M) (t : ℕ) (ht : t < x.len) (k : ℕ) (hk : k < n) :
    let T := min (min (t : ℤ) ((x.len : ℤ) - 1 - t)) (roundEven ((n : ℝ) / 2) - 1)
    let p := ‖A‖ ^ 2 * ∑ τ ∈ Finset.Icc (-T) T, g ((t : ℤ) + τ).toNat * g ((t : ℤ) - τ).toNat
    M.get k t = ‖A‖ ^ 2 * ∑ τ ∈ Finset.Icc (-T) T, g ((t : ℤ) + τ).toNat * g ((t : ℤ) - τ).toNat * Real.cos (2 * Real.pi * (τ * (2 * (a + b * t) - k / n))) ∧
    M.get k t ≤ p ∧
    (1 ≤ T → A ≠ 0 → 0 < g (t - 1) → 0 < g (t + 1) → (M.get k t = p ↔ ∃ m : ℤ, a + b * t = k / (2 * n) + m / 2)) := by
  intro T p
  have hn0 : n ≠ 0 := by omega
  obtain ⟨hts, hN⟩ := (C32_returns_iff x ts n hn0).1 ⟨M, hM⟩
  obtain ⟨M', h1, _, _, h4⟩ := C33_wvd x ts n hn0 hts hN
  obtain rfl := wvd_unique hM h1
  have hre : M.get k t = ‖A‖ ^ 2 * ∑ τ ∈ Finset.Icc (-T) T,
      g ((t : ℤ) + τ).toNat * g ((t : ℤ) - τ).toNat * Real.cos (2 * Real.pi * (τ * (2 * (a + b * t) - k / n))) := by
    have h5 := congrArg Complex.re (h4 k hk t ht)
    rw [Complex.ofReal_re] at h5
    have h6 := amChirp_lagSum hx n (roundEven ((n : ℝ) / 2) - 1) (fun _ => 1) k (t := t)
    simp only [Complex.ofReal_one, one_mul, Int.cast_natCast] at h6
    rw [h5]
    exact h6
  have hnn : ∀ τ ∈ Finset.Icc (-T) T, 0 ≤ g ((t : ℤ) + τ).toNat * g ((t : ℤ) - τ).toNat := by
    intro τ hτ
    rw [Finset.mem_Icc] at hτ
    have hT : T ≤ t ∧ T ≤ (x.len : ℤ) - 1 - t := ⟨(min_le_left _ _).trans (min_le_left _ _), (min_le_left _ _).trans (min_le_right _ _)⟩
    exact mul_nonneg (hg _ (by omega)) (hg _ (by omega))
  have hA : 0 ≤ ‖A‖ ^ 2 := by positivity
  refine ⟨hre, ?_, ?_⟩
  · rw [hre]
    exact mul_le_mul_of_nonneg_left (sum_weight_cos_le _ _ hnn _) hA
  · intro h1T hA0 hg1 hg2
    have hA1 : ‖A‖ ^ 2 ≠ 0 := by
      have := norm_ne_zero_iff.2 hA0
      positivity
    have hT : T ≤ t ∧ T ≤ (x.len : ℤ) - 1 - t := ⟨(min_le_left _ _).trans (min_le_left _ _), (min_le_left _ _).trans (min_le_right _ _)⟩
    have hnr : (n : ℝ) ≠ 0 := Nat.cast_ne_zero.2 hn0
    have key := sum_weight_cos_eq_iff (Finset.Icc (-T) T) (fun τ => g ((t : ℤ) + τ).toNat * g ((t : ℤ) - τ).toNat) hnn
        (by rw [Finset.mem_Icc]; omega) (by
          rw [show ((t : ℤ) + 1).toNat = t + 1 by omega, show ((t : ℤ) - 1).toNat = t - 1 by omega]
          exact mul_pos hg2 hg1) (2 * (a + b * t) - k / n)
    rw [hre]
    show ‖A‖ ^ 2 * _ = ‖A‖ ^ 2 * _ ↔ _
    rw [mul_right_inj' hA1, key]
    constructor
    · rintro ⟨m, hm⟩
      refine ⟨m, ?_⟩
      field_simp at hm ⊢
      linarith
    · rintro ⟨m, hm⟩
      refine ⟨m, ?_⟩
      rw [hm]
      field_simp
      ring

/-- Pseudo Wigner-Ville distribution, non-negative window. -/
theorem C107_pwvd {τ : Type} (x : Vec ℂ) (A : ℂ) (g : ℕ → ℝ) (a b : ℝ) (hx : IsAmChirp x A g a b) (hg : ∀ i < x.len, 0 ≤ g i) (ts : Vec τ) (n : ℕ) (h : Vec ℂ)
    (w : ℕ → ℝ) (L : ℕ) (hh : h.len = 2 * L + 1) (hL : (L : ℤ) < roundEven ((n : ℝ) / 2)) (hw : ∀ i, h.get i = (w i : ℂ)) (hw0 : ∀ i, 0 ≤ w i) (M : Mat ℝ)
    (hM : PwvdReturns x ts n (some h) M) (t : ℕ) (ht : t < ts.len) (k : ℕ) (hk : k < n) :
    let T := min (min (t : ℤ) ((x.len : ℤ) - 1 - t)) (L : ℤ)
    let p := ‖A‖ ^ 2 * ∑ τ ∈ Finset.Icc (-T) T, w ((L : ℤ) + τ).toNat * (g ((t : ℤ) + τ).toNat * g ((t : ℤ) - τ).toNat)
    M.get k t ≤ p ∧
    (1 ≤ T → A ≠ 0 → 0 < g (t - 1) → 0 < g (t + 1) → 0 < w (L + 1) → (M.get k t = p ↔ ∃ m : ℤ, a + b * t = k / (2 * n) + m / 2)) := by
  intro T p
  have hn0 : n ≠ 0 := by omega
  obtain ⟨M', h1, _, _, h4⟩ := C36_pwvd x ts n h L hh hL
  obtain rfl := pwvd_unique hM h1
  have hre : M.get k t = ‖A‖ ^ 2 * ∑ τ ∈ Finset.Icc (-T) T,
      w ((L : ℤ) + τ).toNat * (g ((t : ℤ) + τ).toNat * g ((t : ℤ) - τ).toNat) * Real.cos (2 * Real.pi * (τ * (2 * (a + b * t) - k / n))) := by
    rw [h4 k hk t ht, lagSum_congr (w := fun τ => ((w ((L : ℤ) + τ).toNat : ℝ) : ℂ) * wignerKernel x t τ) (fun τ _ _ => by rw [hw])]
    exact (amChirp_lagSum hx n L (fun τ => w ((L : ℤ) + τ).toNat) k (t := t)).trans (by rw [Int.cast_natCast]; rfl)
  have hT : T ≤ t ∧ T ≤ (x.len : ℤ) - 1 - t := ⟨(min_le_left _ _).trans (min_le_left _ _), (min_le_left _ _).trans (min_le_right _ _)⟩
  have hnn : ∀ τ ∈ Finset.Icc (-T) T, 0 ≤ w ((L : ℤ) + τ).toNat * (g ((t : ℤ) + τ).toNat * g ((t : ℤ) - τ).toNat) := by
    intro τ hτ
    rw [Finset.mem_Icc] at hτ
    exact mul_nonneg (hw0 _) (mul_nonneg (hg _ (by omega)) (hg _ (by omega)))
  have hA : 0 ≤ ‖A‖ ^ 2 := by positivity
  refine ⟨?_, ?_⟩
  · rw [hre]
    exact mul_le_mul_of_nonneg_left (sum_weight_cos_le _ _ hnn _) hA
  · intro h1T hA0 hg1 hg2 hw1
    have hA1 : ‖A‖ ^ 2 ≠ 0 := by
      have := norm_ne_zero_iff.2 hA0
      positivity
    have hnr : (n : ℝ) ≠ 0 := Nat.cast_ne_zero.2 hn0
    have key := sum_weight_cos_eq_iff (Finset.Icc (-T) T) (fun τ => w ((L : ℤ) + τ).toNat * (g ((t : ℤ) + τ).toNat * g ((t : ℤ) - τ).toNat)) hnn
        (by rw [Finset.mem_Icc]; omega) (by
          rw [show ((t : ℤ) + 1).toNat = t + 1 by omega, show ((t : ℤ) - 1).toNat = t - 1 by omega, show ((L : ℤ) + 1).toNat = L + 1 by omega]
          exact mul_pos hw1 (mul_pos hg2 hg1)) (2 * (a + b * t) - k / n)
    rw [hre]
    show ‖A‖ ^ 2 * _ = ‖A‖ ^ 2 * _ ↔ _
    rw [mul_right_inj' hA1, key]
    constructor
    · rintro ⟨m, hm⟩
      refine ⟨m, ?_⟩
      field_simp at hm ⊢
      linarith
    · rintro ⟨m, hm⟩
      refine ⟨m, ?_⟩
      rw [hm]
      field_simp
      ring

/-! ## Short-time Fourier transform and spectrogram of a tone with an envelope -/

theorem amTone_sum {x : Vec ℂ} {A : ℂ} {g : ℕ → ℝ} {f : ℝ} (hx : IsAmChirp x A g f 0) (w : ℤ → ℝ) (S : Finset ℤ) (c : ℤ)
    (hS : ∀ τ ∈ S, 0 ≤ c + τ ∧ c + τ < x.len) (n k : ℕ) :
    ‖∑ τ ∈ S, zext x (c + τ) * (w τ : ℂ) * expi (-(2 * Real.pi * (k * τ / n)))‖
      = ‖A‖ * ‖∑ τ ∈ S, ((w τ * g (c + τ).toNat : ℝ) : ℂ) * expi (2 * Real.pi * (τ * (f - k / n)))‖ := by
  rw [← tone_sum (carrier_chirp x.len A f 0) (fun τ => w τ * g (c + τ).toNat) S c hS n k]
  congr 1
  apply Finset.sum_congr rfl
  intro τ _
  rw [amChirp_zext hx]
  push_cast
  ring

/-- STFT of a tone with a positive envelope and a positive window: the modulus is at most the sum of the product of window and envelope over the available
samples, and reaches it exactly at the bins of the frequency of the tone. -/
theorem C107_stft {τ : Type} (x : Vec ℂ) (A : ℂ) (g : ℕ → ℝ) (f : ℝ) (hx : IsAmChirp x A g f 0) (hg : ∀ i < x.len, 0 < g i) (ts : Vec τ) (n L : ℕ) (h : Vec ℂ)
    (w : ℕ → ℝ) (hh : h.len = 2 * L + 1 ∨ h.len = 2 * L + 2) (hL : 2 * L < n) (hw : ∀ i, h.get i = (w i : ℂ)) (hw0 : ∀ i, 0 < w i) :
    ∃ M : Mat ℂ, stftOf x ts n (some h) = .ok M ∧ ∀ k < n, ∀ m < ts.len,
      let p := ‖A‖ * ∑ τ ∈ segLags L x.len ((m : ℤ) - 1), w ((L : ℤ) + τ).toNat * g ((m : ℤ) - 1 + τ).toNat
      ‖M.get k m‖ ≤ p ∧ (A ≠ 0 → 1 ≤ L → 2 ≤ x.len → 1 ≤ m → m ≤ x.len → (‖M.get k m‖ = p ↔ ∃ q : ℤ, f = k / n + q)) := by
  obtain ⟨M, h1, _, _, h4⟩ := C27_stft x ts n L h hh hL
  refine ⟨M, h1, fun k hk m hm => ?_⟩
  intro p
  have hM : ‖M.get k m‖ = ‖A‖ * ‖∑ τ ∈ segLags L x.len ((m : ℤ) - 1),
      ((w ((L : ℤ) + τ).toNat * g ((m : ℤ) - 1 + τ).toNat : ℝ) : ℂ) * expi (2 * Real.pi * (τ * (f - k / n)))‖ := by
    rw [h4 k hk m hm, ← amTone_sum hx (fun τ => w ((L : ℤ) + τ).toNat) (segLags L x.len ((m : ℤ) - 1)) ((m : ℤ) - 1)
      (fun τ hτ => (Finset.mem_filter.1 hτ).2) n k]
    unfold windowedDft segLags
    rw [Finset.sum_filter]
    congr 1
    apply Finset.sum_congr rfl
    intro τ _
    rw [hw, Complex.conj_ofReal]
    split
    · rfl
    · rename_i hno
      rw [zext_of_not_mem hno, zero_mul, zero_mul]
  have hpos : ∀ τ ∈ segLags L x.len ((m : ℤ) - 1), 0 < w ((L : ℤ) + τ).toNat * g ((m : ℤ) - 1 + τ).toNat := by
    intro τ hτ
    have := (Finset.mem_filter.1 hτ).2
    exact mul_pos (hw0 _) (hg _ (by omega))
  rw [hM]
  refine ⟨mul_le_mul_of_nonneg_left (norm_sum_weight_le _ (fun τ => w ((L : ℤ) + τ).toNat * g ((m : ℤ) - 1 + τ).toNat) (fun τ hτ => (hpos τ hτ).le) _) (norm_nonneg _), ?_⟩
  intro hA hL1 hN hm1 hm2
  show ‖A‖ * _ = ‖A‖ * _ ↔ _
  rw [mul_right_inj' (norm_ne_zero_iff.2 hA)]
  have hadj : ∃ a : ℤ, a ∈ segLags L x.len ((m : ℤ) - 1) ∧ a + 1 ∈ segLags L x.len ((m : ℤ) - 1) := by
    unfold segLags
    by_cases h5 : m < x.len
    · exact ⟨0, by rw [Finset.mem_filter, Finset.mem_Icc]; omega, by rw [Finset.mem_filter, Finset.mem_Icc]; omega⟩
    · exact ⟨-1, by rw [Finset.mem_filter, Finset.mem_Icc]; omega, by rw [Finset.mem_filter, Finset.mem_Icc]; omega⟩
  obtain ⟨a, ha, hb⟩ := hadj
  rw [norm_sum_weight_eq_iff _ (fun τ => w ((L : ℤ) + τ).toNat * g ((m : ℤ) - 1 + τ).toNat) (fun τ hτ => (hpos τ hτ).le) ha hb (hpos a ha) (hpos _ hb)]
  constructor
  · rintro ⟨q, hq⟩; exact ⟨q, by linarith⟩
  · rintro ⟨q, hq⟩; exact ⟨q, by linarith⟩

/-- Spectrogram of a tone with a positive envelope and a positive window. -/
theorem C107_spectrogram (x : Vec ℂ) (A : ℂ) (g : ℕ → ℝ) (f : ℝ) (hx : IsAmChirp x A g f 0) (hg : ∀ i < x.len, 0 < g i) (ts : Vec ℤ) (n L : ℕ) (h : Vec ℂ)
    (w : ℕ → ℝ) (hh : h.len = 2 * L + 1 ∨ h.len = 2 * L + 2) (hn : n ≠ 0) (hw : ∀ i, h.get i = (w i : ℂ)) (hw0 : ∀ i, 0 < w i) :
    ∃ M : Mat ℝ, SpectroReturns x ts n h M ∧ ∀ k < n, ∀ m < ts.len,
      let S := segLags (min (roundEven ((n : ℝ) / 2) - 1) L) x.len (ts.get m - 1)
      let p := ‖A‖ ^ 2 * (∑ τ ∈ S, w ((L : ℤ) + τ).toNat * g (ts.get m - 1 + τ).toNat) ^ 2
      M.get k m * ∑ τ ∈ S, w ((L : ℤ) + τ).toNat ^ 2 ≤ p ∧
      (A ≠ 0 → 1 ≤ L → 3 ≤ n → 2 ≤ x.len → 1 ≤ ts.get m → ts.get m ≤ x.len →
        (M.get k m * ∑ τ ∈ S, w ((L : ℤ) + τ).toNat ^ 2 = p ↔ ∃ q : ℤ, f = k / n + q)) := by
  have hwin : ∀ N c, windowEnergy h n L N c = ∑ τ ∈ segLags (min (roundEven ((n : ℝ) / 2) - 1) L) N c, w ((L : ℤ) + τ).toNat ^ 2 := by
    intro N c
    unfold windowEnergy
    exact Finset.sum_congr rfl (fun τ _ => by rw [hw, Complex.norm_real, Real.norm_of_nonneg (hw0 _).le])
  have hok : WindowOk h n L x.len ts := by
    intro m _
    rcases Finset.eq_empty_or_nonempty (segLags (min (roundEven ((n : ℝ) / 2) - 1) L) x.len (ts.get m - 1)) with h1 | h1
    · right; exact h1
    · left
      rw [hwin]
      exact (Finset.sum_pos (fun τ _ => by have := hw0 ((L : ℤ) + τ).toNat; positivity) h1).ne'
  obtain ⟨M, h1, _, _, h4⟩ := C31_closed_form x ts n L h hh hn hok
  refine ⟨M, h1, fun k hk m hm => ?_⟩
  intro S p
  have hM : M.get k m * ∑ τ ∈ S, w ((L : ℤ) + τ).toNat ^ 2
      = (‖A‖ * ‖∑ τ ∈ S, ((w ((L : ℤ) + τ).toNat * g (ts.get m - 1 + τ).toNat : ℝ) : ℂ) * expi (2 * Real.pi * (τ * (f - k / n)))‖) ^ 2 := by
    rw [← hwin, (h4 k hk m hm).2, ← amTone_sum hx (fun τ => w ((L : ℤ) + τ).toNat) S (ts.get m - 1)
      (fun τ hτ => (Finset.mem_filter.1 hτ).2) n k]
    congr 2
    apply Finset.sum_congr rfl
    intro τ _
    rw [hw, Complex.conj_ofReal]
  have hpos : ∀ τ ∈ S, 0 < w ((L : ℤ) + τ).toNat * g (ts.get m - 1 + τ).toNat := by
    intro τ hτ
    have := (Finset.mem_filter.1 hτ).2
    exact mul_pos (hw0 _) (hg _ (by omega))
  have hle := norm_sum_weight_le S (fun τ => w ((L : ℤ) + τ).toNat * g (ts.get m - 1 + τ).toNat) (fun τ hτ => (hpos τ hτ).le) (f - k / n)
  have hsum : 0 ≤ ∑ τ ∈ S, w ((L : ℤ) + τ).toNat * g (ts.get m - 1 + τ).toNat := Finset.sum_nonneg (fun τ hτ => (hpos τ hτ).le)
  rw [hM]
  show _ ≤ ‖A‖ ^ 2 * _ ^ 2 ∧ (A ≠ 0 → 1 ≤ L → 3 ≤ n → 2 ≤ x.len → 1 ≤ ts.get m → ts.get m ≤ x.len → (_ = ‖A‖ ^ 2 * _ ^ 2 ↔ _))
  rw [← mul_pow]
  refine ⟨pow_le_pow_left₀ (by positivity) (mul_le_mul_of_nonneg_left hle (norm_nonneg _)) 2, ?_⟩
  intro hA hL1 hn3 hN hm1 hm2
  rw [pow_left_inj₀ (by positivity) (mul_nonneg (norm_nonneg _) hsum) two_ne_zero, mul_right_inj' (norm_ne_zero_iff.2 hA)]
  have hhalf : 1 ≤ roundEven ((n : ℝ) / 2) - 1 := by rw [roundEven_half]; split <;> omega
  have hadj : ∃ a : ℤ, a ∈ S ∧ a + 1 ∈ S := by
    show ∃ a : ℤ, a ∈ segLags _ _ _ ∧ a + 1 ∈ segLags _ _ _
    unfold segLags
    by_cases h5 : ts.get m < x.len
    · exact ⟨0, by rw [Finset.mem_filter, Finset.mem_Icc]; omega, by rw [Finset.mem_filter, Finset.mem_Icc]; omega⟩
    · exact ⟨-1, by rw [Finset.mem_filter, Finset.mem_Icc]; omega, by rw [Finset.mem_filter, Finset.mem_Icc]; omega⟩
  obtain ⟨a, ha, hb⟩ := hadj
  rw [norm_sum_weight_eq_iff _ (fun τ => w ((L : ℤ) + τ).toNat * g (ts.get m - 1 + τ).toNat) (fun τ hτ => (hpos τ hτ).le) ha hb (hpos a ha) (hpos _ hb)]
  constructor
  · rintro ⟨q, hq⟩; exact ⟨q, by linarith⟩
  · rintro ⟨q, hq⟩; exact ⟨q, by linarith⟩

/-! ## Narrow-band ambiguity function -/

/-- The ambiguity function of a chirp of slope `b` with a non-negative envelope is largest, at every lag, on the line of Doppler `2 b τ`, whatever the envelope; only
there if two neighbouring products of the envelope do not vanish. -/
theorem C107_ambiguity (x : Vec ℂ) (A : ℂ) (g : ℕ → ℝ) (a b : ℝ) (hx : IsAmChirp x A g a b) (hg : ∀ i < x.len, 0 ≤ g i) (lag : Option (Vec ℝ)) (nf : Option ℕ)
    (B : Mat ℂ) (l xi : Vec ℝ) (h : Ambiguity.narrowBand x lag nf = .ok (B, l, xi)) {r c : ℕ} (hr : r < B.rows) (hc : c < B.cols) (j : ℤ)
    (hj : l.get c = j) :
    let p := ‖A‖ ^ 2 * ∑ t ∈ Finset.Ico |j| ((x.len : ℤ) - |j|), g (t + j).toNat * g (t - j).toNat
    ‖B.get r c‖ ≤ p ∧
    (A ≠ 0 → 2 * |j| + 2 ≤ x.len → (∀ i < x.len, 0 < g i) → (‖B.get r c‖ = p ↔ ∃ q : ℤ, xi.get r = 2 * b * j + q)) := by
  intro p
  obtain ⟨_, _, _, _, _, e⟩ := C42_closed_form x lag nf B l xi h
  have hS : ∀ z : ℤ, z ∈ Finset.Ico |j| ((x.len : ℤ) - |j|) ↔ |j| ≤ z ∧ z < (x.len : ℤ) - |j| := fun z => Finset.mem_Ico
  have hjj := abs_le.1 (le_refl |j|)
  have hnorm : ‖B.get r c‖ = ‖A‖ ^ 2 * ‖∑ t ∈ Finset.Ico |j| ((x.len : ℤ) - |j|),
      ((g (t + j).toNat * g (t - j).toNat : ℝ) : ℂ) * expi (2 * Real.pi * (t * (2 * b * j - xi.get r)))‖ := by
    rw [e r hr c hc, hj, Utils.truncInt_intCast]
    unfold ambiguity
    have e1 : ∑ t ∈ Finset.range x.len, wignerKernel x t j * expi (-(2 * Real.pi * (xi.get r * t)))
        = ∑ t ∈ Finset.Ico |j| ((x.len : ℤ) - |j|), wignerKernel x t j * expi (-(2 * Real.pi * (xi.get r * t))) := by
      symm
      apply Finset.sum_bij_ne_zero (fun t _ _ => t.toNat)
      · intro t ht _
        rw [hS] at ht
        rw [Finset.mem_range]
        have := abs_nonneg j
        omega
      · intro t ht _ u hu _ htu
        rw [hS] at ht hu
        have := abs_nonneg j
        omega
      · intro t ht hne
        rw [Finset.mem_range] at ht
        refine ⟨(t : ℤ), ?_, ?_, Int.toNat_natCast t⟩
        · rw [hS]
          by_contra hcon
          exact hne (by rw [wignerKernel_zero hcon, zero_mul])
        · rwa [Int.cast_natCast]
      · intro t ht _
        rw [hS] at ht
        have h0 : 0 ≤ t := (abs_nonneg j).trans ht.1
        have hc1 : ((t.toNat : ℕ) : ℝ) = (t : ℝ) := by
          have : ((t.toNat : ℤ) : ℝ) = (t : ℝ) := by rw [Int.toNat_of_nonneg h0]
          exact_mod_cast this
        rw [Int.toNat_of_nonneg h0, hc1]
    rw [e1]
    have e2 : ∀ t ∈ Finset.Ico |j| ((x.len : ℤ) - |j|), wignerKernel x t j * expi (-(2 * Real.pi * (xi.get r * t)))
        = (((‖A‖ ^ 2 : ℝ) : ℂ) * expi (2 * Real.pi * (2 * j * a))) * (((g (t + j).toNat * g (t - j).toNat : ℝ) : ℂ) * expi (2 * Real.pi * (t * (2 * b * j - xi.get r)))) := by
      intro t ht
      rw [hS] at ht
      have h0 : 0 ≤ t := (abs_nonneg j).trans ht.1
      obtain ⟨u, rfl⟩ := Int.eq_ofNat_of_zero_le h0
      rw [amChirp_kernel hx, chirp_kernel (carrier_chirp x.len A a b) u j (by show _ ∧ _ < (x.len : ℤ); omega) (by show _ ∧ _ < (x.len : ℤ); omega)]
      have e3 : expi (2 * Real.pi * (j * (2 * (a + b * u)))) * expi (-(2 * Real.pi * (xi.get r * ((u : ℤ) : ℝ))))
          = expi (2 * Real.pi * (2 * j * a)) * expi (2 * Real.pi * (((u : ℤ) : ℝ) * (2 * b * j - xi.get r))) := by
        rw [← expi_add, ← expi_add]
        congr 1
        push_cast
        ring
      rw [mul_assoc, mul_assoc, e3]
      ring
    rw [Finset.sum_congr rfl e2, ← Finset.mul_sum, norm_mul, norm_mul, norm_expi, mul_one, Complex.norm_real, Real.norm_of_nonneg (by positivity)]
  have hnn : ∀ t ∈ Finset.Ico |j| ((x.len : ℤ) - |j|), 0 ≤ g (t + j).toNat * g (t - j).toNat := by
    intro t ht
    rw [hS] at ht
    exact mul_nonneg (hg _ (by omega)) (hg _ (by omega))
  have hle := norm_sum_weight_le (Finset.Ico |j| ((x.len : ℤ) - |j|)) (fun t => g (t + j).toNat * g (t - j).toNat) hnn (2 * b * j - xi.get r)
  rw [hnorm]
  refine ⟨mul_le_mul_of_nonneg_left hle (by positivity), fun hA hj2 hgp => ?_⟩
  have hA1 : ‖A‖ ^ 2 ≠ 0 := by
    have := norm_ne_zero_iff.2 hA
    positivity
  have hp : ∀ t : ℤ, |j| ≤ t → t < (x.len : ℤ) - |j| → 0 < g (t + j).toNat * g (t - j).toNat :=
    fun t h1 h2 => mul_pos (hgp _ (by omega)) (hgp _ (by omega))
  have key := norm_sum_weight_eq_iff (Finset.Ico |j| ((x.len : ℤ) - |j|)) (fun t => g (t + j).toNat * g (t - j).toNat) hnn (a := |j|)
    (by rw [hS]; omega) (by rw [hS]; omega) (hp _ (by omega) (by omega)) (hp _ (by omega) (by omega)) (2 * b * j - xi.get r)
  show ‖A‖ ^ 2 * _ = ‖A‖ ^ 2 * _ ↔ _
  rw [mul_right_inj' hA1, key]
  constructor
  · rintro ⟨q, hq⟩; exact ⟨-q, by push_cast; linarith⟩
  · rintro ⟨q, hq⟩; exact ⟨-q, by push_cast; linarith⟩

/-! ## What the generators make -/

/-- The product of an envelope and of what `fmlin` returns. -/
theorem amChirp_fmlin (N : ℤ) (fi ff : ℝ) (c : Option ℝ) (y : Vec ℂ) (law : Vec ℝ) (hy : fmlin N fi ff c = .ok (y, law)) (e : Vec ℝ) (z : Vec ℂ) (hz : z.len = y.len)
    (hze : ∀ i < z.len, z.get i = (e.get i : ℂ) * y.get i) :
    ∃ (A : ℂ) (a b : ℝ), ‖A‖ = 1 ∧ IsAmChirp z A e.get a b ∧ ∀ t < z.len, law.get t = a + b * t := by
  obtain ⟨_, _, A, a, b, hA, hc, hl⟩ := C77_fmlin_chirp N fi ff c y law hy
  refine ⟨A, a, b, hA, fun i hi => ?_, fun t ht => hl t (by omega)⟩
  rw [hze i hi, hc i (by omega)]
  ring

/-- `amgauss(n, t0, s) * fmlin(n, fi, ff)[0]`: the Wigner-Ville distribution peaks at the law `fmlin` returns at every inner instant, for every centre and spread of the
envelope. -/
theorem C107_gauss_fmlin {τ : Type} (N : ℕ) (t0 s : ℝ) (hs : 0 < s) (fi ff : ℝ) (c : Option ℝ) (y : Vec ℂ) (law : Vec ℝ) (hy : fmlin N fi ff c = .ok (y, law))
    (e : Vec ℝ) (he : AM.amgauss N (some t0) (some s) = .ok e) (z : Vec ℂ) (hz : z.len = y.len) (hze : ∀ i < z.len, z.get i = (e.get i : ℂ) * y.get i)
    (ts : Vec τ) (n : ℕ) (hn : 2 ≤ n) (M : Mat ℝ) (hM : WvdReturns z ts n M) (t : ℕ) (ht : t < z.len) (k : ℕ) (hk : k < n) :
    let T := min (min (t : ℤ) ((z.len : ℤ) - 1 - t)) (roundEven ((n : ℝ) / 2) - 1)
    let p := ∑ τ ∈ Finset.Icc (-T) T, e.get ((t : ℤ) + τ).toNat * e.get ((t : ℤ) - τ).toNat
    M.get k t ≤ p ∧ (1 ≤ T → (M.get k t = p ↔ ∃ m : ℤ, law.get t = k / (2 * n) + m / 2)) := by
  intro T p
  obtain ⟨hl1, hyN, _⟩ := C77_fmlin_chirp N fi ff c y law hy
  have hyN' : y.len = N := by exact_mod_cast hyN
  have hN : 1 ≤ N := by omega
  obtain ⟨e', he', hel, hev, _⟩ := C07_amgauss N hN t0 s hs
  rw [he] at he'
  injection he' with he'
  subst he'
  have hpos : ∀ i < z.len, 0 < e.get i := by
    intro i hi
    rw [hev i (by omega)]
    exact Real.exp_pos _
  obtain ⟨A, a, b, hA, hc, hl⟩ := amChirp_fmlin N fi ff c y law hy e z hz hze
  obtain ⟨_, h2, h3⟩ := C107_wvd z A e.get a b hc (fun i hi => (hpos i hi).le) ts n hn M hM t ht k hk
  rw [hA, one_pow, one_mul] at h2 h3
  rw [hl t ht]
  refine ⟨h2, fun h1 => h3 h1 (norm_ne_zero_iff.1 (by rw [hA]; exact one_ne_zero)) (hpos _ (by omega)) (hpos _ ?_)⟩
  have : T ≤ (z.len : ℤ) - 1 - t := (min_le_left _ _).trans (min_le_right _ _)
  omega

/-! ## Time centre -/

theorem env_mean {N : ℕ} {q : ℕ → ℝ} (hq : ∀ i < N, 0 ≤ q i) {h : ℤ}
    (hs : ∀ i < N, ∀ j < N, |2 * (i : ℤ) - h| ≤ |2 * (j : ℤ) - h| → q j ≤ q i) (h1 : (N : ℤ) - 1 ≤ h) (h2 : h ≤ 2 * ((N : ℤ) - 1)) :
    ((N : ℝ) - 1) * ∑ i ∈ range N, q i ≤ 2 * ∑ i ∈ range N, (i : ℝ) * q i ∧ 2 * ∑ i ∈ range N, (i : ℝ) * q i ≤ h * ∑ i ∈ range N, q i := by
  have hcast : ∀ i < N, ((N - 1 - i : ℕ) : ℝ) = (N : ℝ) - 1 - i := by
    intro i hi
    rw [Nat.cast_sub (by omega), Nat.cast_sub (by omega)]
    push_cast; ring
  constructor
  · have hS : 2 * ∑ i ∈ range N, (i : ℝ) * q i - ((N : ℝ) - 1) * ∑ i ∈ range N, q i = ∑ i ∈ range N, (2 * (i : ℝ) - (N - 1)) * q i := by
      rw [Finset.mul_sum, Finset.mul_sum, ← Finset.sum_sub_distrib]
      exact Finset.sum_congr rfl (fun i _ => by ring)
    have hS' : ∑ i ∈ range N, (2 * (i : ℝ) - (N - 1)) * q i = ∑ i ∈ range N, -(2 * (i : ℝ) - (N - 1)) * q (N - 1 - i) := by
      rw [← Finset.sum_range_reflect]
      refine Finset.sum_congr rfl (fun i hi => ?_)
      rw [Finset.mem_range] at hi
      rw [hcast i hi]
      ring
    have hpos : 0 ≤ ∑ i ∈ range N, (2 * (i : ℝ) - (N - 1)) * (q i - q (N - 1 - i)) := by
      refine Finset.sum_nonneg (fun i hi => ?_)
      rw [Finset.mem_range] at hi
      have hri : ((N - 1 - i : ℕ) : ℤ) = (N : ℤ) - 1 - i := by omega
      rcases le_total ((N : ℤ) - 1) (2 * (i : ℤ)) with hc | hc
      · refine mul_nonneg ?_ (sub_nonneg.2 (hs i hi (N - 1 - i) (by omega) ?_))
        · have : ((N : ℝ) - 1) ≤ 2 * i := by exact_mod_cast hc
          linarith
        · rw [hri]
          rw [abs_of_nonpos (a := 2 * ((N : ℤ) - 1 - i) - h) (by omega), abs_le]
          omega
      · refine mul_nonneg_of_nonpos_of_nonpos ?_ (sub_nonpos.2 (hs (N - 1 - i) (by omega) i hi ?_))
        · have : 2 * (i : ℝ) ≤ (N : ℝ) - 1 := by exact_mod_cast hc
          linarith
        · rw [hri]
          rw [abs_of_nonpos (a := 2 * (i : ℤ) - h) (by omega), abs_le]
          omega
    have hsum : ∑ i ∈ range N, (2 * (i : ℝ) - (N - 1)) * (q i - q (N - 1 - i))
        = ∑ i ∈ range N, (2 * (i : ℝ) - (N - 1)) * q i + ∑ i ∈ range N, -(2 * (i : ℝ) - (N - 1)) * q (N - 1 - i) := by
      rw [← Finset.sum_add_distrib]
      exact Finset.sum_congr rfl (fun i _ => by ring)
    rw [hsum, ← hS'] at hpos
    linarith
  · obtain ⟨d, hd⟩ : ∃ d : ℕ, (d : ℤ) = h - N + 1 := ⟨(h - N + 1).toNat, by omega⟩
    obtain ⟨m, hm⟩ : ∃ m : ℕ, N = d + m := ⟨N - d, by omega⟩
    have hS : (h : ℝ) * ∑ i ∈ range N, q i - 2 * ∑ i ∈ range N, (i : ℝ) * q i = ∑ i ∈ range N, ((h : ℝ) - 2 * i) * q i := by
      rw [Finset.mul_sum, Finset.mul_sum, ← Finset.sum_sub_distrib]
      exact Finset.sum_congr rfl (fun i _ => by ring)
    have hh : h = 2 * (d : ℤ) + m - 1 := by omega
    have htail : ∑ i ∈ range m, ((h : ℝ) - 2 * ((d + i : ℕ) : ℝ)) * q (d + i) = 0 := by
      have e : ∑ i ∈ range m, ((h : ℝ) - 2 * ((d + i : ℕ) : ℝ)) * q (d + i) = -∑ i ∈ range m, ((h : ℝ) - 2 * ((d + i : ℕ) : ℝ)) * q (d + i) := by
        rw [← Finset.sum_neg_distrib]
        conv_lhs => rw [← Finset.sum_range_reflect]
        refine Finset.sum_congr rfl (fun i hi => ?_)
        rw [Finset.mem_range] at hi
        have hri : ((m - 1 - i : ℕ) : ℝ) = (m : ℝ) - 1 - i := by
          rw [Nat.cast_sub (by omega), Nat.cast_sub (by omega)]
          push_cast; ring
        have hri' : ((m - 1 - i : ℕ) : ℤ) = (m : ℤ) - 1 - i := by omega
        have hqq : q (d + (m - 1 - i)) = q (d + i) := by
          have habs : |2 * ((d + (m - 1 - i) : ℕ) : ℤ) - h| = |2 * ((d + i : ℕ) : ℤ) - h| := by
            rw [← abs_neg]
            congr 1
            push_cast [hri']
            omega
          exact le_antisymm (hs _ (by omega) _ (by omega) habs.ge) (hs _ (by omega) _ (by omega) habs.le)
        rw [hqq]
        push_cast
        rw [hri, hh]
        push_cast
        ring
      linarith
    have hhead : 0 ≤ ∑ i ∈ range d, ((h : ℝ) - 2 * i) * q i := by
      refine Finset.sum_nonneg (fun i hi => ?_)
      rw [Finset.mem_range] at hi
      refine mul_nonneg ?_ (hq i (by omega))
      have h3 : 2 * (i : ℤ) ≤ h := by omega
      have : 2 * (i : ℝ) ≤ (h : ℝ) := by exact_mod_cast h3
      linarith
    have hsplit : ∑ i ∈ range N, ((h : ℝ) - 2 * i) * q i = ∑ i ∈ range d, ((h : ℝ) - 2 * i) * q i + ∑ i ∈ range m, ((h : ℝ) - 2 * ((d + i : ℕ) : ℝ)) * q (d + i) := by
      rw [hm, Finset.sum_range_add]
    rw [hsplit, htail, add_zero] at hS
    linarith

/-- `loctime` of a signal whose modulus is (a multiple of) an envelope around the instant `m` (in samples from 0, a multiple of one half): the centre lies between `m`
and the middle of the record.  So it is `m` when that is the middle, and otherwise the record pulls it inwards. -/
theorem C107_loctime (x : Vec ℂ) (y : Vec ℝ) (r : ℝ) (hr : 0 < r) (hl : x.len = y.len) (hxy : ∀ i < x.len, ‖x.get i‖ = r * y.get i) (δ t0 m : ℝ)
    (hy : Spec.IsEnvelope y (fun i => (i : ℝ) + δ) t0) (hm : m = t0 - δ) (h : ℤ) (hh : (h : ℝ) = 2 * m) (he : energy x ≠ 0) :
    ∃ t T, TF.loctime x = .ok (t, T) ∧
      (((x.len : ℝ) - 1) / 2 ≤ m → m ≤ (x.len : ℝ) - 1 → ((x.len : ℝ) - 1) / 2 ≤ t ∧ t ≤ m) ∧
      (0 ≤ m → m ≤ ((x.len : ℝ) - 1) / 2 → m ≤ t ∧ t ≤ ((x.len : ℝ) - 1) / 2) := by
  refine ⟨_, _, C44_loctime x he, ?_⟩
  have hE : 0 < ∑ i ∈ range x.len, ‖x.get i‖ ^ 2 := (energy_pos_iff x).1 he
  have hdist : ∀ i : ℕ, |(i : ℝ) + δ - t0| = ((|2 * (i : ℤ) - h| : ℤ) : ℝ) / 2 := by
    intro i
    rw [Int.cast_abs]
    push_cast
    rw [hh, hm, show (i : ℝ) + δ - t0 = (2 * i - 2 * (t0 - δ)) / 2 by ring, abs_div, abs_of_pos (two_pos (α := ℝ))]
  have hq : ∀ i < x.len, ∀ j < x.len, |2 * (i : ℤ) - h| ≤ |2 * (j : ℤ) - h| → ‖x.get j‖ ^ 2 ≤ ‖x.get i‖ ^ 2 := by
    intro i hi j hj hij
    have h1 := hy.2.2 i (by omega) j (by omega) (by
      simp only
      rw [hdist, hdist]
      have : ((|2 * (i : ℤ) - h| : ℤ) : ℝ) ≤ ((|2 * (j : ℤ) - h| : ℤ) : ℝ) := by exact_mod_cast hij
      linarith)
    have h0 := (hy.1 j (by omega)).1
    rw [hxy i hi, hxy j hj]
    exact pow_le_pow_left₀ (by positivity) (mul_le_mul_of_nonneg_left h1 hr.le) 2
  unfold wmean
  constructor
  · intro k1 k2
    have k1' : (x.len : ℤ) - 1 ≤ h := by
      have : ((x.len : ℝ) - 1) ≤ h := by linarith
      exact_mod_cast this
    have k2' : h ≤ 2 * ((x.len : ℤ) - 1) := by
      have : (h : ℝ) ≤ 2 * ((x.len : ℝ) - 1) := by linarith
      exact_mod_cast this
    obtain ⟨b1, b2⟩ := env_mean (q := fun i => ‖x.get i‖ ^ 2) (fun i _ => by positivity) hq k1' k2'
    rw [hh] at b2
    exact ⟨by rw [le_div_iff₀ hE]; linarith, by rw [div_le_iff₀ hE]; linarith⟩
  · intro k1 k2
    have k1' : 0 ≤ h := by
      have : (0 : ℝ) ≤ h := by linarith
      exact_mod_cast this
    have k2' : h ≤ (x.len : ℤ) - 1 := by
      have : (h : ℝ) ≤ (x.len : ℝ) - 1 := by linarith
      exact_mod_cast this
    obtain ⟨b1, b2⟩ := env_mean (N := x.len) (q := fun i => ‖x.get (x.len - 1 - i)‖ ^ 2) (h := 2 * ((x.len : ℤ) - 1) - h) (fun i _ => by positivity) (by
      intro i hi j hj hij
      refine hq _ (by omega) _ (by omega) ?_
      have ei : ((x.len - 1 - i : ℕ) : ℤ) = (x.len : ℤ) - 1 - i := by omega
      have ej : ((x.len - 1 - j : ℕ) : ℤ) = (x.len : ℤ) - 1 - j := by omega
      rw [ei, ej, ← abs_neg, ← abs_neg (2 * ((x.len : ℤ) - 1 - j) - h)]
      refine le_trans (le_of_eq ?_) (hij.trans (le_of_eq ?_)) <;> congr 1 <;> ring) (by omega) (by omega)
    have e1 : ∑ i ∈ range x.len, ‖x.get (x.len - 1 - i)‖ ^ 2 = ∑ i ∈ range x.len, ‖x.get i‖ ^ 2 := Finset.sum_range_reflect (fun i => ‖x.get i‖ ^ 2) x.len
    have e2 : ∑ i ∈ range x.len, (i : ℝ) * ‖x.get (x.len - 1 - i)‖ ^ 2
        = ((x.len : ℝ) - 1) * ∑ i ∈ range x.len, ‖x.get i‖ ^ 2 - ∑ i ∈ range x.len, (i : ℝ) * ‖x.get i‖ ^ 2 := by
      rw [Finset.mul_sum, ← Finset.sum_sub_distrib, ← Finset.sum_range_reflect]
      refine Finset.sum_congr rfl (fun i hi => ?_)
      rw [Finset.mem_range] at hi
      rw [show x.len - 1 - (x.len - 1 - i) = i by omega, Nat.cast_sub (by omega), Nat.cast_sub (by omega)]
      push_cast
      ring
    rw [e1, e2] at b1 b2
    push_cast at b2
    rw [hh] at b2
    exact ⟨by rw [le_div_iff₀ hE]; linarith, by rw [div_le_iff₀ hE]; linarith⟩

/-- The product of a default Gaussian envelope and of any signal of constant modulus is centred in the middle of the record, or less than one sample before it: between
`round(n/2) - 1` and `(n - 1)/2`. -/
theorem C107_gauss_centre (n : ℕ) (hn : 1 ≤ n) (e : Vec ℝ) (he : AM.amgauss n none none = .ok e) (x : Vec ℂ) (r : ℝ) (hr : 0 < r) (hl : x.len = n)
    (hx : ∀ i < n, ‖x.get i‖ = r * e.get i) :
    ∃ t T, TF.loctime x = .ok (t, T) ∧ (roundEven ((n : ℝ) / 2) : ℝ) - 1 ≤ t ∧ t ≤ ((n : ℝ) - 1) / 2 ∧ (n % 4 = 3 → t = ((n : ℝ) - 1) / 2) := by
  rw [(C07_defaults_explicit n .bilateral).1] at he
  obtain ⟨e', he', hel, hev, henv⟩ := C07_amgauss n hn (roundEven ((n : ℝ) / 2)) (2 * Real.sqrt n) (by positivity)
  rw [he] at he'
  injection he' with he'
  subst he'
  have hre := roundEven_half n
  have hpos : 0 < ‖x.get 0‖ := by
    rw [hx 0 (by omega), hev 0 (by omega)]
    exact mul_pos hr (Real.exp_pos _)
  have hen : energy x ≠ 0 := by
    rw [energy_pos_iff]
    exact Finset.sum_pos' (fun _ _ => by positivity) ⟨0, Finset.mem_range.2 (by omega), by positivity⟩
  obtain ⟨t, T, h1, h2, h3⟩ := C107_loctime x e r hr (by omega) (fun i hi => hx i (by omega)) 1 (roundEven ((n : ℝ) / 2)) (roundEven ((n : ℝ) / 2) - 1) henv rfl
    (2 * (roundEven ((n : ℝ) / 2) - 1)) (by push_cast; ring) hen
  rw [hl] at h2 h3
  rcases Nat.lt_or_ge n 2 with hsmall | hbig
  · obtain rfl : n = 1 := by omega
    have hb := C44_loctime x hen
    rw [h1] at hb
    injection hb with hb
    injection hb with hb _
    have ht0 : t = 0 := by
      rw [hb, hl]
      unfold wmean
      simp
    refine ⟨t, T, h1, ?_, ?_, by omega⟩
    · have : roundEven (((1 : ℕ) : ℝ) / 2) = 0 := by rw [hre]; norm_num
      rw [this, ht0]
      norm_num
    · rw [ht0]
      norm_num
  · have hlo : (1 : ℤ) ≤ roundEven ((n : ℝ) / 2) := by rw [hre]; split <;> omega
    have hhi : 2 * (roundEven ((n : ℝ) / 2) - 1) ≤ (n : ℤ) - 1 := by rw [hre]; split <;> omega
    have hlo' : (0 : ℝ) ≤ (roundEven ((n : ℝ) / 2) : ℝ) - 1 := by
      have : (1 : ℝ) ≤ (roundEven ((n : ℝ) / 2) : ℝ) := by exact_mod_cast hlo
      linarith
    have hhi' : (roundEven ((n : ℝ) / 2) : ℝ) - 1 ≤ ((n : ℝ) - 1) / 2 := by
      have : 2 * ((roundEven ((n : ℝ) / 2) : ℝ) - 1) ≤ (n : ℝ) - 1 := by exact_mod_cast hhi
      linarith
    obtain ⟨b1, b2⟩ := h3 hlo' hhi'
    refine ⟨t, T, h1, b1, b2, fun h4 => le_antisymm b2 ?_⟩
    refine le_trans (le_of_eq ?_) b1
    have : 2 * (roundEven ((n : ℝ) / 2) - 1) = (n : ℤ) - 1 := by rw [hre]; split <;> omega
    have : 2 * ((roundEven ((n : ℝ) / 2) : ℝ) - 1) = (n : ℝ) - 1 := by exact_mod_cast this
    linarith

/-- Seven samples: exactly the middle one, whatever the frequency modulation. -/
example (x : Vec ℂ) (hl : x.len = 7) (e : Vec ℝ) (he : AM.amgauss (7 : ℕ) none none = .ok e) (hx : ∀ i < 7, ‖x.get i‖ = e.get i) :
    ∃ T, TF.loctime x = .ok (3, T) := by
  obtain ⟨t, T, h1, _, _, h4⟩ := C107_gauss_centre 7 (by norm_num) e he x 1 one_pos hl (fun i hi => by rw [one_mul]; exact hx i hi)
  have := h4 rfl
  norm_num at this
  rw [this] at h1
  exact ⟨T, h1⟩

/-- The samples 1, 2, 1: at the middle one the Wigner-Ville distribution with four bins is 6 at frequency zero, and less at all others. -/
example (M : Mat ℝ) (hM : WvdReturns ⟨3, fun i => if i = 1 then 2 else 1⟩ (arange 0 3) 4 M) : M.get 0 1 = 6 ∧ ∀ k, 1 ≤ k → k < 4 → M.get k 1 < 6 := by
  have hx : IsAmChirp ⟨3, fun i => if i = 1 then 2 else 1⟩ 1 (fun i => if i = 1 then 2 else 1) 0 0 := by
    intro i _
    have : expi (2 * Real.pi * (0 * (i : ℝ) + 0 * (i : ℝ) ^ 2 / 2)) = 1 := by
      rw [show 2 * Real.pi * (0 * (i : ℝ) + 0 * (i : ℝ) ^ 2 / 2) = 0 by ring]
      simp [expi]
    rw [this, mul_one, one_mul]
    show (if i = 1 then (2 : ℂ) else 1) = ((if i = 1 then (2 : ℝ) else 1 : ℝ) : ℂ)
    split <;> norm_num
  have hre : roundEven (((4 : ℕ) : ℝ) / 2) = 2 := by rw [roundEven_half]; norm_num
  have hT : min (min ((1 : ℕ) : ℤ) (((3 : ℕ) : ℤ) - 1 - ((1 : ℕ) : ℤ))) (roundEven (((4 : ℕ) : ℝ) / 2) - 1) = 1 := by rw [hre]; norm_num
  have hp : ‖(1 : ℂ)‖ ^ 2 * ∑ τ ∈ Finset.Icc (-1 : ℤ) 1, (if (((1 : ℕ) : ℤ) + τ).toNat = 1 then (2 : ℝ) else 1) * (if (((1 : ℕ) : ℤ) - τ).toNat = 1 then 2 else 1) = 6 := by
    rw [show Finset.Icc (-1 : ℤ) 1 = {-1, 0, 1} by decide, Finset.sum_insert (by decide), Finset.sum_insert (by decide), Finset.sum_singleton]
    norm_num
    rw [if_neg (by decide)]
    norm_num
  have key : ∀ k < 4, M.get k 1 ≤ 6 ∧ (M.get k 1 = 6 ↔ ∃ m : ℤ, (0 : ℝ) + 0 * ((1 : ℕ) : ℝ) = k / (2 * ((4 : ℕ) : ℝ)) + m / 2) := by
    intro k hk
    have h := C107_wvd _ _ _ _ _ hx (fun i _ => by split <;> norm_num) (arange 0 3) 4 (by norm_num) M hM 1 (by norm_num) k hk
    simp only at h
    rw [hT, hp] at h
    exact ⟨h.2.1, h.2.2 le_rfl one_ne_zero (by norm_num) (by norm_num)⟩
  refine ⟨(key 0 (by norm_num)).2.2 ⟨0, by norm_num⟩, fun k h1 h2 => lt_of_le_of_ne (key k h2).1 (fun h => ?_)⟩
  obtain ⟨m, hm⟩ := (key k h2).2.1 h
  have : (k : ℝ) + 4 * m = 0 := by push_cast at hm; linarith
  have : (k : ℤ) + 4 * m = 0 := by exact_mod_cast this
  omega

end Tftb.Props
