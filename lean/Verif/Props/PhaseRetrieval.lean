import Verif.Props.SameWvd
import Verif.Props.Consistency
import Verif.Props.StftInverse
import Verif.Props.Gain

/-! # What spectrograms and pseudo Wigner-Ville distributions keep of the phase (C113) -/

namespace Tftb.Props

open Tftb Tftb.Spec Tftb.Linear Tftb.Cohen Finset ComplexConjugate

/-- The window extended by zero, lag 0 on its middle sample. -/
noncomputable def winAt (h : Vec ℂ) (L : ℕ) (τ : ℤ) : ℂ := if -(L : ℤ) ≤ τ ∧ τ ≤ L then h.get ((L : ℤ) + τ).toNat else 0

/-- The signal seen through the window laid on sample `c`. -/
noncomputable def seen (x h : Vec ℂ) (L : ℕ) (c τ : ℤ) : ℂ := zext x (c + τ) * conj (winAt h L τ)

theorem seen_out {x h : Vec ℂ} {L : ℕ} {c τ : ℤ} (hτ : ¬ (-(L : ℤ) ≤ τ ∧ τ ≤ L)) : seen x h L c τ = 0 := by
  unfold seen winAt
  rw [if_neg hτ, map_zero, mul_zero]

theorem windowedDft_seen (x h : Vec ℂ) (L n : ℕ) (c : ℤ) (k : ℕ) : windowedDft x h L n c k = lagSum L n (seen x h L c) k := by
  unfold windowedDft lagSum
  refine Finset.sum_congr rfl fun τ hτ => ?_
  rw [Finset.mem_Icc] at hτ
  unfold seen winAt
  rw [if_pos hτ, Int.cast_natCast]

/-- The inverse Fourier sum of squared moduli is the correlation. -/
theorem sum_normSq_lagSum {n L : ℕ} (hn : 4 * L + 1 ≤ n) (s : ℤ → ℂ) (hs : ∀ τ : ℤ, ¬ (-(L : ℤ) ≤ τ ∧ τ ≤ L) → s τ = 0) {d : ℤ} (h0 : 0 ≤ d) (h1 : d ≤ 2 * L) :
    ∑ k ∈ range n, ((‖lagSum L n s k‖ ^ 2 : ℝ) : ℂ) * rootPow n (-(d * k)) = n * ∑ σ ∈ Finset.Icc (-(L : ℤ)) L, s (σ + d) * conj (s σ) := by
  have hn0 : n ≠ 0 := by omega
  have e : ∀ k ∈ range n, ((‖lagSum L n s k‖ ^ 2 : ℝ) : ℂ) * rootPow n (-(d * k))
      = ∑ σ ∈ Finset.Icc (-(L : ℤ)) L, ∑ τ ∈ Finset.Icc (-(L : ℤ)) L, s τ * conj (s σ) * rootPow n ((τ - σ - d) * k) := by
    intro k _
    rw [← Complex.normSq_eq_norm_sq, ← Complex.mul_conj, lagSum_eq, map_sum, Finset.mul_sum, Finset.sum_mul]
    refine Finset.sum_congr rfl fun σ _ => ?_
    rw [Finset.sum_mul, Finset.sum_mul]
    refine Finset.sum_congr rfl fun τ _ => ?_
    rw [map_mul, conj_rootPow, show (τ - σ - d) * (k : ℤ) = τ * k + -(σ * k) + -(d * k) by ring, rootPow_add, rootPow_add]
    ring
  rw [Finset.sum_congr rfl e, Finset.sum_comm, Finset.mul_sum]
  refine Finset.sum_congr rfl fun σ hσ => ?_
  rw [Finset.mem_Icc] at hσ
  rw [Finset.sum_comm]
  have e2 : ∀ τ ∈ Finset.Icc (-(L : ℤ)) L, ∑ k ∈ range n, s τ * conj (s σ) * rootPow n ((τ - σ - d) * k)
      = if τ = σ + d then n * (s (σ + d) * conj (s σ)) else 0 := by
    intro τ hτ
    rw [Finset.mem_Icc] at hτ
    rw [← Finset.mul_sum, sum_rootPow hn0]
    by_cases ht : τ = σ + d
    · rw [if_pos ht, if_pos (by rw [ht]; simp), ht]
      ring
    · rw [if_neg ht, if_neg, mul_zero]
      intro hd
      have := Int.le_of_dvd (show 0 < |τ - σ - d| from abs_pos.2 (by omega)) ((dvd_abs _ _).2 hd)
      have h5 : |τ - σ - d| ≤ 4 * L := abs_le.2 ⟨by omega, by omega⟩
      omega
  rw [Finset.sum_congr rfl e2, Finset.sum_ite_eq']
  split
  · rfl
  · rename_i h
    rw [Finset.mem_Icc] at h
    rw [hs _ h]
    simp

/-- Equal spectrograms mean equal moduli of the windowed Fourier sums. -/
theorem spectro_same_iff (x y : Vec ℂ) (hlen : y.len = x.len) (ts : Vec ℤ) (n L : ℕ) (h : Vec ℂ) (hh : h.len = 2 * L + 1 ∨ h.len = 2 * L + 2)
    (hL : (L : ℤ) ≤ roundEven ((n : ℝ) / 2) - 1) (hw : WindowOk h n L x.len ts) (M M' : Mat ℝ) (hM : SpectroReturns x ts n h M)
    (hM' : SpectroReturns y ts n h M') :
    (∀ k < n, ∀ m < ts.len, M.get k m = M'.get k m) ↔
      ∀ k < n, ∀ m < ts.len, ‖windowedDft x h L n (ts.get m - 1) k‖ ^ 2 = ‖windowedDft y h L n (ts.get m - 1) k‖ ^ 2 := by
  have hn : n ≠ 0 := by
    rintro rfl
    rw [roundEven_half] at hL
    simp at hL
    omega
  obtain ⟨X, x1, -, -, x4⟩ := C31_closed_form x ts n L h hh hn hw
  obtain ⟨Y, y1, -, -, y4⟩ := C31_closed_form y ts n L h hh hn (by rw [hlen]; exact hw)
  obtain rfl : M = X := by
    obtain ⟨o, h1, h2⟩ := hM
    obtain ⟨o', h1', h2'⟩ := x1
    rw [h1] at h1'
    injection h1' with e
    rw [e, h2'] at h2
    injection h2 with h2
    exact h2.symm
  obtain rfl : M' = Y := by
    obtain ⟨o, h1, h2⟩ := hM'
    obtain ⟨o', h1', h2'⟩ := y1
    rw [h1] at h1'
    injection h1' with e
    rw [e, h2'] at h2
    injection h2 with h2
    exact h2.symm
  constructor
  · intro he k hk m hm
    rw [← seg_sum x h n L hL, ← seg_sum y h n L hL, ← (x4 k hk m hm).2, ← (y4 k hk m hm).2, he k hk m hm, hlen]
  · intro he k hk m hm
    obtain ⟨a1, a2⟩ := x4 k hk m hm
    obtain ⟨b1, b2⟩ := y4 k hk m hm
    rcases hw m hm with hW | hW
    · rw [seg_sum x h n L hL, he k hk m hm, ← seg_sum y h n L hL, ← b2, hlen] at a2
      exact mul_right_cancel₀ hW a2
    · rw [a1 hW, b1 (by rw [hlen]; exact hW)]

/-- Equal moduli at the centres where a product first enters the window give equal products, lag by lag. -/
theorem products_of_moduli (x y h : Vec ℂ) (L n : ℕ) (hn : 4 * L + 1 ≤ n) (d : ℤ) (hd0 : 0 ≤ d) (hd : d ≤ 2 * L) (hlen : y.len = x.len)
    (h1 : h.get (2 * L) ≠ 0) (h2 : h.get (2 * L - d.toNat) ≠ 0)
    (he : ∀ i : ℕ, (i : ℤ) + d < x.len → ∀ k < n, ‖windowedDft x h L n (i + d - L) k‖ ^ 2 = ‖windowedDft y h L n (i + d - L) k‖ ^ 2) (i : ℕ) :
    zext x (i + d) * conj (zext x i) = zext y (i + d) * conj (zext y i) := by
  induction i using Nat.strong_induction_on with
  | _ i ih =>
    by_cases hi : (i : ℤ) + d < x.len
    · have hn0 : (n : ℂ) ≠ 0 := by exact_mod_cast (by omega : n ≠ 0)
      have ex := sum_normSq_lagSum hn (seen x h L (i + d - L)) (fun _ => seen_out) hd0 hd
      have ey := sum_normSq_lagSum hn (seen y h L (i + d - L)) (fun _ => seen_out) hd0 hd
      have hsum : ∑ σ ∈ Finset.Icc (-(L : ℤ)) L, seen x h L (i + d - L) (σ + d) * conj (seen x h L (i + d - L) σ)
          = ∑ σ ∈ Finset.Icc (-(L : ℤ)) L, seen y h L (i + d - L) (σ + d) * conj (seen y h L (i + d - L) σ) := by
        apply mul_left_cancel₀ hn0
        rw [← ex, ← ey]
        refine Finset.sum_congr rfl fun k hk => ?_
        rw [← windowedDft_seen, ← windowedDft_seen, he i hi k (Finset.mem_range.1 hk)]
      have hmem : (L : ℤ) - d ∈ Finset.Icc (-(L : ℤ)) L := by rw [Finset.mem_Icc]; omega
      rw [← Finset.add_sum_erase _ _ hmem, ← Finset.add_sum_erase (Finset.Icc (-(L : ℤ)) L) (fun σ => seen y h L (i + d - L) (σ + d) * conj (seen y h L (i + d - L) σ)) hmem] at hsum
      have hrest : ∑ σ ∈ (Finset.Icc (-(L : ℤ)) L).erase (L - d), seen x h L (i + d - L) (σ + d) * conj (seen x h L (i + d - L) σ)
          = ∑ σ ∈ (Finset.Icc (-(L : ℤ)) L).erase (L - d), seen y h L (i + d - L) (σ + d) * conj (seen y h L (i + d - L) σ) := by
        refine Finset.sum_congr rfl fun σ hσ => ?_
        rw [Finset.mem_erase, Finset.mem_Icc] at hσ
        by_cases hσd : σ + d ≤ L
        · have hp : zext x (i + d - L + (σ + d)) * conj (zext x (i + d - L + σ)) = zext y (i + d - L + (σ + d)) * conj (zext y (i + d - L + σ)) := by
            by_cases hneg : (i : ℤ) + d - L + σ < 0
            · rw [zext_of_not_mem (x := x) (i := (i : ℤ) + d - L + σ) (by omega), zext_of_not_mem (x := y) (i := (i : ℤ) + d - L + σ) (by omega)]
              simp
            · have := ih ((i : ℤ) + d - L + σ).toNat (by omega)
              rw [Int.toNat_of_nonneg (by omega)] at this
              rw [show (i : ℤ) + d - L + (σ + d) = i + d - L + σ + d by ring]
              exact this
          unfold seen
          rw [map_mul, map_mul]
          linear_combination (conj (winAt h L (σ + d)) * conj (conj (winAt h L σ))) * hp
        · rw [seen_out (x := x) (τ := σ + d) (by omega), seen_out (x := y) (τ := σ + d) (by omega), zero_mul, zero_mul]
      rw [hrest] at hsum
      have hm := add_right_cancel hsum
      unfold seen at hm
      rw [show (L : ℤ) - d + d = L by ring, show (i : ℤ) + d - L + L = i + d by ring, show (i : ℤ) + d - L + (L - d) = i by ring, map_mul, map_mul] at hm
      have w1 : winAt h L L = h.get (2 * L) := by
        unfold winAt
        rw [if_pos (by omega)]
        congr 1
        omega
      have w2 : winAt h L (L - d) = h.get (2 * L - d.toNat) := by
        unfold winAt
        rw [if_pos (by omega)]
        congr 1
        omega
      rw [w1, w2, Complex.conj_conj] at hm
      have hc : conj (h.get (2 * L)) * h.get (2 * L - d.toNat) ≠ 0 := mul_ne_zero (by simpa using h1) h2
      apply mul_right_cancel₀ hc
      linear_combination hm
    · rw [zext_of_not_mem (x := x) (i := (i : ℤ) + d) (by omega), zext_of_not_mem (x := y) (i := (i : ℤ) + d) (by omega), zero_mul, zero_mul]

/-- Products at two consecutive lags tie all the samples together. -/
theorem phase_of_products (x y : ℕ → ℂ) (N L : ℕ) (hL : 1 ≤ L) (hN : 2 * L + 1 ≤ N) (hx : ∀ i < N, x i ≠ 0)
    (hp : ∀ d, d = L ∨ d = L + 1 → ∀ i, i + d < N → x (i + d) * conj (x i) = y (i + d) * conj (y i)) :
    ∃ α : ℂ, ‖α‖ = 1 ∧ ∀ i < N, y i = α * x i := by
  have hcx : ∀ i < N, conj (x i) ≠ 0 := fun i hi => by simpa using hx i hi
  have hy : ∀ i < N, y i ≠ 0 := by
    intro i hi h0
    by_cases hiL : i + L < N
    · have e := hp L (.inl rfl) i hiL
      rw [h0, map_zero, mul_zero] at e
      exact mul_ne_zero (hx _ hiL) (hcx _ hi) e
    · have e := hp L (.inl rfl) (i - L) (by omega)
      rw [show i - L + L = i by omega, h0, zero_mul] at e
      exact mul_ne_zero (hx _ hi) (hcx _ (by omega)) e
  have hcy : ∀ i < N, conj (y i) ≠ 0 := fun i hi => by simpa using hy i hi
  have step : ∀ j, j + 1 < N → y (j + 1) * x j = y j * x (j + 1) := by
    intro j hj
    by_cases hjL : L ≤ j
    · have e1 := hp L (.inl rfl) (j - L) (by omega)
      have e2 := hp (L + 1) (.inr rfl) (j - L) (by omega)
      rw [show j - L + L = j by omega] at e1
      rw [show j - L + (L + 1) = j + 1 by omega] at e2
      apply mul_right_cancel₀ (mul_ne_zero (hcx (j - L) (by omega)) (hcy (j - L) (by omega)))
      linear_combination (y (j + 1) * conj (y (j - L))) * e1 - (y j * conj (y (j - L))) * e2
    · have e1 := hp (L + 1) (.inr rfl) j (by omega)
      have e2 := hp L (.inl rfl) (j + 1) (by omega)
      rw [show j + 1 + L = j + (L + 1) by ring] at e2
      have e3 : conj (y (j + 1) * x j) = conj (y j * x (j + 1)) := by
        rw [map_mul, map_mul]
        apply mul_right_cancel₀ (mul_ne_zero (hx (j + (L + 1)) (by omega)) (hy (j + (L + 1)) (by omega)))
        linear_combination (conj (y (j + 1)) * y (j + (L + 1))) * e1 - (conj (y j) * y (j + (L + 1))) * e2
      exact (starRingEnd ℂ).injective e3
  have all : ∀ j, j < N → y j = y 0 / x 0 * x j := by
    intro j
    induction j with
    | zero => intro h; rw [div_mul_cancel₀ _ (hx 0 h)]
    | succ j ih =>
      intro hj
      have e := ih (by omega)
      have s := step j hj
      rw [e] at s
      apply mul_right_cancel₀ (hx j (by omega))
      linear_combination s
  refine ⟨y 0 / x 0, ?_, all⟩
  have e := congrArg norm (hp L (.inl rfl) 0 (by omega))
  rw [all (0 + L) (by omega), all 0 (by omega), div_mul_cancel₀ _ (hx 0 (by omega)), norm_mul, norm_mul, norm_mul, Complex.norm_conj, Complex.norm_conj] at e
  have hx0 : ‖x 0‖ ≠ 0 := norm_ne_zero_iff.2 (hx 0 (by omega))
  have hxL : ‖x (0 + L)‖ ≠ 0 := norm_ne_zero_iff.2 (hx _ (by omega))
  have e2 : ‖y 0 / x 0‖ * ‖x 0‖ = ‖y 0‖ := by rw [norm_div, div_mul_cancel₀ _ hx0]
  rw [← e2] at e
  have e3 : ‖y 0 / x 0‖ ^ 2 = 1 := by
    apply mul_right_cancel₀ (mul_ne_zero hxL hx0)
    linear_combination -e
  nlinarith [norm_nonneg (y 0 / x 0)]

/-- A signal without zero samples is determined by its spectrogram up to one constant phase factor. -/
theorem C113_spectrogram (x y : Vec ℂ) (hlen : y.len = x.len) (hx : ∀ i < x.len, x.get i ≠ 0) (ts : Vec ℤ) (n L : ℕ) (h : Vec ℂ)
    (hh : h.len = 2 * L + 1 ∨ h.len = 2 * L + 2) (hL : 1 ≤ L) (hn : 4 * L + 1 ≤ n) (hN : 2 * L + 1 ≤ x.len)
    (h0 : ∀ i ≤ 2 * L, h.get i ≠ 0) (hts : ∀ t : ℕ, 1 ≤ t → t + L ≤ x.len → ∃ m < ts.len, ts.get m = t)
    (hw : WindowOk h n L x.len ts) (M M' : Mat ℝ) (hM : SpectroReturns x ts n h M) (hM' : SpectroReturns y ts n h M') :
    (∀ k < n, ∀ m < ts.len, M.get k m = M'.get k m) ↔ ∃ α : ℂ, ‖α‖ = 1 ∧ ∀ i < x.len, y.get i = α * x.get i := by
  have hR : (L : ℤ) ≤ roundEven ((n : ℝ) / 2) - 1 := by
    rw [roundEven_half]
    split <;> omega
  rw [spectro_same_iff x y hlen ts n L h hh hR hw M M' hM hM']
  constructor
  · intro he
    refine phase_of_products x.get y.get x.len L hL hN hx fun d hd i hi => ?_
    have key := products_of_moduli x y h L n hn d (by omega) (by omega) hlen (h0 _ (by omega)) (h0 _ (by omega)) (fun j hj k hk => by
      obtain ⟨m, hm, e⟩ := hts (j + d + 1 - L) (by omega) (by omega)
      have := he k hk m hm
      rw [e] at this
      rw [show (j : ℤ) + d - L = ((j + d + 1 - L : ℕ) : ℤ) - 1 by omega]
      exact this) i
    rw [zext_of_mem (by omega) (by omega), zext_of_mem (by omega) (by omega), zext_of_mem (by omega) (by omega), zext_of_mem (by omega) (by omega)] at key
    rw [show ((i : ℤ) + d).toNat = i + d by omega, Int.toNat_natCast] at key
    exact key
  · rintro ⟨α, hα, hy⟩ k _ m _
    have e : windowedDft y h L n (ts.get m - 1) k = α * windowedDft x h L n (ts.get m - 1) k := by
      unfold windowedDft
      rw [Finset.mul_sum]
      refine Finset.sum_congr rfl fun τ _ => ?_
      by_cases hi : 0 ≤ ts.get m - 1 + τ ∧ ts.get m - 1 + τ < x.len
      · rw [zext_of_mem hi.1 (by omega), zext_of_mem hi.1 hi.2, hy _ (by omega)]
        ring
      · rw [zext_of_not_mem hi, zext_of_not_mem (by omega)]
        ring
    rw [e, norm_mul, hα, one_mul]

/-- Default arguments: from eight samples on, the spectrogram of a signal without zero samples determines it up to one constant phase factor. -/
theorem C113_default (x y : Vec ℂ) (h8 : 8 ≤ x.len) (hlen : y.len = x.len) (hx : ∀ i < x.len, x.get i ≠ 0) (o o' : TFR ℤ) (M M' : Mat ℝ)
    (ho : spectroRun (TFR.initDefault makeWindow x) = .ok o) (ho' : spectroRun (TFR.initDefault makeWindow y) = .ok o') (hM : o.tfr = .real M) (hM' : o'.tfr = .real M') :
    (∀ k < x.len, ∀ m < x.len, M.get k m = M'.get k m) ↔ ∃ α : ℂ, ‖α‖ = 1 ∧ ∀ i < x.len, y.get i = α * x.get i := by
  obtain ⟨L, w1, w2, w3, -⟩ := C27_default_window x (arange 0 x.len) x.len (by omega)
  have hlw : (makeWindow x.len).len = x.len / 4 + (1 - x.len / 4 % 2) := rfl
  have hts : (arange 0 (x.len : ℤ)).len = x.len := by rw [arange_len]; simp
  have hLe : (makeWindow x.len).len / 2 = L := by omega
  have hw := (C30_default_window x.len x.len (arange 0 x.len)).2
  rw [hLe] at hw
  have key := C113_spectrogram x y hlen hx (arange 0 x.len) x.len L (makeWindow x.len) (.inl w1) (by omega) (by omega) (by omega)
    (fun i hi => by
      rw [w3 i (by omega)]
      exact_mod_cast (hamming_pos _ _).ne')
    (fun t h1 h2 => ⟨t, by omega, by simp [arange]⟩) hw M M' ⟨o, ho, hM⟩ ⟨o', by
      unfold TFR.initDefault at ho'
      rw [hlen] at ho'
      exact ho', hM'⟩
  rw [hts] at key
  exact key

/-- Across a silence as long as the window less one sample the phase is lost: multiplying everything after it by a phase factor leaves the spectrogram unchanged. -/
theorem C113_spectrogram_gap (x y : Vec ℂ) (hlen : y.len = x.len) (ts : Vec ℤ) (n L p : ℕ) (h : Vec ℂ) (hh : h.len = 2 * L + 1 ∨ h.len = 2 * L + 2)
    (hL : (L : ℤ) ≤ roundEven ((n : ℝ) / 2) - 1) (hw : WindowOk h n L x.len ts) (hgap : ∀ i < x.len, p ≤ i → i < p + 2 * L → x.get i = 0) (α : ℂ) (hα : ‖α‖ = 1)
    (hy : ∀ i < x.len, y.get i = if i < p then x.get i else α * x.get i) (M M' : Mat ℝ) (hM : SpectroReturns x ts n h M) (hM' : SpectroReturns y ts n h M') :
    ∀ k < n, ∀ m < ts.len, M.get k m = M'.get k m := by
  rw [spectro_same_iff x y hlen ts n L h hh hL hw M M' hM hM']
  intro k _ m _
  generalize ts.get m - 1 = c
  by_cases hc : c - L < p
  · have e : windowedDft y h L n c k = windowedDft x h L n c k := by
      unfold windowedDft
      refine Finset.sum_congr rfl fun τ hτ => ?_
      rw [Finset.mem_Icc] at hτ
      by_cases hi : 0 ≤ c + τ ∧ c + τ < x.len
      · rw [zext_of_mem hi.1 (by omega), zext_of_mem hi.1 hi.2, hy _ (by omega)]
        split
        · rfl
        · rw [hgap (c + τ).toNat (by omega) (by omega) (by omega), mul_zero]
      · rw [zext_of_not_mem hi, zext_of_not_mem (by omega)]
    rw [e]
  · have e : windowedDft y h L n c k = α * windowedDft x h L n c k := by
      unfold windowedDft
      rw [Finset.mul_sum]
      refine Finset.sum_congr rfl fun τ hτ => ?_
      rw [Finset.mem_Icc] at hτ
      by_cases hi : 0 ≤ c + τ ∧ c + τ < x.len
      · rw [zext_of_mem hi.1 (by omega), zext_of_mem hi.1 hi.2, hy _ (by omega), if_neg (by omega)]
        ring
      · rw [zext_of_not_mem hi, zext_of_not_mem (by omega)]
        ring
    rw [e, norm_mul, hα, one_mul]

/-- The pseudo Wigner-Ville distribution (Hermitian window with non-zero samples around the middle) of a signal without zero samples tells exactly as much as the Wigner-Ville
distribution: the signal up to one phase factor for the even and one for the odd samples. -/
theorem C113_pwvd {τ : Type} (x y : Vec ℂ) (hlen : y.len = x.len) (hx : ∀ i < x.len, x.get i ≠ 0) (hx1 : 1 ≤ x.len) (ts : Vec τ) (hts : ts.len = x.len) (n L : ℕ) (h : Vec ℂ)
    (hh : h.len = 2 * L + 1) (hL : 1 ≤ L) (hLn : (L : ℤ) < roundEven ((n : ℝ) / 2)) (hsym : ∀ i ≤ 2 * L, h.get (2 * L - i) = conj (h.get i)) (h0 : h.get L ≠ 0) (h1 : h.get (L + 1) ≠ 0)
    (M M' : Mat ℝ) (hM : PwvdReturns x ts n (some h) M) (hM' : PwvdReturns y ts n (some h) M') :
    (∀ k < n, ∀ t < x.len, M.get k t = M'.get k t) ↔ SameWvd x y := by
  have h2L : 2 * (L : ℤ) + 1 ≤ n := by
    rw [roundEven_half] at hLn
    split at hLn <;> omega
  have hn : n ≠ 0 := by omega
  have hX := C36_real x ts n h L hh hLn hsym M hM
  have hY := C36_real y ts n h L hh hLn hsym M' hM'
  rw [hts] at hX hY
  constructor
  · intro he
    have hn0 : (n : ℂ) ≠ 0 := by exact_mod_cast hn
    have hprod : ∀ t < x.len, ∀ σ : ℤ, (σ = 0 ∨ σ = 1) → wignerKernel y t σ = wignerKernel x t σ := by
      intro t ht σ hσ
      have ex := lagSum_inv hn h2L (fun τ => h.get ((L : ℤ) + τ).toNat * wignerKernel x t τ) (σ := σ) (by omega) (by omega)
      have ey := lagSum_inv hn h2L (fun τ => h.get ((L : ℤ) + τ).toNat * wignerKernel y t τ) (σ := σ) (by omega) (by omega)
      have es : ∑ k ∈ range n, lagSum L n (fun τ => h.get ((L : ℤ) + τ).toNat * wignerKernel x t τ) k * rootPow n (-(σ * k))
          = ∑ k ∈ range n, lagSum L n (fun τ => h.get ((L : ℤ) + τ).toNat * wignerKernel y t τ) k * rootPow n (-(σ * k)) := by
        refine Finset.sum_congr rfl fun k hk => ?_
        have hk := Finset.mem_range.1 hk
        have a := hX k hk t ht
        have b := hY k hk t ht
        rw [← he k hk t ht] at b
        rw [← a, ← b]
      rw [ex, ey] at es
      have e := mul_left_cancel₀ hn0 es
      have hne : h.get ((L : ℤ) + σ).toNat ≠ 0 := by
        rcases hσ with rfl | rfl
        · rwa [show ((L : ℤ) + 0).toNat = L by omega]
        · rwa [show ((L : ℤ) + 1).toNat = L + 1 by omega]
      exact (mul_left_cancel₀ hne e).symm
    have hmod : ∀ i < x.len, y.get i * conj (y.get i) = x.get i * conj (x.get i) := by
      intro i hi
      have e := hprod i hi 0 (.inl rfl)
      unfold wignerKernel at e
      rw [add_zero, sub_zero, zext_of_mem (by omega) (by omega), zext_of_mem (by omega) (by omega), Int.toNat_natCast] at e
      exact e
    have hstep : ∀ i, i + 2 < x.len → y.get (i + 2) * conj (y.get i) = x.get (i + 2) * conj (x.get i) := by
      intro i hi
      have e := hprod (i + 1) (by omega) 1 (.inr rfl)
      unfold wignerKernel at e
      rw [zext_of_mem (by omega) (by omega), zext_of_mem (by omega) (by omega), zext_of_mem (by omega) (by omega), zext_of_mem (by omega) (by omega),
        show ((((i + 1 : ℕ) : ℤ)) + 1).toNat = i + 2 by omega, show ((((i + 1 : ℕ) : ℤ)) - 1).toNat = i by omega] at e
      exact e
    have hphase : ∀ i < x.len, y.get i = y.get (i % 2) / x.get (i % 2) * x.get i := by
      intro i
      induction i using Nat.strong_induction_on with
      | _ i ih =>
        intro hi
        by_cases h2 : i < 2
        · rw [Nat.mod_eq_of_lt h2, div_mul_cancel₀ _ (hx i hi)]
        · obtain ⟨j, rfl⟩ : ∃ j, i = j + 2 := ⟨i - 2, by omega⟩
          have e := ih j (by omega) (by omega)
          rw [show (j + 2) % 2 = j % 2 by omega]
          have s := hstep j hi
          have m := hmod j (by omega)
          have hyj : conj (y.get j) ≠ 0 := by
            intro h0
            rw [h0, mul_zero] at m
            exact mul_ne_zero (hx j (by omega)) (by simpa using hx j (by omega)) m.symm
          apply mul_right_cancel₀ (mul_ne_zero hyj (hx j (by omega)))
          rw [show y.get (j % 2) / x.get (j % 2) * x.get (j + 2) * (conj (y.get j) * x.get j) = (y.get (j % 2) / x.get (j % 2) * x.get j) * conj (y.get j) * x.get (j + 2) by ring, ← e, m]
          linear_combination (x.get j) * s
    have hker : ∀ t σ : ℤ, wignerKernel y t σ = wignerKernel x t σ := by
      intro t σ
      unfold wignerKernel
      by_cases ha : 0 ≤ t + σ ∧ t + σ < x.len
      · by_cases hb : 0 ≤ t - σ ∧ t - σ < x.len
        · rw [zext_of_mem ha.1 (by omega), zext_of_mem ha.1 ha.2, zext_of_mem hb.1 (by omega), zext_of_mem hb.1 hb.2, hphase _ (show (t + σ).toNat < x.len by omega),
            hphase _ (show (t - σ).toNat < x.len by omega), show (t + σ).toNat % 2 = (t - σ).toNat % 2 by omega]
          set q := (t - σ).toNat % 2 with hq
          have hqx : q < x.len := by
            have := Nat.mod_le (t - σ).toNat 2
            omega
          have m := hmod q hqx
          have hu : y.get q / x.get q * conj (y.get q / x.get q) = 1 := by
            have hcx : conj (x.get q) ≠ 0 := by simpa using hx q hqx
            rw [map_div₀, div_mul_div_comm, m, div_self (mul_ne_zero (hx q hqx) hcx)]
          rw [map_mul]
          linear_combination (x.get (t + σ).toNat * conj (x.get (t - σ).toNat)) * hu
        · rw [zext_of_not_mem (x := y) (i := t - σ) (by omega), zext_of_not_mem (x := x) (i := t - σ) (by omega)]
          simp
      · rw [zext_of_not_mem (x := y) (i := t + σ) (by omega), zext_of_not_mem (x := x) (i := t + σ) (by omega)]
        simp
    exact sameWvd_of_kernel hx1 hlen hker
  · intro hs k hk t ht
    apply Complex.ofReal_injective
    rw [hX k hk t ht, hY k hk t ht]
    exact lagSum_congr (fun σ _ _ => by rw [hs.kernel]) _

/-- Across a silence as long as the window less one sample the pseudo Wigner-Ville distribution loses the phase too, whatever the window. -/
theorem C113_pwvd_gap {τ : Type} (x y : Vec ℂ) (hlen : y.len = x.len) (ts : Vec τ) (n L p : ℕ) (h : Vec ℂ) (hh : h.len = 2 * L + 1) (hLn : (L : ℤ) < roundEven ((n : ℝ) / 2))
    (hgap : ∀ i < x.len, p ≤ i → i < p + 2 * L → x.get i = 0) (α : ℂ) (hα : ‖α‖ = 1) (hy : ∀ i < x.len, y.get i = if i < p then x.get i else α * x.get i)
    (M M' : Mat ℝ) (hM : PwvdReturns x ts n (some h) M) (hM' : PwvdReturns y ts n (some h) M') : ∀ k < n, ∀ t < ts.len, M.get k t = M'.get k t := by
  obtain ⟨X, x1, -, -, x4⟩ := C36_pwvd x ts n h L hh hLn
  obtain ⟨Y, y1, -, -, y4⟩ := C36_pwvd y ts n h L hh hLn
  obtain rfl := pwvd_unique hM x1
  obtain rfl := pwvd_unique hM' y1
  intro k hk t ht
  rw [x4 k hk t ht, y4 k hk t ht]
  congr 1
  refine lagSum_congr (fun σ h1 h2 => ?_) _
  congr 1
  have hu : α * conj α = 1 := by
    rw [Complex.mul_conj, Complex.normSq_eq_norm_sq, hα]
    simp
  unfold wignerKernel
  by_cases ha : 0 ≤ (t : ℤ) + σ ∧ (t : ℤ) + σ < x.len
  · by_cases hb : 0 ≤ (t : ℤ) - σ ∧ (t : ℤ) - σ < x.len
    · rw [zext_of_mem (x := y) ha.1 (by omega), zext_of_mem ha.1 ha.2, zext_of_mem (x := y) hb.1 (by omega), zext_of_mem hb.1 hb.2, hy _ (by omega), hy _ (by omega)]
      by_cases c1 : ((t : ℤ) + σ).toNat < p
      · by_cases c2 : ((t : ℤ) - σ).toNat < p
        · rw [if_pos c1, if_pos c2]
        · rw [if_pos c1, if_neg c2, hgap ((t : ℤ) - σ).toNat (by omega) (by omega) (by omega)]
          simp
      · by_cases c2 : ((t : ℤ) - σ).toNat < p
        · rw [if_neg c1, if_pos c2, hgap ((t : ℤ) + σ).toNat (by omega) (by omega) (by omega)]
          simp
        · rw [if_neg c1, if_neg c2, map_mul]
          linear_combination (-(x.get ((t : ℤ) + σ).toNat * conj (x.get ((t : ℤ) - σ).toNat))) * hu
    · rw [zext_of_not_mem (x := y) (i := (t : ℤ) - σ) (by omega), zext_of_not_mem (x := x) (i := (t : ℤ) - σ) (by omega)]
      simp
  · rw [zext_of_not_mem (x := y) (i := (t : ℤ) + σ) (by omega), zext_of_not_mem (x := x) (i := (t : ℤ) + σ) (by omega)]
    simp

/-! ## Concrete cases -/

/-- Every spectrogram with default arguments exists. -/
theorem spectro_default_returns (x : Vec ℂ) (hx : 1 ≤ x.len) : ∃ o M, spectroRun (TFR.initDefault makeWindow x) = .ok o ∧ o.tfr = .real M := by
  obtain ⟨w1, w2⟩ := C30_default_window x.len x.len (arange 0 x.len)
  obtain ⟨M, ⟨o, h1, h2⟩, -, -, -⟩ := C31_closed_form x (arange 0 x.len) x.len _ (makeWindow x.len) (.inl w1) (by omega) w2
  exact ⟨o, M, h1, h2⟩

/-- Eight equal samples and eight samples of alternating sign have the same Wigner-Ville distribution, but different spectrograms. -/
example : SameWvd ⟨8, fun _ => 1⟩ ⟨8, fun i => if i % 2 = 0 then 1 else -1⟩ ∧
    ∃ o o' M M', spectroRun (TFR.initDefault makeWindow ⟨8, fun _ => 1⟩) = .ok o ∧
      spectroRun (TFR.initDefault makeWindow ⟨8, fun i => if i % 2 = 0 then 1 else -1⟩) = .ok o' ∧ o.tfr = .real M ∧ o'.tfr = .real M' ∧
      ∃ k < 8, ∃ m < 8, M.get k m ≠ M'.get k m := by
  constructor
  · refine sameWvd_of_kernel (by norm_num) rfl fun t σ => ?_
    unfold wignerKernel
    by_cases ha : 0 ≤ t + σ ∧ t + σ < 8
    · by_cases hb : 0 ≤ t - σ ∧ t - σ < 8
      · rw [zext_of_mem ha.1 (by exact ha.2), zext_of_mem ha.1 (by exact ha.2), zext_of_mem hb.1 (by exact hb.2), zext_of_mem hb.1 (by exact hb.2)]
        dsimp only
        rw [show (t + σ).toNat % 2 = (t - σ).toNat % 2 by omega]
        split <;> simp
      · rw [zext_of_not_mem (i := t - σ) (by exact hb), zext_of_not_mem (i := t - σ) (by exact hb)]
        simp
    · rw [zext_of_not_mem (i := t + σ) (by exact ha), zext_of_not_mem (i := t + σ) (by exact ha)]
      simp
  · obtain ⟨o, M, h1, h2⟩ := spectro_default_returns ⟨8, fun _ => 1⟩ (by norm_num)
    obtain ⟨o', M', h1', h2'⟩ := spectro_default_returns ⟨8, fun i => if i % 2 = 0 then 1 else -1⟩ (by norm_num)
    refine ⟨o, o', M, M', h1, h1', h2, h2', ?_⟩
    by_contra hcon
    push Not at hcon
    obtain ⟨α, -, e⟩ := (C113_default ⟨8, fun _ => 1⟩ ⟨8, fun i => if i % 2 = 0 then 1 else -1⟩ (by norm_num) rfl (fun i _ => one_ne_zero) o o' M M' h1 h1' h2 h2').1 hcon
    have e0 := e 0 (by norm_num)
    have e1 := e 1 (by norm_num)
    norm_num at e0 e1
    rw [← e0] at e1
    norm_num at e1

/-- Two impulses three samples apart: the spectrogram with default arguments (eight samples, window of three) does not see the sign of the second. -/
example : ∃ o o' M M', spectroRun (TFR.initDefault makeWindow ⟨8, fun i => if i = 0 ∨ i = 3 then 1 else 0⟩) = .ok o ∧
    spectroRun (TFR.initDefault makeWindow ⟨8, fun i => if i = 0 then 1 else if i = 3 then -1 else 0⟩) = .ok o' ∧ o.tfr = .real M ∧ o'.tfr = .real M' ∧
    ∀ k < 8, ∀ m < 8, M.get k m = M'.get k m := by
  obtain ⟨o, M, h1, h2⟩ := spectro_default_returns ⟨8, fun i => if i = 0 ∨ i = 3 then 1 else 0⟩ (by norm_num)
  obtain ⟨o', M', h1', h2'⟩ := spectro_default_returns ⟨8, fun i => if i = 0 then 1 else if i = 3 then -1 else 0⟩ (by norm_num)
  have hl : (makeWindow 8).len = 3 := rfl
  have hw := (C30_default_window 8 8 (arange 0 8)).2
  rw [hl] at hw
  have key := C113_spectrogram_gap ⟨8, fun i => if i = 0 ∨ i = 3 then 1 else 0⟩ ⟨8, fun i => if i = 0 then 1 else if i = 3 then -1 else 0⟩ rfl (arange 0 8) 8 1 1 (makeWindow 8)
    (.inl hl) (by rw [roundEven_half]; norm_num) hw (fun i _ h1 h2 => by exact if_neg (by omega)) (-1) (by simp) (fun i _ => by
      dsimp only
      by_cases h0 : i = 0
      · subst h0; simp
      · by_cases h3 : i = 3
        · subst h3; norm_num
        · rw [if_neg h0, if_neg h3, if_neg (by omega : ¬ (i = 0 ∨ i = 3))]
          simp) M M' ⟨o, h1, h2⟩ ⟨o', h1', h2'⟩
  refine ⟨o, o', M, M', h1, h1', h2, h2', fun k hk m hm => key k hk m (by rw [arange_len]; exact hm)⟩

/-- Two impulses four samples apart, and the same with the second one negated, have the same pseudo Wigner-Ville distribution with a window of three samples, and different Wigner-Ville distributions. -/
example : ¬ SameWvd ⟨8, fun i => if i = 0 ∨ i = 4 then 1 else 0⟩ ⟨8, fun i => if i = 0 then 1 else if i = 4 then -1 else 0⟩ ∧
    ∃ M M', PwvdReturns ⟨8, fun i => if i = 0 ∨ i = 4 then 1 else 0⟩ (arange 0 8) 8 (some ⟨3, fun _ => 1⟩) M ∧
      PwvdReturns ⟨8, fun i => if i = 0 then 1 else if i = 4 then -1 else 0⟩ (arange 0 8) 8 (some ⟨3, fun _ => 1⟩) M' ∧ ∀ k < 8, ∀ t < 8, M.get k t = M'.get k t := by
  constructor
  · intro hs
    have e := hs.kernel 2 2
    unfold wignerKernel zext at e
    norm_num at e
    rw [show Int.toNat 4 = 4 from rfl] at e
    norm_num at e
  · have hr : ((1 : ℕ) : ℤ) < roundEven (((8 : ℕ) : ℝ) / 2) := by rw [roundEven_half]; norm_num
    obtain ⟨M, m1, -, -, -⟩ := C36_pwvd ⟨8, fun i => if i = 0 ∨ i = 4 then 1 else 0⟩ (arange 0 8) 8 ⟨3, fun _ => 1⟩ 1 rfl hr
    obtain ⟨M', m1', -, -, -⟩ := C36_pwvd ⟨8, fun i => if i = 0 then 1 else if i = 4 then -1 else 0⟩ (arange 0 8) 8 ⟨3, fun _ => 1⟩ 1 rfl hr
    refine ⟨M, M', m1, m1', ?_⟩
    have key := C113_pwvd_gap ⟨8, fun i => if i = 0 ∨ i = 4 then 1 else 0⟩ ⟨8, fun i => if i = 0 then 1 else if i = 4 then -1 else 0⟩ rfl (arange 0 8) 8 1 1 ⟨3, fun _ => 1⟩ rfl hr
      (fun i _ h1 h2 => by exact if_neg (by omega)) (-1) (by simp) (fun i _ => by
        dsimp only
        by_cases h0 : i = 0
        · subst h0; simp
        · by_cases h3 : i = 4
          · subst h3; norm_num
          · rw [if_neg h0, if_neg h3, if_neg (by omega : ¬ (i = 0 ∨ i = 4))]
            simp) M M' m1 m1'
    exact fun k hk t ht => key k hk t (by rw [arange_len]; exact ht)

/-- Without silences the pseudo Wigner-Ville distribution does see a sign: eight equal samples, and the same with sample 2 negated. -/
example : ∃ M M', PwvdReturns ⟨8, fun _ => 1⟩ (arange 0 8) 8 (some ⟨3, fun _ => 1⟩) M ∧
    PwvdReturns ⟨8, fun i => if i = 2 then -1 else 1⟩ (arange 0 8) 8 (some ⟨3, fun _ => 1⟩) M' ∧ ∃ k < 8, ∃ t < 8, M.get k t ≠ M'.get k t := by
  have hr : ((1 : ℕ) : ℤ) < roundEven (((8 : ℕ) : ℝ) / 2) := by rw [roundEven_half]; norm_num
  obtain ⟨M, m1, -, -, -⟩ := C36_pwvd ⟨8, fun _ => 1⟩ (arange 0 8) 8 ⟨3, fun _ => 1⟩ 1 rfl hr
  obtain ⟨M', m1', -, -, -⟩ := C36_pwvd ⟨8, fun i => if i = 2 then -1 else 1⟩ (arange 0 8) 8 ⟨3, fun _ => 1⟩ 1 rfl hr
  refine ⟨M, M', m1, m1', ?_⟩
  by_contra hcon
  push Not at hcon
  have hs := (C113_pwvd ⟨8, fun _ => 1⟩ ⟨8, fun i => if i = 2 then -1 else 1⟩ rfl (fun _ _ => one_ne_zero) (by norm_num) (arange 0 8) (by rw [arange_len]; rfl) 8 1 ⟨3, fun _ => 1⟩ rfl
    le_rfl hr (fun i _ => by simp) one_ne_zero one_ne_zero M M' m1 m1').1 hcon
  have e := hs.kernel 1 1
  unfold wignerKernel zext at e
  norm_num at e
  rw [show Int.toNat 2 = 2 from rfl] at e
  norm_num at e

end Tftb.Props
