import Verif.Props.Spwv
import Verif.Props.Ambiguity
import Verif.Props.Stft

/-! # C92 The number of frequency bins only chooses at which frequencies the representation is sampled

Two computations of the same representation with `n` and `n'` bins agree on rows of the same frequency, `k / n = k' / n'`
(written `k * n' = k' * n`), as soon as both numbers of bins admit the window (or the signal, where there is no window).
-/

namespace Tftb.Props

open Tftb Tftb.Spec Tftb.Linear Tftb.Cohen Finset ComplexConjugate

theorem bin_ratio {n n' k k' : ℕ} (hn : n ≠ 0) (hn' : n' ≠ 0) (h : k * n' = k' * n) (a : ℝ) :
    (k : ℝ) * a / n = (k' : ℝ) * a / n' := by
  have h1 : (n : ℝ) ≠ 0 := Nat.cast_ne_zero.2 hn
  have h2 : (n' : ℝ) ≠ 0 := Nat.cast_ne_zero.2 hn'
  have h3 : (k : ℝ) * n' = k' * n := by exact_mod_cast h
  rw [div_eq_div_iff h1 h2]
  linear_combination a * h3

theorem lagSum_ratio {R : ℤ} {n n' k k' : ℕ} (hn : n ≠ 0) (hn' : n' ≠ 0) (h : k * n' = k' * n) (v : ℤ → ℂ) :
    lagSum R n v k = lagSum R n' v k' := by
  unfold lagSum
  refine Finset.sum_congr rfl (fun τ _ => ?_)
  rw [Int.cast_natCast, Int.cast_natCast, bin_ratio hn hn' h]

/-- Short-time Fourier transform. -/
theorem C92_stft {τ : Type} (x : Vec ℂ) (ts : Vec τ) (n n' L : ℕ) (h : Vec ℂ) (hh : h.len = 2 * L + 1 ∨ h.len = 2 * L + 2)
    (hL : 2 * L < n) (hL' : 2 * L < n') :
    ∃ X Y : Mat ℂ, stftOf x ts n (some h) = .ok X ∧ stftOf x ts n' (some h) = .ok Y ∧
      ∀ k < n, ∀ k' < n', k * n' = k' * n → ∀ m < ts.len, Y.get k' m = X.get k m := by
  obtain ⟨X, x1, -, -, x4⟩ := C27_stft x ts n L h hh hL
  obtain ⟨Y, y1, -, -, y4⟩ := C27_stft x ts n' L h hh hL'
  refine ⟨X, Y, x1, y1, fun k hk k' hk' e m hm => ?_⟩
  rw [x4 k hk m hm, y4 k' hk' m hm]
  unfold windowedDft
  refine Finset.sum_congr rfl (fun τ _ => ?_)
  rw [bin_ratio (by omega) (by omega) e]

/-- Spectrogram, window within both limits. -/
theorem C92_spectrogram (x : Vec ℂ) (ts : Vec ℤ) (n n' L : ℕ) (h : Vec ℂ) (hh : h.len = 2 * L + 1 ∨ h.len = 2 * L + 2)
    (hL : (L : ℤ) < roundEven ((n : ℝ) / 2)) (hL' : (L : ℤ) < roundEven ((n' : ℝ) / 2)) (hw : WindowOk h n L x.len ts) :
    ∃ X Y, SpectroReturns x ts n h X ∧ SpectroReturns x ts n' h Y ∧
      ∀ k < n, ∀ k' < n', k * n' = k' * n → ∀ m < ts.len, Y.get k' m = X.get k m := by
  have hn : n ≠ 0 := by rintro rfl; rw [roundEven_half] at hL; simp at hL; omega
  have hn' : n' ≠ 0 := by rintro rfl; rw [roundEven_half] at hL'; simp at hL'; omega
  have e1 : min (roundEven ((n : ℝ) / 2) - 1) (L : ℤ) = L := by omega
  have e2 : min (roundEven ((n' : ℝ) / 2) - 1) (L : ℤ) = L := by omega
  have hw' : WindowOk h n' L x.len ts := by
    unfold WindowOk windowEnergy at hw ⊢
    rw [e2]; rw [e1] at hw
    exact hw
  obtain ⟨X, x1, -, -, x4⟩ := C31_closed_form x ts n L h hh hn hw
  obtain ⟨Y, y1, -, -, y4⟩ := C31_closed_form x ts n' L h hh hn' hw'
  refine ⟨X, Y, x1, y1, fun k hk k' hk' e m hm => ?_⟩
  obtain ⟨x5, x6⟩ := x4 k hk m hm
  obtain ⟨y5, y6⟩ := y4 k' hk' m hm
  have h0 := hw m hm
  unfold windowEnergy at x6 y6 h0
  rw [e1] at x5 x6 h0
  rw [e2] at y5 y6
  rcases h0 with h0 | h0
  · apply mul_right_cancel₀ h0
    rw [x6, y6]
    congr 2
    refine Finset.sum_congr rfl (fun τ _ => ?_)
    rw [bin_ratio hn hn' e]
  · rw [x5 h0, y5 h0]

theorem wigner_lags {x : Vec ℂ} {t τ : ℤ} (h : (x.len : ℤ) ≤ 2 * |τ|) : wignerKernel x t τ = 0 :=
  wignerKernel_zero (by omega)

/-- Wigner-Ville, at least as many bins as samples (up to the rounding of half of the bins). -/
theorem C92_wvd {τ : Type} (x : Vec ℂ) (ts : Vec τ) (n n' : ℕ) (hts : ts.len = x.len)
    (hN : (x.len : ℤ) ≤ 2 * roundEven ((n : ℝ) / 2)) (hN' : (x.len : ℤ) ≤ 2 * roundEven ((n' : ℝ) / 2)) (hn : n ≠ 0) (hn' : n' ≠ 0) :
    ∃ X Y, WvdReturns x ts n X ∧ WvdReturns x ts n' Y ∧
      ∀ k < n, ∀ k' < n', k * n' = k' * n → ∀ m < x.len, Y.get k' m = X.get k m := by
  obtain ⟨X, x1, -, -, x4⟩ := C33_wvd x ts n hn hts (Or.inl hN)
  obtain ⟨Y, y1, -, -, y4⟩ := C33_wvd x ts n' hn' hts (Or.inl hN')
  refine ⟨X, Y, x1, y1, fun k hk k' hk' e m hm => ?_⟩
  have hx := x4 k hk m hm
  have hy := y4 k' hk' m hm
  rw [lagSum_ratio hn hn' e] at hx
  have hz : ∀ T : ℤ, (x.len : ℤ) ≤ 2 * T → ∀ τ, ¬ (-(T - 1) ≤ τ ∧ τ ≤ T - 1) → wignerKernel x m τ = 0 := by
    intro T hT τ hτ
    apply wigner_lags
    have := abs_lt (a := τ) (b := T)
    omega
  have : lagSum (roundEven ((n : ℝ) / 2) - 1) n' (wignerKernel x m) k' = lagSum (roundEven ((n' : ℝ) / 2) - 1) n' (wignerKernel x m) k' := by
    rcases le_total (roundEven ((n : ℝ) / 2) - 1) (roundEven ((n' : ℝ) / 2) - 1) with h | h
    · exact lagSum_extend h _ (fun τ _ _ => hz _ hN τ)
    · exact (lagSum_extend h _ (fun τ _ _ => hz _ hN' τ)).symm
  rw [this, ← hy] at hx
  exact_mod_cast hx.symm

/-- Pseudo Wigner-Ville. -/
theorem C92_pwvd {τ : Type} (x : Vec ℂ) (ts : Vec τ) (n n' : ℕ) (h : Vec ℂ) (L : ℕ) (hh : h.len = 2 * L + 1)
    (hL : (L : ℤ) < roundEven ((n : ℝ) / 2)) (hL' : (L : ℤ) < roundEven ((n' : ℝ) / 2)) :
    ∃ X Y, PwvdReturns x ts n (some h) X ∧ PwvdReturns x ts n' (some h) Y ∧
      ∀ k < n, ∀ k' < n', k * n' = k' * n → ∀ m < ts.len, Y.get k' m = X.get k m := by
  obtain ⟨X, x1, -, -, x4⟩ := C36_pwvd x ts n h L hh hL
  obtain ⟨Y, y1, -, -, y4⟩ := C36_pwvd x ts n' h L hh hL'
  refine ⟨X, Y, x1, y1, fun k hk k' hk' e m hm => ?_⟩
  rw [x4 k hk m hm, y4 k' hk' m hm, lagSum_ratio (by omega) (by omega) e]

/-- Smoothed pseudo Wigner-Ville. -/
theorem C92_spwv (x tw fw : Vec ℂ) (ts : Vec ℤ) (n n' Lg Lh : ℕ) (hg : tw.len = 2 * Lg + 1) (hh : fw.len = 2 * Lh + 1)
    (hfin : ∀ c < ts.len, ∀ τ : ℕ, (smoothSeg Lg x.len (ts.get c - 1) τ).Nonempty → smoothMass tw Lg x.len (ts.get c - 1) τ ≠ 0)
    (hL : (Lh : ℤ) < roundEven ((n : ℝ) / 2)) (hL' : (Lh : ℤ) < roundEven ((n' : ℝ) / 2)) :
    ∃ X Y, spwv x (some ts) (some n) (some tw) (some fw) = .ok X ∧ spwv x (some ts) (some n') (some tw) (some fw) = .ok Y ∧
      ∀ k < n, ∀ k' < n', k * n' = k' * n → ∀ m < ts.len, Y.get k' m = X.get k m := by
  have hn : n ≠ 0 := by rintro rfl; rw [roundEven_half] at hL; simp at hL; omega
  have hn' : n' ≠ 0 := by rintro rfl; rw [roundEven_half] at hL'; simp at hL'; omega
  obtain ⟨X, x1, -, -, x4⟩ := C37_closed_form x tw fw ts n Lg Lh hn hg hh hfin (fun _ _ => Or.inl hL)
  obtain ⟨Y, y1, -, -, y4⟩ := C37_closed_form x tw fw ts n' Lg Lh hn' hg hh hfin (fun _ _ => Or.inl hL')
  refine ⟨X, Y, x1, y1, fun k hk k' hk' e m hm => ?_⟩
  have e1 : min (roundEven ((n : ℝ) / 2) - 1) (Lh : ℤ) = Lh := by omega
  have e2 : min (roundEven ((n' : ℝ) / 2) - 1) (Lh : ℤ) = Lh := by omega
  rw [x4 k hk m hm, y4 k' hk' m hm, e1, e2]
  congr 2
  refine Finset.sum_congr rfl (fun τ _ => ?_)
  rw [bin_ratio hn hn' e]

/-- Margenau-Hill, at least as many bins as samples. -/
theorem C92_margenau_hill (x : Vec ℂ) (ts : Vec ℤ) (n n' : ℕ) (hn : x.len ≤ n) (hn' : x.len ≤ n') (h0 : n ≠ 0) (h0' : n' ≠ 0)
    (hts : ∀ c < ts.len, 0 ≤ ts.get c ∧ ts.get c < x.len) :
    ∃ X Y, MhReturns x ts n X ∧ MhReturns x ts n' Y ∧
      ∀ k < n, ∀ k' < n', k * n' = k' * n → ∀ m < ts.len, Y.get k' m = X.get k m := by
  obtain ⟨X, x1, -, -, x4⟩ := C38_margenau_hill x ts n h0 hts
  obtain ⟨Y, y1, -, -, y4⟩ := C38_margenau_hill x ts n' h0' hts
  refine ⟨X, Y, x1, y1, fun k hk k' hk' e m hm => ?_⟩
  rw [x4 k hk m hm, y4 k' hk' m hm, min_eq_right hn, min_eq_right hn']
  congr 1
  refine Finset.sum_congr rfl (fun s _ => ?_)
  rw [bin_ratio h0 h0' e]

/-- Page, at least as many bins as samples. -/
theorem C92_page (x : Vec ℂ) (ts : Vec ℤ) (n n' : ℕ) (hn : x.len ≤ n) (hn' : x.len ≤ n') (h0 : n ≠ 0) (h0' : n' ≠ 0)
    (hts : ∀ c < ts.len, 0 ≤ ts.get c ∧ ts.get c < x.len) :
    ∃ X Y, PageReturns x ts n X ∧ PageReturns x ts n' Y ∧
      ∀ k < n, ∀ k' < n', k * n' = k' * n → ∀ m < ts.len, Y.get k' m = X.get k m := by
  obtain ⟨X, x1, -, -, x4⟩ := C39_page x ts n h0 hts
  obtain ⟨Y, y1, -, -, y4⟩ := C39_page x ts n' h0' hts
  refine ⟨X, Y, x1, y1, fun k hk k' hk' e m hm => ?_⟩
  rw [x4 k hk m hm, y4 k' hk' m hm, min_eq_right hn, min_eq_right hn']
  congr 1
  refine Finset.sum_congr rfl (fun s _ => ?_)
  rw [bin_ratio h0 h0' e]

/-- Pseudo Margenau-Hill. -/
theorem C92_pmh {τ : Type} (x : Vec ℂ) (ts : Vec τ) (n n' : ℕ) (h : Vec ℂ) (L : ℕ) (hh : h.len = 2 * L + 1)
    (hL : (L : ℤ) < roundEven ((n : ℝ) / 2) - 1) (hL' : (L : ℤ) < roundEven ((n' : ℝ) / 2) - 1) (hts : ts.len ≤ x.len) :
    ∃ X Y, PmhReturns x ts n (some h) X ∧ PmhReturns x ts n' (some h) Y ∧
      ∀ k < n, ∀ k' < n', k * n' = k' * n → ∀ m < ts.len, Y.get k' m = X.get k m := by
  obtain ⟨X, x1, -, -, x4⟩ := (C61_pmh x ts n h L hh (Or.inl hL)).1 hts
  obtain ⟨Y, y1, -, -, y4⟩ := (C61_pmh x ts n' h L hh (Or.inl hL')).1 hts
  refine ⟨X, Y, x1, y1, fun k hk k' hk' e m hm => ?_⟩
  rw [x4 k hk m hm, y4 k' hk' m hm, lagSum_ratio (by omega) (by omega) e]

/-- Narrow-band ambiguity function: entries under the same Doppler label and the same delay agree, whatever the numbers of bins. -/
theorem C92_narrow_band (x : Vec ℂ) (lag lag' : Option (Vec ℝ)) (nf nf' : Option ℕ) (X Y : Mat ℂ) (l l' xi xi' : Vec ℝ)
    (hX : Ambiguity.narrowBand x lag nf = .ok (X, l, xi)) (hY : Ambiguity.narrowBand x lag' nf' = .ok (Y, l', xi')) :
    ∀ r < X.rows, ∀ r' < Y.rows, xi'.get r' = xi.get r → ∀ c < X.cols, ∀ c' < Y.cols, l'.get c' = l.get c →
      Y.get r' c' = X.get r c := by
  intro r hr r' hr' e c hc c' hc' e'
  obtain ⟨-, -, -, -, -, x6⟩ := C42_closed_form x lag nf X l xi hX
  obtain ⟨-, -, -, -, -, y6⟩ := C42_closed_form x lag' nf' Y l' xi' hY
  rw [x6 r hr c hc, y6 r' hr' c' hc', e, e']

/-- The condition matters: with fewer bins than samples Margenau-Hill and Page read the first `n` samples only.  Zero-frequency
row of `0, 0, 1` at its last sample, with one bin and with three. -/
theorem C92_few_bins :
    (∃ X Y, MhReturns ⟨3, fun i => if i = 2 then 1 else 0⟩ ⟨1, fun _ => 2⟩ 1 X ∧
      MhReturns ⟨3, fun i => if i = 2 then 1 else 0⟩ ⟨1, fun _ => 2⟩ 3 Y ∧ X.get 0 0 = 0 ∧ Y.get 0 0 = 1) ∧
    ∃ X Y, PageReturns ⟨3, fun i => if i = 2 then 1 else 0⟩ ⟨1, fun _ => 2⟩ 1 X ∧
      PageReturns ⟨3, fun i => if i = 2 then 1 else 0⟩ ⟨1, fun _ => 2⟩ 3 Y ∧ X.get 0 0 = 0 ∧ Y.get 0 0 = 1 := by
  have hts : ∀ c < (⟨1, fun _ => 2⟩ : Vec ℤ).len, 0 ≤ (⟨1, fun _ => 2⟩ : Vec ℤ).get c ∧
      (⟨1, fun _ => 2⟩ : Vec ℤ).get c < ((⟨3, fun i => if i = 2 then 1 else 0⟩ : Vec ℂ).len : ℕ) := by
    intro c _
    norm_num
  constructor
  · obtain ⟨X, x1, -, -, x4⟩ := C38_margenau_hill ⟨3, fun i => if i = 2 then 1 else 0⟩ ⟨1, fun _ => 2⟩ 1 (by norm_num) hts
    obtain ⟨Y, y1, -, -, y4⟩ := C38_margenau_hill ⟨3, fun i => if i = 2 then 1 else 0⟩ ⟨1, fun _ => 2⟩ 3 (by norm_num) hts
    refine ⟨X, Y, x1, y1, ?_, ?_⟩
    · rw [x4 0 (by norm_num) 0 (by norm_num)]
      simp
    · rw [y4 0 (by norm_num) 0 (by norm_num)]
      simp [expi]
  · obtain ⟨X, x1, -, -, x4⟩ := C39_page ⟨3, fun i => if i = 2 then 1 else 0⟩ ⟨1, fun _ => 2⟩ 1 (by norm_num) hts
    obtain ⟨Y, y1, -, -, y4⟩ := C39_page ⟨3, fun i => if i = 2 then 1 else 0⟩ ⟨1, fun _ => 2⟩ 3 (by norm_num) hts
    refine ⟨X, Y, x1, y1, ?_, ?_⟩
    · rw [x4 0 (by norm_num) 0 (by norm_num)]
      simp
    · rw [y4 0 (by norm_num) 0 (by norm_num)]
      simp [expi]

/-- Eight bins and sixteen: row 3 is row 6. -/
example (x : Vec ℂ) (ts : Vec ℤ) : ∃ X Y : Mat ℂ, stftOf x ts 8 (some ⟨3, fun i => (i : ℂ) + 1⟩) = .ok X ∧
    stftOf x ts 16 (some ⟨3, fun i => (i : ℂ) + 1⟩) = .ok Y ∧ ∀ m < ts.len, Y.get 6 m = X.get 3 m := by
  obtain ⟨X, Y, h1, h2, h3⟩ := C92_stft x ts 8 16 1 ⟨3, fun i => (i : ℂ) + 1⟩ (Or.inl rfl) (by norm_num) (by norm_num)
  exact ⟨X, Y, h1, h2, h3 3 (by norm_num) 6 (by norm_num) (by norm_num)⟩

end Tftb.Props
