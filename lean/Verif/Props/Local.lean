import Verif.Props.Bins
import Verif.Props.Cohen
import Verif.Props.Conj

/-! # C95 Which samples a column depends on

Two signals of the same length that agree near an instant have the same column there; how near depends on the representation.  Page's representation,
whose definition only involves the past, depends on every sample here.
-/

namespace Tftb.Props

open Tftb Tftb.Spec Tftb.Linear Tftb.Cohen Finset ComplexConjugate

/-- Two signals of the same length with the same samples at the places `lo, …, hi`. -/
structure AgreeOn (x y : Vec ℂ) (lo hi : ℤ) : Prop where
  len : y.len = x.len
  get : ∀ i < x.len, lo ≤ (i : ℤ) → (i : ℤ) ≤ hi → y.get i = x.get i

theorem AgreeOn.zext {x y : Vec ℂ} {lo hi : ℤ} (h : AgreeOn x y lo hi) {i : ℤ} (h0 : lo ≤ i) (h1 : i ≤ hi) : Spec.zext y i = Spec.zext x i := by
  unfold Spec.zext
  rw [h.len]
  by_cases hi' : 0 ≤ i ∧ i < (x.len : ℤ)
  · rw [if_pos hi', if_pos hi', h.get _ (by omega) (by omega) (by omega)]
  · rw [if_neg hi', if_neg hi']

/-- Short-time Fourier transform, window of `2 L + 1` (or `2 L + 2`) samples: column `m` only depends on the samples within `L` of `m - 1`. -/
theorem C95_stft {τ : Type} (x y : Vec ℂ) (ts : Vec τ) (n L : ℕ) (h : Vec ℂ) (hh : h.len = 2 * L + 1 ∨ h.len = 2 * L + 2) (hL : 2 * L < n) :
    ∃ X Y : Mat ℂ, stftOf x ts n (some h) = .ok X ∧ stftOf y ts n (some h) = .ok Y ∧
      ∀ m < ts.len, AgreeOn x y ((m : ℤ) - 1 - L) ((m : ℤ) - 1 + L) → ∀ k < n, Y.get k m = X.get k m := by
  obtain ⟨X, x1, -, -, x4⟩ := C27_stft x ts n L h hh hL
  obtain ⟨Y, y1, -, -, y4⟩ := C27_stft y ts n L h hh hL
  refine ⟨X, Y, x1, y1, fun m hm ha k hk => ?_⟩
  rw [x4 k hk m hm, y4 k hk m hm]
  unfold windowedDft
  refine Finset.sum_congr rfl (fun τ hτ => ?_)
  rw [Finset.mem_Icc] at hτ
  rw [ha.zext (by omega) (by omega)]

/-- Spectrogram: the column of the instant `t` only depends on the samples within `L` of `t - 1`. -/
theorem C95_spectrogram (x y : Vec ℂ) (ts : Vec ℤ) (n L : ℕ) (h : Vec ℂ) (hh : h.len = 2 * L + 1 ∨ h.len = 2 * L + 2) (hn : n ≠ 0) (hl : y.len = x.len)
    (hw : WindowOk h n L x.len ts) :
    ∃ X Y, SpectroReturns x ts n h X ∧ SpectroReturns y ts n h Y ∧
      ∀ m < ts.len, AgreeOn x y (ts.get m - 1 - L) (ts.get m - 1 + L) → ∀ k < n, Y.get k m = X.get k m := by
  obtain ⟨X, x1, -, -, x4⟩ := C31_closed_form x ts n L h hh hn hw
  obtain ⟨Y, y1, -, -, y4⟩ := C31_closed_form y ts n L h hh hn (by rw [hl]; exact hw)
  refine ⟨X, Y, x1, y1, fun m hm ha k hk => ?_⟩
  obtain ⟨x5, x6⟩ := x4 k hk m hm
  obtain ⟨y5, y6⟩ := y4 k hk m hm
  rw [hl] at y5 y6
  rcases hw m hm with h0 | h0
  · apply mul_right_cancel₀ h0
    rw [x6, y6]
    congr 2
    refine Finset.sum_congr rfl (fun τ hτ => ?_)
    unfold segLags at hτ
    rw [Finset.mem_filter, Finset.mem_Icc] at hτ
    rw [ha.zext (by omega) (by omega)]
  · rw [x5 h0, y5 h0]

/-- Pseudo Wigner-Ville: the samples within `L` of the column. -/
theorem C95_pwvd {τ : Type} (x y : Vec ℂ) (ts : Vec τ) (n : ℕ) (h : Vec ℂ) (L : ℕ) (hh : h.len = 2 * L + 1) (hL : (L : ℤ) < roundEven ((n : ℝ) / 2)) :
    ∃ X Y, PwvdReturns x ts n (some h) X ∧ PwvdReturns y ts n (some h) Y ∧
      ∀ t < ts.len, AgreeOn x y ((t : ℤ) - L) ((t : ℤ) + L) → ∀ k < n, Y.get k t = X.get k t := by
  obtain ⟨X, x1, -, -, x4⟩ := C36_pwvd x ts n h L hh hL
  obtain ⟨Y, y1, -, -, y4⟩ := C36_pwvd y ts n h L hh hL
  refine ⟨X, Y, x1, y1, fun t ht ha k hk => ?_⟩
  rw [x4 k hk t ht, y4 k hk t ht]
  unfold lagSum
  congr 1
  refine Finset.sum_congr rfl (fun τ hτ => ?_)
  rw [Finset.mem_Icc] at hτ
  unfold wignerKernel
  simp only
  rw [ha.zext (by omega) (by omega), ha.zext (by omega) (by omega)]

/-- Wigner-Ville: column `t` of `N` samples only depends on the samples at distance at most `min t (N - 1 - t)`, the place of the nearest end: at the ends,
on one sample. -/
theorem C95_wvd {τ : Type} (x y : Vec ℂ) (ts : Vec τ) (n : ℕ) (hn : n ≠ 0) (hts : ts.len = x.len) (hl : y.len = x.len)
    (hN : (x.len : ℤ) ≤ 2 * roundEven ((n : ℝ) / 2) ∨ x.len ≤ 1) :
    ∃ X Y, WvdReturns x ts n X ∧ WvdReturns y ts n Y ∧
      ∀ t < x.len, AgreeOn x y ((t : ℤ) - min t (x.len - 1 - t)) ((t : ℤ) + min t (x.len - 1 - t)) → ∀ k < n, Y.get k t = X.get k t := by
  obtain ⟨X, x1, -, -, x4⟩ := C33_wvd x ts n hn hts hN
  obtain ⟨Y, y1, -, -, y4⟩ := C33_wvd y ts n hn (hts.trans hl.symm) (by rw [hl]; exact hN)
  refine ⟨X, Y, x1, y1, fun t ht ha k hk => ?_⟩
  have e : (Y.get k t : ℂ) = (X.get k t : ℂ) := by
    rw [x4 k hk t ht, y4 k hk t (by omega)]
    unfold lagSum
    refine Finset.sum_congr rfl (fun τ _ => ?_)
    by_cases hin : |τ| ≤ (t : ℤ) ∧ (t : ℤ) < (x.len : ℤ) - |τ|
    · have h1 := neg_abs_le τ
      have h2 := le_abs_self τ
      unfold wignerKernel
      rw [ha.zext (by omega) (by omega), ha.zext (by omega) (by omega)]
    · rw [wignerKernel_zero hin, wignerKernel_zero (x := y) (by rw [hl]; exact hin)]
  exact_mod_cast e

/-- … and on all of these: changing the sample at any such place `s ≠ t` changes the column of some signal. -/
theorem C95_wvd_reach {τ : Type} (N n : ℕ) (ts : Vec τ) (hts : ts.len = N) (hN : (N : ℤ) ≤ 2 * roundEven ((n : ℝ) / 2)) (t s : ℕ) (ht : t < N) (hne : s ≠ t)
    (hs : |(s : ℤ) - t| ≤ min (t : ℤ) (N - 1 - t)) :
    ∃ x y : Vec ℂ, x.len = N ∧ y.len = N ∧ (∀ i < N, i ≠ s → y.get i = x.get i) ∧
      ∃ X Y, WvdReturns x ts n X ∧ WvdReturns y ts n Y ∧ Y.get 0 t ≠ X.get 0 t := by
  have hn : n ≠ 0 := by
    rintro rfl
    rw [roundEven_half] at hN
    simp at hN
    omega
  have h1 := neg_abs_le ((s : ℤ) - t)
  have h2 := le_abs_self ((s : ℤ) - t)
  obtain ⟨r, hr⟩ : ∃ r : ℕ, (r : ℤ) = 2 * t - s := ⟨(2 * (t : ℤ) - s).toNat, by omega⟩
  set x : Vec ℂ := ⟨N, fun i => if i = r then 1 else 0⟩ with hx
  set y : Vec ℂ := ⟨N, fun i => if i = r ∨ i = s then 1 else 0⟩ with hy
  obtain ⟨X, x1, -, -, x4⟩ := C33_wvd x ts n hn hts (Or.inl hN)
  obtain ⟨Y, y1, -, -, y4⟩ := C33_wvd y ts n hn hts (Or.inl hN)
  refine ⟨x, y, rfl, rfl, fun i hi his => ?_, X, Y, x1, y1, fun hc => ?_⟩
  · show (if i = r ∨ i = s then (1 : ℂ) else 0) = if i = r then 1 else 0
    by_cases h : i = r
    · rw [if_pos h, if_pos (Or.inl h)]
    · rw [if_neg h, if_neg (by tauto)]
  · have hR : |(s : ℤ) - t| ≤ roundEven ((n : ℝ) / 2) - 1 := by omega
    have hzx : ∀ i : ℤ, zext x i = if i = r then 1 else 0 := fun i => by
      unfold zext
      by_cases hi : 0 ≤ i ∧ i < (x.len : ℤ)
      · rw [if_pos hi]
        show (if i.toNat = r then (1 : ℂ) else 0) = _
        by_cases h : i = r
        · rw [if_pos h, if_pos (by omega)]
        · rw [if_neg h, if_neg (by omega)]
      · rw [if_neg hi, if_neg]
        rintro rfl
        exact hi ⟨by omega, by show (r : ℤ) < N; omega⟩
    have hzy : ∀ i : ℤ, zext y i = if i = r ∨ i = s then 1 else 0 := fun i => by
      unfold zext
      by_cases hi : 0 ≤ i ∧ i < (y.len : ℤ)
      · rw [if_pos hi]
        show (if i.toNat = r ∨ i.toNat = s then (1 : ℂ) else 0) = _
        by_cases h : i = r ∨ i = s
        · rw [if_pos h, if_pos (by omega)]
        · rw [if_neg h, if_neg (by omega)]
      · rw [if_neg hi, if_neg]
        intro h
        exact hi ⟨by omega, by show i < (N : ℤ); omega⟩
    have hX : (X.get 0 t : ℂ) = 0 := by
      rw [x4 0 (by omega) t ht]
      unfold lagSum
      refine Finset.sum_eq_zero (fun τ _ => ?_)
      unfold wignerKernel
      rw [hzx, hzx]
      by_cases h : (t : ℤ) + τ = r
      · rw [if_pos h, if_neg (by omega), map_zero, mul_zero, zero_mul]
      · rw [if_neg h, zero_mul, zero_mul]
    have hY : (Y.get 0 t : ℂ) = 2 := by
      rw [y4 0 (by omega) t ht]
      unfold lagSum
      have hterm : ∀ τ ∈ Finset.Icc (-(roundEven ((n : ℝ) / 2) - 1)) (roundEven ((n : ℝ) / 2) - 1),
          wignerKernel y (t : ℕ) τ * expi (-(2 * Real.pi * ((((0 : ℕ) : ℤ) : ℝ) * τ / n))) =
            (if τ = (s : ℤ) - t then (1 : ℂ) else 0) + if τ = (t : ℤ) - s then 1 else 0 := fun τ _ => by
        have e0 : expi (-(2 * Real.pi * ((((0 : ℕ) : ℤ) : ℝ) * τ / n))) = 1 := by simp [expi_zero]
        unfold wignerKernel
        rw [e0, mul_one, hzy, hzy]
        by_cases h3 : τ = (s : ℤ) - t
        · have c1 : (t : ℤ) + τ = r ∨ (t : ℤ) + τ = s := by omega
          have c2 : (t : ℤ) - τ = r ∨ (t : ℤ) - τ = s := by omega
          have c3 : ¬ τ = (t : ℤ) - s := by omega
          rw [if_pos c1, if_pos c2, if_pos h3, if_neg c3]
          simp
        · by_cases h4 : τ = (t : ℤ) - s
          · have c1 : (t : ℤ) + τ = r ∨ (t : ℤ) + τ = s := by omega
            have c2 : (t : ℤ) - τ = r ∨ (t : ℤ) - τ = s := by omega
            rw [if_pos c1, if_pos c2, if_neg h3, if_pos h4]
            simp
          · have c1 : ¬ ((t : ℤ) + τ = r ∨ (t : ℤ) + τ = s) := by omega
            rw [if_neg c1, if_neg h3, if_neg h4]
            simp
      rw [Finset.sum_congr rfl hterm, Finset.sum_add_distrib, Finset.sum_ite_eq', Finset.sum_ite_eq', if_pos (by rw [Finset.mem_Icc]; omega),
        if_pos (by rw [Finset.mem_Icc]; omega)]
      norm_num
    rw [hc, hX] at hY
    norm_num at hY

/-- Pseudo Margenau-Hill: the sample of the column and those within `L` of the one before. -/
theorem C95_pmh {τ : Type} (x y : Vec ℂ) (hl : y.len = x.len) (ts : Vec τ) (n : ℕ) (h : Vec ℂ) (L : ℕ) (hh : h.len = 2 * L + 1)
    (hL : (L : ℤ) < roundEven ((n : ℝ) / 2) - 1) (hts : ts.len ≤ x.len) :
    ∃ X Y, PmhReturns x ts n (some h) X ∧ PmhReturns y ts n (some h) Y ∧
      ∀ c < ts.len, AgreeOn x y ((c : ℤ) - 1 - L) ((c : ℤ) - 1 + L) → y.get c = x.get c → ∀ k < n, Y.get k c = X.get k c := by
  obtain ⟨X, x1, -, -, x4⟩ := (C61_pmh x ts n h L hh (Or.inl hL)).1 hts
  obtain ⟨Y, y1, -, -, y4⟩ := (C61_pmh y ts n h L hh (Or.inl hL)).1 (by omega)
  refine ⟨X, Y, x1, y1, fun c hc ha hcc k hk => ?_⟩
  rw [x4 k hk c hc, y4 k hk c hc]
  unfold lagSum
  refine Finset.sum_congr rfl (fun τ hτ => ?_)
  rw [Finset.mem_Icc] at hτ
  simp only
  rw [hcc, ha.zext (by omega) (by omega)]

/-- Margenau-Hill: sample 0 has no influence on the other columns. -/
theorem C95_mh_first (x y : Vec ℂ) (hx : x.len ≠ 0) (ha : AgreeOn x y 1 x.len) :
    ∃ X Y, MhReturns x (arange 0 x.len) x.len X ∧ MhReturns y (arange 0 x.len) x.len Y ∧
      ∀ c < x.len, 1 ≤ c → ∀ k < x.len, Y.get k c = X.get k c := by
  have hlen : (arange 0 (x.len : ℤ)).len = x.len := by simp [arange]
  have hget : ∀ c : ℕ, (arange 0 (x.len : ℤ)).get c = (c : ℤ) := fun c => by simp [arange]
  obtain ⟨X, x1, -, -, x4⟩ := C38_margenau_hill x (arange 0 x.len) x.len hx (fun c hc => by rw [hget]; omega)
  obtain ⟨Y, y1, -, -, y4⟩ := C38_margenau_hill y (arange 0 x.len) x.len hx (fun c hc => by rw [hget, ha.len]; omega)
  refine ⟨X, Y, x1, y1, fun c hc hc1 k hk => ?_⟩
  rw [x4 k hk c (by omega), y4 k hk c (by omega), hget, Int.toNat_natCast, ha.len, ha.get c hc (by omega) (by omega)]
  congr 1
  refine Finset.sum_congr rfl (fun s hs => ?_)
  rw [Finset.mem_Ico] at hs
  rw [ha.get s (by omega) (by omega) (by omega)]

/-- Page: at every instant every other sample matters, past or future. -/
theorem C95_page_global (N : ℕ) (t s : ℕ) (ht : t < N) (hs : s < N) (hne : s ≠ t) :
    ∃ x y : Vec ℂ, x.len = N ∧ y.len = N ∧ (∀ i < N, i ≠ s → y.get i = x.get i) ∧
      ∃ X Y, PageReturns x (arange 0 N) N X ∧ PageReturns y (arange 0 N) N Y ∧ Y.get 0 t ≠ X.get 0 t := by
  have hlen : (arange 0 (N : ℤ)).len = N := by simp [arange]
  have hget : ∀ c : ℕ, (arange 0 (N : ℤ)).get c = (c : ℤ) := fun c => by simp [arange]
  set x : Vec ℂ := ⟨N, fun i => if i = t then 1 else 0⟩ with hx
  set y : Vec ℂ := ⟨N, fun i => if i = t then 1 else if i = s then 1 else 0⟩ with hy
  obtain ⟨X, x1, -, -, x4⟩ := C39_page x (arange 0 N) N (by omega) (fun c hc => by rw [hget]; show 0 ≤ (c : ℤ) ∧ (c : ℤ) < (N : ℤ); omega)
  obtain ⟨Y, y1, -, -, y4⟩ := C39_page y (arange 0 N) N (by omega) (fun c hc => by rw [hget]; show 0 ≤ (c : ℤ) ∧ (c : ℤ) < (N : ℤ); omega)
  refine ⟨x, y, rfl, rfl, fun i hi his => ?_, X, Y, x1, y1, fun hc => ?_⟩
  · show (if i = t then (1 : ℂ) else if i = s then 1 else 0) = if i = t then 1 else 0
    rw [if_neg his]
  · rw [x4 0 (by omega) t (by omega), y4 0 (by omega) t (by omega), hget, Int.toNat_natCast, min_eq_left (le_refl N)] at hc
    have e0 : ∀ a : ℝ, expi (-(2 * Real.pi * (((0 : ℕ) : ℝ) * a / N))) = 1 := fun a => by simp [expi_zero]
    have hX : (∑ j ∈ range N, x.get t * conj (x.get j)) = 1 := by
      rw [Finset.sum_eq_single t]
      · simp [hx]
      · intro j _ hj; simp [hx, hj]
      · intro h; exact absurd (Finset.mem_range.2 ht) h
    have hY : (∑ j ∈ range N, y.get t * conj (y.get j)) = 2 := by
      rw [← Finset.add_sum_erase _ _ (Finset.mem_range.2 ht), Finset.sum_eq_single s]
      · simp [hy]; norm_num
      · intro j hj hjs
        have : j ≠ t := (Finset.mem_erase.1 hj).1
        simp [hy, this, hjs]
      · intro h; exact absurd (Finset.mem_erase.2 ⟨hne, Finset.mem_range.2 hs⟩) h
    simp only [e0, mul_one] at hc
    rw [hY] at hc
    rw [hX] at hc
    norm_num at hc

/-- Instantaneous frequency: the estimate at `t` only reads the samples `t` and `t - 2`. -/
theorem C95_inst_freq (x y : Vec ℂ) (hl : y.len = x.len) (t : Vec ℤ) (ht : ∀ j < t.len, IdxOk x.len (t.get j) ∧ IdxOk x.len (t.get j - 2)) :
    ∃ f g : Vec ℝ, TF.instFreq x (some t) = .ok (f, t) ∧ TF.instFreq y (some t) = .ok (g, t) ∧
      ∀ j < t.len, y.get (wrapIdx x.len (t.get j)) = x.get (wrapIdx x.len (t.get j)) →
        y.get (wrapIdx x.len (t.get j - 2)) = x.get (wrapIdx x.len (t.get j - 2)) → g.get j = f.get j := by
  obtain ⟨f, f1, -, f3⟩ := inst_freq_eq x t ht
  obtain ⟨g, g1, -, g3⟩ := inst_freq_eq y t (by rw [hl]; exact ht)
  refine ⟨f, g, f1, g1, fun j hj h1 h2 => ?_⟩
  rw [f3 j hj, g3 j hj, hl, h1, h2]

/-- Five samples: the last column only reads the last sample. -/
example (x y : Vec ℂ) (hx : x.len = 5) (hy : y.len = 5) (h : y.get 4 = x.get 4) :
    ∃ X Y, WvdReturns x (arange 0 5) 8 X ∧ WvdReturns y (arange 0 5) 8 Y ∧ ∀ k < 8, Y.get k 4 = X.get k 4 := by
  obtain ⟨X, Y, h1, h2, h3⟩ := C95_wvd x y (arange 0 5) 8 (by norm_num) (by rw [hx]; rfl) (by omega) (Or.inl (by
    have h := roundEven_half 8
    rw [h, hx]
    norm_num))
  refine ⟨X, Y, h1, h2, h3 4 (by omega) ⟨by omega, fun i hi h5 h6 => ?_⟩⟩
  have : i = 4 := by omega
  rw [this, h]

end Tftb.Props
