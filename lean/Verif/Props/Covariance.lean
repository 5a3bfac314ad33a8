import Verif.Props.Spwv
import Verif.Props.Ambiguity
import Verif.Props.Stft
import Verif.Props.Wvd
import Verif.Props.Cohen

/-! # C86 Delays and frequency shifts: which representations follow the signal, and which do not -/

namespace Tftb.Props

open Tftb Tftb.Spec Tftb.Linear Tftb.Cohen Finset ComplexConjugate

/-- The signal with `d` zeros put before it. -/
def delayBy (d : ℕ) (x : Vec ℂ) : Vec ℂ := ⟨x.len + d, fun i => if i < d then 0 else x.get (i - d)⟩

/-- The signal multiplied by the exponential of frequency `f`. -/
noncomputable def shiftFreq (f : ℝ) (x : Vec ℂ) : Vec ℂ := ⟨x.len, fun t => x.get t * expi (2 * Real.pi * (f * t))⟩

theorem zext_delayBy (d : ℕ) (x : Vec ℂ) (i : ℤ) : zext (delayBy d x) i = zext x (i - d) := by
  unfold zext
  change (if 0 ≤ i ∧ i < ((x.len + d : ℕ) : ℤ) then (if i.toNat < d then 0 else x.get (i.toNat - d)) else 0) = _
  by_cases h : 0 ≤ i - d ∧ i - d < (x.len : ℤ)
  · rw [if_pos h, if_pos (by omega), if_neg (by omega)]
    congr 1
    omega
  · rw [if_neg h]
    split_ifs <;> first | rfl | omega

theorem wignerKernel_delayBy (d : ℕ) (x : Vec ℂ) (t τ : ℤ) : wignerKernel (delayBy d x) (t + d) τ = wignerKernel x t τ := by
  unfold wignerKernel
  rw [zext_delayBy, zext_delayBy]
  congr 2
  · ring
  · congr 1; ring

theorem rollRow_dvd {n : ℕ} (hn : n ≠ 0) (m : ℤ) (k : ℕ) : (n : ℤ) ∣ ((rollRow n m k : ℕ) : ℤ) - ((k : ℤ) - m) := by
  unfold rollRow
  rw [Int.toNat_of_nonneg (Int.emod_nonneg _ (by exact_mod_cast hn)), ← dvd_neg, neg_sub]
  exact Int.dvd_self_sub_emod

/-! ## Delays -/

/-- STFT: column `m + d` of the delayed signal is column `m`. -/
theorem C86_stft_delay {τ τ' : Type} (x : Vec ℂ) (ts : Vec τ) (ts' : Vec τ') (n L : ℕ) (h : Vec ℂ)
    (hh : h.len = 2 * L + 1 ∨ h.len = 2 * L + 2) (hL : 2 * L < n) (d : ℕ) :
    ∃ X Y : Mat ℂ, stftOf x ts n (some h) = .ok X ∧ stftOf (delayBy d x) ts' n (some h) = .ok Y ∧
      ∀ k < n, ∀ m < ts.len, m + d < ts'.len → Y.get k (m + d) = X.get k m := by
  obtain ⟨X, x1, -, -, x4⟩ := C27_stft x ts n L h hh hL
  obtain ⟨Y, y1, -, -, y4⟩ := C27_stft (delayBy d x) ts' n L h hh hL
  refine ⟨X, Y, x1, y1, fun k hk m hm hmd => ?_⟩
  rw [x4 k hk m hm, y4 k hk _ hmd]
  unfold windowedDft
  refine Finset.sum_congr rfl (fun τ _ => ?_)
  rw [zext_delayBy]
  congr 3
  push_cast; ring

/-- Pseudo Wigner-Ville: likewise. -/
theorem C86_pwvd_delay {τ τ' : Type} (x : Vec ℂ) (ts : Vec τ) (ts' : Vec τ') (n : ℕ) (h : Vec ℂ) (L : ℕ) (hh : h.len = 2 * L + 1)
    (hL : (L : ℤ) < roundEven ((n : ℝ) / 2)) (d : ℕ) :
    ∃ X Y : Mat ℝ, PwvdReturns x ts n (some h) X ∧ PwvdReturns (delayBy d x) ts' n (some h) Y ∧
      ∀ k < n, ∀ t < ts.len, t + d < ts'.len → Y.get k (t + d) = X.get k t := by
  obtain ⟨X, x1, -, -, x4⟩ := C36_pwvd x ts n h L hh hL
  obtain ⟨Y, y1, -, -, y4⟩ := C36_pwvd (delayBy d x) ts' n h L hh hL
  refine ⟨X, Y, x1, y1, fun k hk m hm hmd => ?_⟩
  rw [x4 k hk m hm, y4 k hk _ hmd]
  congr 1
  refine lagSum_congr (fun τ _ _ => ?_) _
  rw [Nat.cast_add, wignerKernel_delayBy]

/-- Spectrogram: the values times the window energies of the columns are the same; the values are the same in the columns whose window does
not go beyond the first sample. -/
theorem C86_spectrogram_delay (x : Vec ℂ) (ts : Vec ℤ) (n L : ℕ) (h : Vec ℂ) (hh : h.len = 2 * L + 1 ∨ h.len = 2 * L + 2)
    (hn : n ≠ 0) (d : ℕ) (hw : WindowOk h n L x.len ts) (hw' : WindowOk h n L (x.len + d) (ts.map (fun t => t + d))) :
    ∃ X Y, SpectroReturns x ts n h X ∧ SpectroReturns (delayBy d x) (ts.map (fun t => t + d)) n h Y ∧
      ∀ k < n, ∀ m < ts.len,
        Y.get k m * windowEnergy h n L (x.len + d) (ts.get m + d - 1) = X.get k m * windowEnergy h n L x.len (ts.get m - 1) ∧
        ((L : ℤ) < ts.get m → Y.get k m = X.get k m) := by
  obtain ⟨X, x1, -, -, x4⟩ := C31_closed_form x ts n L h hh hn hw
  obtain ⟨Y, y1, -, -, y4⟩ := C31_closed_form (delayBy d x) (ts.map (fun t => t + d)) n L h hh hn hw'
  refine ⟨X, Y, x1, y1, fun k hk m hm => ?_⟩
  obtain ⟨x5, x6⟩ := x4 k hk m hm
  obtain ⟨y5, y6⟩ := y4 k hk m hm
  simp only [Vec.map_get] at y5 y6
  have hlen : (delayBy d x).len = x.len + d := rfl
  rw [hlen] at y5 y6
  have hsub : segLags (min (roundEven ((n : ℝ) / 2) - 1) L) x.len (ts.get m - 1)
      ⊆ segLags (min (roundEven ((n : ℝ) / 2) - 1) L) (x.len + d) (ts.get m + d - 1) := by
    intro τ hτ
    unfold segLags at hτ ⊢
    rw [Finset.mem_filter] at hτ ⊢
    refine ⟨hτ.1, ?_⟩
    push_cast
    omega
  have hsum : ∑ τ ∈ segLags (min (roundEven ((n : ℝ) / 2) - 1) L) (x.len + d) (ts.get m + d - 1),
          zext (delayBy d x) (ts.get m + d - 1 + τ) * conj (h.get ((L : ℤ) + τ).toNat) * expi (-(2 * Real.pi * (k * τ / n)))
      = ∑ τ ∈ segLags (min (roundEven ((n : ℝ) / 2) - 1) L) x.len (ts.get m - 1),
          zext x (ts.get m - 1 + τ) * conj (h.get ((L : ℤ) + τ).toNat) * expi (-(2 * Real.pi * (k * τ / n))) := by
    have e : ∀ τ : ℤ, zext (delayBy d x) (ts.get m + d - 1 + τ) = zext x (ts.get m - 1 + τ) := by
      intro τ
      rw [zext_delayBy]
      congr 1
      ring
    simp only [e]
    symm
    refine Finset.sum_subset hsub (fun τ h1 h2 => ?_)
    unfold segLags at h1 h2
    rw [Finset.mem_filter] at h1 h2
    have : zext x (ts.get m - 1 + τ) = 0 := by
      unfold zext
      rw [if_neg]
      intro h3
      exact h2 ⟨h1.1, h3⟩
    rw [this, zero_mul, zero_mul]
  have hmain : Y.get k m * windowEnergy h n L (x.len + d) (ts.get m + d - 1) = X.get k m * windowEnergy h n L x.len (ts.get m - 1) := by
    rw [x6, y6, hsum]
  refine ⟨hmain, fun hL => ?_⟩
  have hseg : segLags (min (roundEven ((n : ℝ) / 2) - 1) L) (x.len + d) (ts.get m + d - 1)
      = segLags (min (roundEven ((n : ℝ) / 2) - 1) L) x.len (ts.get m - 1) := by
    refine subset_antisymm (fun τ hτ => ?_) hsub
    unfold segLags at hτ ⊢
    rw [Finset.mem_filter, Finset.mem_Icc] at hτ ⊢
    push_cast at hτ
    omega
  have hE : windowEnergy h n L (x.len + d) (ts.get m + d - 1) = windowEnergy h n L x.len (ts.get m - 1) := by
    unfold windowEnergy
    rw [hseg]
  rcases hw m hm with h0 | h0
  · rw [hE] at hmain
    exact mul_right_cancel₀ h0 hmain
  · rw [x5 h0, y5 (by rw [hseg, h0])]

/-- Pseudo Margenau-Hill: likewise. -/
theorem C86_pmh_delay {τ τ' : Type} (x : Vec ℂ) (ts : Vec τ) (ts' : Vec τ') (n : ℕ) (h : Vec ℂ) (L : ℕ) (hh : h.len = 2 * L + 1)
    (hL : (L : ℤ) < roundEven ((n : ℝ) / 2) - 1) (d : ℕ) (hts : ts.len ≤ x.len) (hts' : ts'.len ≤ x.len + d) :
    ∃ X Y : Mat ℂ, PmhReturns x ts n (some h) X ∧ PmhReturns (delayBy d x) ts' n (some h) Y ∧
      ∀ k < n, ∀ c < ts.len, c + d < ts'.len → Y.get k (c + d) = X.get k c := by
  obtain ⟨X, x1, -, -, x4⟩ := (C61_pmh x ts n h L hh (Or.inl hL)).1 hts
  obtain ⟨Y, y1, -, -, y4⟩ := (C61_pmh (delayBy d x) ts' n h L hh (Or.inl hL)).1 hts'
  refine ⟨X, Y, x1, y1, fun k hk c hc hcd => ?_⟩
  rw [x4 k hk c hc, y4 k hk _ hcd]
  refine lagSum_congr (fun τ _ _ => ?_) _
  rw [zext_delayBy]
  have h1 : (delayBy d x).get (c + d) = x.get c := by
    change (if c + d < d then (0 : ℂ) else x.get (c + d - d)) = x.get c
    rw [if_neg (by omega), Nat.add_sub_cancel]
  rw [h1]
  congr 3
  push_cast; ring

/-- Page: column by column, when there are enough bins for the whole signal. -/
theorem C86_page_delay (x : Vec ℂ) (ts : Vec ℤ) (n d : ℕ) (hn : x.len + d ≤ n) (h0 : n ≠ 0)
    (hts : ∀ c < ts.len, 0 ≤ ts.get c ∧ ts.get c < x.len) :
    ∃ X Y, PageReturns x ts n X ∧ PageReturns (delayBy d x) (ts.map (fun t => t + d)) n Y ∧
      ∀ k < n, ∀ c < ts.len, Y.get k c = X.get k c := by
  obtain ⟨X, x1, -, -, x4⟩ := C39_page x ts n h0 hts
  obtain ⟨Y, y1, -, -, y4⟩ := C39_page (delayBy d x) (ts.map (fun t => t + d)) n h0 (fun c hc => by
    have := hts c hc
    simp only [Vec.map_get, delayBy]
    push_cast
    omega)
  refine ⟨X, Y, x1, y1, fun k hk c hc => ?_⟩
  have := hts c hc
  rw [x4 k hk c hc, y4 k hk c hc]
  simp only [Vec.map_get]
  congr 1
  rw [show min n (delayBy d x).len = d + x.len by simp only [delayBy]; omega, show min n x.len = x.len by omega, Finset.sum_range_add]
  rw [Finset.sum_eq_zero (fun s hs => by
    have h1 : s < d := Finset.mem_range.1 hs
    have h2 : (delayBy d x).get s = 0 := if_pos h1
    rw [h2, map_zero, mul_zero, zero_mul]), zero_add]
  refine Finset.sum_congr rfl (fun s _ => ?_)
  have h1 : (delayBy d x).get (d + s) = x.get s := by
    change (if d + s < d then (0 : ℂ) else x.get (d + s - d)) = x.get s
    rw [if_neg (by omega), Nat.add_sub_cancel_left]
  have h2 : (delayBy d x).get (ts.get c + d).toNat = x.get (ts.get c).toNat := by
    change (if (ts.get c + d).toNat < d then (0 : ℂ) else x.get ((ts.get c + d).toNat - d)) = _
    rw [if_neg (by omega)]
    congr 1
    omega
  rw [h1, h2]
  congr 3
  push_cast; ring

/-- Margenau-Hill does not follow delays: it leaves out sample 0, which is no longer sample 0 after the delay. -/
theorem C86_mh_delay (x : Vec ℂ) (ts : Vec ℤ) (n d : ℕ) (hd : 1 ≤ d) (hn : x.len + d ≤ n) (h0 : n ≠ 0)
    (hts : ∀ c < ts.len, 0 ≤ ts.get c ∧ ts.get c < x.len) :
    ∃ X Y, MhReturns x ts n X ∧ MhReturns (delayBy d x) (ts.map (fun t => t + d)) n Y ∧
      ∀ k < n, ∀ c < ts.len, Y.get k c = X.get k c
        + (x.get (ts.get c).toNat * conj (x.get 0) * expi (-(2 * Real.pi * (k * ts.get c / n)))).re := by
  obtain ⟨X, x1, -, -, x4⟩ := C38_margenau_hill x ts n h0 hts
  obtain ⟨Y, y1, -, -, y4⟩ := C38_margenau_hill (delayBy d x) (ts.map (fun t => t + d)) n h0 (fun c hc => by
    have := hts c hc
    simp only [Vec.map_get, delayBy]
    push_cast
    omega)
  refine ⟨X, Y, x1, y1, fun k hk c hc => ?_⟩
  have := hts c hc
  rw [x4 k hk c hc, y4 k hk c hc, ← Complex.add_re]
  simp only [Vec.map_get]
  congr 1
  rw [show min n (delayBy d x).len = d + x.len by simp only [delayBy]; omega, show min n x.len = x.len by omega]
  have h2 : (delayBy d x).get (ts.get c + d).toNat = x.get (ts.get c).toNat := by
    change (if (ts.get c + d).toNat < d then (0 : ℂ) else x.get ((ts.get c + d).toNat - d)) = _
    rw [if_neg (by omega)]
    congr 1
    omega
  rw [h2, ← Finset.sum_subset (s₁ := Finset.Ico d (d + x.len)) (fun s hs => by rw [Finset.mem_Ico] at hs ⊢; omega) (fun s hs hs' => by
    rw [Finset.mem_Ico] at hs hs'
    have h3 : (delayBy d x).get s = 0 := if_pos (by omega)
    rw [h3, map_zero, mul_zero, zero_mul])]
  rw [Finset.sum_Ico_eq_sum_range, Nat.add_sub_cancel_left, Finset.sum_Ico_eq_sum_range]
  obtain ⟨N, hN⟩ : ∃ N, x.len = N + 1 := ⟨x.len - 1, by omega⟩
  rw [hN, Nat.add_sub_cancel, Finset.sum_range_succ']
  have h1 : ∀ s, (delayBy d x).get (d + s) = x.get s := by
    intro s
    change (if d + s < d then (0 : ℂ) else x.get (d + s - d)) = x.get s
    rw [if_neg (by omega), Nat.add_sub_cancel_left]
  congr 1
  · refine Finset.sum_congr rfl (fun s _ => ?_)
    rw [h1, add_comm 1 s]
    congr 3
    push_cast; ring
  · rw [h1]
    congr 3
    push_cast; ring

/-! ## Frequency shifts -/

/-- Pseudo Wigner-Ville: a shift by `m` half bins rolls the rows by `m`. -/
theorem C86_pwvd_modulation {τ : Type} (x : Vec ℂ) (ts : Vec τ) (n : ℕ) (h : Vec ℂ) (L : ℕ) (hh : h.len = 2 * L + 1)
    (hL : (L : ℤ) < roundEven ((n : ℝ) / 2)) (hn : n ≠ 0) (m : ℤ) :
    ∃ X Y : Mat ℝ, PwvdReturns x ts n (some h) X ∧ PwvdReturns (modulateBins m (2 * n) x) ts n (some h) Y ∧
      ∀ k < n, ∀ t < ts.len, Y.get k t = X.get (rollRow n m k) t := by
  obtain ⟨X, x1, -, -, x4⟩ := C36_pwvd x ts n h L hh hL
  obtain ⟨Y, y1, -, -, y4⟩ := C36_pwvd (modulateBins m (2 * n) x) ts n h L hh hL
  refine ⟨X, Y, x1, y1, fun k hk t ht => ?_⟩
  rw [x4 _ (rollRow_lt hn m k) t ht, y4 k hk t ht, lagSum_periodic _ hn _ (rollRow_dvd hn m k), ← lagSum_modulate]
  congr 1
  refine lagSum_congr (fun τ _ _ => ?_) _
  unfold wignerKernel
  rw [zext_modulate, zext_modulate, map_mul, conj_rootPow]
  have h2 : rootPow n (-(m * τ)) = rootPow (2 * n) (-(m * (t + τ))) * rootPow (2 * n) (- -(m * (t - τ))) := by
    rw [← rootPow_add, rootPow_eq_expi, rootPow_eq_expi]
    congr 1
    have : (n : ℝ) ≠ 0 := Nat.cast_ne_zero.2 hn
    push_cast
    field_simp
    ring
  rw [h2]; ring

/-- Margenau-Hill: a shift by `m` bins rolls the rows by `m`. -/
theorem C86_mh_modulation (x : Vec ℂ) (ts : Vec ℤ) (n : ℕ) (hn : n ≠ 0)
    (hts : ∀ c < ts.len, 0 ≤ ts.get c ∧ ts.get c < x.len) (m : ℤ) :
    ∃ X Y, MhReturns x ts n X ∧ MhReturns (modulateBins m n x) ts n Y ∧
      ∀ k < n, ∀ c < ts.len, Y.get k c = X.get (rollRow n m k) c := by
  obtain ⟨X, x1, -, -, x4⟩ := C38_margenau_hill x ts n hn hts
  obtain ⟨Y, y1, -, -, y4⟩ := C38_margenau_hill (modulateBins m n x) ts n hn hts
  refine ⟨X, Y, x1, y1, fun k hk c hc => ?_⟩
  obtain ⟨q, hq⟩ := rollRow_dvd hn m k
  have hn' : (n : ℝ) ≠ 0 := Nat.cast_ne_zero.2 hn
  rw [x4 _ (rollRow_lt hn m k) c hc, y4 k hk c hc]
  congr 1
  refine Finset.sum_congr rfl (fun s _ => ?_)
  change (x.get (ts.get c).toNat * expi (2 * Real.pi * (m * ((ts.get c).toNat : ℕ) / n)))
    * conj (x.get s * expi (2 * Real.pi * (m * s / n))) * _ = _
  rw [map_mul, conj_expi]
  have hc1 : (((ts.get c).toNat : ℕ) : ℝ) = ts.get c := by
    have := hts c hc
    exact_mod_cast Int.toNat_of_nonneg this.1
  have e : expi (2 * Real.pi * (m * ((ts.get c).toNat : ℕ) / n)) * expi (-(2 * Real.pi * (m * s / n)))
      * expi (-(2 * Real.pi * (k * (ts.get c - s) / n))) = expi (-(2 * Real.pi * ((rollRow n m k : ℕ) * (ts.get c - s) / n))) := by
    rw [← expi_add, ← expi_add, hc1]
    apply expi_eq_of_sub _ _ (q * (ts.get c - s))
    have : (((rollRow n m k : ℕ) : ℤ) : ℝ) = (k : ℤ) - m + n * q := by exact_mod_cast (by linarith : ((rollRow n m k : ℕ) : ℤ) = k - m + n * q)
    rw [Int.cast_natCast, Int.cast_natCast] at this
    rw [this]
    push_cast
    field_simp
    ring
  rw [← e]; ring

/-- Pseudo Margenau-Hill: rolls the rows by `m`, up to a phase common to all entries. -/
theorem C86_pmh_modulation {τ : Type} (x : Vec ℂ) (ts : Vec τ) (n : ℕ) (h : Vec ℂ) (L : ℕ) (hh : h.len = 2 * L + 1)
    (hL : (L : ℤ) < roundEven ((n : ℝ) / 2) - 1) (hn : n ≠ 0) (hts : ts.len ≤ x.len) (m : ℤ) :
    ∃ X Y : Mat ℂ, PmhReturns x ts n (some h) X ∧ PmhReturns (modulateBins m n x) ts n (some h) Y ∧
      ∀ k < n, ∀ c < ts.len, Y.get k c = expi (2 * Real.pi * (m / n)) * X.get (rollRow n m k) c := by
  obtain ⟨X, x1, -, -, x4⟩ := (C61_pmh x ts n h L hh (Or.inl hL)).1 hts
  obtain ⟨Y, y1, -, -, y4⟩ := (C61_pmh (modulateBins m n x) ts n h L hh (Or.inl hL)).1 hts
  refine ⟨X, Y, x1, y1, fun k hk c hc => ?_⟩
  rw [x4 _ (rollRow_lt hn m k) c hc, y4 k hk c hc, lagSum_periodic _ hn _ (rollRow_dvd hn m k), ← lagSum_modulate, ← lagSum_smul]
  refine lagSum_congr (fun τ _ _ => ?_) _
  rw [zext_modulate, map_mul, conj_rootPow]
  change _ * (x.get c * expi (2 * Real.pi * (m * c / n))) * _ = _
  have h2 : expi (2 * Real.pi * (m * c / n)) * rootPow n (- -(m * ((c : ℤ) - 1 - τ))) = expi (2 * Real.pi * (m / n)) * rootPow n (-(m * τ)) := by
    rw [rootPow_eq_expi, rootPow_eq_expi, ← expi_add, ← expi_add]
    congr 1
    have : (n : ℝ) ≠ 0 := Nat.cast_ne_zero.2 hn
    push_cast
    field_simp
    ring
  linear_combination (h.get ((L : ℤ) + τ).toNat * x.get c * conj (zext x ((c : ℤ) - 1 - τ))) * h2

/-- Narrow-band ambiguity function: a delay and a frequency shift only change phases, so the modulus is that of the original signal. -/
theorem C86_ambiguity (x : Vec ℂ) (lag : Vec ℝ) (n : ℕ) (d : ℕ) (f : ℝ) (A B C : Mat ℂ) (l l' l'' xi xi' xi'' : Vec ℝ)
    (hA : Ambiguity.narrowBand x (some lag) (some n) = .ok (A, l, xi))
    (hB : Ambiguity.narrowBand (delayBy d x) (some lag) (some n) = .ok (B, l', xi'))
    (hC : Ambiguity.narrowBand (shiftFreq f x) (some lag) (some n) = .ok (C, l'', xi'')) :
    ∀ r < n, ∀ c < lag.len, B.get r c = expi (-(2 * Real.pi * (xi.get r * d))) * A.get r c ∧
      C.get r c = expi (2 * Real.pi * (2 * f * truncInt (lag.get c))) * A.get r c ∧
      ‖B.get r c‖ = ‖A.get r c‖ ∧ ‖C.get r c‖ = ‖A.get r c‖ := by
  obtain ⟨a1, a2, a3, a4, a5, a6⟩ := C42_closed_form x _ _ A l xi hA
  obtain ⟨b1, b2, b3, b4, b5, b6⟩ := C42_closed_form _ _ _ B l' xi' hB
  obtain ⟨c1, c2, c3, c4, c5, c6⟩ := C42_closed_form _ _ _ C l'' xi'' hC
  simp only [Option.getD_some] at a1 a2 b1 b2 c1 c2
  rw [a1] at a3 a6
  rw [b1] at b3 b6
  rw [c1] at c3 c6
  rw [a2] at a5 a6
  rw [b2] at b5 b6
  rw [c2] at c5 c6
  intro r hr c hc
  have eA := a6 r hr c (by omega)
  have eB := b6 r hr c (by omega)
  have eC := c6 r hr c (by omega)
  rw [b5 r hr, ← a5 r hr] at eB
  rw [c5 r hr, ← a5 r hr] at eC
  have hB' : B.get r c = expi (-(2 * Real.pi * (xi.get r * d))) * A.get r c := by
    rw [eB, eA]
    unfold ambiguity
    change ∑ t ∈ range (x.len + d), _ = _
    rw [add_comm x.len d, Finset.sum_range_add, Finset.mul_sum, Finset.sum_eq_zero, zero_add]
    · refine Finset.sum_congr rfl (fun t _ => ?_)
      have := wignerKernel_delayBy d x t (truncInt (lag.get c))
      rw [show ((d + t : ℕ) : ℤ) = (t : ℤ) + d by push_cast; ring, this]
      rw [show -(2 * Real.pi * (xi.get r * ((d + t : ℕ) : ℝ))) = -(2 * Real.pi * (xi.get r * d)) + -(2 * Real.pi * (xi.get r * t)) by
        push_cast; ring, expi_add]
      ring
    · intro t ht
      have := Finset.mem_range.1 ht
      unfold wignerKernel
      rw [zext_delayBy, zext_delayBy]
      rcases le_total 0 (truncInt (lag.get c)) with h0 | h0
      · rw [show zext x ((t : ℤ) - truncInt (lag.get c) - d) = 0 by unfold zext; rw [if_neg (by omega)]]
        simp
      · rw [show zext x ((t : ℤ) + truncInt (lag.get c) - d) = 0 by unfold zext; rw [if_neg (by omega)]]
        simp
  have hC' : C.get r c = expi (2 * Real.pi * (2 * f * truncInt (lag.get c))) * A.get r c := by
    rw [eC, eA]
    unfold ambiguity
    change ∑ t ∈ range x.len, _ = _
    rw [Finset.mul_sum]
    refine Finset.sum_congr rfl (fun t _ => ?_)
    have hz : ∀ i : ℤ, zext (shiftFreq f x) i = zext x i * expi (2 * Real.pi * (f * i)) := by
      intro i
      unfold zext
      change (if 0 ≤ i ∧ i < (x.len : ℤ) then x.get i.toNat * expi (2 * Real.pi * (f * (i.toNat : ℕ))) else 0) = _
      split_ifs with h
      · have : ((i.toNat : ℕ) : ℝ) = i := by exact_mod_cast Int.toNat_of_nonneg h.1
        rw [this]
      · rw [zero_mul]
    unfold wignerKernel
    rw [hz, hz, map_mul, conj_expi]
    have : expi (2 * Real.pi * (f * ((t : ℤ) + truncInt (lag.get c) : ℤ))) * expi (-(2 * Real.pi * (f * ((t : ℤ) - truncInt (lag.get c) : ℤ))))
        = expi (2 * Real.pi * (2 * f * truncInt (lag.get c))) := by
      rw [← expi_add]
      congr 1
      push_cast; ring
    rw [← this]; ring
  refine ⟨hB', hC', ?_, ?_⟩
  · rw [hB', norm_mul, norm_expi, one_mul]
  · rw [hC', norm_mul, norm_expi, one_mul]

/-- Page does not follow frequency shifts: a shift by half the bins rolls the rows by half their number and changes the sign of every
entry (the lag is one off, so a shift by `m` bins turns the sum by `m / n` of a turn before the real part is taken). -/
theorem C86_page_modulation (x : Vec ℂ) (ts : Vec ℤ) (h : ℕ) (hh : h ≠ 0)
    (hts : ∀ c < ts.len, 0 ≤ ts.get c ∧ ts.get c < x.len) :
    ∃ X Y, PageReturns x ts (2 * h) X ∧ PageReturns (modulateBins h (2 * h) x) ts (2 * h) Y ∧
      ∀ k < 2 * h, ∀ c < ts.len, Y.get k c = -X.get (rollRow (2 * h) h k) c := by
  have hn : 2 * h ≠ 0 := by omega
  obtain ⟨X, x1, -, -, x4⟩ := C39_page x ts (2 * h) hn hts
  obtain ⟨Y, y1, -, -, y4⟩ := C39_page (modulateBins h (2 * h) x) ts (2 * h) hn hts
  refine ⟨X, Y, x1, y1, fun k hk c hc => ?_⟩
  obtain ⟨q, hq⟩ := rollRow_dvd hn h k
  have hn' : (h : ℝ) ≠ 0 := Nat.cast_ne_zero.2 hh
  rw [x4 _ (rollRow_lt hn h k) c hc, y4 k hk c hc, ← Complex.neg_re, ← Finset.sum_neg_distrib]
  congr 1
  refine Finset.sum_congr rfl (fun s _ => ?_)
  change (x.get (ts.get c).toNat * expi (2 * Real.pi * ((h : ℤ) * ((ts.get c).toNat : ℕ) / (2 * h : ℕ))))
    * conj (x.get s * expi (2 * Real.pi * ((h : ℤ) * s / (2 * h : ℕ)))) * _ = _
  rw [map_mul, conj_expi]
  have hc1 : (((ts.get c).toNat : ℕ) : ℝ) = ts.get c := by
    have := hts c hc
    exact_mod_cast Int.toNat_of_nonneg this.1
  have epi : expi Real.pi = -1 := by unfold expi; exact Complex.exp_pi_mul_I
  have e : expi (2 * Real.pi * ((h : ℤ) * ((ts.get c).toNat : ℕ) / (2 * h : ℕ))) * expi (-(2 * Real.pi * ((h : ℤ) * s / (2 * h : ℕ))))
      * expi (-(2 * Real.pi * (k * (ts.get c - 1 - s) / (2 * h : ℕ))))
      = expi Real.pi * expi (-(2 * Real.pi * ((rollRow (2 * h) h k : ℕ) * (ts.get c - 1 - s) / (2 * h : ℕ)))) := by
    rw [← expi_add, ← expi_add, ← expi_add, hc1]
    apply expi_eq_of_sub _ _ (q * (ts.get c - 1 - s))
    have : (((rollRow (2 * h) h k : ℕ) : ℤ) : ℝ) = (k : ℤ) - (h : ℤ) + (2 * h : ℕ) * q := by
      exact_mod_cast (by linarith : ((rollRow (2 * h) h k : ℕ) : ℤ) = k - h + (2 * h : ℕ) * q)
    rw [Int.cast_natCast, Int.cast_natCast, Int.cast_natCast] at this
    rw [this]
    push_cast
    field_simp
    ring
  rw [epi] at e
  linear_combination (x.get (ts.get c).toNat * conj (x.get s)) * e

theorem wignerKernel_modulate {n : ℕ} (hn : n ≠ 0) (m : ℤ) (x : Vec ℂ) (t τ : ℤ) :
    wignerKernel (modulateBins m (2 * n) x) t τ = wignerKernel x t τ * rootPow n (-(m * τ)) := by
  unfold wignerKernel
  rw [zext_modulate, zext_modulate, map_mul, conj_rootPow]
  have h2 : rootPow n (-(m * τ)) = rootPow (2 * n) (-(m * (t + τ))) * rootPow (2 * n) (- -(m * (t - τ))) := by
    rw [← rootPow_add, rootPow_eq_expi, rootPow_eq_expi]
    congr 1
    have : (n : ℝ) ≠ 0 := Nat.cast_ne_zero.2 hn
    push_cast
    field_simp
    ring
  rw [h2]; ring

theorem smoothCorr_modulate {n : ℕ} (hn : n ≠ 0) (m : ℤ) (g : Vec ℂ) (L : ℕ) (x : Vec ℂ) (c τ : ℤ) :
    smoothCorr g L (modulateBins m (2 * n) x) c τ = smoothCorr g L x c τ * rootPow n (-(m * τ)) := by
  unfold smoothCorr
  change (∑ p ∈ smoothSeg L x.len c τ, _) / smoothMass g L x.len c τ = _
  rw [div_mul_eq_mul_div, Finset.sum_mul]
  congr 1
  refine Finset.sum_congr rfl (fun p _ => ?_)
  rw [wignerKernel_modulate hn, mul_assoc]

/-- Smoothed pseudo Wigner-Ville does not follow frequency shifts: with an even number `n` of bins, a shift by `n / 2` half bins turns the
row that should be rolled upside down about the smoothed energy of the instant (lag `τ` is stored as lag `τ + 1`). -/
theorem C86_spwv_modulation (x tw fw : Vec ℂ) (ts : Vec ℤ) (h Lg Lh : ℕ) (h0 : h ≠ 0) (hg : tw.len = 2 * Lg + 1)
    (hh : fw.len = 2 * Lh + 1)
    (hfin : ∀ c < ts.len, ∀ τ : ℕ, (smoothSeg Lg x.len (ts.get c - 1) τ).Nonempty → smoothMass tw Lg x.len (ts.get c - 1) τ ≠ 0)
    (hz : ∀ c < ts.len, (Lh : ℤ) < roundEven (((2 * h : ℕ) : ℝ) / 2) ∨ ts.get c ≤ roundEven (((2 * h : ℕ) : ℝ) / 2) ∨
      (x.len : ℤ) - roundEven (((2 * h : ℕ) : ℝ) / 2) < ts.get c) :
    ∃ X Y, spwv x (some ts) (some (2 * h)) (some tw) (some fw) = .ok X ∧
      spwv (modulateBins h (2 * (2 * h)) x) (some ts) (some (2 * h)) (some tw) (some fw) = .ok Y ∧
      ∀ k < 2 * h, ∀ c < ts.len, Y.get k c + X.get (rollRow (2 * h) h k) c = 2 * (smoothCorr tw Lg x (ts.get c - 1) 0).re := by
  have hn : 2 * h ≠ 0 := by omega
  obtain ⟨X, x1, -, -, x4⟩ := C37_closed_form x tw fw ts (2 * h) Lg Lh hn hg hh hfin hz
  obtain ⟨Y, y1, -, -, y4⟩ := C37_closed_form (modulateBins h (2 * (2 * h)) x) tw fw ts (2 * h) Lg Lh hn hg hh hfin hz
  refine ⟨X, Y, x1, y1, fun k hk c hc => ?_⟩
  have hlen : (modulateBins h (2 * (2 * h)) x).len = x.len := rfl
  obtain ⟨q, hq⟩ := rollRow_dvd hn h k
  have hn' : (h : ℝ) ≠ 0 := Nat.cast_ne_zero.2 h0
  rw [x4 _ (rollRow_lt hn h k) c hc, y4 k hk c hc, ← Complex.add_re, hlen,
    show (2 : ℝ) * (smoothCorr tw Lg x (ts.get c - 1) 0).re = (smoothCorr tw Lg x (ts.get c - 1) 0 + smoothCorr tw Lg x (ts.get c - 1) 0).re by
      rw [Complex.add_re]; ring]
  congr 1
  have h00 : smoothCorr tw Lg (modulateBins h (2 * (2 * h)) x) (ts.get c - 1) 0 = smoothCorr tw Lg x (ts.get c - 1) 0 := by
    rw [smoothCorr_modulate hn, mul_zero, neg_zero, rootPow_eq_expi]
    simp
  have epi : expi Real.pi = -1 := by unfold expi; exact Complex.exp_pi_mul_I
  have epi' : expi (-Real.pi) = -1 := by rw [expi_neg, epi]; norm_num
  have hroll : (((rollRow (2 * h) h k : ℕ) : ℤ) : ℝ) = (k : ℤ) - (h : ℤ) + (2 * h : ℕ) * q := by
    exact_mod_cast (by linarith : ((rollRow (2 * h) h k : ℕ) : ℤ) = k - h + (2 * h : ℕ) * q)
  rw [Int.cast_natCast, Int.cast_natCast, Int.cast_natCast] at hroll
  have e1 : ∀ τ : ℕ, rootPow (2 * h) (-((h : ℤ) * (τ : ℤ))) * expi (-(2 * Real.pi * (k * (τ + 1) / (2 * h : ℕ))))
      = -expi (-(2 * Real.pi * ((rollRow (2 * h) h k : ℕ) * (τ + 1) / (2 * h : ℕ)))) := by
    intro τ
    rw [← neg_one_mul (expi _), ← epi', rootPow_eq_expi, ← expi_add, ← expi_add]
    apply expi_eq_of_sub _ _ (q * (τ + 1))
    rw [hroll]
    push_cast
    field_simp
    ring
  have e2 : ∀ τ : ℕ, rootPow (2 * h) (-((h : ℤ) * (-τ : ℤ))) * expi (2 * Real.pi * (k * (τ + 1) / (2 * h : ℕ)))
      = -expi (2 * Real.pi * ((rollRow (2 * h) h k : ℕ) * (τ + 1) / (2 * h : ℕ))) := by
    intro τ
    rw [← neg_one_mul (expi _), ← epi, rootPow_eq_expi, ← expi_add, ← expi_add]
    apply expi_eq_of_sub _ _ (-(q * (τ + 1)))
    rw [hroll]
    push_cast
    field_simp
    ring
  rw [h00]
  rw [add_add_add_comm, ← Finset.sum_add_distrib]
  rw [Finset.sum_eq_zero, add_zero]
  intro τ _
  rw [smoothCorr_modulate hn, smoothCorr_modulate hn]
  linear_combination (fw.get (Lh + τ + 1) * smoothCorr tw Lg x (ts.get c - 1) τ) * e1 τ
    + (fw.get (Lh + 1 - τ) * smoothCorr tw Lg x (ts.get c - 1) (-τ)) * e2 τ

/-- Instances of the hypotheses: an impulse in three samples, eight bins. -/
example : ∃ X Y, PageReturns ⟨3, fun i => if i = 1 then 1 else 0⟩ ⟨1, fun _ => 1⟩ (2 * 4) X ∧
    PageReturns (modulateBins (4 : ℕ) (2 * 4) ⟨3, fun i => if i = 1 then 1 else 0⟩) ⟨1, fun _ => 1⟩ (2 * 4) Y ∧
      X.get (rollRow 8 4 0) 0 = -1 ∧ Y.get 0 0 = 1 := by
  obtain ⟨X, Y, h1, h2, h3⟩ := C86_page_modulation ⟨3, fun i => if i = 1 then 1 else 0⟩ ⟨1, fun _ => 1⟩ 4 (by norm_num)
    (fun c _ => by norm_num)
  obtain ⟨X', h1', -, -, h4⟩ := C39_page ⟨3, fun i => if i = 1 then 1 else 0⟩ ⟨1, fun _ => 1⟩ (2 * 4) (by norm_num) (fun c _ => by norm_num)
  obtain rfl := page_unique h1 h1'
  have h5 : rollRow 8 4 0 = 4 := by decide
  have epi : expi Real.pi = -1 := by unfold expi; exact Complex.exp_pi_mul_I
  have hX : X.get (rollRow 8 4 0) 0 = -1 := by
    rw [h4 _ (by rw [h5]; norm_num) 0 (by norm_num), h5]
    simp
    rw [show -(2 * Real.pi * (-4 / 8) : ℝ) = Real.pi by ring, epi]
    simp
  refine ⟨X, Y, h1, h2, hX, ?_⟩
  have := h3 0 (by norm_num) 0 (by norm_num)
  rw [this]
  change -X.get (rollRow 8 4 0) 0 = 1
  rw [hX]; norm_num

end Tftb.Props
