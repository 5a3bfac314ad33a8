import Verif.Props.Covariance
import Verif.Props.TimeFreq
import Verif.Props.Conj

/-! # C98 Silence after the signal -/

namespace Tftb.Props

open Tftb Tftb.Spec Tftb.Linear Tftb.Cohen Finset ComplexConjugate

/-- The signal with `d` zeros put after it. -/
def padBy (d : ℕ) (x : Vec ℂ) : Vec ℂ := ⟨x.len + d, fun i => if i < x.len then x.get i else 0⟩

theorem padBy_len (d : ℕ) (x : Vec ℂ) : (padBy d x).len = x.len + d := rfl

theorem padBy_get {d : ℕ} {x : Vec ℂ} {i : ℕ} (h : i < x.len) : (padBy d x).get i = x.get i := if_pos h

theorem padBy_get_zero {d : ℕ} {x : Vec ℂ} {i : ℕ} (h : x.len ≤ i) : (padBy d x).get i = 0 := if_neg (by omega)

theorem zext_padBy (d : ℕ) (x : Vec ℂ) (i : ℤ) : zext (padBy d x) i = zext x i := by
  unfold zext
  rw [padBy_len]
  by_cases h : 0 ≤ i ∧ i < (x.len : ℤ)
  · rw [if_pos h, if_pos (by push_cast; omega), padBy_get (by omega)]
  · rw [if_neg h]
    split_ifs with h2
    · exact padBy_get_zero (by push_cast at h2; omega)
    · rfl

theorem wignerKernel_padBy (d : ℕ) (x : Vec ℂ) (t τ : ℤ) : wignerKernel (padBy d x) t τ = wignerKernel x t τ := by
  unfold wignerKernel
  rw [zext_padBy, zext_padBy]

theorem sum_padBy {M : Type} [AddCommMonoid M] {d : ℕ} {x : Vec ℂ} (f : ℕ → ℂ → M) (hf : ∀ i, f i 0 = 0) :
    ∑ i ∈ range (x.len + d), f i ((padBy d x).get i) = ∑ i ∈ range x.len, f i (x.get i) := by
  symm
  refine Finset.sum_subset_zero_on_sdiff (Finset.range_subset_range.2 (by omega)) (fun i hi => ?_) (fun i hi => ?_)
  · rw [Finset.mem_sdiff, Finset.mem_range, Finset.mem_range] at hi
    rw [padBy_get_zero (by omega), hf]
  · rw [padBy_get (Finset.mem_range.1 hi)]

/-- **Short-time Fourier transform**: the columns are the same, and zero from `N + 1 + L` on. -/
theorem C98_stft {τ : Type} (x : Vec ℂ) (ts : Vec τ) (n L : ℕ) (h : Vec ℂ) (hh : h.len = 2 * L + 1 ∨ h.len = 2 * L + 2) (hL : 2 * L < n) (d : ℕ) :
    ∃ X : Mat ℂ, stftOf x ts n (some h) = .ok X ∧ ∃ Y : Mat ℂ, stftOf (padBy d x) ts n (some h) = .ok Y ∧
      (∀ k < n, ∀ m < ts.len, Y.get k m = X.get k m) ∧ ∀ k < n, ∀ m < ts.len, x.len + L < m → Y.get k m = 0 := by
  obtain ⟨X, x1, -, -, x4⟩ := C27_stft x ts n L h hh hL
  obtain ⟨Y, y1, -, -, y4⟩ := C27_stft (padBy d x) ts n L h hh hL
  have e : ∀ k < n, ∀ m < ts.len, Y.get k m = X.get k m := by
    intro k hk m hm
    rw [x4 k hk m hm, y4 k hk m hm]
    unfold windowedDft
    simp only [zext_padBy]
  refine ⟨X, x1, Y, y1, e, fun k hk m hm hz => ?_⟩
  rw [e k hk m hm, x4 k hk m hm]
  unfold windowedDft
  refine Finset.sum_eq_zero (fun τ hτ => ?_)
  rw [Finset.mem_Icc] at hτ
  rw [zext_of_not_mem (by omega), zero_mul, zero_mul]

/-- **Wigner-Ville distribution**: the columns of the signal are the same, the others zero. -/
theorem C98_wvd {τ τ' : Type} (x : Vec ℂ) (ts : Vec τ) (ts' : Vec τ') (n : ℕ) (hn : n ≠ 0) (d : ℕ) (hts : ts.len = x.len) (hts' : ts'.len = x.len + d)
    (hN : ((x.len + d : ℕ) : ℤ) ≤ 2 * roundEven ((n : ℝ) / 2)) :
    ∃ X Y, WvdReturns x ts n X ∧ WvdReturns (padBy d x) ts' n Y ∧ (∀ k < n, ∀ t < x.len, Y.get k t = X.get k t) ∧
      ∀ k < n, ∀ t < x.len + d, x.len ≤ t → Y.get k t = 0 := by
  obtain ⟨X, x1, -, -, x4⟩ := C33_wvd x ts n hn hts (.inl (by push_cast at hN; omega))
  obtain ⟨Y, y1, -, -, y4⟩ := C33_wvd (padBy d x) ts' n hn hts' (.inl hN)
  rw [padBy_len] at y4
  refine ⟨X, Y, x1, y1, fun k hk t ht => ?_, fun k hk t ht hz => ?_⟩
  · rw [← Complex.ofReal_inj, x4 k hk t ht, y4 k hk t (by omega)]
    exact lagSum_congr (fun τ _ _ => wignerKernel_padBy d x t τ) _
  · rw [← Complex.ofReal_inj, y4 k hk t ht]
    unfold lagSum
    refine Finset.sum_eq_zero (fun τ _ => ?_)
    rw [wignerKernel_padBy]
    unfold wignerKernel
    rcases le_or_gt 0 τ with h | h
    · rw [zext_of_not_mem (i := (t : ℤ) + τ) (by omega), zero_mul, zero_mul]
    · rw [zext_of_not_mem (i := (t : ℤ) - τ) (by omega), map_zero, mul_zero, zero_mul]

/-- **Pseudo Wigner-Ville distribution**: likewise. -/
theorem C98_pwvd {τ : Type} (x : Vec ℂ) (ts : Vec τ) (n : ℕ) (h : Vec ℂ) (L : ℕ) (hh : h.len = 2 * L + 1) (hL : (L : ℤ) < roundEven ((n : ℝ) / 2)) (d : ℕ) :
    ∃ X Y, PwvdReturns x ts n (some h) X ∧ PwvdReturns (padBy d x) ts n (some h) Y ∧ ∀ k < n, ∀ t < ts.len, Y.get k t = X.get k t := by
  obtain ⟨X, x1, -, -, x4⟩ := C36_pwvd x ts n h L hh hL
  obtain ⟨Y, y1, -, -, y4⟩ := C36_pwvd (padBy d x) ts n h L hh hL
  refine ⟨X, Y, x1, y1, fun k hk t ht => ?_⟩
  rw [x4 k hk t ht, y4 k hk t ht]
  congr 1
  exact lagSum_congr (fun τ _ _ => by rw [wignerKernel_padBy]) _

/-- **Pseudo Margenau-Hill distribution**: likewise. -/
theorem C98_pmh {τ : Type} (x : Vec ℂ) (ts : Vec τ) (n : ℕ) (h : Vec ℂ) (L : ℕ) (hh : h.len = 2 * L + 1)
    (hL : (L : ℤ) < roundEven ((n : ℝ) / 2) - 1) (d : ℕ) (hts : ts.len ≤ x.len) :
    ∃ X Y, PmhReturns x ts n (some h) X ∧ PmhReturns (padBy d x) ts n (some h) Y ∧ ∀ k < n, ∀ c < ts.len, Y.get k c = X.get k c := by
  obtain ⟨X, x1, -, -, x4⟩ := (C61_pmh x ts n h L hh (.inl hL)).1 hts
  obtain ⟨Y, y1, -, -, y4⟩ := (C61_pmh (padBy d x) ts n h L hh (.inl hL)).1 (by rw [padBy_len]; omega)
  refine ⟨X, Y, x1, y1, fun k hk c hc => ?_⟩
  rw [x4 k hk c hc, y4 k hk c hc]
  exact lagSum_congr (fun τ _ _ => by rw [zext_padBy, padBy_get (by omega)]) _

theorem sum_Ico_padBy {n a d : ℕ} {x : Vec ℂ} (f : ℕ → ℂ → ℂ) (hf : ∀ i, f i 0 = 0) :
    ∑ i ∈ Finset.Ico a (min n (x.len + d)), f i ((padBy d x).get i) = ∑ i ∈ Finset.Ico a (min n x.len), f i (x.get i) := by
  symm
  refine Finset.sum_subset_zero_on_sdiff (Finset.Ico_subset_Ico_right (by omega)) (fun i hi => ?_) (fun i hi => ?_)
  · rw [Finset.mem_sdiff, Finset.mem_Ico, Finset.mem_Ico] at hi
    rw [padBy_get_zero (by omega), hf]
  · rw [Finset.mem_Ico] at hi
    rw [padBy_get (by omega)]

/-- **Margenau-Hill and Page distributions**: the columns of the signal are the same for the same number of bins, large or small. -/
theorem C98_margenau_hill (x : Vec ℂ) (ts : Vec ℤ) (n : ℕ) (hn : n ≠ 0) (d : ℕ) (hts : ∀ c < ts.len, 0 ≤ ts.get c ∧ ts.get c < x.len) :
    ∃ X Y, MhReturns x ts n X ∧ MhReturns (padBy d x) ts n Y ∧ ∀ k < n, ∀ c < ts.len, Y.get k c = X.get k c := by
  obtain ⟨X, x1, -, -, x4⟩ := C38_margenau_hill x ts n hn hts
  obtain ⟨Y, y1, -, -, y4⟩ := C38_margenau_hill (padBy d x) ts n hn (fun c hc => ⟨(hts c hc).1, by have := hts c hc; rw [padBy_len]; push_cast; omega⟩)
  refine ⟨X, Y, x1, y1, fun k hk c hc => ?_⟩
  rw [x4 k hk c hc, y4 k hk c hc, padBy_len, padBy_get (by have := hts c hc; omega)]
  congr 1
  exact sum_Ico_padBy (fun s z => x.get (ts.get c).toNat * conj z * expi (-(2 * Real.pi * (k * (ts.get c - s) / n)))) (fun s => by simp)

theorem C98_page (x : Vec ℂ) (ts : Vec ℤ) (n : ℕ) (hn : n ≠ 0) (d : ℕ) (hts : ∀ c < ts.len, 0 ≤ ts.get c ∧ ts.get c < x.len) :
    ∃ X Y, PageReturns x ts n X ∧ PageReturns (padBy d x) ts n Y ∧ ∀ k < n, ∀ c < ts.len, Y.get k c = X.get k c := by
  obtain ⟨X, x1, -, -, x4⟩ := C39_page x ts n hn hts
  obtain ⟨Y, y1, -, -, y4⟩ := C39_page (padBy d x) ts n hn (fun c hc => ⟨(hts c hc).1, by have := hts c hc; rw [padBy_len]; push_cast; omega⟩)
  refine ⟨X, Y, x1, y1, fun k hk c hc => ?_⟩
  rw [x4 k hk c hc, y4 k hk c hc, padBy_len, padBy_get (by have := hts c hc; omega), ← Nat.Ico_zero_eq_range, ← Nat.Ico_zero_eq_range]
  congr 1
  exact sum_Ico_padBy (fun s z => x.get (ts.get c).toNat * conj z * expi (-(2 * Real.pi * (k * (ts.get c - 1 - s) / n)))) (fun s => by simp)

/-- **Spectrogram**: the values times the energy of the window inside the signal are the same; so the values are the same where the window ends
before the signal does.  Where it does not, the signal is divided by less: the spectrogram of the unpadded signal is the larger one. -/
theorem C98_spectrogram (x : Vec ℂ) (ts : Vec ℤ) (n L : ℕ) (h : Vec ℂ) (hh : h.len = 2 * L + 1 ∨ h.len = 2 * L + 2)
    (hn : n ≠ 0) (d : ℕ) (hw : WindowOk h n L x.len ts) (hw' : WindowOk h n L (x.len + d) ts) :
    ∃ X Y, SpectroReturns x ts n h X ∧ SpectroReturns (padBy d x) ts n h Y ∧ ∀ k < n, ∀ m < ts.len,
      Y.get k m * windowEnergy h n L (x.len + d) (ts.get m - 1) = X.get k m * windowEnergy h n L x.len (ts.get m - 1) ∧
      (ts.get m + L ≤ x.len → Y.get k m = X.get k m) ∧ Y.get k m ≤ X.get k m := by
  obtain ⟨X, x1, -, -, x4⟩ := C31_closed_form x ts n L h hh hn hw
  obtain ⟨Y, y1, -, -, y4⟩ := C31_closed_form (padBy d x) ts n L h hh hn hw'
  rw [padBy_len] at y4
  refine ⟨X, Y, x1, y1, fun k hk m hm => ?_⟩
  obtain ⟨x5, x6⟩ := x4 k hk m hm
  obtain ⟨y5, y6⟩ := y4 k hk m hm
  have hsub : segLags (min (roundEven ((n : ℝ) / 2) - 1) L) x.len (ts.get m - 1)
      ⊆ segLags (min (roundEven ((n : ℝ) / 2) - 1) L) (x.len + d) (ts.get m - 1) := by
    intro τ hτ
    unfold segLags at hτ ⊢
    rw [Finset.mem_filter] at hτ ⊢
    refine ⟨hτ.1, ?_⟩
    push_cast
    omega
  have hsum : ∑ τ ∈ segLags (min (roundEven ((n : ℝ) / 2) - 1) L) (x.len + d) (ts.get m - 1),
          zext (padBy d x) (ts.get m - 1 + τ) * conj (h.get ((L : ℤ) + τ).toNat) * expi (-(2 * Real.pi * (k * τ / n)))
      = ∑ τ ∈ segLags (min (roundEven ((n : ℝ) / 2) - 1) L) x.len (ts.get m - 1),
          zext x (ts.get m - 1 + τ) * conj (h.get ((L : ℤ) + τ).toNat) * expi (-(2 * Real.pi * (k * τ / n))) := by
    simp only [zext_padBy]
    symm
    refine Finset.sum_subset hsub (fun τ h1 h2 => ?_)
    unfold segLags at h1 h2
    rw [Finset.mem_filter] at h1 h2
    rw [zext_of_not_mem (fun h3 => h2 ⟨h1.1, h3⟩), zero_mul, zero_mul]
  have hmain : Y.get k m * windowEnergy h n L (x.len + d) (ts.get m - 1) = X.get k m * windowEnergy h n L x.len (ts.get m - 1) := by
    rw [x6, y6, hsum]
  have hnn : ∀ N c, 0 ≤ windowEnergy h n L N c := fun N c => by
    unfold windowEnergy
    exact Finset.sum_nonneg (fun _ _ => by positivity)
  refine ⟨hmain, fun hL => ?_, ?_⟩
  swap
  · rcases hw' m hm with h1 | h1
    · have hY : 0 ≤ Y.get k m := by
        have hp := lt_of_le_of_ne (hnn (x.len + d) (ts.get m - 1)) (Ne.symm h1)
        have h2 : 0 ≤ Y.get k m * windowEnergy h n L (x.len + d) (ts.get m - 1) := by rw [y6]; positivity
        exact (mul_nonneg_iff_of_pos_right hp).1 h2
      rcases hw m hm with h0 | h0
      · have hmono : windowEnergy h n L x.len (ts.get m - 1) ≤ windowEnergy h n L (x.len + d) (ts.get m - 1) := by
          unfold windowEnergy
          exact Finset.sum_le_sum_of_subset_of_nonneg hsub (fun _ _ _ => by positivity)
        have hpos := lt_of_le_of_ne (hnn x.len (ts.get m - 1)) (Ne.symm h0)
        refine le_of_mul_le_mul_right ?_ hpos
        rw [← hmain]
        exact mul_le_mul_of_nonneg_left hmono hY
      · rw [x5 h0, zero_mul] at hmain
        rw [x5 h0, (mul_eq_zero.1 hmain).resolve_right h1]
    · have h0 : segLags (min (roundEven ((n : ℝ) / 2) - 1) L) x.len (ts.get m - 1) = ∅ := Finset.subset_empty.1 (h1 ▸ hsub)
      rw [x5 h0, y5 h1]
  have hseg : segLags (min (roundEven ((n : ℝ) / 2) - 1) L) (x.len + d) (ts.get m - 1)
      = segLags (min (roundEven ((n : ℝ) / 2) - 1) L) x.len (ts.get m - 1) := by
    refine subset_antisymm (fun τ hτ => ?_) hsub
    unfold segLags at hτ ⊢
    rw [Finset.mem_filter, Finset.mem_Icc] at hτ ⊢
    push_cast at hτ
    omega
  have hE : windowEnergy h n L (x.len + d) (ts.get m - 1) = windowEnergy h n L x.len (ts.get m - 1) := by
    unfold windowEnergy
    rw [hseg]
  rcases hw m hm with h0 | h0
  · rw [hE] at hmain
    exact mul_right_cancel₀ h0 hmain
  · rw [x5 h0, y5 (by rw [hseg, h0])]

/-- **Narrow-band ambiguity function**: equal at equal labels. -/
theorem C98_narrow_band (x : Vec ℂ) (lag lag' : Option (Vec ℝ)) (nf nf' : Option ℕ) (d : ℕ) (X Y : Mat ℂ) (l l' xi xi' : Vec ℝ)
    (hX : Ambiguity.narrowBand x lag nf = .ok (X, l, xi)) (hY : Ambiguity.narrowBand (padBy d x) lag' nf' = .ok (Y, l', xi')) :
    ∀ r < X.rows, ∀ r' < Y.rows, xi'.get r' = xi.get r → ∀ c < X.cols, ∀ c' < Y.cols, l'.get c' = l.get c → Y.get r' c' = X.get r c := by
  intro r hr r' hr' e c hc c' hc' e'
  obtain ⟨-, -, -, -, -, x6⟩ := C42_closed_form x lag nf X l xi hX
  obtain ⟨-, -, -, -, -, y6⟩ := C42_closed_form (padBy d x) lag' nf' Y l' xi' hY
  rw [x6 r hr c hc, y6 r' hr' c' hc', e, e']
  unfold ambiguity
  rw [padBy_len]
  simp only [wignerKernel_padBy]
  symm
  refine Finset.sum_subset (Finset.range_subset_range.2 (by omega)) (fun t h1 h2 => ?_)
  rw [Finset.mem_range] at h1 h2
  unfold wignerKernel
  rcases le_or_gt 0 (truncInt (l.get c)) with h | h
  · rw [zext_of_not_mem (i := (t : ℤ) + truncInt (l.get c)) (by omega)]; ring
  · rw [zext_of_not_mem (i := (t : ℤ) - truncInt (l.get c)) (by omega), map_zero]; ring

/-- **Instantaneous frequency** inside the signal. -/
theorem C98_inst_freq (x : Vec ℂ) (d : ℕ) (t : Vec ℤ) (ht : ∀ j < t.len, 2 ≤ t.get j ∧ t.get j < x.len) :
    ∃ f g : Vec ℝ, TF.instFreq x (some t) = .ok (f, t) ∧ TF.instFreq (padBy d x) (some t) = .ok (g, t) ∧ f.len = t.len ∧ g.len = t.len ∧
      ∀ j < t.len, g.get j = f.get j := by
  obtain ⟨f, f1, f2, f3⟩ := inst_freq_eq x t (fun j hj => ⟨idxOk_of_lt (by have := ht j hj; omega) (ht j hj).2,
    idxOk_of_lt (by have := ht j hj; omega) (by have := ht j hj; omega)⟩)
  obtain ⟨g, g1, g2, g3⟩ := inst_freq_eq (padBy d x) t (fun j hj => by
    have h1 := ht j hj
    rw [padBy_len]
    exact ⟨idxOk_of_lt (by omega) (by push_cast; omega), idxOk_of_lt (by omega) (by push_cast; omega)⟩)
  refine ⟨f, g, f1, g1, f2, g2, fun j hj => ?_⟩
  have h1 := ht j hj
  rw [f3 j hj, g3 j hj, wrapIdx_of_nonneg (by omega), wrapIdx_of_nonneg (by omega), wrapIdx_of_nonneg (by omega), wrapIdx_of_nonneg (by omega),
    padBy_get (by omega), padBy_get (by omega)]

/-- **Time localisation**: unchanged. -/
theorem C98_loctime (x : Vec ℂ) (d : ℕ) : TF.loctime (padBy d x) = TF.loctime x := by
  have he : energy (padBy d x) = energy x := by
    unfold energy
    exact sum_padBy (fun _ z => ‖z‖ ^ 2) (fun _ => by simp)
  have hw : ∀ p : ℕ → ℝ, wmean (x.len + d) p (fun i => ‖(padBy d x).get i‖ ^ 2) = wmean x.len p (fun i => ‖x.get i‖ ^ 2) := by
    intro p
    unfold wmean
    rw [show ∑ i ∈ range (x.len + d), ‖(padBy d x).get i‖ ^ 2 = _ from sum_padBy (fun _ z => ‖z‖ ^ 2) (fun _ => by simp)]
    congr 1
    exact sum_padBy (fun i z => p i * ‖z‖ ^ 2) (fun _ => by simp)
  by_cases h0 : energy x = 0
  · rw [C44_loctime_zero x h0, C44_loctime_zero (padBy d x) (he.trans h0)]
  · rw [C44_loctime x h0, C44_loctime (padBy d x) (by rw [he]; exact h0), padBy_len]
    unfold wvar
    simp only [hw]

theorem dtft_padBy (d : ℕ) (x : Vec ℂ) (ν : ℝ) : dtft (padBy d x) ν = dtft x ν := by
  unfold dtft
  exact sum_padBy (fun j z => z * expi (-(2 * Real.pi * ν * j))) (fun _ => by simp)

/-- **Group delay** at given frequencies: a reported delay is unchanged; a delay that was suppressed for lying beyond `N + 3` can appear. -/
theorem C98_group_delay (x : Vec ℂ) (d : ℕ) (f : Vec ℝ) (hz : ∀ k < f.len, dtft x (f.get k) ≠ 0) :
    ∃ g g' : Vec ℝ, TF.groupDelayAt x f = .ok g ∧ TF.groupDelayAt (padBy d x) f = .ok g' ∧ g.len = f.len ∧ g'.len = f.len ∧
      ∀ k < f.len, g'.get k = g.get k ∨ g.get k = 0 ∧ (x.len : ℝ) + 3 < g'.get k := by
  have ht : ∀ ν : ℝ, dtft (timeWeighted (padBy d x)) ν = dtft (timeWeighted x) ν := by
    intro ν
    unfold dtft timeWeighted
    exact sum_padBy (fun j z => ((j : ℂ) + 1) * z * expi (-(2 * Real.pi * ν * j))) (fun _ => by simp)
  obtain ⟨g, g1, g2, g3⟩ := C46_group_delay_at x f hz
  obtain ⟨g', g1', g2', g3'⟩ := C46_group_delay_at (padBy d x) f (fun k hk => by rw [dtft_padBy]; exact hz k hk)
  refine ⟨g, g', g1, g1', g2, g2', fun k hk => ?_⟩
  rw [g3 k hk, g3' k hk, dtft_padBy, ht, padBy_len]
  generalize (dtft (timeWeighted x) (f.get k) / dtft x (f.get k)).re = r
  have hd : (0 : ℝ) ≤ d := Nat.cast_nonneg _
  unfold clipDelay
  push_cast
  split_ifs with h1 h2 h2
  · exact .inl rfl
  · refine .inr ⟨rfl, ?_⟩
    by_contra hc
    exact h2 ⟨h1.1, not_lt.1 hc⟩
  · exact absurd ⟨h2.1, by linarith [h2.2]⟩ h1
  · exact .inl rfl

/-- **Frequency localisation** does change: the labels of the bins do, and half of the share of the last one goes.  The signals `(1, 0)` and `(1, 0, 0, 0)`
have centres `-1/4` and `-1/8`. -/
theorem C98_locfreq : ∃ x : Vec ℂ, x.len = 2 ∧ ∃ B B', TF.locfreq x = .ok (-(1 / 4), B) ∧ TF.locfreq (padBy 2 x) = .ok (-(1 / 8), B') := by
  have key : ∀ y : Vec ℂ, 0 < y.len → y.len % 4 ≠ 1 → y.get 0 = 1 → (∀ i, i ≠ 0 → y.get i = 0) →
      ∃ B, TF.locfreq y = .ok (wmean y.len (binFreq y.len) (fun _ => 1), B) := by
    intro y hN h4 h0 h1
    have hd : ∀ k, ‖dft y k‖ ^ 2 = 1 := by
      intro k
      rw [dft_eq_dftC]
      unfold dftC
      rw [Finset.sum_eq_single 0 (fun i _ hi => by rw [h1 i hi, zero_mul]) (fun h => absurd (Finset.mem_range.2 hN) h), h0]
      simp [rootPow_zero]
    have he : energy y ≠ 0 := by
      unfold energy
      rw [Finset.sum_eq_single 0 (fun i _ hi => by rw [h1 i hi]; simp) (fun h => absurd (Finset.mem_range.2 hN) h), h0]
      simp
    have h := C45_locfreq y h4 he
    simp only [hd] at h
    exact ⟨_, h⟩
  obtain ⟨B, hB⟩ := key ⟨2, fun i => if i = 0 then 1 else 0⟩ (by norm_num) (by norm_num) rfl (fun i hi => if_neg hi)
  obtain ⟨B', hB'⟩ := key (padBy 2 ⟨2, fun i => if i = 0 then 1 else 0⟩) (by norm_num [padBy_len]) (by norm_num [padBy_len]) rfl
    (fun i hi => by unfold padBy; simp [hi])
  refine ⟨⟨2, fun i => if i = 0 then 1 else 0⟩, rfl, B, B', hB.trans ?_, hB'.trans ?_⟩
  · congr 2
    unfold wmean binFreq
    norm_num [Finset.sum_range_succ]
  · rw [padBy_len]
    congr 2
    unfold wmean binFreq
    norm_num [Finset.sum_range_succ]

/-- A concrete instance: three samples, then five zeros. -/
example : ∃ X Y, WvdReturns ⟨3, fun i => (i : ℂ) + 1⟩ (arange 0 3) 8 X ∧ WvdReturns (padBy 5 ⟨3, fun i => (i : ℂ) + 1⟩) (arange 0 8) 8 Y ∧
    (∀ k < 8, ∀ t < 3, Y.get k t = X.get k t) ∧ ∀ k < 8, ∀ t < 3 + 5, 3 ≤ t → Y.get k t = 0 :=
  C98_wvd ⟨3, fun i => (i : ℂ) + 1⟩ (arange 0 3) (arange 0 8) 8 (by norm_num) 5 rfl rfl (by
    have h := roundEven_half 8
    rw [h]
    norm_num)

end Tftb.Props
