import Verif.Props.Conj
import Verif.Props.Cohen
import Verif.Lemmas.Chirp

/-! # C97 Time reversal

`x.reverse` is the signal played backwards: sample `i` is sample `N - 1 - i` of `x`.
-/

namespace Tftb.Props

open Tftb Tftb.Spec Tftb.Linear Tftb.Cohen Finset ComplexConjugate

theorem zext_reverse (x : Vec ℂ) (i : ℤ) : zext x.reverse i = zext x ((x.len : ℤ) - 1 - i) := by
  by_cases h : 0 ≤ i ∧ i < (x.len : ℤ)
  · rw [zext_of_mem (x := x.reverse) h.1 h.2, zext_of_mem (by omega) (by omega)]
    show x.get _ = _
    congr 1; omega
  · rw [zext_of_not_mem (x := x.reverse) h, zext_of_not_mem (by omega)]

theorem wigner_reverse (x : Vec ℂ) (t τ : ℤ) : wignerKernel x.reverse t τ = wignerKernel x ((x.len : ℤ) - 1 - t) (-τ) := by
  unfold wignerKernel
  rw [zext_reverse, zext_reverse]
  congr 2
  · omega
  · congr 1; omega

/-- `h'` holds the samples of `h` in the opposite order. -/
def IsReverse (h h' : Vec ℂ) : Prop := h'.len = h.len ∧ ∀ i < h.len, h'.get i = h.get (h.len - 1 - i)

theorem window_reverse {h h' : Vec ℂ} {L : ℕ} (hr : IsReverse h h') (hh : h.len = 2 * L + 1) {τ : ℤ} (h1 : -(L : ℤ) ≤ τ) (h2 : τ ≤ L) :
    h'.get ((L : ℤ) + τ).toNat = h.get ((L : ℤ) + -τ).toNat := by
  rw [hr.2 _ (by omega)]
  congr 1
  omega

/-- The default window is symmetric. -/
theorem makeWindow_reverse (n : ℕ) : IsReverse (makeWindow n) (makeWindow n) := by
  refine ⟨rfl, fun i hi => ?_⟩
  have e : (makeWindow n).len = n / 4 + (1 - n / 4 % 2) := rfl
  show (((hamming _).get i : ℝ) : ℂ) = (((hamming _).get _ : ℝ) : ℂ)
  rw [e] at hi ⊢
  generalize n / 4 + (1 - n / 4 % 2) = M at hi ⊢
  congr 1
  simp only [hamming]
  split
  · rfl
  · rename_i h1
    have hM : ((M : ℝ) - 1) ≠ 0 := by
      have : (M : ℝ) ≠ 1 := by exact_mod_cast h1
      exact sub_ne_zero.2 this
    have hc : ((M - 1 - i : ℕ) : ℝ) = (M : ℝ) - 1 - i := by
      rw [Nat.cast_sub (by omega), Nat.cast_sub (by omega)]
      push_cast; ring
    rw [hc, show 2 * Real.pi * ((M : ℝ) - 1 - i) / ((M : ℝ) - 1) = 2 * Real.pi - 2 * Real.pi * i / ((M : ℝ) - 1) by field_simp, Real.cos_two_pi_sub]

theorem sum_Icc_neg {M : Type} [AddCommMonoid M] (R : ℤ) (f : ℤ → M) : ∑ τ ∈ Finset.Icc (-R) R, f (-τ) = ∑ τ ∈ Finset.Icc (-R) R, f τ := by
  refine Finset.sum_bij' (fun τ _ => -τ) (fun τ _ => -τ) ?_ ?_ ?_ ?_ ?_
  · intro τ h; rw [Finset.mem_Icc] at h ⊢; omega
  · intro τ h; rw [Finset.mem_Icc] at h ⊢; omega
  · intro τ _; ring
  · intro τ _; ring
  · intro τ _; rfl

theorem expi_flip_neg {n k : ℕ} (hn : n ≠ 0) (hk : k < n) (a : ℤ) :
    expi (-(2 * Real.pi * (k * ((-a : ℤ) : ℝ) / n))) = expi (-(2 * Real.pi * (flipRow n k * a / n))) := by
  have h := expi_flip hn hk (-a)
  rw [h, conj_expi]
  congr 1
  push_cast
  ring

/-- **Short-time Fourier transform** of the reversed signal with the reversed window: column `m` becomes column `N + 1 - m` (not `N - 1 - m`), the
frequencies change sign. -/
theorem C97_stft {τ : Type} (x : Vec ℂ) (ts : Vec τ) (n L : ℕ) (h h' : Vec ℂ) (hr : IsReverse h h') (hh : h.len = 2 * L + 1) (hL : 2 * L < n) :
    ∃ X Y : Mat ℂ, stftOf x ts n (some h) = .ok X ∧ stftOf x.reverse ts n (some h') = .ok Y ∧
      ∀ k < n, ∀ m < ts.len, ∀ m' < ts.len, m + m' = x.len + 1 → Y.get k m' = X.get (flipRow n k) m := by
  have hn : n ≠ 0 := by omega
  obtain ⟨X, x1, -, -, x4⟩ := C27_stft x ts n L h (.inl hh) hL
  obtain ⟨Y, y1, -, -, y4⟩ := C27_stft x.reverse ts n L h' (.inl (hr.1.trans hh)) hL
  refine ⟨X, Y, x1, y1, fun k hk m hm m' hm' he => ?_⟩
  rw [x4 _ (flipRow_lt hn k) m hm, y4 k hk m' hm']
  unfold windowedDft
  rw [← sum_Icc_neg]
  refine Finset.sum_congr rfl (fun τ hτ => ?_)
  rw [Finset.mem_Icc] at hτ
  rw [expi_flip_neg hn hk τ, zext_reverse, window_reverse hr hh (by omega) (by omega), neg_neg]
  congr 3
  omega

/-- With the default window (symmetric), for any number of bins. -/
theorem C97_stft_default {τ : Type} (x : Vec ℂ) (ts : Vec τ) (n : ℕ) (hn : n ≠ 0) :
    ∃ X Y : Mat ℂ, stftOf x ts n none = .ok X ∧ stftOf x.reverse ts n none = .ok Y ∧
      ∀ k < n, ∀ m < ts.len, ∀ m' < ts.len, m + m' = x.len + 1 → Y.get k m' = X.get (flipRow n k) m := by
  obtain ⟨L, hl, hL⟩ := makeWindow_len n
  exact C97_stft x ts n L (makeWindow n) (makeWindow n) (makeWindow_reverse n) hl (by omega)

theorem segLags_reverse {R : ℤ} {N : ℕ} {c c' τ : ℤ} (h : c + c' = (N : ℤ) - 1) : τ ∈ segLags R N c ↔ -τ ∈ segLags R N c' := by
  unfold segLags
  rw [Finset.mem_filter, Finset.mem_filter, Finset.mem_Icc, Finset.mem_Icc]
  omega

theorem sum_segLags_reverse {M : Type} [AddCommMonoid M] {R : ℤ} {N : ℕ} {c c' : ℤ} (h : c + c' = (N : ℤ) - 1) (f : ℤ → M) :
    ∑ τ ∈ segLags R N c', f τ = ∑ τ ∈ segLags R N c, f (-τ) := by
  refine Finset.sum_bij' (fun τ _ => -τ) (fun τ _ => -τ) ?_ ?_ ?_ ?_ ?_
  · intro τ hτ; rw [segLags_reverse h, neg_neg]; exact hτ
  · intro τ hτ; exact (segLags_reverse h).1 hτ
  · intro τ _; ring
  · intro τ _; ring
  · intro τ _; rw [neg_neg]

/-- **Spectrogram**: instant `t` becomes instant `N + 1 - t`, as for instants counted from one. -/
theorem C97_spectrogram (x : Vec ℂ) (ts ts' : Vec ℤ) (n L : ℕ) (h h' : Vec ℂ) (hr : IsReverse h h') (hh : h.len = 2 * L + 1) (hn : n ≠ 0)
    (hl : ts'.len = ts.len) (hts : ∀ m < ts.len, ts'.get m = (x.len : ℤ) + 1 - ts.get m) (hw : WindowOk h n L x.len ts) :
    ∃ X Y, SpectroReturns x ts n h X ∧ SpectroReturns x.reverse ts' n h' Y ∧
      ∀ k < n, ∀ m < ts.len, Y.get k m = X.get (flipRow n k) m := by
  have hsum : ∀ m < ts.len, (ts.get m - 1) + (ts'.get m - 1) = (x.len : ℤ) - 1 := fun m hm => by rw [hts m hm]; ring
  have hwin : ∀ {c τ : ℤ}, τ ∈ segLags (min (roundEven ((n : ℝ) / 2) - 1) L) x.len c → h'.get ((L : ℤ) + -τ).toNat = h.get ((L : ℤ) + τ).toNat := by
    intro c τ hτ
    unfold segLags at hτ
    rw [Finset.mem_filter, Finset.mem_Icc] at hτ
    rw [window_reverse hr hh (by omega) (by omega), neg_neg]
  have hE : ∀ m < ts.len, windowEnergy h' n L x.len (ts'.get m - 1) = windowEnergy h n L x.len (ts.get m - 1) := by
    intro m hm
    unfold windowEnergy
    rw [sum_segLags_reverse (hsum m hm)]
    exact Finset.sum_congr rfl (fun τ hτ => by rw [hwin hτ])
  have hemp : ∀ m < ts.len, segLags (min (roundEven ((n : ℝ) / 2) - 1) L) x.len (ts.get m - 1) = ∅ →
      segLags (min (roundEven ((n : ℝ) / 2) - 1) L) x.len (ts'.get m - 1) = ∅ := by
    intro m hm he
    rw [Finset.eq_empty_iff_forall_notMem] at he ⊢
    intro τ hτ
    refine he (-τ) ?_
    rw [segLags_reverse (hsum m hm), neg_neg]
    exact hτ
  have hw' : WindowOk h' n L x.reverse.len ts' := by
    intro m hm
    rw [hl] at hm
    show windowEnergy h' n L x.len _ ≠ 0 ∨ _
    rw [hE m hm]
    exact (hw m hm).imp id (hemp m hm)
  obtain ⟨X, x1, -, -, x4⟩ := C31_closed_form x ts n L h (.inl hh) hn hw
  obtain ⟨Y, y1, -, -, y4⟩ := C31_closed_form x.reverse ts' n L h' (.inl (hr.1.trans hh)) hn hw'
  refine ⟨X, Y, x1, y1, fun k hk m hm => ?_⟩
  obtain ⟨x5, x6⟩ := x4 _ (flipRow_lt hn k) m hm
  obtain ⟨y5, y6⟩ := y4 k hk m (by rw [hl]; exact hm)
  rcases hw m hm with h0 | h0
  · apply mul_right_cancel₀ h0
    change Y.get k m * windowEnergy h' n L x.len _ = ‖∑ τ ∈ segLags _ x.len _, _‖ ^ 2 at y6
    rw [x6, ← hE m hm, y6, sum_segLags_reverse (hsum m hm)]
    congr 2
    refine Finset.sum_congr rfl (fun τ hτ => ?_)
    rw [hwin hτ, expi_flip_neg hn hk τ, zext_reverse]
    congr 3
    have := hsum m hm
    omega
  · rw [x5 h0, y5 (hemp m hm h0)]

/-- With the default window, for any number of bins. -/
theorem C97_spectrogram_default (x : Vec ℂ) (ts ts' : Vec ℤ) (n : ℕ) (hn : n ≠ 0) (hl : ts'.len = ts.len)
    (hts : ∀ m < ts.len, ts'.get m = (x.len : ℤ) + 1 - ts.get m) :
    ∃ X Y, SpectroReturns x ts n (makeWindow n) X ∧ SpectroReturns x.reverse ts' n (makeWindow n) Y ∧
      ∀ k < n, ∀ m < ts.len, Y.get k m = X.get (flipRow n k) m :=
  C97_spectrogram x ts ts' n _ (makeWindow n) (makeWindow n) (makeWindow_reverse n) (C30_default_window n x.len ts).1 hn hl hts
    (C30_default_window n x.len ts).2

/-- A concrete instance: the samples 1, 2, 3 at instants 1, 2, 3 of eight bins. -/
example : ∃ X Y, SpectroReturns ⟨3, fun i => (i : ℂ) + 1⟩ ⟨3, fun m => (m : ℤ) + 1⟩ 8 (makeWindow 8) X ∧
    SpectroReturns (Vec.reverse ⟨3, fun i => (i : ℂ) + 1⟩) ⟨3, fun m => 3 - (m : ℤ)⟩ 8 (makeWindow 8) Y ∧
      ∀ k < 8, ∀ m < 3, Y.get k m = X.get (flipRow 8 k) m :=
  C97_spectrogram_default ⟨3, fun i => (i : ℂ) + 1⟩ ⟨3, fun m => (m : ℤ) + 1⟩ ⟨3, fun m => 3 - (m : ℤ)⟩ 8 (by norm_num) rfl
    (fun m _ => by show 3 - (m : ℤ) = ((3 : ℕ) : ℤ) + 1 - ((m : ℤ) + 1); push_cast; ring)

/-- **Pseudo Wigner-Ville distribution**, reversed window: column `t` becomes column `N - 1 - t`, the frequencies change sign. -/
theorem C97_pwvd {τ : Type} (x : Vec ℂ) (ts : Vec τ) (n : ℕ) (h h' : Vec ℂ) (hr : IsReverse h h') (L : ℕ) (hh : h.len = 2 * L + 1) (hL : (L : ℤ) < roundEven ((n : ℝ) / 2)) :
    ∃ X Y, PwvdReturns x ts n (some h) X ∧ PwvdReturns x.reverse ts n (some h') Y ∧
      ∀ k < n, ∀ t < ts.len, ∀ t' < ts.len, t + t' + 1 = x.len → Y.get k t' = X.get (flipRow n k) t := by
  have hn : n ≠ 0 := by
    rintro rfl
    rw [roundEven_half] at hL
    norm_num at hL
    omega
  obtain ⟨X, x1, -, -, x4⟩ := C36_pwvd x ts n h L hh hL
  obtain ⟨Y, y1, -, -, y4⟩ := C36_pwvd x.reverse ts n h' L (hr.1.trans hh) hL
  refine ⟨X, Y, x1, y1, fun k hk t ht t' ht' he => ?_⟩
  rw [x4 _ (flipRow_lt hn k) t ht, y4 k hk t' ht']
  congr 1
  rw [← lagSum_periodic _ hn _ (flipRow_dvd hk), ← lagSum_neg]
  refine lagSum_congr (fun τ h1 h2 => ?_) _
  rw [window_reverse hr hh h1 h2, wigner_reverse]
  congr 2
  omega

theorem smoothSeg_reverse {L N : ℕ} {c c' τ p : ℤ} (h : c + c' = (N : ℤ) - 1) : p ∈ smoothSeg L N c τ ↔ -p ∈ smoothSeg L N c' τ := by
  unfold smoothSeg
  rw [Finset.mem_filter, Finset.mem_filter, Finset.mem_Icc, Finset.mem_Icc]
  constructor
  · rintro ⟨⟨h1, h2⟩, h3, h4⟩
    refine ⟨⟨by omega, by omega⟩, by linarith, by linarith⟩
  · rintro ⟨⟨h1, h2⟩, h3, h4⟩
    refine ⟨⟨by omega, by omega⟩, by linarith, by linarith⟩

theorem sum_smoothSeg_reverse {L N : ℕ} {c c' τ : ℤ} (h : c + c' = (N : ℤ) - 1) (f : ℤ → ℂ) :
    ∑ p ∈ smoothSeg L N c' τ, f p = ∑ p ∈ smoothSeg L N c τ, f (-p) := by
  refine Finset.sum_bij' (fun τ _ => -τ) (fun τ _ => -τ) ?_ ?_ ?_ ?_ ?_
  · intro p hp; rw [smoothSeg_reverse h, neg_neg]; exact hp
  · intro p hp; exact (smoothSeg_reverse h).1 hp
  · intro p _; ring
  · intro p _; ring
  · intro p _; rw [neg_neg]

theorem smoothMass_reverse {g g' : Vec ℂ} {L N : ℕ} (hr : IsReverse g g') (hg : g.len = 2 * L + 1) {c c' : ℤ} (h : c + c' = (N : ℤ) - 1) (τ : ℤ) :
    smoothMass g' L N c' τ = smoothMass g L N c τ := by
  unfold smoothMass
  rw [sum_smoothSeg_reverse h]
  refine Finset.sum_congr rfl (fun p hp => ?_)
  unfold smoothSeg at hp
  rw [Finset.mem_filter, Finset.mem_Icc] at hp
  rw [window_reverse hr hg (by omega) (by omega), neg_neg]

theorem smoothCorr_reverse {x g g' : Vec ℂ} {L : ℕ} (hr : IsReverse g g') (hg : g.len = 2 * L + 1) {c c' : ℤ} (h : c + c' = (x.len : ℤ) - 1) (τ : ℤ) :
    smoothCorr g' L x.reverse c' τ = smoothCorr g L x c (-τ) := by
  unfold smoothCorr
  have e1 : smoothMass g' L x.reverse.len c' τ = smoothMass g L x.len c (-τ) := by
    rw [show x.reverse.len = x.len from rfl, smoothMass_reverse hr hg h]
    unfold smoothMass smoothSeg
    rw [abs_neg]
  have e2 : smoothSeg L x.len c (-τ) = smoothSeg L x.len c τ := by unfold smoothSeg; rw [abs_neg]
  rw [e1, e2, show x.reverse.len = x.len from rfl, sum_smoothSeg_reverse h]
  congr 1
  refine Finset.sum_congr rfl (fun p hp => ?_)
  unfold smoothSeg at hp
  rw [Finset.mem_filter, Finset.mem_Icc] at hp
  rw [window_reverse hr hg (by omega) (by omega), neg_neg, wigner_reverse]
  congr 2
  omega

theorem smoothCorr_neg {x g : Vec ℂ} {L : ℕ} (hg : g.len = 2 * L + 1) (hre : ∀ i < g.len, (g.get i).im = 0) (c τ : ℤ) :
    smoothCorr g L x c (-τ) = conj (smoothCorr g L x c τ) := by
  have hc : ∀ p ∈ smoothSeg L x.len c τ, conj (g.get ((L : ℤ) + p).toNat) = g.get ((L : ℤ) + p).toNat := by
    intro p hp
    unfold smoothSeg at hp
    rw [Finset.mem_filter, Finset.mem_Icc] at hp
    exact Complex.conj_eq_iff_im.2 (hre _ (by omega))
  have e2 : smoothSeg L x.len c (-τ) = smoothSeg L x.len c τ := by unfold smoothSeg; rw [abs_neg]
  unfold smoothCorr smoothMass
  rw [e2, map_div₀, map_sum, map_sum]
  congr 1
  · refine Finset.sum_congr rfl (fun p hp => ?_)
    rw [map_mul, hc p hp]
    unfold wignerKernel
    rw [map_mul, Complex.conj_conj, sub_neg_eq_add, mul_comm (zext x _)]
    rfl
  · exact Finset.sum_congr rfl (fun p hp => (hc p hp).symm)

/-- **Smoothed pseudo Wigner-Ville distribution**, real windows, reversed smoothing window: instant `t` becomes `N + 1 - t`, the frequencies change
sign (whatever the symmetry of the frequency window). -/
theorem C97_spwv (x tw tw' fw : Vec ℂ) (hr : IsReverse tw tw') (ts ts' : Vec ℤ) (n Lg Lh : ℕ) (hn : n ≠ 0) (hg : tw.len = 2 * Lg + 1) (hh : fw.len = 2 * Lh + 1)
    (hrg : ∀ i < tw.len, (tw.get i).im = 0) (hrh : ∀ i < fw.len, (fw.get i).im = 0)
    (hfin : ∀ c < ts.len, ∀ τ : ℕ, (smoothSeg Lg x.len (ts.get c - 1) τ).Nonempty → smoothMass tw Lg x.len (ts.get c - 1) τ ≠ 0)
    (hL : (Lh : ℤ) < roundEven ((n : ℝ) / 2)) (hl : ts'.len = ts.len) (hts : ∀ m < ts.len, ts'.get m = (x.len : ℤ) + 1 - ts.get m) :
    ∃ X Y, spwv x (some ts) (some n) (some tw) (some fw) = .ok X ∧ spwv x.reverse (some ts') (some n) (some tw') (some fw) = .ok Y ∧
      ∀ k < n, ∀ c < ts.len, Y.get k c = X.get (flipRow n k) c := by
  have hsum : ∀ m < ts.len, (ts.get m - 1) + (ts'.get m - 1) = (x.len : ℤ) - 1 := fun m hm => by rw [hts m hm]; ring
  obtain ⟨X, x1, -, -, x4⟩ := C37_closed_form x tw fw ts n Lg Lh hn hg hh hfin (fun _ _ => .inl hL)
  obtain ⟨Y, y1, -, -, y4⟩ := C37_closed_form x.reverse tw' fw ts' n Lg Lh hn (hr.1.trans hg) hh
    (fun c hc τ hne => by
      rw [hl] at hc
      show smoothMass tw' Lg x.len _ _ ≠ 0
      rw [smoothMass_reverse hr hg (hsum c hc)]
      apply hfin c hc
      obtain ⟨p, hp⟩ := hne
      exact ⟨-p, by rw [smoothSeg_reverse (hsum c hc), neg_neg]; exact hp⟩) (fun _ _ => .inl hL)
  refine ⟨X, Y, x1, y1, fun k hk c hc => ?_⟩
  have hs := hsum c hc
  have hcount : min (min (ts'.get c + Lg - 1) ((x.reverse.len : ℤ) - ts'.get c + Lg)) (min (roundEven ((n : ℝ) / 2) - 1) (Lh : ℤ))
      = min (min (ts.get c + Lg - 1) ((x.len : ℤ) - ts.get c + Lg)) (min (roundEven ((n : ℝ) / 2) - 1) (Lh : ℤ)) := by
    rw [show x.reverse.len = x.len from rfl, hts c hc]
    omega
  rw [x4 _ (flipRow_lt hn k) c hc, y4 k hk c (by rw [hl]; exact hc), hcount, smoothCorr_reverse hr hg hs]
  rw [Complex.add_re, Complex.add_re, neg_zero, Complex.re_sum, Complex.re_sum]
  congr 1
  refine Finset.sum_congr rfl (fun τ hτ => ?_)
  rw [Finset.mem_range] at hτ
  rw [smoothCorr_reverse hr hg hs, smoothCorr_reverse hr hg hs, neg_neg]
  have ha : conj (fw.get (Lh + τ + 1)) = fw.get (Lh + τ + 1) := Complex.conj_eq_iff_im.2 (hrh _ (by omega))
  have hb : conj (fw.get (Lh + 1 - τ)) = fw.get (Lh + 1 - τ) := Complex.conj_eq_iff_im.2 (hrh _ (by omega))
  have e1 := expi_flip hn hk ((τ : ℤ) + 1)
  have e2 := congrArg conj e1
  push_cast at e1 e2
  rw [conj_expi, neg_neg, Complex.conj_conj] at e2
  rw [e1, e2, conj_expi, neg_neg, smoothCorr_neg hg hrg]
  set C := smoothCorr tw Lg x (ts.get c - 1) τ
  set θ := 2 * Real.pi * ((flipRow n k : ℕ) * ((τ : ℝ) + 1) / n)
  have r1 : (fw.get (Lh + τ + 1) * conj C * expi θ).re = (fw.get (Lh + τ + 1) * C * expi (-θ)).re := by
    rw [← Complex.conj_re (_ * C * _), map_mul, map_mul, ha, conj_expi, neg_neg]
  have r2 : (fw.get (Lh + 1 - τ) * C * expi (-θ)).re = (fw.get (Lh + 1 - τ) * conj C * expi θ).re := by
    rw [← Complex.conj_re (_ * C * _), map_mul, map_mul, hb, conj_expi, neg_neg]
  rw [Complex.add_re, Complex.add_re, r1, r2]

/-- **Narrow-band ambiguity function**: the value at the opposite lag and Doppler shift, up to a phase. -/
theorem C97_narrow_band (x : Vec ℂ) (lag : Option (Vec ℝ)) (nf : Option ℕ) (X Y : Mat ℂ) (l l' xi xi' : Vec ℝ)
    (hX : Ambiguity.narrowBand x lag nf = .ok (X, l, xi)) (hY : Ambiguity.narrowBand x.reverse lag nf = .ok (Y, l', xi')) :
    ∀ r < X.rows, ∀ r' < Y.rows, xi'.get r' = -xi.get r → ∀ c < X.cols, ∀ c' < Y.cols, l'.get c' = -l.get c →
      Y.get r' c' = expi (2 * Real.pi * (xi.get r * ((x.len : ℝ) - 1))) * X.get r c := by
  intro r hr r' hr' e c hc c' hc' e'
  obtain ⟨-, -, -, -, -, x6⟩ := C42_closed_form x lag nf X l xi hX
  obtain ⟨-, -, -, -, -, y6⟩ := C42_closed_form x.reverse lag nf Y l' xi' hY
  have ht : truncInt (-l.get c) = -truncInt (l.get c) := by
    unfold truncInt
    rcases lt_trichotomy (l.get c) 0 with h | h | h
    · rw [if_pos (by linarith), if_neg (by linarith), Int.floor_neg]
    · rw [h]; simp
    · rw [if_neg (by linarith), if_pos h.le, Int.ceil_neg]
  rw [x6 r hr c hc, y6 r' hr' c' hc', e, e', ht]
  unfold ambiguity
  rw [show x.reverse.len = x.len from rfl, ← Finset.sum_range_reflect, Finset.mul_sum]
  refine Finset.sum_congr rfl (fun t htm => ?_)
  rw [Finset.mem_range] at htm
  rw [wigner_reverse, neg_neg]
  have hcast : ((x.len - 1 - t : ℕ) : ℤ) = (x.len : ℤ) - 1 - t := by omega
  have hcast' : ((x.len - 1 - t : ℕ) : ℝ) = (x.len : ℝ) - 1 - t := by
    have : ((x.len - 1 - t : ℕ) : ℝ) = (((x.len - 1 - t : ℕ) : ℤ) : ℝ) := by push_cast; rfl
    rw [this, hcast]; push_cast; ring
  rw [hcast, hcast', show (x.len : ℤ) - 1 - ((x.len : ℤ) - 1 - t) = t by ring, mul_left_comm (expi _), ← expi_add]
  congr 2
  ring

/-! ## Measurements -/

/-- **Instantaneous frequency**: instant `t` becomes `N + 1 - t` and the frequency `f` becomes `1/2 - f`, but `1/2` stays `1/2`. -/
theorem C97_inst_freq (x : Vec ℂ) (t t' : Vec ℤ) (ht : ∀ j < t.len, 2 ≤ t.get j ∧ t.get j < x.len) (hl : t'.len = t.len)
    (hts : ∀ j < t.len, t'.get j = (x.len : ℤ) + 1 - t.get j) :
    ∃ f g : Vec ℝ, TF.instFreq x (some t) = .ok (f, t) ∧ TF.instFreq x.reverse (some t') = .ok (g, t') ∧ f.len = t.len ∧ g.len = t.len ∧
      ∀ j < t.len, (f.get j ≠ 1 / 2 → g.get j = 1 / 2 - f.get j) ∧ (f.get j = 1 / 2 → g.get j = 1 / 2) := by
  have hpi := Real.pi_pos
  have hr : x.reverse.len = x.len := rfl
  obtain ⟨f, f1, f2, f3⟩ := inst_freq_eq x t (fun j hj => ⟨idxOk_of_lt (by have := ht j hj; omega) (ht j hj).2,
    idxOk_of_lt (by have := ht j hj; omega) (by have := ht j hj; omega)⟩)
  obtain ⟨g, g1, g2, g3⟩ := inst_freq_eq x.reverse t' (fun j hj => by
    rw [hl] at hj
    have h1 := ht j hj
    rw [hr, hts j hj]
    exact ⟨idxOk_of_lt (by omega) (by omega), idxOk_of_lt (by omega) (by omega)⟩)
  refine ⟨f, g, f1, g1, f2, g2.trans hl, fun j hj => ?_⟩
  have h1 := ht j hj
  rw [f3 j hj, g3 j (by rw [hl]; exact hj), hr, hts j hj, wrapIdx_of_nonneg (by omega), wrapIdx_of_nonneg (by omega), wrapIdx_of_nonneg (by omega),
    wrapIdx_of_nonneg (by omega)]
  have e1 : x.reverse.get ((x.len : ℤ) + 1 - t.get j).toNat = x.get (t.get j - 2).toNat := by
    show x.get _ = _
    congr 1; omega
  have e2 : x.reverse.get ((x.len : ℤ) + 1 - t.get j - 2).toNat = x.get (t.get j).toNat := by
    show x.get _ = _
    congr 1; omega
  rw [e1, e2, show -(x.get (t.get j - 2).toNat * conj (x.get (t.get j).toNat)) = conj (-(x.get (t.get j).toNat * conj (x.get (t.get j - 2).toNat))) by
    rw [map_neg, map_mul, Complex.conj_conj, mul_comm], Complex.arg_conj]
  generalize -(x.get (t.get j).toNat * conj (x.get (t.get j - 2).toNat)) = z
  split
  · rename_i h
    rw [h]
    refine ⟨fun hne => absurd ?_ hne, fun _ => ?_⟩ <;> (field_simp; ring)
  · rename_i h
    refine ⟨fun _ => by field_simp; ring, fun he => absurd ?_ h⟩
    rw [div_eq_iff (by positivity)] at he
    linarith

theorem energy_reverse (x : Vec ℂ) : energy x.reverse = energy x := by
  unfold energy
  exact Finset.sum_range_reflect (fun i => ‖x.get i‖ ^ 2) x.len

/-- **Time localisation**: the mean time `t` becomes `N - 1 - t`, the spread stays. -/
theorem C97_loctime (x : Vec ℂ) (hx : energy x ≠ 0) :
    ∃ t T, TF.loctime x = .ok (t, T) ∧ TF.loctime x.reverse = .ok ((x.len : ℝ) - 1 - t, T) := by
  have hx' : energy x.reverse ≠ 0 := by rw [energy_reverse]; exact hx
  refine ⟨_, _, C44_loctime x hx, ?_⟩
  rw [C44_loctime x.reverse hx', show x.reverse.len = x.len from rfl]
  have hw : ∀ p : ℕ → ℝ, wmean x.len p (fun i => ‖x.reverse.get i‖ ^ 2) = wmean x.len (fun i => p (x.len - 1 - i)) (fun i => ‖x.get i‖ ^ 2) := by
    intro p
    unfold wmean
    congr 1
    · rw [← Finset.sum_range_reflect]
      refine Finset.sum_congr rfl (fun i hi => ?_)
      rw [Finset.mem_range] at hi
      show p _ * ‖x.get _‖ ^ 2 = _
      rw [show x.len - 1 - (x.len - 1 - i) = i by omega]
    · exact Finset.sum_range_reflect (fun i => ‖x.get i‖ ^ 2) x.len
  have hE : ∑ i ∈ range x.len, ‖x.get i‖ ^ 2 ≠ 0 := hx
  have hc : ∀ i < x.len, ((x.len - 1 - i : ℕ) : ℝ) = (x.len : ℝ) - 1 - i := by
    intro i hi
    rw [Nat.cast_sub (by omega), Nat.cast_sub (by omega)]
    push_cast; ring
  have hm : wmean x.len (fun i => (i : ℝ)) (fun i => ‖x.reverse.get i‖ ^ 2)
      = (x.len : ℝ) - 1 - wmean x.len (fun i => (i : ℝ)) (fun i => ‖x.get i‖ ^ 2) := by
    rw [hw]
    unfold wmean
    rw [eq_sub_iff_add_eq, ← add_div, ← Finset.sum_add_distrib, div_eq_iff hE, Finset.mul_sum]
    refine Finset.sum_congr rfl (fun i hi => ?_)
    show ((x.len - 1 - i : ℕ) : ℝ) * _ + (i : ℝ) * _ = _
    rw [hc i (Finset.mem_range.1 hi)]
    ring
  have hv : wvar x.len (fun i => (i : ℝ)) (fun i => ‖x.reverse.get i‖ ^ 2) = wvar x.len (fun i => (i : ℝ)) (fun i => ‖x.get i‖ ^ 2) := by
    unfold wvar
    rw [hw, hm]
    refine wmean_congr (fun i hi => ?_) (fun _ _ => rfl)
    show (((x.len - 1 - i : ℕ) : ℝ) - _) ^ 2 = ((i : ℝ) - _) ^ 2
    rw [hc i hi]
    ring
  rw [hm, hv]

theorem norm_dft_reverse {x y : Vec ℂ} (hxy : IsConj x y) (k : ℕ) : ‖dftC x.len x.reverse.get k‖ = ‖dftC x.len y.get k‖ := by
  have : dftC x.len x.reverse.get k = rootPow x.len ((k : ℤ) * ((x.len : ℤ) - 1)) * conj (dftC x.len y.get k) := by
    unfold dftC
    rw [← Finset.sum_range_reflect, map_sum, Finset.mul_sum]
    refine Finset.sum_congr rfl (fun j hj => ?_)
    rw [Finset.mem_range] at hj
    show x.get _ * _ = _
    rw [show x.len - 1 - (x.len - 1 - j) = j by omega, map_mul, hxy.2 j hj, Complex.conj_conj, conj_rootPow, mul_left_comm, ← rootPow_add]
    congr 2
    rw [show ((x.len - 1 - j : ℕ) : ℤ) = (x.len : ℤ) - 1 - j by omega]
    ring
  rw [this, norm_mul, norm_rootPow, one_mul, Complex.norm_conj]

/-- **Frequency localisation** does not distinguish the reversed signal from the conjugate one, of any length (see C93 for the relation with
the signal itself). -/
theorem C97_locfreq (x y : Vec ℂ) (hxy : IsConj x y) : TF.locfreq x.reverse = TF.locfreq y := by
  unfold TF.locfreq
  rw [show x.reverse.len = x.len from rfl, hxy.1]
  by_cases hn : x.len = 0
  · have h1 : fft x.reverse = .error .valueError := by unfold fft; rw [if_pos (show x.reverse.len = 0 from hn)]
    have h2 : fft y = .error .valueError := by unfold fft; rw [if_pos (hxy.1.trans hn)]
    rw [h1, h2]
  · rw [fft_ok (v := x.reverse) hn, fft_ok (v := y) (by rw [hxy.1]; exact hn), ok_bind, ok_bind]
    have e : (⟨x.len, fun k => dftC x.len x.reverse.get k⟩ : Vec ℂ).map (fun z => ‖z‖ ^ 2) = (⟨x.len, fun k => dftC x.len y.get k⟩ : Vec ℂ).map (fun z => ‖z‖ ^ 2) := by
      unfold Vec.map
      congr 1
      funext k
      dsimp only
      rw [norm_dft_reverse hxy]
    rw [hxy.1, show x.reverse.len = x.len from rfl]
    dsimp only
    rw [e]

/-- **Group delay** at given frequencies: the delay `g` at `ν` becomes `N + 1 - g` at `-ν`; the delays reported after the end of the signal
become zero. -/
theorem C97_group_delay (x : Vec ℂ) (f f' : Vec ℝ) (hl : f'.len = f.len) (hf : ∀ k < f.len, f'.get k = -f.get k)
    (hz : ∀ k < f.len, dtft x (f.get k) ≠ 0) :
    ∃ g g' : Vec ℝ, TF.groupDelayAt x f = .ok g ∧ TF.groupDelayAt x.reverse f' = .ok g' ∧ g.len = f.len ∧ g'.len = f.len ∧
      ∀ k < f.len, (1 ≤ g.get k → g.get k ≤ x.len → g'.get k = (x.len : ℝ) + 1 - g.get k) ∧ ((x.len : ℝ) < g.get k → g'.get k = 0) := by
  have hr : x.reverse.len = x.len := rfl
  have hc : ∀ i < x.len, ((x.len - 1 - i : ℕ) : ℝ) = (x.len : ℝ) - 1 - i := by
    intro i hi
    rw [Nat.cast_sub (by omega), Nat.cast_sub (by omega)]
    push_cast; ring
  have hd : ∀ ν : ℝ, dtft x.reverse (-ν) = expi (2 * Real.pi * ν * ((x.len : ℝ) - 1)) * dtft x ν := by
    intro ν
    unfold dtft
    rw [hr, ← Finset.sum_range_reflect, Finset.mul_sum]
    refine Finset.sum_congr rfl (fun j hj => ?_)
    rw [Finset.mem_range] at hj
    show x.get _ * _ = _
    rw [show x.len - 1 - (x.len - 1 - j) = j by omega, hc j hj, mul_left_comm, ← expi_add]
    congr 2
    ring
  have hw : ∀ ν : ℝ, dtft (timeWeighted x.reverse) (-ν)
      = expi (2 * Real.pi * ν * ((x.len : ℝ) - 1)) * (((x.len : ℂ) + 1) * dtft x ν - dtft (timeWeighted x) ν) := by
    intro ν
    unfold dtft timeWeighted
    dsimp only
    rw [hr, ← Finset.sum_range_reflect, Finset.mul_sum, ← Finset.sum_sub_distrib, Finset.mul_sum]
    refine Finset.sum_congr rfl (fun j hj => ?_)
    rw [Finset.mem_range] at hj
    have e : ((x.len - 1 - j : ℕ) : ℂ) = (x.len : ℂ) - 1 - j := by
      have := hc j hj
      exact_mod_cast congrArg (fun r : ℝ => (r : ℂ)) this
    have e2 : x.reverse.get (x.len - 1 - j) = x.get j := by
      show x.get _ = _
      rw [show x.len - 1 - (x.len - 1 - j) = j by omega]
    have e3 : expi (-(2 * Real.pi * -ν * ((x.len : ℝ) - 1 - j))) = expi (2 * Real.pi * ν * ((x.len : ℝ) - 1)) * expi (-(2 * Real.pi * ν * j)) := by
      rw [← expi_add]
      congr 1
      ring
    rw [e2, e, hc j hj, e3]
    ring
  obtain ⟨g, g1, g2, g3⟩ := C46_group_delay_at x f hz
  obtain ⟨g', g1', g2', g3'⟩ := C46_group_delay_at x.reverse f' (fun k hk => by
    rw [hl] at hk
    rw [hf k hk, hd]
    exact mul_ne_zero (expi_ne_zero _) (hz k hk))
  refine ⟨g, g', g1, g1', g2, g2'.trans hl, fun k hk => ?_⟩
  have e : (dtft (timeWeighted x.reverse) (f'.get k) / dtft x.reverse (f'.get k)).re
      = (x.len : ℝ) + 1 - (dtft (timeWeighted x) (f.get k) / dtft x (f.get k)).re := by
    rw [hf k hk, hd, hw, mul_div_mul_left _ _ (expi_ne_zero _), sub_div, mul_div_assoc, div_self (hz k hk), mul_one, Complex.sub_re]
    simp
  rw [g3 k hk, g3' k (by rw [hl]; exact hk), e, hr]
  generalize (dtft (timeWeighted x) (f.get k) / dtft x (f.get k)).re = r
  unfold clipDelay
  have hN : (0 : ℝ) ≤ x.len := Nat.cast_nonneg _
  by_cases h3 : 1 ≤ r ∧ r ≤ (x.len : ℝ) + 3
  · rw [if_pos h3]
    exact ⟨fun h1 h2 => if_pos ⟨by linarith, by linarith⟩, fun h1 => if_neg (fun h4 => by linarith [h4.1])⟩
  · rw [if_neg h3]
    exact ⟨fun h1 _ => by linarith, fun h1 => by linarith⟩

/-- A concrete instance: a single sample has its delay at every frequency, and so has the reversed signal. -/
example : ∃ g g' : Vec ℝ, TF.groupDelayAt ⟨2, fun i => if i = 0 then 1 else 0⟩ ⟨1, fun _ => 1 / 4⟩ = .ok g ∧
    TF.groupDelayAt (Vec.reverse ⟨2, fun i => if i = 0 then 1 else 0⟩) ⟨1, fun _ => -(1 / 4)⟩ = .ok g' ∧ (1 ≤ g.get 0 → g.get 0 ≤ 2 → g'.get 0 = 3 - g.get 0) := by
  obtain ⟨g, g', h1, h2, -, -, h3⟩ := C97_group_delay ⟨2, fun i => if i = 0 then 1 else 0⟩ ⟨1, fun _ => 1 / 4⟩ ⟨1, fun _ => -(1 / 4)⟩ rfl
    (fun _ _ => rfl) (fun k _ => by unfold dtft; simp)
  refine ⟨g, g', h1, h2, fun h4 h5 => ?_⟩
  have := (h3 0 (by norm_num)).1 h4 (by exact_mod_cast h5)
  rw [this]
  norm_num

/-! ## Distributions which are not reversed with the signal -/

/-- **Margenau-Hill, Page, pseudo Margenau-Hill** do not follow the reversal: the shifted lags, and the sample which the first leaves out, single
out a direction of time.  Signals `(1, 0)` and `(1, 1)`; the last one is its own reversal. -/
theorem C97_not_reversed :
    (∃ x : Vec ℂ, x.len = 2 ∧ ∃ X Y, MhReturns x ⟨2, fun i => (i : ℤ)⟩ 2 X ∧ MhReturns x.reverse ⟨2, fun i => (i : ℤ)⟩ 2 Y ∧
      X.get 0 0 = 0 ∧ Y.get (flipRow 2 0) 1 = 1) ∧
    (∃ x : Vec ℂ, x.len = 2 ∧ (∀ i < 2, x.reverse.get i = x.get i) ∧ ∃ X Y, PageReturns x ⟨2, fun i => (i : ℤ)⟩ 4 X ∧
      PageReturns x.reverse ⟨2, fun i => (i : ℤ)⟩ 4 Y ∧ X.get 3 0 = -1 ∧ Y.get (flipRow 4 3) 1 = 1) ∧
    (∃ x h : Vec ℂ, x.len = 2 ∧ (∀ i < 2, x.reverse.get i = x.get i) ∧ h.len = 1 ∧ ∃ X Y, PmhReturns x (⟨2, fun i => (i : ℤ)⟩ : Vec ℤ) 4 (some h) X ∧
      PmhReturns x.reverse (⟨2, fun i => (i : ℤ)⟩ : Vec ℤ) 4 (some h) Y ∧ X.get 0 0 = 0 ∧ Y.get (flipRow 4 0) 1 = 1) := by
  have hts : ∀ x : Vec ℂ, x.len = 2 → ∀ c < (⟨2, fun i => (i : ℤ)⟩ : Vec ℤ).len,
      0 ≤ (⟨2, fun i => (i : ℤ)⟩ : Vec ℤ).get c ∧ (⟨2, fun i => (i : ℤ)⟩ : Vec ℤ).get c < x.len := by
    intro x hx c hc
    dsimp only at hc ⊢
    rw [hx]
    omega
  refine ⟨⟨⟨2, fun i => if i = 0 then 1 else 0⟩, rfl, ?_⟩, ⟨⟨2, fun _ => 1⟩, rfl, fun _ _ => rfl, ?_⟩,
    ⟨⟨2, fun _ => 1⟩, ⟨1, fun _ => 1⟩, rfl, fun _ _ => rfl, rfl, ?_⟩⟩
  · obtain ⟨X, x1, -, -, x4⟩ := C38_margenau_hill ⟨2, fun i => if i = 0 then 1 else 0⟩ ⟨2, fun i => (i : ℤ)⟩ 2 (by norm_num) (hts _ rfl)
    obtain ⟨Y, y1, -, -, y4⟩ := C38_margenau_hill (Vec.reverse ⟨2, fun i => if i = 0 then 1 else 0⟩) ⟨2, fun i => (i : ℤ)⟩ 2 (by norm_num) (hts _ rfl)
    refine ⟨X, Y, x1, y1, ?_, ?_⟩
    · rw [x4 0 (by norm_num) 0 (by norm_num)]
      simp [Nat.Ico_succ_singleton]
    · rw [show flipRow 2 0 = 0 from rfl, y4 0 (by norm_num) 1 (by norm_num)]
      simp [Vec.reverse, Nat.Ico_succ_singleton, expi]
      rfl
  · obtain ⟨X, x1, -, -, x4⟩ := C39_page ⟨2, fun _ => 1⟩ ⟨2, fun i => (i : ℤ)⟩ 4 (by norm_num) (hts _ rfl)
    obtain ⟨Y, y1, -, -, y4⟩ := C39_page (Vec.reverse ⟨2, fun _ => 1⟩) ⟨2, fun i => (i : ℤ)⟩ 4 (by norm_num) (hts _ rfl)
    refine ⟨X, Y, x1, y1, ?_, ?_⟩
    · rw [x4 3 (by norm_num) 0 (by norm_num)]
      have c1 : Real.cos (-(2 * Real.pi * (3 * (0 - 1 - 0) / 4))) = 0 := by
        rw [show -(2 * Real.pi * (3 * (0 - 1 - 0) / 4)) = Real.pi / 2 + Real.pi by ring, Real.cos_add_pi, Real.cos_pi_div_two, neg_zero]
      have c2 : Real.cos (-(2 * Real.pi * (3 * (0 - 1 - 1) / 4))) = -1 := by
        rw [show -(2 * Real.pi * (3 * (0 - 1 - 1) / 4)) = Real.pi + 2 * Real.pi by ring, Real.cos_add_two_pi, Real.cos_pi]
      rw [show min 4 (⟨2, fun _ => 1⟩ : Vec ℂ).len = 2 from rfl, Finset.sum_range_succ, Finset.sum_range_one]
      simp only [map_one, mul_one, one_mul, Complex.add_re, expi_re, Nat.cast_zero, Int.cast_zero, Nat.cast_one, Nat.cast_ofNat]
      rw [c1, c2, zero_add]
    · rw [show flipRow 4 3 = 1 from rfl, y4 1 (by norm_num) 1 (by norm_num)]
      have c1 : Real.cos (-(2 * Real.pi * (1 * (1 - 1 - 0) / 4))) = 1 := by
        rw [show -(2 * Real.pi * (1 * (1 - 1 - 0) / 4)) = 0 by ring, Real.cos_zero]
      have c2 : Real.cos (-(2 * Real.pi * (1 * (1 - 1 - 1) / 4))) = 0 := by
        rw [show -(2 * Real.pi * (1 * (1 - 1 - 1) / 4)) = Real.pi / 2 by ring, Real.cos_pi_div_two]
      rw [show min 4 (Vec.reverse ⟨2, fun _ => 1⟩ : Vec ℂ).len = 2 from rfl, Finset.sum_range_succ, Finset.sum_range_one]
      simp only [Vec.reverse, map_one, mul_one, one_mul, Complex.add_re, expi_re, Nat.cast_zero, Int.cast_one, Nat.cast_one, Nat.cast_ofNat]
      rw [one_mul] at c1 c2
      rw [c1, c2, add_zero]
  · have hL : ((0 : ℕ) : ℤ) < roundEven (((4 : ℕ) : ℝ) / 2) - 1 := by
      rw [roundEven_half]; norm_num
    obtain ⟨X, x1, -, -, x4⟩ := (C61_pmh ⟨2, fun _ => 1⟩ (⟨2, fun i => (i : ℤ)⟩ : Vec ℤ) 4 ⟨1, fun _ => 1⟩ 0 rfl (.inl hL)).1 (le_refl 2)
    obtain ⟨Y, y1, -, -, y4⟩ := (C61_pmh (Vec.reverse ⟨2, fun _ => 1⟩) (⟨2, fun i => (i : ℤ)⟩ : Vec ℤ) 4 ⟨1, fun _ => 1⟩ 0 rfl (.inl hL)).1 (le_refl 2)
    refine ⟨X, Y, x1, y1, ?_, ?_⟩
    · rw [x4 0 (by norm_num) 0 (by norm_num)]
      simp [lagSum, zext]
    · rw [show flipRow 4 0 = 0 from rfl, y4 0 (by norm_num) 1 (by norm_num)]
      simp [lagSum, zext, Vec.reverse, expi]
      rfl

end Tftb.Props
