import Verif.Props.Spwv
import Verif.Props.Ambiguity
import Verif.Props.Stft
import Verif.Props.InstFreq
import Verif.Props.TimeFreq

/-! # C93 Conjugate signals have mirrored representations, and real signals carry no sign of frequency

`IsConj x y` says that `y` holds the conjugate samples of `x`; with `y = x` it says that `x` is real.  Every theorem below
therefore contains the statement on real signals (`IsConj.of_real`).
-/

namespace Tftb.Props

open Tftb Tftb.Spec Tftb.Linear Tftb.Cohen Finset ComplexConjugate

/-- The samples of `y` are the conjugates of those of `x`. -/
def IsConj (x y : Vec ℂ) : Prop := y.len = x.len ∧ ∀ i < x.len, y.get i = conj (x.get i)

theorem IsConj.of_map (x : Vec ℂ) : IsConj x (x.map conj) := ⟨rfl, fun _ _ => rfl⟩

/-- A signal of real samples is its own conjugate. -/
theorem IsConj.of_real {x : Vec ℂ} (h : ∀ i < x.len, (x.get i).im = 0) : IsConj x x :=
  ⟨rfl, fun i hi => (Complex.conj_eq_iff_im.2 (h i hi)).symm⟩

theorem IsConj.zext {x y : Vec ℂ} (h : IsConj x y) (i : ℤ) : zext y i = conj (Spec.zext x i) := by
  unfold Spec.zext
  rw [h.1]
  split
  · rw [h.2 _ (by omega)]
  · simp

theorem IsConj.wigner {x y : Vec ℂ} (h : IsConj x y) (t τ : ℤ) : wignerKernel y t τ = conj (wignerKernel x t τ) := by
  unfold wignerKernel
  rw [h.zext, h.zext, map_mul]

theorem conj_lagSum_flip (R : ℤ) {n k : ℕ} (hn : n ≠ 0) (hk : k < n) (v : ℤ → ℂ) :
    lagSum R n (fun τ => conj (v τ)) k = conj (lagSum R n v (flipRow n k)) := by
  rw [conj_lagSum]
  refine lagSum_periodic R hn _ ?_
  have := flipRow_dvd hk
  rwa [← dvd_neg, show -((k : ℤ) - -((flipRow n k : ℕ) : ℤ)) = -(k : ℤ) - (flipRow n k : ℕ) by ring]

theorem expi_flip {n k : ℕ} (hn : n ≠ 0) (hk : k < n) (a : ℤ) :
    expi (-(2 * Real.pi * (k * a / n))) = conj (expi (-(2 * Real.pi * (flipRow n k * a / n)))) := by
  have h : ∀ j : ℕ, expi (-(2 * Real.pi * (j * a / n))) = rootPow n (j * a) := by
    intro j
    rw [rootPow_eq_expi]
    congr 1
    push_cast
    ring
  rw [h, h, conj_rootPow]
  apply rootPow_congr hn
  obtain ⟨q, hq⟩ := flipRow_dvd hk
  exact ⟨-q * a, by linear_combination (-a) * hq⟩

/-! ## Mirrored representations -/

/-- Short-time Fourier transform: the conjugate values at the opposite frequency. -/
theorem C93_stft {τ : Type} (x y : Vec ℂ) (hxy : IsConj x y) (ts : Vec τ) (n L : ℕ) (h h' : Vec ℂ) (hh' : IsConj h h')
    (hh : h.len = 2 * L + 1 ∨ h.len = 2 * L + 2) (hL : 2 * L < n) :
    ∃ X Y : Mat ℂ, stftOf x ts n (some h) = .ok X ∧ stftOf y ts n (some h') = .ok Y ∧
      ∀ k < n, ∀ m < ts.len, Y.get k m = conj (X.get (flipRow n k) m) := by
  have hn : n ≠ 0 := by omega
  obtain ⟨X, x1, -, -, x4⟩ := C27_stft x ts n L h hh hL
  obtain ⟨Y, y1, -, -, y4⟩ := C27_stft y ts n L h' (by rw [hh'.1]; exact hh) hL
  refine ⟨X, Y, x1, y1, fun k hk m hm => ?_⟩
  rw [x4 _ (flipRow_lt hn k) m hm, y4 k hk m hm]
  unfold windowedDft
  rw [map_sum]
  refine Finset.sum_congr rfl (fun τ hτ => ?_)
  rw [Finset.mem_Icc] at hτ
  rw [expi_flip hn hk τ, hxy.zext, hh'.2 _ (by omega), map_mul, map_mul]

/-- Spectrogram. -/
theorem C93_spectrogram (x y : Vec ℂ) (hxy : IsConj x y) (ts : Vec ℤ) (n L : ℕ) (h h' : Vec ℂ) (hh' : IsConj h h')
    (hh : h.len = 2 * L + 1 ∨ h.len = 2 * L + 2) (hn : n ≠ 0) (hw : WindowOk h n L x.len ts) :
    ∃ X Y, SpectroReturns x ts n h X ∧ SpectroReturns y ts n h' Y ∧
      ∀ k < n, ∀ m < ts.len, Y.get k m = X.get (flipRow n k) m := by
  have hE : ∀ c, windowEnergy h' n L y.len c = windowEnergy h n L x.len c := by
    intro c
    unfold windowEnergy
    rw [hxy.1]
    refine Finset.sum_congr rfl (fun τ hτ => ?_)
    unfold segLags at hτ
    rw [Finset.mem_filter, Finset.mem_Icc] at hτ
    rw [hh'.2 _ (by omega), Complex.norm_conj]
  have hw' : WindowOk h' n L y.len ts := by
    intro m hm
    rw [hE, hxy.1]
    exact hw m hm
  obtain ⟨X, x1, -, -, x4⟩ := C31_closed_form x ts n L h hh hn hw
  obtain ⟨Y, y1, -, -, y4⟩ := C31_closed_form y ts n L h' (by rw [hh'.1]; exact hh) hn hw'
  refine ⟨X, Y, x1, y1, fun k hk m hm => ?_⟩
  obtain ⟨x5, x6⟩ := x4 _ (flipRow_lt hn k) m hm
  obtain ⟨y5, y6⟩ := y4 k hk m hm
  rcases hw m hm with h0 | h0
  · apply mul_right_cancel₀ h0
    rw [x6, ← hE, y6, hxy.1, ← Complex.norm_conj, map_sum]
    congr 2
    refine Finset.sum_congr rfl (fun τ hτ => ?_)
    unfold segLags at hτ
    rw [Finset.mem_filter, Finset.mem_Icc] at hτ
    rw [map_mul, map_mul, expi_flip hn hk τ, hxy.zext, hh'.2 _ (by omega), Complex.conj_conj, Complex.conj_conj, Complex.conj_conj]
  · rw [x5 h0, y5 (by rw [hxy.1]; exact h0)]

/-- Wigner-Ville. -/
theorem C93_wvd {τ : Type} (x y : Vec ℂ) (hxy : IsConj x y) (ts : Vec τ) (n : ℕ) (hn : n ≠ 0) (X : Mat ℝ) (hX : WvdReturns x ts n X) :
    ∃ Y, WvdReturns y ts n Y ∧ ∀ k < n, ∀ t < x.len, Y.get k t = X.get (flipRow n k) t := by
  obtain ⟨hts, hN⟩ := (C32_returns_iff x ts n hn).1 ⟨X, hX⟩
  obtain ⟨X', x1, -, -, x4⟩ := C33_wvd x ts n hn hts hN
  obtain rfl := wvd_unique hX x1
  obtain ⟨Y, y1, -, -, y4⟩ := C33_wvd y ts n hn (hts.trans hxy.1.symm) (by rw [hxy.1]; exact hN)
  refine ⟨Y, y1, fun k hk t ht => ?_⟩
  have hx := x4 _ (flipRow_lt hn k) t ht
  have hy := y4 k hk t (by rw [hxy.1]; exact ht)
  rw [lagSum_congr (fun τ _ _ => hxy.wigner t τ), conj_lagSum_flip _ hn hk, ← hx, Complex.conj_ofReal] at hy
  exact_mod_cast hy

/-- Pseudo Wigner-Ville. -/
theorem C93_pwvd {τ : Type} (x y : Vec ℂ) (hxy : IsConj x y) (ts : Vec τ) (n : ℕ) (h h' : Vec ℂ) (hh' : IsConj h h') (L : ℕ)
    (hh : h.len = 2 * L + 1) (hL : (L : ℤ) < roundEven ((n : ℝ) / 2)) :
    ∃ X Y, PwvdReturns x ts n (some h) X ∧ PwvdReturns y ts n (some h') Y ∧
      ∀ k < n, ∀ t < ts.len, Y.get k t = X.get (flipRow n k) t := by
  obtain ⟨X, x1, -, -, x4⟩ := C36_pwvd x ts n h L hh hL
  obtain ⟨Y, y1, -, -, y4⟩ := C36_pwvd y ts n h' L (hh'.1.trans hh) hL
  refine ⟨X, Y, x1, y1, fun k hk t ht => ?_⟩
  have hn : n ≠ 0 := by omega
  rw [x4 _ (flipRow_lt hn k) t ht, y4 k hk t ht,
    lagSum_congr (w := fun τ => conj (h.get ((L : ℤ) + τ).toNat * wignerKernel x t τ))
      (fun τ _ _ => by rw [hh'.2 _ (by omega), hxy.wigner, map_mul]), conj_lagSum_flip _ hn hk, Complex.conj_re]

/-- Pseudo Margenau-Hill (complex values). -/
theorem C93_pmh {τ : Type} (x y : Vec ℂ) (hxy : IsConj x y) (ts : Vec τ) (n : ℕ) (h h' : Vec ℂ) (hh' : IsConj h h') (L : ℕ)
    (hh : h.len = 2 * L + 1)
    (hL : (L : ℤ) < roundEven ((n : ℝ) / 2) - 1 ∨ (x.len : ℤ) < roundEven ((n : ℝ) / 2) - 1) (hts : ts.len ≤ x.len) :
    ∃ X Y, PmhReturns x ts n (some h) X ∧ PmhReturns y ts n (some h') Y ∧
      ∀ k < n, ∀ t < ts.len, Y.get k t = conj (X.get (flipRow n k) t) := by
  obtain ⟨X, x1, -, -, x4⟩ := (C61_pmh x ts n h L hh hL).1 hts
  obtain ⟨Y, y1, -, -, y4⟩ := (C61_pmh y ts n h' L (hh'.1.trans hh) (by rw [hxy.1]; exact hL)).1 (by rw [hxy.1]; exact hts)
  refine ⟨X, Y, x1, y1, fun k hk t ht => ?_⟩
  have hn : n ≠ 0 := by omega
  rw [x4 _ (flipRow_lt hn k) t ht, y4 k hk t ht, ← conj_lagSum_flip _ hn hk]
  refine lagSum_congr (fun τ _ _ => ?_) _
  rw [hh'.2 _ (by omega), hxy.zext, hxy.2 _ (by omega), map_mul, map_mul]

/-- Margenau-Hill. -/
theorem C93_margenau_hill (x y : Vec ℂ) (hxy : IsConj x y) (ts : Vec ℤ) (n : ℕ) (hn : n ≠ 0)
    (hts : ∀ c < ts.len, 0 ≤ ts.get c ∧ ts.get c < x.len) :
    ∃ X Y, MhReturns x ts n X ∧ MhReturns y ts n Y ∧ ∀ k < n, ∀ c < ts.len, Y.get k c = X.get (flipRow n k) c := by
  obtain ⟨X, x1, -, -, x4⟩ := C38_margenau_hill x ts n hn hts
  obtain ⟨Y, y1, -, -, y4⟩ := C38_margenau_hill y ts n hn (by rw [hxy.1]; exact hts)
  refine ⟨X, Y, x1, y1, fun k hk c hc => ?_⟩
  have := hts c hc
  rw [x4 _ (flipRow_lt hn k) c hc, y4 k hk c hc, hxy.1, ← Complex.conj_re, map_sum]
  congr 1
  refine Finset.sum_congr rfl (fun s hs => ?_)
  rw [Finset.mem_Ico] at hs
  have e := expi_flip hn hk (ts.get c - s)
  push_cast at e
  rw [e, hxy.2 _ (by omega), hxy.2 s (by omega)]
  simp only [map_mul, Complex.conj_conj]

/-- Page. -/
theorem C93_page (x y : Vec ℂ) (hxy : IsConj x y) (ts : Vec ℤ) (n : ℕ) (hn : n ≠ 0)
    (hts : ∀ c < ts.len, 0 ≤ ts.get c ∧ ts.get c < x.len) :
    ∃ X Y, PageReturns x ts n X ∧ PageReturns y ts n Y ∧ ∀ k < n, ∀ c < ts.len, Y.get k c = X.get (flipRow n k) c := by
  obtain ⟨X, x1, -, -, x4⟩ := C39_page x ts n hn hts
  obtain ⟨Y, y1, -, -, y4⟩ := C39_page y ts n hn (by rw [hxy.1]; exact hts)
  refine ⟨X, Y, x1, y1, fun k hk c hc => ?_⟩
  have := hts c hc
  rw [x4 _ (flipRow_lt hn k) c hc, y4 k hk c hc, hxy.1, ← Complex.conj_re, map_sum]
  congr 1
  refine Finset.sum_congr rfl (fun s hs => ?_)
  rw [Finset.mem_range] at hs
  have e := expi_flip hn hk (ts.get c - 1 - s)
  push_cast at e
  rw [e, hxy.2 _ (by omega), hxy.2 s (by omega)]
  simp only [map_mul, Complex.conj_conj]

theorem IsConj.smoothMass {g g' : Vec ℂ} (h : IsConj g g') {L : ℕ} (hg : g.len = 2 * L + 1) (N : ℕ) (c τ : ℤ) :
    smoothMass g' L N c τ = conj (Spec.smoothMass g L N c τ) := by
  unfold Spec.smoothMass
  rw [map_sum]
  refine Finset.sum_congr rfl (fun p hp => ?_)
  unfold smoothSeg at hp
  rw [Finset.mem_filter, Finset.mem_Icc] at hp
  rw [h.2 _ (by omega)]

theorem IsConj.smoothCorr {x y g g' : Vec ℂ} (hxy : IsConj x y) (h : IsConj g g') {L : ℕ} (hg : g.len = 2 * L + 1) (c τ : ℤ) :
    smoothCorr g' L y c τ = conj (Spec.smoothCorr g L x c τ) := by
  unfold Spec.smoothCorr
  rw [map_div₀, hxy.1, h.smoothMass hg, map_sum]
  congr 1
  refine Finset.sum_congr rfl (fun p hp => ?_)
  unfold smoothSeg at hp
  rw [Finset.mem_filter, Finset.mem_Icc] at hp
  rw [h.2 _ (by omega), hxy.wigner, map_mul]

/-- Smoothed pseudo Wigner-Ville. -/
theorem C93_spwv (x y : Vec ℂ) (hxy : IsConj x y) (tw tw' fw fw' : Vec ℂ) (htw : IsConj tw tw') (hfw : IsConj fw fw') (ts : Vec ℤ)
    (n Lg Lh : ℕ) (hn : n ≠ 0) (hg : tw.len = 2 * Lg + 1) (hh : fw.len = 2 * Lh + 1)
    (hfin : ∀ c < ts.len, ∀ τ : ℕ, (smoothSeg Lg x.len (ts.get c - 1) τ).Nonempty → smoothMass tw Lg x.len (ts.get c - 1) τ ≠ 0)
    (hz : ∀ c < ts.len, (Lh : ℤ) < roundEven ((n : ℝ) / 2) ∨ ts.get c ≤ roundEven ((n : ℝ) / 2) ∨
      (x.len : ℤ) - roundEven ((n : ℝ) / 2) < ts.get c) :
    ∃ X Y, spwv x (some ts) (some n) (some tw) (some fw) = .ok X ∧ spwv y (some ts) (some n) (some tw') (some fw') = .ok Y ∧
      ∀ k < n, ∀ c < ts.len, Y.get k c = X.get (flipRow n k) c := by
  obtain ⟨X, x1, -, -, x4⟩ := C37_closed_form x tw fw ts n Lg Lh hn hg hh hfin hz
  obtain ⟨Y, y1, -, -, y4⟩ := C37_closed_form y tw' fw' ts n Lg Lh hn (htw.1.trans hg) (hfw.1.trans hh)
    (fun c hc τ hne => by
      rw [hxy.1] at hne ⊢
      rw [htw.smoothMass hg]
      exact (map_ne_zero _).2 (hfin c hc τ hne)) (by rw [hxy.1]; exact hz)
  refine ⟨X, Y, x1, y1, fun k hk c hc => ?_⟩
  rw [x4 _ (flipRow_lt hn k) c hc, y4 k hk c hc, hxy.1, hxy.smoothCorr htw hg]
  rw [← Complex.conj_re (Spec.smoothCorr tw Lg x (ts.get c - 1) 0 + _), map_add, map_sum]
  congr 2
  refine Finset.sum_congr rfl (fun τ hτ => ?_)
  rw [Finset.mem_range] at hτ
  have e1 := expi_flip hn hk ((τ : ℤ) + 1)
  have e2 := congrArg conj e1
  push_cast at e1 e2
  rw [conj_expi, neg_neg, Complex.conj_conj] at e2
  rw [e1, e2, hxy.smoothCorr htw hg, hxy.smoothCorr htw hg, hfw.2 _ (by omega), hfw.2 _ (by omega), map_add, map_mul, map_mul,
    map_mul, map_mul, conj_expi (2 * Real.pi * _)]

/-- Narrow-band ambiguity function: the conjugate values at the opposite Doppler shift. -/
theorem C93_narrow_band (x y : Vec ℂ) (hxy : IsConj x y) (lag : Option (Vec ℝ)) (nf : Option ℕ) (X Y : Mat ℂ) (l l' xi xi' : Vec ℝ)
    (hX : Ambiguity.narrowBand x lag nf = .ok (X, l, xi)) (hY : Ambiguity.narrowBand y lag nf = .ok (Y, l', xi')) :
    ∀ r < X.rows, ∀ r' < Y.rows, xi'.get r' = -xi.get r → ∀ c < X.cols, ∀ c' < Y.cols, l'.get c' = l.get c →
      Y.get r' c' = conj (X.get r c) := by
  intro r hr r' hr' e c hc c' hc' e'
  obtain ⟨-, -, -, -, -, x6⟩ := C42_closed_form x lag nf X l xi hX
  obtain ⟨-, -, -, -, -, y6⟩ := C42_closed_form y lag nf Y l' xi' hY
  rw [x6 r hr c hc, y6 r' hr' c' hc', e, e']
  unfold ambiguity
  rw [map_sum, hxy.1]
  refine Finset.sum_congr rfl (fun t _ => ?_)
  rw [hxy.wigner, map_mul, conj_expi]
  congr 2
  ring

/-! ## Frequency measurements -/

theorem inst_freq_eq (x : Vec ℂ) (t : Vec ℤ) (ht : ∀ j < t.len, IdxOk x.len (t.get j) ∧ IdxOk x.len (t.get j - 2)) :
    ∃ f : Vec ℝ, TF.instFreq x (some t) = .ok (f, t) ∧ f.len = t.len ∧ ∀ j < t.len, f.get j
      = (Complex.arg (-(x.get (wrapIdx x.len (t.get j)) * conj (x.get (wrapIdx x.len (t.get j - 2))))) + Real.pi) / (4 * Real.pi) := by
  have hpi := Real.pi_pos
  simp only [TF.instFreq, Option.getD_some]
  have h1 : x.take t = .ok ⟨t.len, fun j => x.get (wrapIdx x.len (t.get j))⟩ := by
    unfold Vec.take; rw [if_pos (fun j hj => (ht j hj).1)]
  have h2 : x.take (t.map (fun i : ℤ => i - 2))
      = .ok ⟨t.len, fun j => x.get (wrapIdx x.len (t.get j - 2))⟩ := by
    unfold Vec.take
    rw [if_pos (fun j hj => by rw [Vec.map_get]; exact (ht j hj).2)]; rfl
  rw [h1, ok_bind, h2, ok_bind]
  simp only [Vec.bcast, if_true, ok_bind]
  refine ⟨_, rfl, rfl, fun j _ => ?_⟩
  simp only [Vec.map_get, neg_mul]
  norm_num
  field_simp
  ring

/-- `inst_freq` of the conjugate signal: `1/2 - f`, except that the upper end `1/2` stays. -/
theorem C93_inst_freq (x y : Vec ℂ) (hxy : IsConj x y) (t : Vec ℤ)
    (ht : ∀ j < t.len, IdxOk x.len (t.get j) ∧ IdxOk x.len (t.get j - 2)) :
    ∃ f g : Vec ℝ, TF.instFreq x (some t) = .ok (f, t) ∧ TF.instFreq y (some t) = .ok (g, t) ∧ f.len = t.len ∧ g.len = t.len ∧
      ∀ j < t.len, (f.get j ≠ 1 / 2 → g.get j = 1 / 2 - f.get j) ∧ (f.get j = 1 / 2 → g.get j = 1 / 2) := by
  have hpi := Real.pi_pos
  obtain ⟨f, f1, f2, f3⟩ := inst_freq_eq x t ht
  obtain ⟨g, g1, g2, g3⟩ := inst_freq_eq y t (by rw [hxy.1]; exact ht)
  refine ⟨f, g, f1, g1, f2, g2, fun j hj => ?_⟩
  have hx := ht j hj
  rw [f3 j hj, g3 j hj, hxy.1, hxy.2 _ (wrapIdx_lt hx.1), hxy.2 _ (wrapIdx_lt hx.2), ← map_mul, ← map_neg, Complex.arg_conj]
  generalize -(x.get (wrapIdx x.len (t.get j)) * conj (x.get (wrapIdx x.len (t.get j - 2)))) = z
  split
  · rename_i h
    rw [h]
    refine ⟨fun hne => absurd ?_ hne, fun _ => ?_⟩ <;> (field_simp; ring)
  · rename_i h
    refine ⟨fun _ => by field_simp; ring, fun he => absurd ?_ h⟩
    rw [div_eq_iff (by positivity)] at he
    linarith

/-- `inst_freq` of a real signal says nothing but whether the two samples around the instant have the same sign. -/
theorem C93_inst_freq_real (x : Vec ℂ) (hx : ∀ i < x.len, (x.get i).im = 0) (t : Vec ℤ)
    (ht : ∀ j < t.len, IdxOk x.len (t.get j) ∧ IdxOk x.len (t.get j - 2)) :
    ∃ f : Vec ℝ, TF.instFreq x (some t) = .ok (f, t) ∧ f.len = t.len ∧ ∀ j < t.len, (f.get j = 1 / 2 ∨ f.get j = 1 / 4) ∧
      (0 < (x.get (wrapIdx x.len (t.get j))).re * (x.get (wrapIdx x.len (t.get j - 2))).re → f.get j = 1 / 2) ∧
      ((x.get (wrapIdx x.len (t.get j))).re * (x.get (wrapIdx x.len (t.get j - 2))).re < 0 → f.get j = 1 / 4) := by
  have hpi := Real.pi_pos
  obtain ⟨f, f1, f2, f3⟩ := inst_freq_eq x t ht
  refine ⟨f, f1, f2, fun j hj => ?_⟩
  have hj' := ht j hj
  have e : ∀ i < x.len, x.get i = ((x.get i).re : ℂ) := fun i hi => Complex.ext rfl (by rw [hx i hi]; rfl)
  have hz : -(x.get (wrapIdx x.len (t.get j)) * conj (x.get (wrapIdx x.len (t.get j - 2))))
      = ((-((x.get (wrapIdx x.len (t.get j))).re * (x.get (wrapIdx x.len (t.get j - 2))).re) : ℝ) : ℂ) := by
    conv_lhs => rw [e _ (wrapIdx_lt hj'.1), e _ (wrapIdx_lt hj'.2), Complex.conj_ofReal]
    push_cast
    ring
  rw [f3 j hj, hz]
  generalize (x.get (wrapIdx x.len (t.get j))).re * (x.get (wrapIdx x.len (t.get j - 2))).re = r
  have hpos : 0 < r → (Complex.arg ((-r : ℝ) : ℂ) + Real.pi) / (4 * Real.pi) = 1 / 2 := by
    intro h
    rw [Complex.arg_ofReal_of_neg (by linarith)]
    field_simp
    norm_num
  have hneg : r ≤ 0 → (Complex.arg ((-r : ℝ) : ℂ) + Real.pi) / (4 * Real.pi) = 1 / 4 := by
    intro h
    rw [Complex.arg_ofReal_of_nonneg (by linarith)]
    field_simp
    norm_num
  refine ⟨?_, hpos, fun h => hneg h.le⟩
  rcases le_or_gt r 0 with h | h
  · exact Or.inr (hneg h)
  · exact Or.inl (hpos h)

/-- The time localisation does not see the conjugation. -/
theorem C93_loctime (x y : Vec ℂ) (hxy : IsConj x y) : TF.loctime y = TF.loctime x := by
  have hn : ∀ i < x.len, ‖y.get i‖ = ‖x.get i‖ := fun i hi => by rw [hxy.2 i hi, Complex.norm_conj]
  have he : energy y = energy x := by
    unfold energy
    rw [hxy.1]
    exact Finset.sum_congr rfl (fun i hi => by rw [hn i (Finset.mem_range.1 hi)])
  by_cases h0 : energy x = 0
  · rw [C44_loctime_zero x h0, C44_loctime_zero y (he.trans h0)]
  · rw [C44_loctime x h0, C44_loctime y (by rw [he]; exact h0), hxy.1,
      wmean_congr (w := fun i => ‖y.get i‖ ^ 2) (w' := fun i => ‖x.get i‖ ^ 2) (fun _ _ => rfl) (fun i hi => by rw [hn i hi]),
      wvar_congr (w := fun i => ‖y.get i‖ ^ 2) (w' := fun i => ‖x.get i‖ ^ 2) (fun _ _ => rfl) (fun i hi => by rw [hn i hi])]

theorem flipRow_flipRow {n k : ℕ} (hk : k < n) : flipRow n (flipRow n k) = k := by
  unfold flipRow
  rcases Nat.eq_zero_or_pos k with rfl | h
  · simp
  · rw [Nat.mod_eq_of_lt (show n - k < n by omega), Nat.mod_eq_of_lt (by omega)]
    omega

theorem sum_flipRow {n : ℕ} (f : ℕ → ℝ) : ∑ k ∈ range n, f (flipRow n k) = ∑ k ∈ range n, f k := by
  rcases Nat.eq_zero_or_pos n with rfl | hn
  · simp
  · refine Finset.sum_bij' (fun k _ => flipRow n k) (fun k _ => flipRow n k) ?_ ?_ ?_ ?_ ?_
    · intro k _; exact Finset.mem_range.2 (flipRow_lt (by omega) k)
    · intro k _; exact Finset.mem_range.2 (flipRow_lt (by omega) k)
    · intro k hk; exact flipRow_flipRow (Finset.mem_range.1 hk)
    · intro k hk; exact flipRow_flipRow (Finset.mem_range.1 hk)
    · intro k _; rfl

theorem norm_dft_conj {x y : Vec ℂ} (hxy : IsConj x y) {k : ℕ} (hk : k < x.len) : ‖dft y k‖ = ‖dft x (flipRow x.len k)‖ := by
  have hn : x.len ≠ 0 := by omega
  rw [dft_eq_dftC, dft_eq_dftC, hxy.1, ← Complex.norm_conj (dftC x.len x.get _)]
  congr 1
  unfold dftC
  rw [map_sum]
  refine Finset.sum_congr rfl (fun j hj => ?_)
  rw [hxy.2 j (Finset.mem_range.1 hj), map_mul, conj_rootPow]
  congr 1
  apply rootPow_congr hn
  obtain ⟨q, hq⟩ := flipRow_dvd hk
  exact ⟨-q * j, by linear_combination (-(j : ℤ)) * hq⟩

theorem binFreq_flip {n k : ℕ} (h2 : n % 2 = 0) (hk : k < n) :
    binFreq n (flipRow n k) = -binFreq n k - if k = n / 2 then 1 else 0 := by
  have hn : (n : ℝ) ≠ 0 := Nat.cast_ne_zero.2 (by omega)
  unfold binFreq flipRow
  rcases Nat.eq_zero_or_pos k with rfl | h
  · have h3 : 0 < n / 2 := by omega
    simp [h3, h3.ne]
  · rw [Nat.mod_eq_of_lt (by omega)]
    have e : ((n - k : ℕ) : ℝ) = n - k := by rw [Nat.cast_sub hk.le]
    have e2 : ((n / 2 : ℕ) : ℝ) * 2 = n := by exact_mod_cast (show n / 2 * 2 = n by omega)
    by_cases h3 : k = n / 2
    · have h4 : (k : ℝ) * 2 = n := by rw [h3]; exact e2
      split_ifs <;> first | omega | (field_simp; rw [e]; linarith)
    · split_ifs <;> first | omega | (field_simp; rw [e]; ring)

/-- The mean frequencies of a signal of even length and of its conjugate are opposite, up to the share of the energy at frequency `-1/2`,
which both count as negative. -/
theorem C93_locfreq (x y : Vec ℂ) (hxy : IsConj x y) (hN : x.len % 2 = 0) (hx : energy x ≠ 0) :
    ∃ f g B B', TF.locfreq x = .ok (f, B) ∧ TF.locfreq y = .ok (g, B') ∧
      f + g = -(‖dft x (x.len / 2)‖ ^ 2 / (x.len * energy x)) := by
  have he : energy y = energy x := by
    unfold energy
    rw [hxy.1]
    exact Finset.sum_congr rfl (fun i hi => by rw [hxy.2 i (Finset.mem_range.1 hi), Complex.norm_conj])
  have hn : x.len ≠ 0 := by
    intro h; apply hx; unfold energy; rw [h]; simp
  have hn' : (x.len : ℝ) ≠ 0 := Nat.cast_ne_zero.2 hn
  refine ⟨_, _, _, _, C45_locfreq x (by omega) hx, C45_locfreq y (by rw [hxy.1]; omega) (by rw [he]; exact hx), ?_⟩
  unfold wmean
  rw [sum_dft_sq x hn, sum_dft_sq y (by rw [hxy.1]; exact hn), he, hxy.1, ← add_div, ← neg_div]
  congr 1
  have e1 : ∑ k ∈ range x.len, binFreq x.len k * ‖dft y k‖ ^ 2
      = ∑ k ∈ range x.len, binFreq x.len (flipRow x.len k) * ‖dft x k‖ ^ 2 := by
    rw [← sum_flipRow (fun k => binFreq x.len (flipRow x.len k) * ‖dft x k‖ ^ 2)]
    refine Finset.sum_congr rfl (fun k hk => ?_)
    rw [norm_dft_conj hxy (Finset.mem_range.1 hk), flipRow_flipRow (Finset.mem_range.1 hk)]
  rw [e1, ← Finset.sum_add_distrib]
  rw [Finset.sum_congr rfl (fun k hk => show binFreq x.len k * ‖dft x k‖ ^ 2 + binFreq x.len (flipRow x.len k) * ‖dft x k‖ ^ 2
      = if k = x.len / 2 then -‖dft x k‖ ^ 2 else 0 by
    rw [binFreq_flip hN (Finset.mem_range.1 hk)]
    split_ifs <;> ring), Finset.sum_ite_eq', if_pos (Finset.mem_range.2 (by omega))]

/-- The mean frequency of a real signal of even length is zero, up to that share. -/
theorem C93_locfreq_real (x : Vec ℂ) (hre : ∀ i < x.len, (x.get i).im = 0) (hN : x.len % 2 = 0) (hx : energy x ≠ 0) :
    ∃ B, TF.locfreq x = .ok (-(‖dft x (x.len / 2)‖ ^ 2 / (2 * (x.len * energy x))), B) := by
  obtain ⟨f, g, B, B', h1, h2, h3⟩ := C93_locfreq x x (IsConj.of_real hre) hN hx
  rw [h1] at h2
  injection h2 with h2
  injection h2 with h2
  subst h2
  refine ⟨B, ?_⟩
  rw [h1]
  congr 2
  have : f = -(‖dft x (x.len / 2)‖ ^ 2 / (x.len * energy x)) / 2 := by linarith
  rw [this]
  ring

/-- A real signal: rows 3 and 5 of an 8-bin Wigner-Ville distribution of `1, 2` are equal, whatever the signal is made of. -/
example (ts : Vec ℤ) (hts : ts.len = 2) : ∃ X, WvdReturns ⟨2, fun i => (i : ℂ) + 1⟩ ts 8 X ∧ ∀ t < 2, X.get 3 t = X.get 5 t := by
  obtain ⟨X, h1, -⟩ := C33_wvd ⟨2, fun i => (i : ℂ) + 1⟩ ts 8 (by norm_num) hts
    (Or.inl (by rw [roundEven_half]; norm_num))
  obtain ⟨Y, h2, h3⟩ := C93_wvd ⟨2, fun i => (i : ℂ) + 1⟩ ⟨2, fun i => (i : ℂ) + 1⟩
    (IsConj.of_real (fun i _ => by simp)) ts 8 (by norm_num) X h1
  obtain rfl := wvd_unique h1 h2
  exact ⟨X, h1, fun t ht => h3 3 (by norm_num) t ht⟩

end Tftb.Props
