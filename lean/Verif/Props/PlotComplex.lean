import Verif.Props.Plot
import Verif.Props.Stft

/-! # Plotting a complex representation without squaring it (C81) -/

namespace Tftb.Props

open Tftb Tftb.Spec Tftb.Linear Tftb.Plot

/-- NumPy's order on complex numbers: by real part, then by imaginary part. -/
def ComplexLe (z w : ℂ) : Prop := z.re < w.re ∨ (z.re = w.re ∧ z.im ≤ w.im)

theorem complexLe_iff (z w : ℂ) : ComplexLe z w ↔ toLex (z.re, z.im) ≤ toLex (w.re, w.im) := by
  rw [Prod.Lex.le_iff]; rfl

theorem thresholdedC_ok {M : Mat ℂ} (hM : ¬ (M.rows = 0 ∨ M.cols = 0)) (thr : ℝ) :
    ∃ mx : ℂ, (∀ r < M.rows, ∀ c < M.cols, ComplexLe (M.get r c) mx) ∧ (∃ r < M.rows, ∃ c < M.cols, M.get r c = mx) ∧
      ∃ B, thresholdedC M thr = .ok B ∧ B.rows = M.rows ∧ B.cols = M.cols ∧
        (∀ r c, ComplexLe (M.get r c) (mx * thr) → B.get r c = 0) ∧ (∀ r c, ¬ ComplexLe (M.get r c) (mx * thr) → B.get r c = M.get r c) := by
  set s := (Finset.range M.rows ×ˢ Finset.range M.cols) with hs
  have hne : s.Nonempty := ⟨(0, 0), by simp only [hs, Finset.mem_product, Finset.mem_range]; omega⟩
  set f : ℕ × ℕ → ℝ ×ₗ ℝ := fun p => toLex ((M.get p.1 p.2).re, (M.get p.1 p.2).im) with hf
  obtain ⟨p, hp, hmx⟩ := Finset.exists_mem_eq_sup' hne f
  have hp' := hp
  simp only [hs, Finset.mem_product, Finset.mem_range] at hp'
  have hbound : (toLex ((ofLex (s.sup' hne f)).1 * thr, (ofLex (s.sup' hne f)).2 * thr) : ℝ ×ₗ ℝ)
      = toLex (((M.get p.1 p.2) * (thr : ℂ)).re, ((M.get p.1 p.2) * (thr : ℂ)).im) := by
    rw [hmx]
    simp [hf]
  refine ⟨M.get p.1 p.2, fun r hr c hc => ?_, ⟨p.1, hp'.1, p.2, hp'.2, rfl⟩, ?_⟩
  · rw [complexLe_iff]
    have : f (r, c) ≤ s.sup' hne f := Finset.le_sup' f (by simp only [hs, Finset.mem_product, Finset.mem_range]; exact ⟨hr, hc⟩)
    rw [hmx] at this
    exact this
  · refine ⟨M.map (fun z => if toLex (z.re, z.im) ≤ (toLex ((ofLex (s.sup' hne f)).1 * thr, (ofLex (s.sup' hne f)).2 * thr) : ℝ ×ₗ ℝ) then 0 else z),
      ?_, rfl, rfl, fun r c h => ?_, fun r c h => ?_⟩
    · unfold thresholdedC
      rw [dif_neg hM]
    · rw [complexLe_iff] at h
      show (if _ then (0 : ℂ) else _) = 0
      rw [if_pos]
      rw [hbound]; exact h
    · rw [complexLe_iff] at h
      show (if _ then (0 : ℂ) else _) = _
      rw [if_neg]
      rw [hbound]; exact h

/-- `ShortTimeFourierTransform.plot(sqmod=False)` after a run: the stored matrix stays complex, is cropped to the first half of the rows, and an entry is
kept exactly when it is lexicographically above `threshold` times the lexicographically largest entry. -/
theorem C81_store (x : Vec ℂ) (ts : Vec ℤ) (n : ℕ) (w : Option (Vec ℂ)) (o : TFR ℤ) (thr : ℝ) (hn : 2 ≤ n) (hts : ts.len ≠ 0)
    (hrun : stftRun (TFR.init makeWindow x ts n w) = .ok o) :
    ∃ (o' : TFR ℤ) (B : Mat ℂ) (mx : ℂ), stftPlot o false thr = .ok o' ∧ o'.tfr = .cplx B ∧ B.rows = n / 2 ∧ B.cols = ts.len ∧
      (∀ r < n / 2, ∀ c < ts.len, ComplexLe (o.tfr.asC.get r c) mx) ∧ (∃ r < n / 2, ∃ c < ts.len, o.tfr.asC.get r c = mx) ∧
      (∀ r c, ComplexLe (o.tfr.asC.get r c) (mx * thr) → B.get r c = 0) ∧
      (∀ r c, ¬ ComplexLe (o.tfr.asC.get r c) (mx * thr) → B.get r c = o.tfr.asC.get r c) := by
  obtain ⟨h1, h2, h3, h4, h5, h6⟩ := stftRun_shape hrun
  have hr : o.tfr.asC.rows = n := h5
  have hc : o.tfr.asC.cols = ts.len := h6
  have hnf : o.nf = n := h3
  obtain ⟨M, hM⟩ : ∃ M, o.tfr = .cplx M := by
    unfold stftRun at hrun
    simp only [bind_eq_ok] at hrun
    obtain ⟨S, _, F, _, h⟩ := hrun
    injection h with h; subst h
    exact ⟨F, rfl⟩
  rw [hM] at hr hc
  have hr' : M.rows = n := hr
  have hc' : M.cols = ts.len := hc
  have hd : ¬ ((topRows M (n / 2)).rows = 0 ∨ (topRows M (n / 2)).cols = 0) := by
    show ¬ (min (n / 2) M.rows = 0 ∨ M.cols = 0)
    omega
  obtain ⟨mx, e1, e2, B, e3, e4, e5, e6, e7⟩ := thresholdedC_ok hd thr
  have hrows : (topRows M (n / 2)).rows = n / 2 := by
    show min (n / 2) M.rows = _
    omega
  have hcols : (topRows M (n / 2)).cols = ts.len := hc'
  rw [hrows, hcols] at e1 e2
  refine ⟨{ o with tfr := .cplx B, freqs := o.freqs.slice 0 (n / 2 : ℕ) }, B, mx, ?_, rfl, e4.trans hrows, e5.trans hcols, ?_, ?_, ?_, ?_⟩
  · unfold stftPlot
    simp only [hnf, truncInt_half, hM, plotStore]
    rw [e3]
    rfl
  · rw [hM]; exact e1
  · rw [hM]; exact e2
  · rw [hM]; exact e6
  · rw [hM]; exact e7

/-- Consequence: for a threshold between 0 and 1, if some coefficient of the first half has a non-negative real part then every coefficient with a negative real part is erased,
however large its modulus. -/
theorem C81_negative_erased (x : Vec ℂ) (ts : Vec ℤ) (n : ℕ) (w : Option (Vec ℂ)) (o : TFR ℤ) (thr : ℝ) (hn : 2 ≤ n) (hts : ts.len ≠ 0)
    (hrun : stftRun (TFR.init makeWindow x ts n w) = .ok o) (h0 : 0 ≤ thr) (hpos : ∃ r < n / 2, ∃ c < ts.len, 0 ≤ (o.tfr.asC.get r c).re) :
    ∃ (o' : TFR ℤ), stftPlot o false thr = .ok o' ∧ ∀ r < n / 2, ∀ c < ts.len, (o.tfr.asC.get r c).re < 0 → o'.tfr.asC.get r c = 0 := by
  obtain ⟨o', B, mx, h1, h2, _, _, h5, _, h7, _⟩ := C81_store x ts n w o thr hn hts hrun
  refine ⟨o', h1, fun r hr c hc hneg => ?_⟩
  rw [h2]
  apply h7
  left
  obtain ⟨r', hr', c', hc', hp⟩ := hpos
  have hmx : 0 ≤ mx.re := by
    rcases h5 r' hr' c' hc' with h | ⟨h, _⟩ <;> linarith
  have : (mx * (thr : ℂ)).re = mx.re * thr := by simp
  rw [this]
  exact lt_of_lt_of_le hneg (mul_nonneg hmx h0)

/-- And the drawing itself, `kind="cmap"` (the default), always raises `TypeError`: the documented option `sqmod=False` never draws anything. -/
theorem C81_image_refused (x : Vec ℂ) (ts : Vec ℤ) (n : ℕ) (w : Option (Vec ℂ)) (o : TFR ℤ) (thr : ℝ) (hn : 2 ≤ n) (hts : ts.len ≠ 0)
    (hrun : stftRun (TFR.init makeWindow x ts n w) = .ok o) (showTf : Bool) :
    stftShow o .cmap false thr showTf {} = .error .typeError := by
  obtain ⟨h1, h2, h3, h4, h5, h6⟩ := stftRun_shape hrun
  obtain ⟨o', B, mx, e1, e2, _⟩ := C81_store x ts n w o thr hn hts hrun
  have hnf : o.nf = n := h3
  have hts' : o.ts = ts := h2
  have hfr : o.freqs = baseFreqs n := h1
  have ho' : o'.ts = ts ∧ o'.freqs = o.freqs.slice 0 (n / 2 : ℕ) := by
    unfold stftPlot at e1
    simp only [bind_eq_ok, hnf, truncInt_half] at e1
    obtain ⟨S, _, h⟩ := e1
    injection h with h; subst h
    exact ⟨hts', rfl⟩
  obtain ⟨hf1, hf2⟩ := baseFreqs_half n hn
  obtain ⟨a, b, ha, hb, hsp⟩ := spans_ok (ts := ts) hts
  have hfl : o'.freqs.len ≠ 0 := by
    rw [ho'.2, hfr, slice_zero]
    show min (n / 2) (baseFreqs n).len ≠ 0
    omega
  have hmin : ∃ c, o'.freqs.amin = .ok c := ⟨_, by unfold Vec.amin; exact dif_neg hfl⟩
  have hmax : ∃ c, o'.freqs.amax = .ok c := ⟨_, by unfold Vec.amax; exact dif_neg hfl⟩
  obtain ⟨c, hc⟩ := hmin
  obtain ⟨d, hd⟩ := hmax
  unfold stftShow
  rw [e1, ok_bind]
  have : objPlot o' .cmap showTf thr {} = .error .typeError := by
    unfold objPlot
    rw [e2]
    simp only [extentOf, viewOf, ho'.1, ha, hb, hc, hd, ok_bind]
  rw [this]
  rfl

/-- The cosine `1, -1, 1, -1, …` seen through a one-sample window: half of the coefficients are erased and nothing is drawn. -/
example : ∃ o : TFR ℤ, stftRun (TFR.init makeWindow ⟨8, fun i => (-1) ^ i⟩ (arange 0 8) 8 (some ⟨1, fun _ => 1⟩)) = .ok o ∧
    (∃ o' : TFR ℤ, stftPlot o false 0.05 = .ok o' ∧ o.tfr.asC.get 0 2 = -1 ∧ o'.tfr.asC.get 0 2 = 0) ∧ stftShow o .cmap false 0.05 false {} = .error .typeError := by
  obtain ⟨M, h1, _, _, h4⟩ := C27_stft (⟨8, fun i => (-1) ^ i⟩ : Vec ℂ) (arange 0 8) 8 0 ⟨1, fun _ => 1⟩ (Or.inl rfl) (by norm_num)
  unfold stftOf at h1
  simp only [bind_eq_ok] at h1
  obtain ⟨o, ho, h1⟩ := h1
  injection h1 with h1
  have hts : (arange 0 8).len ≠ 0 := by show (8 - 0 : ℤ).toNat ≠ 0; norm_num
  have hv : ∀ m : ℕ, 1 ≤ m → m < 8 → M.get 0 m = (-1) ^ (m - 1) := by
    intro m hm hm8
    rw [h4 0 (by norm_num) m (by show m < (8 - 0 : ℤ).toNat; norm_num; exact hm8)]
    unfold windowedDft
    have hI : Finset.Icc (-((0 : ℕ) : ℤ)) (0 : ℕ) = {0} := by simp
    rw [hI, Finset.sum_singleton, add_zero, zext_of_mem (by omega) (by show (m : ℤ) - 1 < (8 : ℕ); omega)]
    simp [expi]
  refine ⟨o, ho, ?_, C81_image_refused _ _ 8 _ o 0.05 (by norm_num) hts ho false⟩
  obtain ⟨o', e1, e2⟩ := C81_negative_erased _ _ 8 _ o 0.05 (by norm_num) hts ho (by norm_num)
    ⟨0, by norm_num, 1, by show 1 < (8 - 0 : ℤ).toNat; norm_num, by rw [h1, hv 1 le_rfl (by norm_num)]; norm_num⟩
  have hm1 : o.tfr.asC.get 0 2 = -1 := by rw [h1, hv 2 (by norm_num) (by norm_num)]; norm_num
  exact ⟨o', e1, hm1, e2 0 (by norm_num) 2 (by show 2 < (8 - 0 : ℤ).toNat; norm_num) (by rw [hm1]; norm_num)⟩

end Tftb.Props
