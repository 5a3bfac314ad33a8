import Verif.Props.Reruns

/-! # C89: plots that square, drawn again and again -/

namespace Tftb.Props

open Tftb Tftb.Spec Tftb.Linear Tftb.Cohen

theorem isMax_pow {M : Mat ℝ} {mx : ℝ} (hM : ∀ r c, 0 ≤ M.get r c) (h : IsMax M mx) (p : ℕ) :
    IsMax ⟨M.rows, M.cols, fun r c => M.get r c ^ p⟩ (mx ^ p) := by
  obtain ⟨h1, r, hr, c, hc, e⟩ := h
  exact ⟨fun r hr c hc => pow_le_pow_left₀ (hM r c) (h1 r hr c hc) p, r, hr, c, hc, by simp only; rw [e]⟩

/-- Squaring and thresholding a matrix that was itself thresholded, with the same threshold. -/
theorem plotOf_sq {A B : Mat ℝ} {thr : ℝ} (hA : ∀ r c, 0 ≤ A.get r c) (h0 : 0 ≤ thr) (h1 : thr < 1) (h : PlotOf A thr B) :
    ∃ C, thresholded ⟨B.rows, B.cols, fun r c => ‖(B.get r c : ℂ)‖ ^ 2⟩ thr = .ok C ∧ PlotOf ⟨A.rows, A.cols, fun r c => A.get r c ^ 2⟩ thr C := by
  obtain ⟨hr, hc, mx, hmx, hB⟩ := h
  have hmx0 : 0 ≤ mx := by
    obtain ⟨r, _, c, _, e⟩ := hmx.2
    rw [← e]; exact hA r c
  have hne : ¬ (A.rows = 0 ∨ A.cols = 0) := by
    obtain ⟨r, hr, c, hc, _⟩ := hmx.2
    omega
  have hB2 : ∀ r < A.rows, ∀ c < A.cols, ‖(B.get r c : ℂ)‖ ^ 2 = if A.get r c ≤ mx * thr then 0 else A.get r c ^ 2 := by
    intro r hr c hc
    rw [hB r hr c hc]
    split
    · simp
    · rw [Complex.norm_real, Real.norm_eq_abs, sq_abs]
  have hmax : IsMax ⟨B.rows, B.cols, fun r c => ‖(B.get r c : ℂ)‖ ^ 2⟩ (mx ^ 2) := by
    refine ⟨fun r hr' c hc' => ?_, ?_⟩
    · simp only at hr' hc' ⊢
      rw [hr] at hr'; rw [hc] at hc'
      rw [hB2 r hr' c hc']
      split
      · positivity
      · exact pow_le_pow_left₀ (hA r c) (hmx.1 r hr' c hc') 2
    · obtain ⟨r, hr', c, hc', e⟩ := hmx.2
      refine ⟨r, by simp only; rw [hr]; exact hr', c, by simp only; rw [hc]; exact hc', ?_⟩
      simp only
      rw [hB2 r hr' c hc', e]
      split
      · have : mx = 0 := by nlinarith
        rw [this]; norm_num
      · rfl
  obtain ⟨mx', hmx', hth⟩ := thresholded_ok (M := ⟨B.rows, B.cols, fun r c => ‖(B.get r c : ℂ)‖ ^ 2⟩) (by simp only; rw [hr, hc]; exact hne) thr
  rw [hmx'.unique hmax] at hth
  refine ⟨_, hth, hr, hc, mx ^ 2, isMax_pow hA hmx 2, fun r hr' c hc' => ?_⟩
  simp only [Mat.map] at hr' hc' ⊢
  rw [hB2 r hr' c hc']
  by_cases hle : A.get r c ≤ mx * thr
  · rw [if_pos hle, if_pos (by positivity), if_pos]
    calc A.get r c ^ 2 ≤ (mx * thr) ^ 2 := pow_le_pow_left₀ (hA r c) hle 2
      _ = mx ^ 2 * (thr * thr) := by ring
      _ ≤ mx ^ 2 * thr := mul_le_mul_of_nonneg_left (by nlinarith) (by positivity)
  · rw [if_neg hle]

/-- `k + 1` plots of a Wigner-Ville distribution with `sqmod=True` and the same threshold are one plot of the modulus to the power `2 ^ (k + 1)`: nothing else of
the object changes. -/
theorem C89_wvd {τ : Type} (o : TFR τ) (thr : ℝ) (h0 : 0 ≤ thr) (h1 : thr < 1) (hr : o.tfr.asC.rows ≠ 0) (hc : o.tfr.asC.cols ≠ 0) (k : ℕ) :
    ∃ B : Mat ℝ, times (fun s => wvdPlot s true thr) (k + 1) o = .ok { o with tfr := .real B } ∧
      PlotOf ⟨o.tfr.asC.rows, o.tfr.asC.cols, fun r c => ‖o.tfr.asC.get r c‖ ^ 2 ^ (k + 1)⟩ thr B := by
  induction k with
  | zero =>
    obtain ⟨mx, hmx, hth⟩ := thresholded_ok (M := o.tfr.modulusSq) (by
      show ¬ (o.tfr.asC.rows = 0 ∨ o.tfr.asC.cols = 0); omega) thr
    refine ⟨o.tfr.modulusSq.map (fun a => if a ≤ mx * thr then 0 else a), ?_, rfl, rfl, mx, ?_, fun r _ c _ => ?_⟩
    · show (wvdPlot o true thr >>= fun s => .ok s) = _
      unfold wvdPlot
      simp only [if_true]
      rw [hth, ok_bind, ok_bind]
    · simpa [Store.modulusSq, Mat.map] using hmx
    · show (if ‖o.tfr.asC.get r c‖ ^ 2 ≤ mx * thr then 0 else ‖o.tfr.asC.get r c‖ ^ 2) = _
      simp only [zero_add, pow_one]
  | succ k ih =>
    obtain ⟨B, hB, hP⟩ := ih
    obtain ⟨C, hC, hP'⟩ := plotOf_sq (fun r c => by simp only; positivity) h0 h1 hP
    refine ⟨C, ?_, ?_⟩
    · rw [times_succ', hB, ok_bind]
      unfold wvdPlot
      simp only [if_true]
      have : (Store.real B).modulusSq = ⟨B.rows, B.cols, fun r c => ‖(B.get r c : ℂ)‖ ^ 2⟩ := rfl
      rw [this, hC, ok_bind]
    · have e : (fun r c => (‖o.tfr.asC.get r c‖ ^ 2 ^ (k + 1)) ^ 2) = fun r c => ‖o.tfr.asC.get r c‖ ^ 2 ^ (k + 1 + 1) := by
        funext r c
        rw [← pow_mul, ← pow_succ]
      simpa only [e] using hP'

/-- The same for the short-time Fourier transform, which squares by default; only the first half of the rows is left after the first plot. -/
theorem C89_stft {τ : Type} (o : TFR τ) (thr : ℝ) (h0 : 0 ≤ thr) (h1 : thr < 1) (hr : 2 ≤ o.nf) (hrows : o.tfr.asC.rows = o.nf) (hc : o.tfr.asC.cols ≠ 0) (k : ℕ) :
    ∃ (o' : TFR τ) (B : Mat ℝ), times (fun s => stftPlot s true thr) (k + 1) o = .ok o' ∧ o'.tfr = .real B ∧
      PlotOf ⟨o.nf / 2, o.tfr.asC.cols, fun r c => ‖o.tfr.asC.get r c‖ ^ 2 ^ (k + 1)⟩ thr B ∧
      o'.freqs.len = min (o.nf / 2) o.freqs.len ∧ (∀ i, o'.freqs.get i = o.freqs.get i) ∧ o'.signal = o.signal ∧ o'.ts = o.ts ∧ o'.nf = o.nf ∧ o'.fwindow = o.fwindow := by
  induction k with
  | zero =>
    have htop : topRows o.tfr.modulusSq (o.nf / 2) = ⟨o.nf / 2, o.tfr.asC.cols, fun r c => ‖o.tfr.asC.get r c‖ ^ 2⟩ := by
      unfold topRows Store.modulusSq Mat.map
      simp only [hrows]
      rw [min_eq_left (by omega)]
    obtain ⟨mx, hmx, hth⟩ := thresholded_ok (M := ⟨o.nf / 2, o.tfr.asC.cols, fun r c => ‖o.tfr.asC.get r c‖ ^ 2⟩) (by simp only; omega) thr
    set B := (⟨o.nf / 2, o.tfr.asC.cols, fun r c => ‖o.tfr.asC.get r c‖ ^ 2⟩ : Mat ℝ).map (fun a => if a ≤ mx * thr then 0 else a) with hBdef
    refine ⟨{ o with tfr := .real B, freqs := ⟨min (o.nf / 2) o.freqs.len, fun i => o.freqs.get i⟩ }, B, ?_, rfl, ⟨rfl, rfl, mx, ?_, fun r _ c _ => ?_⟩,
      rfl, fun _ => rfl, rfl, rfl, rfl, rfl⟩
    · show (stftPlot o true thr >>= fun s => .ok s) = _
      unfold stftPlot
      simp only [truncInt_half, plotStore_sq, bind_assoc, ok_bind, slice_zero]
      rw [htop, hth, ok_bind]
    · simpa using hmx
    · simp [hBdef, Mat.map]
  | succ k ih =>
    obtain ⟨o', B, hB, hB', hP, hf, hfg, e1, e2, e3, e4⟩ := ih
    obtain ⟨C, hC, hP'⟩ := plotOf_sq (fun r c => by simp only; positivity) h0 h1 hP
    refine ⟨{ o' with tfr := .real C, freqs := ⟨min (o.nf / 2) o'.freqs.len, fun i => o'.freqs.get i⟩ }, C, ?_, rfl, ?_, ?_, hfg, e1, e2, e3, e4⟩
    · rw [times_succ', hB, ok_bind]
      unfold stftPlot
      simp only [truncInt_half, plotStore_sq, bind_assoc, ok_bind, slice_zero, e3]
      have : topRows (o'.tfr).modulusSq (o.nf / 2) = ⟨B.rows, B.cols, fun r c => ‖(B.get r c : ℂ)‖ ^ 2⟩ := by
        rw [hB']
        unfold topRows
        show (⟨min (o.nf / 2) B.rows, B.cols, _⟩ : Mat ℝ) = _
        have := hP.1
        simp only at this
        rw [this, min_self]
        rfl
      rw [this, hC, ok_bind]
    · have e : (fun r c => (‖o.tfr.asC.get r c‖ ^ 2 ^ (k + 1)) ^ 2) = fun r c => ‖o.tfr.asC.get r c‖ ^ 2 ^ (k + 1 + 1) := by
        funext r c
        rw [← pow_mul, ← pow_succ]
      simpa only [e] using hP'
    · simp only [hf]
      omega

/-- Hence with any positive threshold everything below the maximum disappears after enough plots. -/
theorem C89_vanishes {τ : Type} (o : TFR τ) (thr : ℝ) (h0 : 0 < thr) (h1 : thr < 1) (r c r' c' : ℕ) (hr : r < o.tfr.asC.rows) (hc : c < o.tfr.asC.cols)
    (hr' : r' < o.tfr.asC.rows) (hc' : c' < o.tfr.asC.cols) (hlt : ‖o.tfr.asC.get r c‖ < ‖o.tfr.asC.get r' c'‖) :
    ∃ K, ∀ k ≥ K, ∃ B : Mat ℝ, times (fun s => wvdPlot s true thr) (k + 1) o = .ok { o with tfr := .real B } ∧ B.get r c = 0 := by
  set a := ‖o.tfr.asC.get r c‖ with ha
  set b := ‖o.tfr.asC.get r' c'‖ with hb
  have hb0 : 0 < b := lt_of_le_of_lt (norm_nonneg _) hlt
  have hq : a / b < 1 := by rw [div_lt_one hb0]; exact hlt
  have hq0 : 0 ≤ a / b := by positivity
  obtain ⟨K, hK⟩ := exists_pow_lt_of_lt_one h0 hq
  refine ⟨K, fun k hk => ?_⟩
  obtain ⟨B, hB, _, _, mx, hmx, hent⟩ := C89_wvd o thr h0.le h1 (by omega) (by omega) k
  refine ⟨B, hB, ?_⟩
  rw [hent r hr c hc, if_pos]
  simp only
  have hbm : b ^ 2 ^ (k + 1) ≤ mx := hmx.1 r' hr' c' hc'
  have hpow : (a / b) ^ 2 ^ (k + 1) ≤ thr := by
    refine le_trans (pow_le_pow_of_le_one hq0 hq.le ?_) hK.le
    calc K ≤ k + 1 := by omega
      _ ≤ 2 ^ (k + 1) := Nat.lt_two_pow_self.le
  rw [div_pow, div_le_iff₀ (by positivity)] at hpow
  calc a ^ 2 ^ (k + 1) ≤ thr * b ^ 2 ^ (k + 1) := hpow
    _ ≤ thr * mx := mul_le_mul_of_nonneg_left hbm h0.le
    _ = mx * thr := by ring

/-- Three plots of a distribution with the values 1 and 1/2: the half, far above the threshold 1/20, is gone. -/
example : ∃ B : Mat ℝ, times (fun s => wvdPlot s true (1 / 20)) 3 (⟨⟨2, fun _ => 1⟩, arange 0 2, 1, ⟨1, fun _ => 1⟩, ⟨1, fun _ => 0⟩,
    .real ⟨1, 2, fun _ c => if c = 0 then 1 else 1 / 2⟩⟩ : TFR ℤ) = .ok ⟨⟨2, fun _ => 1⟩, arange 0 2, 1, ⟨1, fun _ => 1⟩, ⟨1, fun _ => 0⟩, .real B⟩ ∧
      B.get 0 0 = 1 ∧ B.get 0 1 = 0 := by
  obtain ⟨B, hB, _, _, mx, hmx, h⟩ := C89_wvd (⟨⟨2, fun _ => 1⟩, arange 0 2, 1, ⟨1, fun _ => 1⟩, ⟨1, fun _ => 0⟩,
    .real ⟨1, 2, fun _ c => if c = 0 then 1 else 1 / 2⟩⟩ : TFR ℤ) (1 / 20) (by norm_num) (by norm_num) (by simp [Store.asC, Mat.map])
    (by simp [Store.asC, Mat.map]) 2
  have hm : mx = 1 := by
    refine hmx.unique ⟨fun r _ c _ => ?_, 0, by simp [Store.asC, Mat.map], 0, by simp [Store.asC, Mat.map], by simp [Store.asC, Mat.map]⟩
    simp only [Store.asC, Mat.map]
    split <;> norm_num
  refine ⟨B, hB, ?_, ?_⟩
  · rw [h 0 (by simp [Store.asC, Mat.map]) 0 (by simp [Store.asC, Mat.map]), hm]
    simp [Store.asC, Mat.map]
    norm_num
  · rw [h 0 (by simp [Store.asC, Mat.map]) 1 (by simp [Store.asC, Mat.map]), hm]
    simp [Store.asC, Mat.map]
    norm_num

end Tftb.Props
