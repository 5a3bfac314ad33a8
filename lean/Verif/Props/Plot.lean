import Verif.Lemmas.Plot
import Verif.Props.AffineClass
import Verif.Props.Cohen
import Mathlib.Analysis.Convex.SpecificFunctions.Basic

/-! # C72: the frequencies at which plots show the rows, and what plotting does to the arrays returned earlier -/

namespace Tftb.Props

open Tftb Tftb.Spec Tftb.Linear Tftb.Cohen Tftb.Plot Finset

/-- Ordinate of the middle of row `r` of an image of `rows` rows stretched from `lo` to `hi`. -/
noncomputable def imageRow (rows : ℕ) (lo hi : ℝ) (r : ℕ) : ℝ := lo + ((r : ℝ) + 1 / 2) * ((hi - lo) / rows)

/-- `a` and `b` are the first and the last instant. -/
def Spans (ts : Vec ℤ) (a b : ℝ) : Prop :=
  (∀ i < ts.len, a ≤ (ts.get i : ℝ) ∧ (ts.get i : ℝ) ≤ b) ∧ (∃ i < ts.len, (ts.get i : ℝ) = a) ∧ ∃ i < ts.len, (ts.get i : ℝ) = b

theorem spans_ok {ts : Vec ℤ} (h : ts.len ≠ 0) : ∃ a b : ℤ, Aff.zmin ts = .ok a ∧ Aff.zmax ts = .ok b ∧ Spans ts a b := by
  obtain ⟨a, ha, h1, i, hi, e⟩ := zmin_spec h
  obtain ⟨b, hb, h2, j, hj, e'⟩ := zmax_spec h
  exact ⟨a, b, ha, hb, fun i hi => ⟨by exact_mod_cast h1 i hi, by exact_mod_cast h2 i hi⟩, ⟨i, hi, by exact_mod_cast e⟩, ⟨j, hj, by exact_mod_cast e'⟩⟩

theorem image_error {R : ℕ} {n s : ℝ} (hR : 1 ≤ R) (hs : 0 < s) (r : ℕ) (hr : r < R) (hn : n = s) :
    |imageRow R 0 (s * ((R : ℝ) - 1)) r - n * r| < s / 2 := by
  subst hn
  have hR0 : (0 : ℝ) < R := by exact_mod_cast hR
  have hr' : (r : ℝ) + 1 ≤ R := by exact_mod_cast hr
  have hr0 : (0 : ℝ) ≤ r := Nat.cast_nonneg _
  unfold imageRow
  have e : (0 : ℝ) + ((r : ℝ) + 1 / 2) * ((n * ((R : ℝ) - 1) - 0) / R) - n * r = n * (((R : ℝ) - 1) / 2 - r) / R := by
    field_simp
    ring
  rw [e, abs_lt]
  constructor
  · rw [lt_div_iff₀ hR0]
    nlinarith
  · rw [div_lt_iff₀ hR0]
    nlinarith

/-- Short-time Fourier transform, image: only the first half of the rows is drawn, squared and thresholded; the middle of row `r` lies less than half
a bin from its frequency `r / n`. -/
theorem C72_stft_image (x : Vec ℂ) (ts : Vec ℤ) (n : ℕ) (w : Option (Vec ℂ)) (o : TFR ℤ) (thr : ℝ) (hn : 2 ≤ n) (hts : ts.len ≠ 0)
    (hrun : stftRun (TFR.init makeWindow x ts n w) = .ok o) :
    ∃ (o' : TFR ℤ) (M : Mat ℝ) (a b lo hi : ℝ), stftShow o .cmap true thr false {} = .ok (o', [.image M a b lo hi]) ∧
      Spans ts a b ∧ PlotOf ⟨n / 2, ts.len, fun r c => ‖o.tfr.asC.get r c‖ ^ 2⟩ thr M ∧
      ∀ r < n / 2, |imageRow (n / 2) lo hi r - r / n| < 1 / (2 * n) := by
  obtain ⟨h1, h2, h3, h4, h5, h6⟩ := stftRun_shape hrun
  have hr : o.tfr.asC.rows = n := h5
  have hc : o.tfr.asC.cols = ts.len := h6
  have hnf : o.nf = n := h3
  have hts' : o.ts = ts := h2
  have hfr : o.freqs = baseFreqs n := h1
  obtain ⟨hf1, hf2⟩ := baseFreqs_half n hn
  have htop : topRows o.tfr.modulusSq (n / 2) = ⟨n / 2, ts.len, fun r c => ‖o.tfr.asC.get r c‖ ^ 2⟩ := by
    unfold topRows Store.modulusSq Mat.map
    simp only [hr, hc]
    rw [min_eq_left (by omega)]
  obtain ⟨mx, hmx, hth⟩ := thresholded_ok (M := ⟨n / 2, ts.len, fun r c => ‖o.tfr.asC.get r c‖ ^ 2⟩) (by simp only; omega) thr
  set B := (⟨n / 2, ts.len, fun r c => ‖o.tfr.asC.get r c‖ ^ 2⟩ : Mat ℝ).map (fun a => if a ≤ mx * thr then 0 else a) with hB
  set fr : Vec ℝ := ⟨n / 2, fun k => (baseFreqs n).get k⟩ with hfrdef
  have hplot : stftPlot o true thr = .ok { o with tfr := .real B, freqs := fr } := by
    unfold stftPlot
    simp only [hnf, truncInt_half, plotStore_sq, bind_assoc, ok_bind, hfr, slice_zero]
    rw [htop, hth, ok_bind, min_eq_left hf1]
  have hn0 : (0 : ℝ) < n := by exact_mod_cast (by omega : 0 < n)
  obtain ⟨g1, g2⟩ := ramp_range (v := fr) (s := 1 / n) (by positivity) (by rw [hfrdef]; simp only; omega)
    (fun k hk => by rw [hfrdef]; simp only; rw [hf2 k hk]; ring)
  obtain ⟨a, b, ha, hb, hsp⟩ := spans_ok hts
  refine ⟨{ o with tfr := .real B, freqs := fr }, B, a, b, 0, 1 / n * (((n / 2 : ℕ) : ℝ) - 1), ?_, hsp, ⟨rfl, rfl, mx, hmx, fun _ _ _ _ => rfl⟩, fun r hr => ?_⟩
  · unfold stftShow
    rw [hplot, ok_bind]
    unfold objPlot basePlot extentOf viewOf
    simp only [hts', ha, hb, g1, g2, ok_bind, values_real, Bool.false_eq_true, if_false, plotAlone]
    rfl
  · have := image_error (R := n / 2) (s := 1 / n) (n := 1 / n) (by omega) (by positivity) r hr rfl
    rw [show (r : ℝ) / n = 1 / n * r by ring, show 1 / (2 * (n : ℝ)) = 1 / n / 2 by field_simp]
    exact this

/-- Wigner-Ville distribution, image: every row is drawn, its middle less than half a bin (`1 / (4 n)`) from its frequency `r / (2 n)`. -/
theorem C72_wvd_image (x : Vec ℂ) (ts : Vec ℤ) (n : ℕ) (w : Option (Vec ℂ)) (o : TFR ℤ) (thr : ℝ) (hn : 1 ≤ n) (hts : ts.len ≠ 0)
    (hrun : wvdRun (TFR.init makeWindow x ts n w) = .ok o) :
    ∃ (o' : TFR ℤ) (M : Mat ℝ) (a b lo hi : ℝ), wvdShow o .cmap false thr false {} = .ok (o', [.image M a b lo hi]) ∧
      Spans ts a b ∧ PlotOf ⟨n, ts.len, fun r c => ‖o.tfr.asC.get r c‖⟩ thr M ∧
      ∀ r < n, |imageRow n lo hi r - r / (2 * n)| < 1 / (4 * n) := by
  obtain ⟨h1, h2, h3, h4, h5, h6⟩ := wvdRun_shape hrun
  have hr : o.tfr.asC.rows = n := h5
  have hc : o.tfr.asC.cols = ts.len := h6
  have hts' : o.ts = ts := h2
  have hfr : o.freqs = ⟨n, fun k => 0.5 * (k : ℝ) / (n : ℝ)⟩ := h1
  have htop : o.tfr.modulus = ⟨n, ts.len, fun r c => ‖o.tfr.asC.get r c‖⟩ := by
    unfold Store.modulus Mat.map
    rw [hr, hc]
  obtain ⟨mx, hmx, hth⟩ := thresholded_ok (M := ⟨n, ts.len, fun r c => ‖o.tfr.asC.get r c‖⟩) (by simp only; omega) thr
  set B := (⟨n, ts.len, fun r c => ‖o.tfr.asC.get r c‖⟩ : Mat ℝ).map (fun a => if a ≤ mx * thr then 0 else a) with hB
  have hplot : wvdPlot o false thr = .ok { o with tfr := .real B } := by
    unfold wvdPlot
    simp only [Bool.false_eq_true, if_false]
    rw [htop, hth, ok_bind]
  have hn0 : (0 : ℝ) < n := by exact_mod_cast (by omega : 0 < n)
  obtain ⟨g1, g2⟩ := ramp_range (v := ⟨n, fun k => 0.5 * (k : ℝ) / (n : ℝ)⟩) (s := 1 / (2 * n)) (by positivity) hn
    (fun k hk => by simp only; field_simp; norm_num; ring)
  obtain ⟨a, b, ha, hb, hsp⟩ := spans_ok hts
  refine ⟨{ o with tfr := .real B }, B, a, b, 0, 1 / (2 * n) * ((n : ℝ) - 1), ?_, hsp, ⟨rfl, rfl, mx, hmx, fun _ _ _ _ => rfl⟩, fun r hr => ?_⟩
  · unfold wvdShow
    rw [hplot, ok_bind]
    unfold objPlot basePlot extentOf viewOf
    simp only [hts', hfr, ha, hb, g1, g2, ok_bind, values_real, Bool.false_eq_true, if_false, plotAlone]
  · have := image_error (R := n) (s := 1 / (2 * n)) (n := 1 / (2 * n)) (by omega) (by positivity) r hr rfl
    rw [show (r : ℝ) / (2 * n) = 1 / (2 * n) * r by ring, show 1 / (4 * (n : ℝ)) = 1 / (2 * n) / 2 by field_simp; norm_num]
    exact this

/-- Pseudo Wigner-Ville distribution, default contour: row `r` is drawn at the ordinate `r / (2 (n - 1))` instead of `r / (2 n)`: too high, by almost a
whole bin at the top. -/
theorem C72_pwvd_contour (x : Vec ℂ) (ts : Vec ℤ) (n : ℕ) (w : Option (Vec ℂ)) (o : TFR ℤ) (R : Mat ℝ) (thr : ℝ) (hn : 2 ≤ n) (hts : 2 ≤ ts.len)
    (hrun : pwvdRun (TFR.init makeWindow x ts n w) = .ok (o, R)) :
    ∃ (o' : TFR ℤ) (M : Mat ℝ) (xs ys : Vec ℝ), pwvdShow o none false thr false {} = .ok (o', [.contour xs ys M none]) ∧
      M.rows = n ∧ M.cols = ts.len ∧ xs.len = ts.len ∧ (∀ c < ts.len, xs.get c = ts.get c) ∧ ys.len = n ∧
      ∀ r < n, ys.get r = r / (2 * (n - 1)) ∧ ys.get r - r / (2 * n) = r / (2 * n * (n - 1)) := by
  obtain ⟨h1, h2, h3, h4, h5, h6⟩ := pwvdRun_shape hrun
  have hr : o.tfr.asC.rows = n := h5
  have hc : o.tfr.asC.cols = ts.len := h6
  have hts' : o.ts = ts := h2
  have hfr : o.freqs = baseFreqs n := h1
  obtain ⟨mx, hmx, hth⟩ := thresholded_ok (M := o.tfr.modulus) (by show ¬ (o.tfr.asC.rows = 0 ∨ o.tfr.asC.cols = 0); omega) thr
  set B := o.tfr.modulus.map (fun a => if a ≤ mx * thr then 0 else a) with hB
  have hBr : B.rows = n := hr
  have hBc : B.cols = ts.len := hc
  have hplot : wvdPlot o false thr = .ok { o with tfr := .real B } := by
    unfold wvdPlot
    simp only [Bool.false_eq_true, if_false]
    rw [hth, ok_bind]
  have hn1 : (0 : ℝ) < (n : ℝ) - 1 := by
    have : (2 : ℝ) ≤ n := by exact_mod_cast hn
    linarith
  have hn0 : (0 : ℝ) < n := by linarith
  obtain ⟨g1, g2⟩ := baseFreqs_range n hn
  obtain ⟨a, b, ha, hb, hsp⟩ := spans_ok (ts := ts) (by omega)
  refine ⟨{ o with tfr := .real B }, B, ts.map (fun t : ℤ => (t : ℝ)), linspace 0 0.5 n, ?_, hBr, hBc, rfl, fun c _ => rfl, rfl, fun r hr => ?_⟩
  · unfold pwvdShow wvdShow
    rw [hplot, ok_bind]
    unfold objPlot basePlot extentOf viewOf
    simp only [hts', hfr, ha, hb, g1, g2, ok_bind, values_real, Bool.false_eq_true, if_false, plotAlone, Option.getD_none, tsR, hBr]
    unfold drawContour
    rw [if_neg (by
      rw [hBr, hBc]
      simp only [Vec.map_len, linspace]
      omega)]
    rfl
  · have : (linspace 0 0.5 n).get r = r / (2 * (n - 1)) := by
      unfold linspace
      simp only
      rw [if_neg (by omega)]
      field_simp
      norm_num
      ring
    refine ⟨this, ?_⟩
    rw [this]
    field_simp
    ring

/-- Drawn as an image instead, it uses the unsorted axis of the base class: the row of frequency zero appears near `-1/2`, each row nearly a cycle per
two samples below or half of it above its frequency. -/
theorem C72_pwvd_image (x : Vec ℂ) (ts : Vec ℤ) (n : ℕ) (w : Option (Vec ℂ)) (o : TFR ℤ) (R : Mat ℝ) (thr : ℝ) (hn : 2 ≤ n) (hev : n % 2 = 0) (hts : ts.len ≠ 0)
    (hrun : pwvdRun (TFR.init makeWindow x ts n w) = .ok (o, R)) :
    ∃ (o' : TFR ℤ) (M : Mat ℝ) (a b lo hi : ℝ), pwvdShow o (some .cmap) false thr false {} = .ok (o', [.image M a b lo hi]) ∧ M.rows = n ∧
      ∀ r < n, imageRow n lo hi r = -(1 / 2) + (r + 1 / 2) * (n - 1) / n ^ 2 := by
  obtain ⟨h1, h2, h3, h4, h5, h6⟩ := pwvdRun_shape hrun
  have hr : o.tfr.asC.rows = n := h5
  have hc : o.tfr.asC.cols = ts.len := h6
  have hts' : o.ts = ts := h2
  have hfr : o.freqs = baseFreqs n := h1
  obtain ⟨mx, hmx, hth⟩ := thresholded_ok (M := o.tfr.modulus) (by show ¬ (o.tfr.asC.rows = 0 ∨ o.tfr.asC.cols = 0); omega) thr
  set B := o.tfr.modulus.map (fun a => if a ≤ mx * thr then 0 else a) with hB
  have hplot : wvdPlot o false thr = .ok { o with tfr := .real B } := by
    unfold wvdPlot
    simp only [Bool.false_eq_true, if_false]
    rw [hth, ok_bind]
  have hn0 : (0 : ℝ) < n := by exact_mod_cast (by omega : 0 < n)
  obtain ⟨g1, g2⟩ := baseFreqs_range n hn
  obtain ⟨a, b, ha, hb, hsp⟩ := spans_ok (ts := ts) hts
  refine ⟨{ o with tfr := .real B }, B, a, b, -((n / 2 : ℕ) : ℝ) / n, (((n / 2 : ℕ) : ℝ) - 1) / n, ?_, hr, fun r _ => ?_⟩
  · unfold pwvdShow wvdShow
    simp only [Option.getD_some]
    rw [hplot, ok_bind]
    unfold objPlot basePlot extentOf viewOf
    simp only [hts', hfr, ha, hb, g1, g2, ok_bind, values_real, Bool.false_eq_true, if_false, plotAlone]
  · have e : ((n / 2 : ℕ) : ℝ) = n / 2 := by
      have : (n : ℝ) = 2 * ((n / 2 : ℕ) : ℝ) := by exact_mod_cast (by omega : n = 2 * (n / 2))
      linarith
    unfold imageRow
    rw [e]
    field_simp
    ring

/-- Margenau-Hill distribution, image, even number of bins: the first half of the rows, each drawn exactly half a bin too high. -/
theorem C72_mh_image (x : Vec ℂ) (ts : Vec ℤ) (n : ℕ) (w : Option (Vec ℂ)) (o : TFR ℤ) (sqmod : Bool) (thr : ℝ) (hn : 2 ≤ n) (hev : n % 2 = 0)
    (hts : ts.len ≠ 0) (hrun : mhRun (TFR.init makeWindow x ts n w) = .ok o) :
    ∃ (o' : TFR ℤ) (M : Mat ℝ) (a b lo hi : ℝ), mhShow o .cmap sqmod thr false {} = .ok (o', [.image M a b lo hi]) ∧ M.rows = n / 2 ∧
      M.cols = ts.len ∧ a = 0 ∧ (∃ s, Spans ts s b) ∧ ∀ r < n / 2, imageRow (n / 2) lo hi r = r / n + 1 / (2 * n) := by
  obtain ⟨h1, h2, h3, h4, h5, h6⟩ := mhRun_shape hrun
  have hr : o.tfr.asC.rows = n := h5
  have hc : o.tfr.asC.cols = ts.len := h6
  have hts' : o.ts = ts := h2
  have hfr : o.freqs = baseFreqs n := h1
  obtain ⟨M0, hM0⟩ := mhRun_real hrun
  set A := topRows (if sqmod then o.tfr.modulusSq else M0) (o.tfr.asC.rows / 2) with hA
  have hM0d : M0.rows = n ∧ M0.cols = ts.len := by rw [hM0] at hr hc; exact ⟨hr, hc⟩
  have hAr : A.rows = n / 2 ∧ A.cols = ts.len := by
    rw [hA]
    cases sqmod <;> simp [topRows, Store.modulusSq, Mat.map, hr, hc, hM0d] <;> omega
  obtain ⟨mx, hmx, hth⟩ := thresholded_ok (M := A) (by omega) thr
  set B := A.map (fun a => if a ≤ mx * thr then 0 else a) with hB
  have hplot : mhPlot o sqmod thr = .ok { o with tfr := .real B } := by
    have hps : plotStore o.tfr sqmod (o.tfr.asC.rows / 2) thr = (thresholded A thr >>= fun B => .ok (.real B)) := by
      rw [hA]
      cases sqmod
      · rw [hM0]; rfl
      · exact plotStore_sq _ _ _
    unfold mhPlot
    rw [hps, hth]
    rfl
  have hn0 : (0 : ℝ) < n := by exact_mod_cast (by omega : 0 < n)
  obtain ⟨a, b, ha, hb, hsp⟩ := spans_ok (ts := ts) hts
  refine ⟨{ o with tfr := .real B }, B, 0, b, 0, 0.5, ?_, hAr.1, hAr.2, rfl, ⟨a, hsp⟩, fun r _ => ?_⟩
  · unfold mhShow
    rw [hplot, ok_bind]
    unfold objPlot basePlot extentOf viewOf
    simp only [hts', hb, ok_bind, values_real, Option.isSome_none, Bool.false_eq_true, if_false, plotAlone]
  · have e : ((n / 2 : ℕ) : ℝ) = n / 2 := by
      have : (n : ℝ) = 2 * ((n / 2 : ℕ) : ℝ) := by exact_mod_cast (by omega : n = 2 * (n / 2))
      linarith
    unfold imageRow
    rw [e]
    field_simp
    norm_num
    ring

/-- `MargenauHillDistribution.plot` refuses an `extent`: it passes its own one as well, so the keyword is given twice. -/
theorem C72_mh_extent (x : Vec ℂ) (ts : Vec ℤ) (n : ℕ) (w : Option (Vec ℂ)) (o : TFR ℤ) (kind : Kind) (sqmod showTf : Bool) (thr : ℝ) (hn : 2 ≤ n)
    (hts : ts.len ≠ 0) (hrun : mhRun (TFR.init makeWindow x ts n w) = .ok o) (k : Kwargs) (hk : k.extent ≠ none) :
    mhShow o kind sqmod thr showTf k = .error .typeError := by
  obtain ⟨e, hk⟩ := Option.ne_none_iff_exists'.1 hk
  obtain ⟨h1, h2, h3, h4, h5, h6⟩ := mhRun_shape hrun
  have hr : o.tfr.asC.rows = n := h5
  have hc : o.tfr.asC.cols = ts.len := h6
  have hts' : o.ts = ts := h2
  obtain ⟨M0, hM0⟩ := mhRun_real hrun
  set A := topRows (if sqmod then o.tfr.modulusSq else M0) (o.tfr.asC.rows / 2) with hA
  have hM0d : M0.rows = n ∧ M0.cols = ts.len := by rw [hM0] at hr hc; exact ⟨hr, hc⟩
  have hAr : A.rows = n / 2 ∧ A.cols = ts.len := by
    rw [hA]
    cases sqmod <;> simp [topRows, Store.modulusSq, Mat.map, hr, hc, hM0d] <;> omega
  obtain ⟨mx, hmx, hth⟩ := thresholded_ok (M := A) (by omega) thr
  have hps : plotStore o.tfr sqmod (o.tfr.asC.rows / 2) thr = (thresholded A thr >>= fun B => .ok (.real B)) := by
    rw [hA]
    cases sqmod
    · rw [hM0]; rfl
    · exact plotStore_sq _ _ _
  obtain ⟨a, b, ha, hb, -⟩ := spans_ok (ts := ts) hts
  unfold mhShow mhPlot
  rw [hps, hth]
  simp only [ok_bind, hts', hb, hk, Option.isSome_some, if_true]

theorem matMax_eq {M : Mat ℝ} {mx : ℝ} (h : IsMax M mx) : matMax M = .ok mx := by
  obtain ⟨h1, r, hr, c, hc, e⟩ := h
  unfold matMax
  apply amax_eq
  · intro i hi
    simp only at hi ⊢
    have hc0 : 0 < M.cols := by omega
    exact h1 _ (by rw [Nat.div_lt_iff_lt_mul hc0]; exact hi) _ (Nat.mod_lt _ hc0)
  · refine ⟨r * M.cols + c, ?_, ?_⟩
    · simp only
      calc r * M.cols + c < r * M.cols + M.cols := by omega
        _ = (r + 1) * M.cols := by ring
        _ ≤ M.rows * M.cols := Nat.mul_le_mul_right _ hr
    · simp only
      have hc0 : 0 < M.cols := by omega
      rw [show r * M.cols + c = c + M.cols * r by ring, Nat.add_mul_div_left _ _ hc0, Nat.div_eq_of_lt hc, Nat.add_mul_mod_self_left,
        Nat.mod_eq_of_lt hc, zero_add, e]

theorem matMin_lt {M : Mat ℝ} {r c : ℕ} (hr : r < M.rows) (hc : c < M.cols) : ∃ m, matMin M = .ok m ∧ m ≤ M.get r c := by
  have hc0 : 0 < M.cols := by omega
  have hi : r * M.cols + c < M.rows * M.cols := by
    calc r * M.cols + c < r * M.cols + M.cols := by omega
      _ = (r + 1) * M.cols := by ring
      _ ≤ M.rows * M.cols := Nat.mul_le_mul_right _ hr
  obtain ⟨m, e, h1, -⟩ := Vec.amin_spec (v := ⟨M.rows * M.cols, fun i => M.get (i / M.cols) (i % M.cols)⟩) (by simp only; omega)
  refine ⟨m, e, ?_⟩
  have := h1 (r * M.cols + c) hi
  simp only at this
  rw [show r * M.cols + c = c + M.cols * r by ring, Nat.add_mul_div_left _ _ hc0, Nat.div_eq_of_lt hc, Nat.add_mul_mod_self_left,
    Nat.mod_eq_of_lt hc, zero_add] at this
  exact this

/-- The linear interpolation between two frequencies lies above the geometric one. -/
theorem geo_lt_linear {a b : ℝ} (ha : 0 < a) (hab : a < b) {t : ℝ} (h0 : 0 < t) (h1 : t < 1) : a * (b / a) ^ t < a + t * (b - a) := by
  have hq : 1 < b / a := by rw [lt_div_iff₀ ha]; linarith
  have key := rpow_one_add_lt_one_add_mul_self (s := b / a - 1) (by linarith) (by intro h; linarith) h0 h1
  rw [show 1 + (b / a - 1) = b / a by ring] at key
  calc a * (b / a) ^ t < a * (1 + t * (b / a - 1)) := mul_lt_mul_of_pos_left key ha
    _ = a + t * (b - a) := by field_simp

theorem fftLen_ok (x : Vec ℂ) (n : ℕ) (hn : 1 ≤ n) (hx : x.len ≤ n) :
    ∃ y, fftLen x n = .ok y ∧ y.len = n ∧ ∀ k, y.get k = dtft x ((k : ℝ) / n) := by
  unfold fftLen fft
  rw [if_neg (by simp only; omega)]
  refine ⟨_, rfl, rfl, fun k => ?_⟩
  simp only
  unfold dtft
  rw [← Finset.sum_subset (Finset.range_subset_range.2 hx) (fun j _ hj => by
    rw [if_neg (by simpa using hj), zero_mul])]
  refine Finset.sum_congr rfl fun j hj => ?_
  rw [if_pos (Finset.mem_range.1 hj), rootPow_eq_expi]
  congr 2
  push_cast
  ring

theorem spans_minmax {ts : Vec ℤ} {a b : ℤ} (h : Spans ts a b) : Aff.zmin ts = .ok a ∧ Aff.zmax ts = .ok b := by
  obtain ⟨h1, ⟨i, hi, e⟩, j, hj, e'⟩ := h
  obtain ⟨m, hm, g1, i', hi', f1⟩ := zmin_spec (v := ts) (by omega)
  obtain ⟨m', hm', g2, j', hj', f2⟩ := zmax_spec (v := ts) (by omega)
  have e1 : ts.get i = a := by exact_mod_cast e
  have e2 : ts.get j = b := by exact_mod_cast e'
  have k1 : a ≤ ts.get i' := by exact_mod_cast (h1 i' hi').1
  have k2 : ts.get j' ≤ b := by exact_mod_cast (h1 j' hj').2
  have := g1 i hi
  have := g2 j hj
  rw [hm, hm']
  exact ⟨by congr 1; omega, by congr 1; omega⟩

theorem amin_amax {nv : ℕ} (hnv : 2 ≤ nv) {f : Vec ℝ} (hl : f.len = nv) :
    (∃ m, f.amin = .ok m) ∧ ∃ m, f.amax = .ok m := by
  obtain ⟨m, h, -⟩ := Vec.amin_spec (v := f) (by omega)
  obtain ⟨m', h', -⟩ := Vec.amax_spec (v := f) (by omega)
  exact ⟨⟨m, h⟩, m', h'⟩

/-- Default plot of an affine distribution (Unterberger, D-Flandrin, Bertrand) with `nv` voices, at least half the number of samples: a contour whose
row `p` is drawn at the linear interpolation between `fmin` and `fmax`, strictly above the frequency of that voice except for the first and the last.
Beside it the spectrum, upside down and on another scale: what is drawn at the ordinate `fmin + j (fmax - fmin) / (N/2 - 1)` is the power at the frequency
`(nv - 1 - j) / (2 nv)`. -/
theorem C72_affine (v : View) (fmin fmax thr mx : ℝ) (nv : ℕ) (hv : v.band = some (fmin, fmax, nv)) (h0 : 0 < fmin) (h1 : fmin < fmax)
    (hnv : 2 ≤ nv) (hrows : v.tfr.rows = nv) (hcols : v.tfr.cols = v.ts.len) (hts : 2 ≤ v.ts.len) (hN : 2 ≤ v.signal.len)
    (hhalf : v.signal.len ≤ 2 * nv) (hthr : thr < 1)
    (hfl : v.freqs.len = nv) (hf : ∀ p < nv, v.freqs.get p = fmin * (fmax / fmin) ^ ((p : ℝ) / (nv - 1)))
    (hmx : IsMax v.tfr mx) (hpos : 0 < mx) (hlow : ∃ r < nv, ∃ c < v.ts.len, v.tfr.get r c < mx)
    (hspan : Spans v.ts 0 ((v.signal.len : ℝ) - 1)) :
    ∃ (M : Mat ℝ) (ys lev sx sy : Vec ℝ),
      affineShow v fmin fmax .contour true thr {} = .ok (M, [.contour (v.ts.map (fun t : ℤ => (t : ℝ))) ys M (some lev),
        .curve ⟨v.signal.len, fun j => (j : ℝ)⟩ (v.signal.map Complex.re), .curve sx sy, .ylim fmin (sy.get (v.signal.len / 2 - 1)) false]) ∧
      PlotOf v.tfr thr M ∧ ys.len = nv ∧
      (∀ p < nv, ys.get p = fmin + p * (fmax - fmin) / (nv - 1)) ∧
      (∀ p, 0 < p → p < nv - 1 → v.freqs.get p < ys.get p) ∧ ys.get 0 = v.freqs.get 0 ∧ ys.get (nv - 1) = v.freqs.get (nv - 1) ∧
      sx.len = v.signal.len / 2 ∧ sy.len = v.signal.len / 2 ∧
      (∀ j < v.signal.len / 2, sx.get j = ‖dtft v.signal (((nv : ℝ) - 1 - j) / (2 * nv))‖ ^ 2) ∧
      (4 ≤ v.signal.len → ∀ j < v.signal.len / 2, sy.get j = fmin + j * (fmax - fmin) / ((v.signal.len / 2 : ℕ) - 1)) := by
  obtain ⟨mx', hmx', hth⟩ := thresholded_ok (M := v.tfr) (by omega) thr
  obtain rfl := hmx.unique hmx'
  set M := v.tfr.map (fun a => if a ≤ mx * thr then 0 else a) with hM
  have hMr : M.rows = nv := hrows
  have hMc : M.cols = v.ts.len := hcols
  have hlt : mx * thr < mx := by nlinarith
  have hmaxM : IsMax M mx := by
    obtain ⟨g1, r, hr, c, hc, e⟩ := hmx
    refine ⟨fun r hr c hc => ?_, r, hr, c, hc, ?_⟩
    · show (if v.tfr.get r c ≤ mx * thr then 0 else v.tfr.get r c) ≤ mx
      split_ifs
      · exact hpos.le
      · exact g1 r hr c hc
    · show (if v.tfr.get r c ≤ mx * thr then 0 else v.tfr.get r c) = mx
      rw [e, if_neg (by linarith)]
  have hmm := matMax_eq hmaxM
  obtain ⟨m, hmin, hmlt⟩ : ∃ m, matMin M = .ok m ∧ m < mx := by
    obtain ⟨r, hr, c, hc, hl⟩ := hlow
    obtain ⟨m, h, h'⟩ := matMin_lt (M := M) (r := r) (c := c) (by omega) (by omega)
    refine ⟨m, h, h'.trans_lt ?_⟩
    show (if v.tfr.get r c ≤ mx * thr then 0 else v.tfr.get r c) < mx
    split_ifs
    · exact hpos
    · exact hl
  have hnv1 : (0 : ℝ) < (nv : ℝ) - 1 := by
    have : (2 : ℝ) ≤ nv := by exact_mod_cast hnv
    linarith
  have hsp := spans_minmax (ts := v.ts) (a := 0) (b := (v.signal.len : ℤ) - 1) (by push_cast; exact hspan)
  obtain ⟨⟨f1, hf1⟩, f2, hf2⟩ := amin_amax hnv hfl
  obtain ⟨y, hy, hyl, hyg⟩ := fftLen_ok v.signal (2 * nv) (by omega) hhalf
  set sy := linspace fmin fmax (v.signal.len / 2) with hsy
  set sp : Vec ℝ := (y.map (fun z => ‖z‖ ^ 2)).slice 0 (nv : ℤ) with hspd
  have hsp0 : sp = ⟨nv, fun i => ‖y.get i‖ ^ 2⟩ := by
    rw [hspd, slice_zero]
    simp only [Vec.map_len, Vec.map_get, hyl]
    congr 1
    omega
  set sx : Vec ℝ := sp.reverse.slice 0 ((v.signal.len / 2 : ℕ) : ℤ) with hsx
  have hsx0 : sx = ⟨v.signal.len / 2, fun j => ‖y.get (nv - 1 - j)‖ ^ 2⟩ := by
    rw [hsx, slice_zero, hsp0]
    simp only [Vec.reverse]
    congr 1
    omega
  have hlev : contourLevels { v with tfr := M } none 0.05 = .ok (some (linspace (max m (mx * 0.05)) mx 65)) := by
    unfold contourLevels
    simp only [hv, hmm, hmin, ok_bind]
  have hlev2 : max m (mx * 0.05) < mx := max_lt hmlt (by linarith)
  have hdraw : drawContour (v.ts.map (fun t : ℤ => (t : ℝ))) (linspace fmin fmax nv) M (some (linspace (max m (mx * 0.05)) mx 65))
      = .ok (.contour (v.ts.map (fun t : ℤ => (t : ℝ))) (linspace fmin fmax nv) M (some (linspace (max m (mx * 0.05)) mx 65))) := by
    unfold drawContour
    rw [if_neg (by rw [hMr, hMc]; simp only [Vec.map_len, linspace]; omega)]
    simp only
    rw [if_neg]
    rintro ⟨i, -, h⟩
    simp only [linspace] at h
    norm_num at h
    have : 0 < mx - max m (mx * 0.05) := by linarith
    norm_num at this
    nlinarith
  have hk1 : 1 ≤ v.signal.len / 2 := by omega
  have hsyl : sy.len = v.signal.len / 2 := rfl
  have hsy00 : sy.get 0 = fmin := by
    rw [hsy]; simp [linspace]
  have hsy0 : sy.item 0 = .ok fmin := by
    rw [Vec.item_ok le_rfl (by rw [hsyl]; exact_mod_cast hk1), ← hsy00]
    rfl
  have hsyn : sy.item (-1) = .ok (sy.get (v.signal.len / 2 - 1)) := by
    unfold Vec.item
    rw [if_pos (by unfold IdxOk; rw [hsyl]; omega)]
    unfold wrapIdx
    rw [if_pos (by omega), hsyl]
    congr 2
    omega
  refine ⟨M, linspace fmin fmax nv, linspace (max m (mx * 0.05)) mx 65, sx, sy, ?_, ⟨rfl, rfl, mx, hmx, fun _ _ _ _ => rfl⟩, rfl, fun p hp => ?_, fun p hp hp' => ?_,
    ?_, ?_, by rw [hsx0], rfl, fun j hj => ?_, fun h4 j hj => ?_⟩
  · unfold affineShow
    rw [hth, ok_bind]
    simp only [Option.getD_none]
    unfold basePlot extentOf
    simp only [hsp.1, hsp.2, hf1, hf2, ok_bind, if_true]
    unfold plotTfr plotSpectrum spectrumX getSpectrum contourAxis tsR
    simp only [hv, hsp.1, hsp.2, slice_full, hMr, hy, ok_bind, Option.getD_none, Option.getD_some]
    rw [hv] at hlev
    rw [hlev, ok_bind, hdraw, ok_bind]
    rw [← hspd, ← hsx]
    unfold drawCurve spectrumLim
    rw [if_pos (by rw [hsx0]; rfl), ok_bind]
    simp only
    rw [hsy0, ok_bind, hsyn, ok_bind]
    rfl
  · simp only [linspace]
    rw [if_neg (by omega)]
    ring
  · simp only [linspace]
    rw [if_neg (by omega), hf p (by omega)]
    have hp1 : (p : ℝ) < nv - 1 := by
      have : (p : ℝ) + 1 < nv := by exact_mod_cast (by omega : p + 1 < nv)
      linarith
    have := geo_lt_linear h0 h1 (t := (p : ℝ) / (nv - 1)) (by have : (0 : ℝ) < p := by exact_mod_cast hp
                                                              positivity) (by rw [div_lt_one hnv1]; exact hp1)
    calc _ < _ := this
      _ = _ := by ring
  · rw [hf 0 (by omega)]
    simp [linspace]
  · rw [hf (nv - 1) (by omega)]
    simp only [linspace]
    rw [if_neg (by omega), Nat.cast_sub (by omega), Nat.cast_one, div_self hnv1.ne', Real.rpow_one]
    field_simp
    ring
  · rw [hsx0]
    simp only
    rw [hyg]
    rw [Nat.cast_sub (by omega), Nat.cast_sub (by omega)]
    push_cast
    rfl
  · rw [hsy]
    simp only [linspace]
    rw [if_neg (by omega)]
    ring

/-- With fewer voices than half the number of samples the curve of the spectrum has too few points, and the plot with panels (the default) raises,
whatever is drawn beside it. -/
theorem C72_affine_refused (v : View) (fmin fmax thr fmin' fmax' : ℝ) (nv : ℕ) (kind : Kind) (hv : v.band = some (fmin', fmax', nv))
    (hrows : v.tfr.rows < v.signal.len / 2) (r : Mat ℝ × List Drawn) : affineShow v fmin fmax kind true thr {} ≠ .ok r := by
  intro h
  unfold affineShow at h
  simp only [bind_eq_ok] at h
  obtain ⟨M, hM, d, hd, -⟩ := h
  obtain ⟨hMr, -⟩ := thresholded_dims hM
  unfold basePlot at hd
  simp only [bind_eq_ok, if_true] at hd
  obtain ⟨e, -, a, -, s, hs, -⟩ := hd
  unfold plotSpectrum at hs
  simp only [bind_eq_ok, Option.getD_some, Option.getD_none] at hs
  obtain ⟨x, hx, c, hc, -⟩ := hs
  unfold spectrumX at hx
  simp only [bind_eq_ok] at hx
  obtain ⟨s', hs', hx⟩ := hx
  injection hx with hx
  unfold getSpectrum at hs'
  simp only [hv, bind_eq_ok] at hs'
  obtain ⟨lo, -, hi, -, y, -, hy⟩ := hs'
  injection hy with hy
  have hlen : x.len ≤ M.rows := by
    rw [← hx, slice_zero, ← hy, slice_zero]
    simp only [Vec.reverse]
    omega
  unfold drawCurve at hc
  rw [if_neg (by show x.len ≠ v.signal.len / 2; omega)] at hc
  cases hc

/-- The scalogram, default plot: its rows (voices from `fmin` to `fmax`) are drawn at ordinates running from 0 to 1/2 whatever the band, and the curve of the
spectrum, given ordinates between `fmin` and `fmax`, is drawn on an axis running from 0 to `N/2 - 1`. -/
theorem C72_scalogram (v : View) (fmin fmax thr : ℝ) (hv : v.band = none) (hN : 2 ≤ v.signal.len) (hrows : v.tfr.rows = v.signal.len)
    (hcols : v.tfr.cols = v.ts.len) (hts : 2 ≤ v.ts.len) (hfl : 2 ≤ v.freqs.len) :
    ∃ (M : Mat ℝ) (ys sx : Vec ℝ),
      affineShow v fmin fmax .contour true thr {} = .ok (M, [.contour (v.ts.map (fun t : ℤ => (t : ℝ))) ys M none,
        .curve ⟨v.signal.len, fun j => (j : ℝ)⟩ (v.signal.map Complex.re), .curve sx (linspace fmin fmax (v.signal.len / 2)),
        .ylim 0 ((v.signal.len / 2 : ℕ) - 1) true]) ∧
      PlotOf v.tfr thr M ∧ ys.len = v.signal.len ∧ (∀ r < v.signal.len, ys.get r = r / (2 * (v.signal.len - 1))) ∧
      sx.len = v.signal.len / 2 ∧ ∀ j < v.signal.len / 2, sx.get j = ‖dft v.signal (v.signal.len - v.signal.len / 2 - 1 - j)‖ ^ 2 := by
  obtain ⟨mx, hmx, hth⟩ := thresholded_ok (M := v.tfr) (by omega) thr
  set M := v.tfr.map (fun a => if a ≤ mx * thr then 0 else a) with hM
  have hMr : M.rows = v.signal.len := hrows
  have hMc : M.cols = v.ts.len := hcols
  obtain ⟨a, b, ha, hb, -⟩ := spans_ok (ts := v.ts) (by omega)
  obtain ⟨⟨f1, hf1⟩, f2, hf2⟩ := amin_amax hfl rfl
  have hN1 : (0 : ℝ) < (v.signal.len : ℝ) - 1 := by
    have : (2 : ℝ) ≤ v.signal.len := by exact_mod_cast hN
    linarith
  have hfft : fft v.signal = .ok ⟨v.signal.len, fun k => dft v.signal k⟩ := by
    rw [fft_ok (by omega)]
    congr 2
    funext k
    exact (dft_eq_dftC v.signal k).symm
  set sp : Vec ℝ := fftshift ((⟨v.signal.len, fun k => dft v.signal k⟩ : Vec ℂ).map (fun z => ‖z‖ ^ 2)) with hspd
  set sx : Vec ℝ := sp.reverse.slice 0 ((v.signal.len / 2 : ℕ) : ℤ) with hsx
  have hsxl : sx.len = v.signal.len / 2 := by
    rw [hsx, slice_zero, hspd]
    simp only [Vec.reverse, fftshift, Vec.map_len]
    omega
  refine ⟨M, linspace 0 0.5 v.signal.len, sx, ?_, ⟨rfl, rfl, mx, hmx, fun _ _ _ _ => rfl⟩, rfl, fun r _ => ?_, hsxl, fun j hj => ?_⟩
  · unfold affineShow
    rw [hth, ok_bind]
    simp only [Option.getD_none]
    unfold basePlot extentOf
    simp only [ha, hb, hf1, hf2, ok_bind, if_true]
    unfold plotTfr plotSpectrum spectrumX getSpectrum contourAxis tsR contourLevels
    simp only [hv, hfft, ok_bind, Option.getD_none, Option.getD_some]
    rw [← hspd, ← hsx]
    unfold drawContour drawCurve spectrumLim
    rw [if_neg (by rw [hMr, hMc]; simp only [Vec.map_len, linspace]; omega), ok_bind, if_pos (by rw [hsxl]; rfl), ok_bind]
    rfl
  · simp only [linspace]
    rw [if_neg (by omega)]
    field_simp
    norm_num
    ring
  · rw [hsx, slice_zero, hspd]
    simp only [Vec.reverse, fftshift, Vec.map_len, Vec.map_get]
    congr 3
    rw [show v.signal.len - 1 - j + (v.signal.len - v.signal.len / 2) = (v.signal.len - v.signal.len / 2 - 1 - j) + v.signal.len by omega,
      Nat.add_mod_right, Nat.mod_eq_of_lt (by omega)]

/-- Plotting changes what the caller holds.  Spectrogram: the array returned by `run` keeps its values in the upper half of its rows; in the first half, entries at
most `thr` times the largest one of that half become 0.  With the default threshold 0 nothing changes. -/
theorem C72_spectrogram_returned (x : Vec ℂ) (ts : Vec ℤ) (n : ℕ) (w : Option (Vec ℂ)) (o : TFR ℤ) (M : Mat ℝ) (thr : ℝ) (hn : 2 ≤ n) (hts : ts.len ≠ 0)
    (hrun : spectroRun (TFR.init makeWindow x ts n w) = .ok o) (hM : o.tfr = .real M) :
    ∃ (mx : ℝ) (R : Mat ℝ), IsMax ⟨n / 2, ts.len, M.get⟩ mx ∧ spectroReturned M n thr = .ok R ∧ R.rows = n ∧ R.cols = ts.len ∧
      (∀ r, n / 2 ≤ r → ∀ c, R.get r c = M.get r c) ∧
      (∀ r < n / 2, ∀ c, R.get r c = if M.get r c ≤ mx * thr then 0 else M.get r c) ∧
      (thr = 0 → ∀ r c, R.get r c = M.get r c) := by
  obtain ⟨h1, h2, h3, h4, h5, h6⟩ := spectroRun_shape hrun
  obtain ⟨M', hM', hnn⟩ := C41_spectrogram_after_run _ _ hrun
  rw [hM] at hM' h5 h6
  injection hM' with e
  subst e
  have hr : M.rows = n := h5
  have hc : M.cols = ts.len := h6
  have htop : topRows M (n / 2) = ⟨n / 2, ts.len, M.get⟩ := by
    unfold topRows
    rw [hr, hc, min_eq_left (by omega)]
  obtain ⟨mx, hmx, hth⟩ := thresholded_ok (M := ⟨n / 2, ts.len, M.get⟩) (by simp only; omega) thr
  refine ⟨mx, ⟨M.rows, M.cols, fun r c => if r < n / 2 then (if M.get r c ≤ mx * thr then 0 else M.get r c) else M.get r c⟩, hmx, ?_, hr, hc, fun r hr c => ?_, fun r hr c => ?_,
    fun h r c => ?_⟩
  · unfold spectroReturned
    simp only [truncInt_half]
    rw [htop, hth, ok_bind]
    rfl
  · simp only
    rw [if_neg (by omega)]
  · simp only
    rw [if_pos hr]
  · simp only
    rw [h, mul_zero, ite_le_zero (hnn r c), ite_self]

theorem thresholded_empty {M : Mat ℝ} (h : M.rows = 0 ∨ M.cols = 0) (thr : ℝ) : thresholded M thr = .error .valueError := by
  unfold thresholded; rw [dif_pos h]

theorem plotStore_empty {S : Store} {k : ℕ} (h : k = 0 ∨ S.asC.rows = 0 ∨ S.asC.cols = 0) (sqmod : Bool) (thr : ℝ) :
    plotStore S sqmod k thr = .error .valueError := by
  have hc : ∀ M : Mat ℂ, (k = 0 ∨ M.rows = 0 ∨ M.cols = 0) → thresholdedC (topRows M k) thr = .error .valueError := by
    intro M hM
    unfold thresholdedC
    rw [dif_pos (by show min k M.rows = 0 ∨ M.cols = 0; omega)]
  have hr : ∀ M : Mat ℝ, (k = 0 ∨ M.rows = 0 ∨ M.cols = 0) → thresholded (topRows M k) thr = .error .valueError := by
    intro M hM
    exact thresholded_empty (by show min k M.rows = 0 ∨ M.cols = 0; omega) thr
  cases sqmod
  · cases S with
    | cplx M => show (thresholdedC (topRows M k) thr >>= _) = _; rw [hc M h]; rfl
    | real M => show (thresholded (topRows M k) thr >>= _) = _; rw [hr M h]; rfl
  · rw [plotStore_sq, hr _ h]; rfl

/-- Nothing to draw: one frequency bin (of which the first half is none), no bin or no instant.  `ValueError`, whatever the kind of plot and the keywords. -/
theorem C72_nothing (o : TFR ℤ) (kind : Kind) (sqmod showTf : Bool) (thr : ℝ) (k : Kwargs) :
    (o.nf ≤ 1 ∨ o.tfr.asC.cols = 0 → stftShow o kind sqmod thr showTf k = .error .valueError) ∧
      (o.tfr.asC.rows ≤ 1 ∨ o.tfr.asC.cols = 0 → mhShow o kind sqmod thr showTf k = .error .valueError) ∧
      (o.tfr.asC.rows = 0 ∨ o.tfr.asC.cols = 0 → wvdShow o kind sqmod thr showTf k = .error .valueError ∧ wvdShowLog o kind sqmod thr showTf k = .error .valueError) ∧
      ∀ (v : View) (fmin fmax : ℝ), v.tfr.rows = 0 ∨ v.tfr.cols = 0 → affineShow v fmin fmax kind showTf thr k = .error .valueError := by
  refine ⟨fun h => ?_, fun h => ?_, fun h => ?_, fun v fmin fmax h => ?_⟩
  · unfold stftShow stftPlot
    simp only [truncInt_half]
    rw [plotStore_empty (by omega)]
    rfl
  · unfold mhShow mhPlot
    rw [plotStore_empty (by omega)]
    rfl
  · have hp : Cohen.wvdPlot o sqmod thr = .error .valueError := by
      unfold Cohen.wvdPlot
      cases sqmod
      · show (thresholded o.tfr.modulus thr >>= _) = _
        rw [thresholded_empty (M := o.tfr.modulus) h]; rfl
      · show (thresholded o.tfr.modulusSq thr >>= _) = _
        rw [thresholded_empty (M := o.tfr.modulusSq) h]; rfl
    constructor
    · unfold wvdShow; rw [hp]; rfl
    · unfold wvdShowLog; simp only [hp]; rfl
  · unfold affineShow
    rw [thresholded_empty h]
    rfl

/-- The short-time Fourier transform of any signal over one frequency bin can be computed, not drawn. -/
example (x : Vec ℂ) (ts : Vec ℤ) (o : TFR ℤ) (hrun : stftRun (TFR.init makeWindow x ts 1 none) = .ok o) : stftShow o .cmap true 0.05 false {} = .error .valueError :=
  (C72_nothing o .cmap true false 0.05 {}).1 (.inl (by obtain ⟨_, _, h3, _⟩ := stftRun_shape hrun; rw [h3]; exact le_refl 1))

/-- Affine distributions: with a positive largest value and a threshold between 0 and 1 (0.05 by default) every negative value of the array returned by `run` is
erased by the first plot. -/
theorem C72_affine_erases (v : View) (fmin fmax thr : ℝ) (kind : Kind) (showTf : Bool) (k : Kwargs) (M : Mat ℝ) (d : List Drawn)
    (h : affineShow v fmin fmax kind showTf thr k = .ok (M, d)) (mx : ℝ) (hmx : IsMax v.tfr mx) (hpos : 0 < mx) (hthr : 0 ≤ thr) :
    M.rows = v.tfr.rows ∧ M.cols = v.tfr.cols ∧
    (∀ r < v.tfr.rows, ∀ c < v.tfr.cols, v.tfr.get r c < 0 → M.get r c = 0) ∧
    ∀ r < v.tfr.rows, ∀ c < v.tfr.cols, 0 ≤ M.get r c ∧ (mx * thr < v.tfr.get r c → M.get r c = v.tfr.get r c) := by
  unfold affineShow at h
  simp only [bind_eq_ok] at h
  obtain ⟨M', hM, d', -, h⟩ := h
  simp only [Except.ok.injEq, Prod.mk.injEq] at h
  obtain ⟨rfl, -⟩ := h
  have hne : ¬ (v.tfr.rows = 0 ∨ v.tfr.cols = 0) := by
    obtain ⟨-, r, hr, c, hc, -⟩ := hmx
    omega
  obtain ⟨mx', hmx', hth⟩ := thresholded_ok hne thr
  obtain rfl := hmx.unique hmx'
  rw [hth] at hM
  injection hM with hM
  subst hM
  have hnn : 0 ≤ mx * thr := by positivity
  refine ⟨rfl, rfl, fun r _ c _ hneg => ?_, fun r _ c _ => ⟨?_, fun hgt => ?_⟩⟩
  · show (if v.tfr.get r c ≤ mx * thr then 0 else v.tfr.get r c) = 0
    rw [if_pos (by linarith)]
  · show 0 ≤ (if v.tfr.get r c ≤ mx * thr then 0 else v.tfr.get r c)
    split_ifs with hh
    · exact le_rfl
    · linarith
  · show (if v.tfr.get r c ≤ mx * thr then 0 else v.tfr.get r c) = _
    rw [if_neg (by linarith)]

/-- `plotifl`: the frequency axis is `[0, 1/2]` exactly when no law takes a negative value, otherwise `[-1/2, 1/2]`; without any number it raises `ValueError`. -/
theorem C72_plotifl (f : Vec (Option ℝ)) :
    ((∀ i < f.len, f.get i = none) → plotiflLimits f = .error .valueError) ∧
    ((∃ i < f.len, f.get i ≠ none) →
      ((∀ i < f.len, ∀ a, f.get i = some a → 0 ≤ a) → plotiflLimits f = .ok (0, 1 / 2)) ∧
      ((∃ i < f.len, ∃ a, f.get i = some a ∧ a < 0) → plotiflLimits f = .ok (-(1 / 2), 1 / 2))) := by
  set l := ((List.range f.len).map f.get).filterMap id with hl
  have hmem : ∀ a, a ∈ l ↔ ∃ i < f.len, f.get i = some a := by
    intro a
    rw [hl]
    simp only [List.mem_filterMap, List.mem_map, List.mem_range, id]
    constructor
    · rintro ⟨o, ⟨i, hi, rfl⟩, h⟩
      exact ⟨i, hi, h⟩
    · rintro ⟨i, hi, h⟩
      exact ⟨f.get i, ⟨i, hi, rfl⟩, h⟩
  have hrun : plotiflLimits f = ((Vec.ofEntries l).amin >>= fun minif => if 0 ≤ minif then .ok (0, 0.5) else .ok (-0.5, 0.5)) := rfl
  have hget : ∀ i, (hi : i < l.length) → (Vec.ofEntries l).get i ∈ l := fun i hi => by
    show l.getD i 0 ∈ l
    rw [List.getD_eq_getElem?_getD, List.getElem?_eq_getElem hi]
    exact List.getElem_mem hi
  constructor
  · intro h
    have : l = [] := by
      rw [List.eq_nil_iff_forall_not_mem]
      intro a ha
      obtain ⟨i, hi, e⟩ := (hmem a).1 ha
      rw [h i hi] at e
      cases e
    rw [hrun, this]
    rfl
  · intro h
    obtain ⟨i, hi, hne⟩ := h
    obtain ⟨a0, ha0⟩ := Option.ne_none_iff_exists'.1 hne
    have hne : (Vec.ofEntries l).len ≠ 0 := by
      show l.length ≠ 0
      have : a0 ∈ l := (hmem a0).2 ⟨i, hi, ha0⟩
      exact (List.length_pos_of_mem this).ne'
    obtain ⟨m, hm, h1, j, hj, e⟩ := Vec.amin_spec hne
    refine ⟨fun hall => ?_, fun hneg => ?_⟩
    · have hm0 : 0 ≤ m := by
        obtain ⟨i', hi', e'⟩ := (hmem _).1 (hget j hj)
        rw [← e]
        exact hall i' hi' _ e'
      rw [hrun, hm, ok_bind, if_pos hm0]
      norm_num
    · obtain ⟨i', hi', a, ha, hlt⟩ := hneg
      have hal : a ∈ l := (hmem a).2 ⟨i', hi', ha⟩
      obtain ⟨p, hp, ep⟩ := List.getElem_of_mem hal
      have : m ≤ a := by
        have := h1 p hp
        have e2 : (Vec.ofEntries l).get p = a := by
          show l.getD p 0 = a
          rw [List.getD_eq_getElem?_getD, List.getElem?_eq_getElem hp, Option.getD_some, ep]
        rwa [e2] at this
      rw [hrun, hm, ok_bind, if_neg (by linarith)]
      norm_num

/-- Values or ordinates of the spectrum panel given by the caller must have as many entries as the other coordinate (`N // 2` by default), otherwise the plot
raises `ValueError`. -/
theorem C72_panel_sizes (v : View) (hv : v.band = none) (hN : 1 ≤ v.signal.len) :
    (∀ y : Vec ℝ, y.len ≠ v.signal.len / 2 → plotSpectrum v { freqY := some y } = .error .valueError) ∧
    (∀ x : Vec ℝ, x.len ≠ v.signal.len / 2 → plotSpectrum v { freqX := some x } = .error .valueError) ∧
    ∀ x y : Vec ℝ, (x.len ≠ y.len → plotSpectrum v { freqX := some x, freqY := some y } = .error .valueError) ∧
      (x.len = y.len → plotSpectrum v { freqX := some x, freqY := some y } = .ok [.curve x y, .ylim 0 ((y.len : ℝ) - 1) true]) := by
  have hfft : fft v.signal = .ok ⟨v.signal.len, fun k => dft v.signal k⟩ := by
    rw [fft_ok (by omega)]
    congr 2
    funext k
    exact (dft_eq_dftC v.signal k).symm
  refine ⟨fun y hy => ?_, fun x hx => ?_, fun x y => ⟨fun h => ?_, fun h => ?_⟩⟩
  · unfold plotSpectrum spectrumX getSpectrum
    simp only [hv, hfft, ok_bind, Option.getD_some]
    unfold drawCurve
    rw [if_neg (by
      rw [slice_zero]
      simp only [Vec.reverse, fftshift, Vec.map_len]
      omega)]
    rfl
  · unfold plotSpectrum spectrumX
    simp only [hv, ok_bind, Option.getD_none]
    unfold drawCurve
    rw [if_neg hx]
    rfl
  · unfold plotSpectrum spectrumX
    simp only [hv, ok_bind, Option.getD_some]
    unfold drawCurve
    rw [if_neg h]
    rfl
  · unfold plotSpectrum spectrumX spectrumLim
    simp only [hv, ok_bind, Option.getD_some]
    unfold drawCurve
    rw [if_pos h]
    rfl

/-- The panel of the spectrum beside any representation that is not affine: the power of bin `⌈N/2⌉ - 1 - j` at the ordinate `j`, on a downward axis: the highest
frequency on top. -/
theorem C72_panel (v : View) (hv : v.band = none) (hN : 1 ≤ v.signal.len) :
    ∃ sx : Vec ℝ, plotSpectrum v {} = .ok [.curve sx ⟨v.signal.len / 2, fun j => (j : ℝ)⟩, .ylim 0 ((v.signal.len / 2 : ℕ) - 1) true] ∧
      sx.len = v.signal.len / 2 ∧ ∀ j < v.signal.len / 2, sx.get j = ‖dft v.signal (v.signal.len - v.signal.len / 2 - 1 - j)‖ ^ 2 := by
  have hfft : fft v.signal = .ok ⟨v.signal.len, fun k => dft v.signal k⟩ := by
    rw [fft_ok (by omega)]
    congr 2
    funext k
    exact (dft_eq_dftC v.signal k).symm
  set sp : Vec ℝ := fftshift ((⟨v.signal.len, fun k => dft v.signal k⟩ : Vec ℂ).map (fun z => ‖z‖ ^ 2)) with hspd
  set sx : Vec ℝ := sp.reverse.slice 0 ((v.signal.len / 2 : ℕ) : ℤ) with hsx
  have hsxl : sx.len = v.signal.len / 2 := by
    rw [hsx, slice_zero, hspd]
    simp only [Vec.reverse, fftshift, Vec.map_len]
    omega
  refine ⟨sx, ?_, hsxl, fun j hj => ?_⟩
  · unfold plotSpectrum spectrumX getSpectrum
    simp only [hv, hfft, ok_bind, Option.getD_none]
    rw [← hspd, ← hsx]
    unfold drawCurve spectrumLim
    rw [if_pos hsxl, ok_bind]
    simp only [hv]
    rfl
  · rw [hsx, slice_zero, hspd]
    simp only [Vec.reverse, fftshift, Vec.map_len, Vec.map_get]
    congr 3
    rw [show v.signal.len - 1 - j + (v.signal.len - v.signal.len / 2) = (v.signal.len - v.signal.len / 2 - 1 - j) + v.signal.len by omega,
      Nat.add_mod_right, Nat.mod_eq_of_lt (by omega)]

/-- Surfaces and wire frames want a square representation (or a single row or column): with another number of bins than samples they raise `ValueError`. -/
theorem C72_surface (v : View) (kind : Kind) (hk : kind = .surf ∨ kind = .wireframe) (k : Kwargs) (thr : ℝ) (hN : 2 ≤ v.signal.len) (hr : 2 ≤ v.tfr.rows)
    (e : ℝ × ℝ × ℝ × ℝ) (he : extentOf v k.extent = .ok e) (hne : v.tfr.rows ≠ v.signal.len) :
    basePlot v kind false thr k = .error .valueError := by
  unfold basePlot
  rw [he, ok_bind]
  have : plotAlone v kind e = .error .valueError := by
    rcases hk with rfl | rfl <;>
    · unfold plotAlone drawSurface
      refine if_neg ?_
      rintro ⟨h, -⟩
      simp only [Mat.map, linspace] at h
      omega
  simp only [Bool.false_eq_true, if_false]
  rw [this]
  rfl

/-- For a square representation the surface is that of the moduli, over the sample numbers and over ordinates `r / (2 (N - 1))`, whatever the instants and the
frequencies of the rows are. -/
theorem C72_surface_square (v : View) (kind : Kind) (hk : kind = .surf ∨ kind = .wireframe) (k : Kwargs) (thr : ℝ) (hN : 2 ≤ v.signal.len)
    (e : ℝ × ℝ × ℝ × ℝ) (he : extentOf v k.extent = .ok e) (hr : v.tfr.rows = v.signal.len) (hc : v.tfr.cols = v.signal.len) :
    ∃ (xs ys : Vec ℝ) (M : Mat ℝ), basePlot v kind false thr k = .ok [.surface xs ys M] ∧ xs.len = v.signal.len ∧ ys.len = v.signal.len ∧
      M.rows = v.signal.len ∧ M.cols = v.signal.len ∧
      (∀ i < v.signal.len, xs.get i = i ∧ ys.get i = i / (2 * ((v.signal.len : ℝ) - 1))) ∧
      ∀ r < v.signal.len, ∀ c < v.signal.len, M.get r c = |v.tfr.get r c| := by
  have hp : plotAlone v kind e = .ok (.surface ⟨v.signal.len, fun j => (j : ℝ)⟩ (linspace 0 0.5 v.signal.len) (v.tfr.map (fun a => |a|))) := by
    rcases hk with rfl | rfl <;>
    · unfold plotAlone drawSurface
      refine if_pos ?_
      simp [Mat.map, linspace, hr, hc]
  refine ⟨⟨v.signal.len, fun j => (j : ℝ)⟩, linspace 0 0.5 v.signal.len, v.tfr.map (fun a => |a|), ?_, rfl, rfl, hr, hc, fun i hi => ⟨rfl, ?_⟩, fun r _ c _ => rfl⟩
  · unfold basePlot
    rw [he, ok_bind]
    simp only [Bool.false_eq_true, if_false]
    rw [hp]
    rfl
  · unfold linspace
    simp only
    rw [if_neg (by omega)]
    have h2 : (2 : ℝ) ≤ v.signal.len := by exact_mod_cast hN
    have h1 : (v.signal.len : ℝ) - 1 ≠ 0 := by linarith
    norm_num
    field_simp

example : plotiflLimits ⟨3, fun i => if i = 0 then none else some (if i = 1 then 1 / 4 else -(1 / 8))⟩ = .ok (-(1 / 2), 1 / 2) :=
  ((C72_plotifl _).2 ⟨1, by norm_num, by simp⟩).2 ⟨2, by norm_num, -(1 / 8), by norm_num, by norm_num⟩

/-- Three samples and three bins, instants 5, 7, 9: the surface runs over 0, 1, 2 and 0, 1/4, 1/2. -/
example : ∃ (xs ys : Vec ℝ) (M : Mat ℝ),
    basePlot ⟨⟨3, fun i => (i : ℂ)⟩, ⟨3, fun i => 5 + 2 * (i : ℤ)⟩, ⟨3, fun i => (i : ℝ) / 3⟩, ⟨3, 3, fun r c => (r : ℝ) - c⟩, none⟩ .surf false 0.05
      { extent := some (0, 1, 0, 1) } = .ok [.surface xs ys M] ∧ xs.get 2 = 2 ∧ ys.get 1 = 1 / 4 ∧ M.get 0 2 = 2 := by
  obtain ⟨xs, ys, M, h, -, -, -, -, hax, hM⟩ := C72_surface_square ⟨⟨3, fun i => (i : ℂ)⟩, ⟨3, fun i => 5 + 2 * (i : ℤ)⟩, ⟨3, fun i => (i : ℝ) / 3⟩,
    ⟨3, 3, fun r c => (r : ℝ) - c⟩, none⟩ .surf (.inl rfl) { extent := some (0, 1, 0, 1) } 0.05 (by norm_num) (0, 1, 0, 1) rfl rfl rfl
  refine ⟨xs, ys, M, h, ?_, ?_, ?_⟩
  · rw [(hax 2 (by norm_num)).1]; norm_num
  · rw [(hax 1 (by norm_num)).2]; norm_num
  · rw [hM 0 (by norm_num) 2 (by norm_num)]; norm_num

/-- Four samples, eight bins. -/
example (x : Vec ℂ) : ∃ (o o' : TFR ℤ) (R M : Mat ℝ) (xs ys : Vec ℝ),
    pwvdRun (TFR.init makeWindow x (arange 0 4) 8 none) = .ok (o, R) ∧ pwvdShow o none false 0.05 false {} = .ok (o', [.contour xs ys M none]) ∧
    ys.get 7 = 1 / 2 := by
  obtain ⟨R, L, ⟨o, ho⟩, -⟩ := C36_default x (arange 0 4) 8 (by norm_num)
  obtain ⟨o', M, xs, ys, h1, -, -, -, -, -, h2⟩ := C72_pwvd_contour x (arange 0 4) 8 none o R 0.05 (by norm_num) (by rw [arange_len]; norm_num) ho
  exact ⟨o, o', R, M, xs, ys, ho, h1, by rw [(h2 7 (by norm_num)).1]; norm_num⟩

/-- Four samples, three voices from 1/16 to 1/4: the middle voice, of frequency 1/8, is drawn at 5/32. -/
example : ∃ (M : Mat ℝ) (ys : Vec ℝ) (lev : Option (Vec ℝ)) (more : List Drawn),
    affineShow ⟨⟨4, fun i => (i : ℂ)⟩, arange 0 4, ⟨3, fun p => 1 / 16 * 4 ^ ((p : ℝ) / 2)⟩, ⟨3, 4, fun r c => (r : ℝ) - c⟩, some (1 / 16, 1 / 4, 3)⟩
      (1 / 16) (1 / 4) .contour true 0.05 {} = .ok (M, .contour ((arange 0 4).map (fun t : ℤ => (t : ℝ))) ys M lev :: more) ∧ ys.get 1 = 5 / 32 := by
  obtain ⟨M, ys, lev, sx, sy, h1, -, -, h2, -⟩ := C72_affine ⟨⟨4, fun i => (i : ℂ)⟩, arange 0 4, ⟨3, fun p => 1 / 16 * 4 ^ ((p : ℝ) / 2)⟩,
    ⟨3, 4, fun r c => (r : ℝ) - c⟩, some (1 / 16, 1 / 4, 3)⟩ (1 / 16) (1 / 4) 0.05 2 3 rfl (by norm_num) (by norm_num) (by norm_num) rfl
    (by simp [arange_len]) (by simp [arange_len]) (by norm_num) (by norm_num) (by norm_num) rfl (fun p _ => by norm_num)
    ⟨fun r hr c _ => by
        have : (r : ℝ) ≤ 2 := by exact_mod_cast (by simpa using Nat.le_of_lt_succ hr : r ≤ 2)
        have : (0 : ℝ) ≤ c := Nat.cast_nonneg _
        simp only
        linarith, 2, by norm_num, 0, by norm_num, by norm_num⟩ (by norm_num)
    ⟨0, by norm_num, 0, by simp [arange_len], by norm_num⟩
    ⟨fun i hi => by
        have hi' : i < 4 := by simpa [arange_len] using hi
        simp only [arange_get]
        have : (i : ℝ) ≤ 3 := by exact_mod_cast (by omega : i ≤ 3)
        push_cast
        constructor
        · simp
        · norm_num; linarith,
      ⟨0, by simp [arange_len], by simp [arange_get]⟩, ⟨3, by simp [arange_len], by simp only [arange_get]; norm_num⟩⟩
  exact ⟨M, ys, _, _, h1, by rw [h2 1 (by norm_num)]; norm_num⟩

end Tftb.Props
