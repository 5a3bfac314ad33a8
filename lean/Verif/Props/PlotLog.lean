import Verif.Props.Plot
import Verif.Props.Wvd
import Verif.Props.Reruns

/-! # C90: the logarithmic scale of the Wigner-Ville plot -/

namespace Tftb.Props

open Tftb Tftb.Spec Tftb.Linear Tftb.Cohen Tftb.Plot

theorem plotTfr_levels (v : View) (kind : Kind) (e : ℝ × ℝ × ℝ × ℝ) (k : Kwargs) (l : Option (Vec ℝ)) (thr : ℝ) (h : kind ≠ .contour) :
    plotTfr v kind e { k with levels := l } thr = plotTfr v kind e k thr := by
  cases kind <;> first | rfl | exact absurd rfl h

theorem objPlot_levels (o : TFR ℤ) (kind : Kind) (showTf : Bool) (k : Kwargs) (l : Option (Vec ℝ)) (thr : ℝ) (h : ¬ (kind = .contour ∧ showTf = true)) :
    objPlot o kind showTf thr { k with levels := l } = objPlot o kind showTf thr k := by
  have hb : basePlot (viewOf o) kind showTf thr { k with levels := l } = basePlot (viewOf o) kind showTf thr k := by
    unfold basePlot
    cases showTf with
    | false => rfl
    | true =>
      have hk : kind ≠ .contour := fun hk => h ⟨hk, rfl⟩
      simp only [if_true, plotTfr_levels _ _ _ _ _ _ hk]
      rfl
  unfold objPlot
  split
  · rfl
  · exact hb

/-- Except for a contour drawn with its panels, `scale="log"` changes nothing: neither what is drawn nor the object nor the errors. -/
theorem C90_ignored (o : TFR ℤ) (kind : Kind) (sqmod : Bool) (thr : ℝ) (showTf : Bool) (k : Kwargs) (h : ¬ (kind = .contour ∧ showTf = true)) :
    wvdShowLog o kind sqmod thr showTf k = wvdShow o kind sqmod thr showTf k := by
  unfold wvdShowLog wvdShow
  cases hp : wvdPlot o sqmod thr with
  | error e => rfl
  | ok o' =>
    simp only [ok_bind]
    cases logLevels o.tfr.values thr with
    | error e => simp only; rw [if_neg h]
    | ok l => simp only [objPlot_levels _ _ _ _ _ _ h]

/-- The levels: 65, from the threshold (or the smallest value, if that is larger) to the largest value, each in the same ratio to the one before. -/
theorem C90_levels (M : Mat ℝ) (mx thr : ℝ) (hmx : IsMax M mx) (hpos : 0 < mx) (hthr : 0 < thr) :
    ∃ (lo : ℝ) (l : Vec ℝ), logLevels M thr = .ok l ∧ l.len = 65 ∧ l.get 0 = lo ∧ l.get 64 = mx ∧ (∀ i, l.get (i + 1) = l.get i * (mx / lo) ^ (1 / 64 : ℝ)) ∧
      mx * thr ≤ lo ∧ ((lo = mx * thr ∧ ∃ r < M.rows, ∃ c < M.cols, M.get r c ≤ mx * thr) ∨ ((∀ r < M.rows, ∀ c < M.cols, lo ≤ M.get r c) ∧ ∃ r < M.rows, ∃ c < M.cols, M.get r c = lo)) := by
  obtain ⟨r, hr, c, hc, _⟩ := hmx.2
  have hc0 : 0 < M.cols := by omega
  obtain ⟨m, hm, h1, i, hi, e⟩ := Vec.amin_spec (v := ⟨M.rows * M.cols, fun i => M.get (i / M.cols) (i % M.cols)⟩) (by
    simp only; exact Nat.mul_ne_zero (by omega) (by omega))
  have hmin : matMin M = .ok m := hm
  have hlo : 0 < max m (mx * thr) := lt_of_lt_of_le (by positivity) (le_max_right _ _)
  set lo := max m (mx * thr) with hlod
  have hget : ∀ j : ℕ, ((linspace (Real.logb 10 lo) (Real.logb 10 mx) 65).map (fun e => (10 : ℝ) ^ e)).get j = lo * (mx / lo) ^ ((j : ℝ) / 64) := by
    intro j
    simp only [Vec.map_get, linspace]
    rw [if_neg (by norm_num), Real.rpow_add (by norm_num), Real.rpow_logb (by norm_num) (by norm_num) hlo, ← Real.logb_div hpos.ne' hlo.ne',
      show (j : ℝ) * (Real.logb 10 (mx / lo) / (((65 : ℕ) : ℝ) - 1)) = Real.logb 10 (mx / lo) * ((j : ℝ) / 64) by push_cast; ring,
      Real.rpow_mul (by norm_num), Real.rpow_logb (by norm_num) (by norm_num) (by positivity)]
  refine ⟨lo, (linspace (Real.logb 10 lo) (Real.logb 10 mx) 65).map (fun e => (10 : ℝ) ^ e), ?_, rfl, ?_, ?_, fun j => ?_, le_max_right _ _, ?_⟩
  · unfold logLevels
    rw [matMax_eq hmx, ok_bind, hmin, ok_bind]
    simp only [← hlod]
    rw [if_neg (by push Not; exact ⟨hlo, hpos⟩)]
  · rw [hget]; simp
  · rw [hget]
    norm_num
    field_simp
  · rw [hget, hget, mul_assoc, ← Real.rpow_add (by positivity)]
    congr 2
    push_cast
    ring
  · rcases le_total m (mx * thr) with h | h
    · left
      refine ⟨by rw [hlod, max_eq_right h], i / M.cols, ?_, i % M.cols, Nat.mod_lt _ hc0, ?_⟩
      · rw [Nat.div_lt_iff_lt_mul hc0]; exact hi
      · simp only at e; rw [e]; exact h
    · right
      rw [hlod, max_eq_left h]
      refine ⟨fun r hr c hc => ?_, i / M.cols, ?_, i % M.cols, Nat.mod_lt _ hc0, e⟩
      · obtain ⟨m', hm', h'⟩ := matMin_lt hr hc
        rw [hmin] at hm'
        injection hm' with hm'
        rw [hm']; exact h'
      · rw [Nat.div_lt_iff_lt_mul hc0]; exact hi

/-- The values of a Wigner-Ville distribution that returned are those of its real array. -/
theorem wvd_max_pos {τ : Type} (x : Vec ℂ) (ts : Vec τ) (n : ℕ) (hn : 2 ≤ n) (M : Mat ℝ) (hM : WvdReturns x ts n M) (mx : ℝ) (hmx : IsMax M mx) (hr : M.rows = n)
    (hc : M.cols = x.len) (t : ℕ) (ht : t < x.len) (hx : x.get t ≠ 0) : 0 < mx := by
  by_contra hneg
  push Not at hneg
  have h := C34_time_marginal x ts n hn M hM t ht
  have h1 : ∑ k ∈ Finset.range n, M.get k t ≤ 0 := Finset.sum_nonpos fun k hk =>
    (hmx.1 k (by rw [hr]; exact Finset.mem_range.1 hk) t (by rw [hc]; exact ht)).trans hneg
  have h2 : (0 : ℝ) < n * ‖x.get t‖ ^ 2 := by
    have : (0 : ℝ) < n := by exact_mod_cast (by omega : 0 < n)
    have := norm_pos_iff.2 hx
    positivity
  linarith

/-- Default sizes, a signal that is not zero, a threshold between 0 and 1, and a distribution that is not constant: the contour drawn with its panels is that of the
thresholded modulus, while its levels are those of the signed distribution: the highest level is the largest value `mx`, below the top of the drawing whenever some
negative value is larger in modulus. -/
theorem C90_wvd (x : Vec ℂ) (o : TFR ℤ) (M : Mat ℝ) (thr : ℝ) (hN : 2 ≤ x.len) (h0 : 0 < thr) (h1 : thr < 1)
    (hrun : wvdRun (TFR.init makeWindow x (arange 0 x.len) x.len none) = .ok o) (hM : o.tfr = .real M)
    (t : ℕ) (ht : t < x.len) (hx : x.get t ≠ 0) (mx : ℝ) (hmx : IsMax M mx) (hlow : ∃ r < x.len, ∃ c < x.len, M.get r c < mx) :
    ∃ (o' : TFR ℤ) (B : Mat ℝ) (l : Vec ℝ) (rest : List Drawn),
      wvdShowLog o .contour false thr true {} = .ok (o', .contour ⟨x.len, fun j => (j : ℝ)⟩ (linspace 0 0.5 x.len) B (some l) :: rest) ∧
      o'.tfr = .real B ∧ PlotOf ⟨x.len, x.len, fun r c => |M.get r c|⟩ thr B ∧ logLevels M thr = .ok l ∧ l.get 64 = mx ∧ 0 < mx := by
  obtain ⟨g1, g2, g3, g4, g5, g6⟩ := wvdRun_shape hrun
  have hts : (arange 0 (x.len : ℤ)).len = x.len := by rw [arange_len]; simp
  have hr : o.tfr.asC.rows = x.len := g5
  have hc : o.tfr.asC.cols = x.len := g6.trans hts
  have hMr : M.rows = x.len := by rw [hM] at hr; exact hr
  have hMc : M.cols = x.len := by rw [hM] at hc; exact hc
  have hts' : o.ts = arange 0 x.len := g2
  have hfr : o.freqs = ⟨x.len, fun k => 0.5 * (k : ℝ) / (x.len : ℝ)⟩ := g1
  have hpos := wvd_max_pos x (arange 0 (x.len : ℤ)) x.len hN M ⟨o, hrun, hM⟩ mx hmx hMr hMc t ht hx
  obtain ⟨lo, l, hl, hlen, hl0, hl64, hratio, hthr, hlo⟩ := C90_levels M mx thr hmx hpos h0
  have hlolt : lo < mx := by
    rcases hlo with ⟨e, _⟩ | ⟨e, _⟩
    · rw [e]; nlinarith
    · obtain ⟨r, hr, c, hc, h⟩ := hlow
      exact (e r (by omega) c (by omega)).trans_lt h
  have hlop : 0 < lo := lt_of_lt_of_le (by positivity) hthr
  have hlpos : ∀ i, 0 < l.get i := by
    intro i
    induction i with
    | zero => rw [hl0]; exact hlop
    | succ i ih => rw [hratio]; positivity
  have hinc : ∀ i, l.get i < l.get (i + 1) := by
    intro i
    rw [hratio]
    have : 1 < (mx / lo) ^ (1 / 64 : ℝ) := Real.one_lt_rpow (by rw [lt_div_iff₀ hlop]; linarith) (by norm_num)
    have := hlpos i
    nlinarith
  have hmod : o.tfr.modulus = ⟨x.len, x.len, fun r c => |M.get r c|⟩ := by
    rw [hM]
    simp only [Store.modulus, Store.asC, Mat.map, Complex.norm_real, Real.norm_eq_abs, hMr, hMc]
  obtain ⟨mx', hmx', hth⟩ := thresholded_ok (M := ⟨x.len, x.len, fun r c => |M.get r c|⟩) (by simp only; omega) thr
  set B := (⟨x.len, x.len, fun r c => |M.get r c|⟩ : Mat ℝ).map (fun a => if a ≤ mx' * thr then 0 else a) with hB
  have hplot : wvdPlot o false thr = .ok { o with tfr := .real B } := by
    unfold wvdPlot
    simp only [Bool.false_eq_true, if_false]
    rw [hmod, hth, ok_bind]
  obtain ⟨a, b, ha, hb, _⟩ := spans_ok (ts := arange 0 (x.len : ℤ)) (by omega)
  obtain ⟨⟨f1, hf1⟩, f2, hf2⟩ := amin_amax hN (f := ⟨x.len, fun k => 0.5 * (k : ℝ) / (x.len : ℝ)⟩) rfl
  set v : View := viewOf { o with tfr := .real B } with hv
  have hsig : o.signal = x := g4
  have hvs : v.signal = x := hsig
  have hvt : v.ts = arange 0 x.len := hts'
  have hvf : v.freqs = ⟨x.len, fun k => 0.5 * (k : ℝ) / (x.len : ℝ)⟩ := hfr
  have hvB : v.tfr = B := values_real B
  obtain ⟨sx, hsx, _⟩ := C72_panel v rfl (by rw [hvs]; omega)
  have hsx' : plotSpectrum v { levels := some l } = plotSpectrum v {} := rfl
  have htsR : tsR v = ⟨x.len, fun j => (j : ℝ)⟩ := by
    unfold tsR
    rw [hvt]
    unfold arange
    simp [Vec.map]
  have hdraw : drawContour (tsR v) (linspace 0 0.5 x.len) v.tfr (some l) = .ok (.contour ⟨x.len, fun j => (j : ℝ)⟩ (linspace 0 0.5 x.len) B (some l)) := by
    unfold drawContour
    rw [htsR, hvB]
    have hBr : B.rows = x.len := rfl
    have hBc : B.cols = x.len := rfl
    rw [if_neg (by rw [hBr, hBc]; simp only [linspace]; omega)]
    simp only
    rw [if_neg]
    rintro ⟨i, _, h⟩
    exact absurd (hinc i) (not_lt.2 h)
  refine ⟨{ o with tfr := .real B }, B, l,
    .curve ⟨x.len, fun j => (j : ℝ)⟩ (x.map Complex.re) :: [.curve sx ⟨x.len / 2, fun j => (j : ℝ)⟩, .ylim 0 ((x.len / 2 : ℕ) - 1) true],
    ?_, rfl, ⟨rfl, rfl, mx', hmx', fun _ _ _ _ => rfl⟩, hl, hl64, hpos⟩
  have hval : o.tfr.values = M := by rw [hM]; exact values_real M
  unfold wvdShowLog
  rw [hplot, hval, hl, ok_bind]
  simp only
  unfold objPlot basePlot
  simp only [← hv, if_true]
  unfold extentOf
  simp only [hvt, hvf, ha, hb, hf1, hf2, ok_bind]
  rw [hsx', hsx]
  unfold plotTfr contourLevels contourAxis
  have hvb : v.band = none := rfl
  simp only [hvb, ok_bind, Option.getD_none, hvs]
  rw [hdraw]
  simp only [ok_bind]
  rfl

/-- A largest value that is not positive (that of a silent signal is zero), or a threshold that is not positive while some value is not positive either: the levels of the
contour drawn with its panels are not finite numbers. -/
theorem C90_not_positive (o : TFR ℤ) (sqmod : Bool) (thr mx : ℝ) (k : Kwargs) (hmx : IsMax o.tfr.values mx)
    (h : mx ≤ 0 ∨ (thr ≤ 0 ∧ ∃ r < o.tfr.values.rows, ∃ c < o.tfr.values.cols, o.tfr.values.get r c ≤ 0)) :
    wvdShowLog o .contour sqmod thr true k = .error .nonFinite := by
  obtain ⟨_, r, hr, c, hc, _⟩ := id hmx
  have hr' : r < o.tfr.asC.rows := hr
  have hc' : c < o.tfr.asC.cols := hc
  have hlev : logLevels o.tfr.values thr = .error .nonFinite := by
    obtain ⟨m, hm, _⟩ := matMin_lt hr hc
    unfold logLevels
    rw [matMax_eq hmx, ok_bind, hm, ok_bind]
    simp only
    rw [if_pos]
    rcases le_or_gt mx 0 with h0 | h0
    · exact Or.inr h0
    · left
      rcases h with h | ⟨ht, r', hr', c', hc', hle⟩
      · linarith
      obtain ⟨m', hm', hle'⟩ := matMin_lt hr' hc'
      rw [hm] at hm'
      injection hm' with hm'
      exact max_le (by linarith) (mul_nonpos_of_nonneg_of_nonpos h0.le ht)
  obtain ⟨o', ho'⟩ : ∃ o', wvdPlot o sqmod thr = .ok o' := by
    obtain ⟨mx', _, hth⟩ := thresholded_ok (M := if sqmod then o.tfr.modulusSq else o.tfr.modulus) (by
      cases sqmod <;> (show ¬ (o.tfr.asC.rows = 0 ∨ o.tfr.asC.cols = 0)) <;> omega) thr
    unfold wvdPlot
    simp only
    rw [hth, ok_bind]
    exact ⟨_, rfl⟩
  unfold wvdShowLog
  rw [ho', ok_bind, hlev]
  simp only [and_self, if_true]

/-- An object that holds zeros. -/
example : wvdShowLog { TFR.init makeWindow ⟨8, fun _ => 0⟩ (arange 0 (8 : ℕ)) 8 none with tfr := .real ⟨8, 8, fun _ _ => 0⟩ } .contour false 0.1 true {} = .error .nonFinite :=
  C90_not_positive _ _ _ 0 _ (by
    rw [values_real]
    exact ⟨fun _ _ _ _ => le_rfl, 0, by norm_num, 0, by norm_num, rfl⟩) (Or.inl le_rfl)

/-- Levels given by the caller on a linear scale: they are drawn as they are when they increase strictly, and are a `ValueError` otherwise. -/
theorem C90_caller_levels (x : Vec ℂ) (o : TFR ℤ) (thr : ℝ) (hN : 2 ≤ x.len)
    (hrun : wvdRun (TFR.init makeWindow x (arange 0 x.len) x.len none) = .ok o) (l : Vec ℝ) :
    ((∀ i j, i < j → j < l.len → l.get i < l.get j) → ∃ (o' : TFR ℤ) (B : Mat ℝ) (rest : List Drawn),
      wvdShow o .contour false thr true { levels := some l } = .ok (o', .contour ⟨x.len, fun j => (j : ℝ)⟩ (linspace 0 0.5 x.len) B (some l) :: rest) ∧
      o'.tfr = .real B ∧ PlotOf o.tfr.modulus thr B) ∧
    (∀ i j, i < j → j < l.len → l.get j ≤ l.get i → wvdShow o .contour false thr true { levels := some l } = .error .valueError) := by
  obtain ⟨g1, g2, g3, g4, g5, g6⟩ := wvdRun_shape hrun
  have hts : (arange 0 (x.len : ℤ)).len = x.len := by rw [arange_len]; simp
  have hr : o.tfr.asC.rows = x.len := g5
  have hc : o.tfr.asC.cols = x.len := g6.trans hts
  have hts' : o.ts = arange 0 x.len := g2
  have hfr : o.freqs = ⟨x.len, fun k => 0.5 * (k : ℝ) / (x.len : ℝ)⟩ := g1
  obtain ⟨mx', hmx', hth⟩ := thresholded_ok (M := o.tfr.modulus) (by show ¬ (o.tfr.asC.rows = 0 ∨ o.tfr.asC.cols = 0); omega) thr
  set B := o.tfr.modulus.map (fun a => if a ≤ mx' * thr then 0 else a) with hB
  have hplot : wvdPlot o false thr = .ok { o with tfr := .real B } := by
    unfold wvdPlot
    simp only [Bool.false_eq_true, if_false]
    rw [hth, ok_bind]
  obtain ⟨a, b, ha, hb, _⟩ := spans_ok (ts := arange 0 (x.len : ℤ)) (by omega)
  obtain ⟨⟨f1, hf1⟩, f2, hf2⟩ := amin_amax hN (f := ⟨x.len, fun k => 0.5 * (k : ℝ) / (x.len : ℝ)⟩) rfl
  set v : View := viewOf { o with tfr := .real B } with hv
  have hvs : v.signal = x := g4
  have hvt : v.ts = arange 0 x.len := hts'
  have hvf : v.freqs = ⟨x.len, fun k => 0.5 * (k : ℝ) / (x.len : ℝ)⟩ := hfr
  have hvB : v.tfr = B := values_real B
  have hBr : B.rows = x.len := hr
  have hBc : B.cols = x.len := hc
  obtain ⟨sx, hsx, _⟩ := C72_panel v rfl (by rw [hvs]; omega)
  have hsx' : plotSpectrum v { levels := some l } = plotSpectrum v {} := rfl
  have htsR : tsR v = ⟨x.len, fun j => (j : ℝ)⟩ := by
    unfold tsR
    rw [hvt]
    unfold arange
    simp [Vec.map]
  have hvb : v.band = none := rfl
  refine ⟨fun hinc => ?_, fun i j hij hj hle => ?_⟩
  · have hdraw : drawContour (tsR v) (linspace 0 0.5 x.len) v.tfr (some l) = .ok (.contour ⟨x.len, fun j => (j : ℝ)⟩ (linspace 0 0.5 x.len) B (some l)) := by
      unfold drawContour
      rw [htsR, hvB]
      rw [if_neg (by rw [hBr, hBc]; simp only [linspace]; omega)]
      simp only
      rw [if_neg]
      rintro ⟨i, hi, h⟩
      exact absurd (hinc i (i + 1) (by omega) hi) (not_lt.2 h)
    refine ⟨{ o with tfr := .real B }, B,
      .curve ⟨x.len, fun j => (j : ℝ)⟩ (x.map Complex.re) :: [.curve sx ⟨x.len / 2, fun j => (j : ℝ)⟩, .ylim 0 ((x.len / 2 : ℕ) - 1) true],
      ?_, rfl, ⟨rfl, rfl, mx', hmx', fun _ _ _ _ => rfl⟩⟩
    unfold wvdShow
    rw [hplot, ok_bind]
    unfold objPlot basePlot
    simp only [← hv, if_true]
    unfold extentOf
    simp only [hvt, hvf, ha, hb, hf1, hf2, ok_bind]
    rw [hsx', hsx]
    unfold plotTfr contourLevels contourAxis
    simp only [hvb, ok_bind, Option.getD_none, hvs]
    rw [hdraw]
    simp only [ok_bind]
    rfl
  · have hstep : ∃ k, k + 1 < l.len ∧ l.get (k + 1) ≤ l.get k := by
      by_contra hno
      push Not at hno
      have hmono : ∀ d, i + d < l.len → l.get i ≤ l.get (i + d) ∧ (0 < d → l.get i < l.get (i + d)) := by
        intro d
        induction d with
        | zero => exact fun _ => ⟨le_rfl, fun h => absurd h (lt_irrefl _)⟩
        | succ d ih =>
          intro h
          have h1 := (ih (by omega)).1
          have h2 := hno (i + d) (by omega)
          rw [show i + (d + 1) = i + d + 1 by ring]
          exact ⟨(h1.trans_lt h2).le, fun _ => h1.trans_lt h2⟩
      have := (hmono (j - i) (by omega)).2 (by omega)
      rw [show i + (j - i) = j by omega] at this
      exact absurd hle (not_le.2 this)
    have hdraw : drawContour (tsR v) (linspace 0 0.5 x.len) v.tfr (some l) = .error .valueError := by
      unfold drawContour
      rw [htsR, hvB]
      rw [if_neg (by rw [hBr, hBc]; simp only [linspace]; omega)]
      simp only
      rw [if_pos hstep]
    unfold wvdShow
    rw [hplot, ok_bind]
    unfold objPlot basePlot
    simp only [← hv, if_true]
    unfold extentOf
    simp only [hvt, hvf, ha, hb, hf1, hf2, ok_bind]
    unfold plotTfr contourLevels contourAxis
    simp only [hvb, ok_bind, Option.getD_none, hvs]
    rw [hdraw]
    rfl

/-- Axes given by the caller that do not have as many values as the distribution has columns and rows are a `TypeError`. -/
theorem C72_caller_axes (x : Vec ℂ) (o : TFR ℤ) (thr : ℝ) (hN : 2 ≤ x.len)
    (hrun : wvdRun (TFR.init makeWindow x (arange 0 x.len) x.len none) = .ok o) (k : Kwargs) (hk : k.extent = none)
    (hbad : (∃ xs, k.contourX = some xs ∧ xs.len ≠ x.len) ∨ (∃ ys, k.contourY = some ys ∧ ys.len ≠ x.len)) :
    wvdShow o .contour false thr true k = .error .typeError := by
  obtain ⟨g1, g2, g3, g4, g5, g6⟩ := wvdRun_shape hrun
  have hts : (arange 0 (x.len : ℤ)).len = x.len := by rw [arange_len]; simp
  have hr : o.tfr.asC.rows = x.len := g5
  have hc : o.tfr.asC.cols = x.len := g6.trans hts
  have hts' : o.ts = arange 0 x.len := g2
  have hfr : o.freqs = ⟨x.len, fun k => 0.5 * (k : ℝ) / (x.len : ℝ)⟩ := g1
  obtain ⟨mx', hmx', hth⟩ := thresholded_ok (M := o.tfr.modulus) (by show ¬ (o.tfr.asC.rows = 0 ∨ o.tfr.asC.cols = 0); omega) thr
  set B := o.tfr.modulus.map (fun a => if a ≤ mx' * thr then 0 else a) with hB
  have hplot : wvdPlot o false thr = .ok { o with tfr := .real B } := by
    unfold wvdPlot
    simp only [Bool.false_eq_true, if_false]
    rw [hth, ok_bind]
  obtain ⟨a, b, ha, hb, _⟩ := spans_ok (ts := arange 0 (x.len : ℤ)) (by omega)
  obtain ⟨⟨f1, hf1⟩, f2, hf2⟩ := amin_amax hN (f := ⟨x.len, fun k => 0.5 * (k : ℝ) / (x.len : ℝ)⟩) rfl
  set v : View := viewOf { o with tfr := .real B } with hv
  have hvt : v.ts = arange 0 x.len := hts'
  have hvf : v.freqs = ⟨x.len, fun k => 0.5 * (k : ℝ) / (x.len : ℝ)⟩ := hfr
  have hvB : v.tfr = B := values_real B
  have hBr : B.rows = x.len := hr
  have hBc : B.cols = x.len := hc
  have hvb : v.band = none := rfl
  have hlev : ∃ l, contourLevels v k.levels thr = .ok l := by
    unfold contourLevels
    rw [hvb]
    cases k.levels with
    | none => exact ⟨_, rfl⟩
    | some l => exact ⟨_, rfl⟩
  obtain ⟨l, hlev⟩ := hlev
  have hdraw : drawContour (k.contourX.getD (tsR v)) (contourAxis v k.contourY) v.tfr l = .error .typeError := by
    unfold drawContour
    rw [if_pos]
    rw [hvB, hBr, hBc]
    rcases hbad with ⟨xs, h1, h2⟩ | ⟨ys, h1, h2⟩
    · exact Or.inr (Or.inr (Or.inl (by rw [h1]; exact h2)))
    · exact Or.inr (Or.inr (Or.inr (by unfold contourAxis; rw [h1]; exact h2)))
  unfold wvdShow
  rw [hplot, ok_bind]
  unfold objPlot basePlot
  simp only [← hv, if_true]
  unfold extentOf
  simp only [hk, hvt, hvf, ha, hb, hf1, hf2, ok_bind]
  unfold plotTfr
  simp only [hlev, ok_bind, hdraw]
  rfl

/-- A distribution at a single instant has no contour: `TypeError`. -/
theorem C72_single_instant (x : Vec ℂ) (ts : Vec ℤ) (n : ℕ) (w : Option (Vec ℂ)) (o : TFR ℤ) (R : Mat ℝ) (thr : ℝ) (hn : 2 ≤ n) (hts : ts.len = 1)
    (hrun : pwvdRun (TFR.init makeWindow x ts n w) = .ok (o, R)) : pwvdShow o none false thr false {} = .error .typeError := by
  obtain ⟨h1, h2, h3, h4, h5, h6⟩ := pwvdRun_shape hrun
  have hr : o.tfr.asC.rows = n := h5
  have hc : o.tfr.asC.cols = ts.len := h6
  have hts' : o.ts = ts := h2
  have hfr : o.freqs = baseFreqs n := h1
  obtain ⟨mx, hmx, hth⟩ := thresholded_ok (M := o.tfr.modulus) (by show ¬ (o.tfr.asC.rows = 0 ∨ o.tfr.asC.cols = 0); omega) thr
  set B := o.tfr.modulus.map (fun a => if a ≤ mx * thr then 0 else a) with hB
  have hBr : B.rows = n := hr
  have hBc : B.cols = ts.len := hc
  have hplot : wvdPlot o false thr = .ok { o with tfr := .real B } := by
    unfold wvdPlot
    simp only [Bool.false_eq_true, if_false]
    rw [hth, ok_bind]
  obtain ⟨g1, g2⟩ := baseFreqs_range n hn
  obtain ⟨a, b, ha, hb, hsp⟩ := spans_ok (ts := ts) (by omega)
  unfold pwvdShow wvdShow
  rw [hplot, ok_bind]
  unfold objPlot basePlot extentOf viewOf
  simp only [hts', hfr, ha, hb, g1, g2, ok_bind, values_real, Bool.false_eq_true, if_false, plotAlone, Option.getD_none, tsR, hBr]
  unfold drawContour
  rw [if_pos (by rw [hBc]; exact Or.inr (Or.inl (by omega)))]
  rfl

/-- Two samples of the same modulus: the distribution is constant, all levels are equal and drawing them is a `ValueError`. -/
theorem C90_two_samples (x : Vec ℂ) (o : TFR ℤ) (thr : ℝ) (hN : x.len = 2) (h0 : 0 < thr) (h1 : thr < 1) (hx : ‖x.get 0‖ = ‖x.get 1‖) (hx0 : x.get 0 ≠ 0)
    (hrun : wvdRun (TFR.init makeWindow x (arange 0 x.len) x.len none) = .ok o) : wvdShowLog o .contour false thr true {} = .error .valueError := by
  have hts : (arange 0 (x.len : ℤ)).len = x.len := by rw [arange_len]; simp
  have hre : roundEven ((x.len : ℝ) / 2) = 1 := by rw [roundEven_half, hN]; norm_num
  obtain ⟨M, ⟨o1, ho1, hM⟩, hMr, hMc, hent⟩ := C33_wvd x (arange 0 (x.len : ℤ)) x.len (by omega) hts (Or.inl (by rw [hre]; omega))
  rw [hrun] at ho1
  injection ho1 with ho1
  subst ho1
  set p := ‖x.get 0‖ ^ 2 with hp
  have hp0 : 0 < p := by have := norm_pos_iff.2 hx0; positivity
  have hval : ∀ r < 2, ∀ c < 2, M.get r c = p := by
    intro r hr c hc
    have h := hent r (by omega) c (by omega)
    rw [hre, sub_self] at h
    have hl : lagSum 0 x.len (wignerKernel x c) r = (p : ℂ) := by
      have hsum : lagSum 0 x.len (wignerKernel x c) r = wignerKernel x c 0 := by
        unfold lagSum
        simp [expi]
      rw [hsum]
      unfold wignerKernel
      rw [add_zero, sub_zero, zext_of_mem (by omega) (by omega), mul_conj_eq_norm_sq, Int.toNat_natCast]
      have : ‖x.get c‖ = ‖x.get 0‖ := by
        interval_cases c
        · rfl
        · exact hx.symm
      rw [this, hp]
    rw [hl] at h
    exact_mod_cast h
  rw [hN] at hMr hMc
  have hmx : IsMax M p := ⟨fun r hr c hc => (hval r (by omega) c (by omega)).le, 0, by omega, 0, by omega, hval 0 (by omega) 0 (by omega)⟩
  obtain ⟨lo, l, hl, hlen, hl0, _, hratio, _, hlo⟩ := C90_levels M p thr hmx hp0 h0
  have hlop : lo = p := by
    rcases hlo with ⟨_, r, hr, c, hc, e⟩ | ⟨_, r, hr, c, hc, e⟩
    · rw [hval r (by omega) c (by omega)] at e
      nlinarith
    · rw [← e]; exact hval r (by omega) c (by omega)
  obtain ⟨g1, g2, g3, g4, g5, g6⟩ := wvdRun_shape hrun
  have hts' : o.ts = arange 0 x.len := g2
  have hfr : o.freqs = ⟨x.len, fun k => 0.5 * (k : ℝ) / (x.len : ℝ)⟩ := g1
  have hr : o.tfr.asC.rows = 2 := by rw [hM]; exact hMr
  have hc : o.tfr.asC.cols = 2 := by rw [hM]; exact hMc
  obtain ⟨mx', hmx', hth⟩ := thresholded_ok (M := o.tfr.modulus) (by show ¬ (o.tfr.asC.rows = 0 ∨ o.tfr.asC.cols = 0); omega) thr
  set B := o.tfr.modulus.map (fun a => if a ≤ mx' * thr then 0 else a) with hB
  have hplot : wvdPlot o false thr = .ok { o with tfr := .real B } := by
    unfold wvdPlot
    simp only [Bool.false_eq_true, if_false]
    rw [hth, ok_bind]
  obtain ⟨a, b, ha, hb, _⟩ := spans_ok (ts := arange 0 (x.len : ℤ)) (by omega)
  obtain ⟨⟨f1, hf1⟩, f2, hf2⟩ := amin_amax (le_refl 2) (f := ⟨x.len, fun k => 0.5 * (k : ℝ) / (x.len : ℝ)⟩) hN
  set v : View := viewOf { o with tfr := .real B } with hv
  have hvs : v.signal = x := g4
  have hvt : v.ts = arange 0 x.len := hts'
  have hvf : v.freqs = ⟨x.len, fun k => 0.5 * (k : ℝ) / (x.len : ℝ)⟩ := hfr
  have hvB : v.tfr = B := values_real B
  have hBr : B.rows = 2 := hr
  have hBc : B.cols = 2 := hc
  have hdraw : drawContour (tsR v) (linspace 0 0.5 x.len) v.tfr (some l) = .error .valueError := by
    unfold drawContour
    have htl : (tsR v).len = 2 := by unfold tsR; rw [hvt, Vec.map_len, hts, hN]
    rw [if_neg (by rw [hvB, hBr, hBc, htl]; simp only [linspace]; omega)]
    simp only
    rw [if_pos ⟨0, by omega, by rw [hratio, hlop, div_self hp0.ne', Real.one_rpow, mul_one]⟩]
  have hval' : o.tfr.values = M := by rw [hM]; exact values_real M
  unfold wvdShowLog
  rw [hplot, hval', hl, ok_bind]
  simp only
  unfold objPlot basePlot
  simp only [← hv, if_true]
  unfold extentOf
  simp only [hvt, hvf, ha, hb, hf1, hf2, ok_bind]
  unfold plotTfr contourLevels contourAxis
  have hvb : v.band = none := rfl
  simp only [hvb, ok_bind, Option.getD_none, hvs]
  rw [hdraw]
  rfl

/-- The signal 1, 0, -1: the distribution has the value -2 in its middle column and at most 1 elsewhere; the drawing rises to 2, its levels stop at 1. -/
example : ∃ (o : TFR ℤ) (M : Mat ℝ), wvdRun (TFR.init makeWindow ⟨3, fun j => if j = 0 then 1 else if j = 2 then -1 else 0⟩ (arange 0 3) 3 none) = .ok o ∧ o.tfr = .real M ∧
    M.get 0 1 = -2 ∧ IsMax M 1 := by
  have hre : roundEven (((3 : ℕ) : ℝ) / 2) = 2 := by rw [roundEven_half]; norm_num
  obtain ⟨M, ⟨o, ho, hM⟩, hMr, hMc, hent⟩ := C33_wvd ⟨3, fun j => if j = 0 then 1 else if j = 2 then -1 else 0⟩ (arange 0 3) 3 (by omega) rfl (Or.inl (by rw [hre]; norm_num))
  set x : Vec ℂ := ⟨3, fun j => if j = 0 then 1 else if j = 2 then -1 else 0⟩ with hx
  have hz : ∀ i : ℤ, zext x i = if i = 0 then 1 else if i = 2 then -1 else 0 := by
    intro i
    by_cases hi : 0 ≤ i ∧ i < 3
    · rw [zext_of_mem hi.1 (by rw [hx]; exact hi.2)]
      obtain ⟨h1, h2⟩ := hi
      interval_cases i <;> simp [hx]
    · rw [zext_of_not_mem (by rw [hx]; push_cast; omega), if_neg (by omega), if_neg (by omega)]
  have key : ∀ k < 3, ∀ t < 3, M.get k t = if t = 1 then -(2 * Real.cos (2 * Real.pi * (k / 3))) else 1 := by
    intro k hk t ht
    have h := hent k hk t ht
    rw [hre] at h
    unfold lagSum at h
    rw [show Finset.Icc (-(2 - 1 : ℤ)) (2 - 1) = {-1, 0, 1} by decide] at h
    rw [Finset.sum_insert (by decide), Finset.sum_insert (by decide), Finset.sum_singleton] at h
    simp only [wignerKernel, hz] at h
    have h' := congrArg Complex.re h
    rw [Complex.ofReal_re] at h'
    rw [h']
    interval_cases t
    · norm_num [expi]
    · norm_num
      rw [re_expi, show 2 * Real.pi * (-(k : ℝ) / 3) = -(2 * Real.pi * (k / 3)) by ring, Real.cos_neg, re_expi]
      ring
    · norm_num [expi]
  have c1 : Real.cos (2 * Real.pi * (1 / 3)) = -(1 / 2) := by
    rw [show 2 * Real.pi * (1 / 3) = Real.pi - Real.pi / 3 by ring, Real.cos_pi_sub, Real.cos_pi_div_three]
  have c2 : Real.cos (2 * Real.pi * (2 / 3)) = -(1 / 2) := by
    rw [show 2 * Real.pi * (2 / 3) = Real.pi / 3 + Real.pi by ring, Real.cos_add_pi, Real.cos_pi_div_three]
  refine ⟨o, M, ho, hM, ?_, fun r hr c hc => ?_, 0, by omega, 0, by rw [hMc]; decide, ?_⟩
  · rw [key 0 (by omega) 1 (by omega), if_pos rfl]; norm_num
  · rw [hMr] at hr
    have hc' : c < 3 := by rw [hMc] at hc; exact hc
    rw [key r hr c hc']
    split
    · interval_cases r
      · norm_num
      · push_cast; rw [c1]; norm_num
      · push_cast; rw [c2]; norm_num
    · exact le_refl _
  · rw [key 0 (by omega) 0 (by omega), if_neg (by omega)]

end Tftb.Props
