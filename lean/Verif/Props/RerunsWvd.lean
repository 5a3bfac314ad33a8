import Verif.Props.Reruns
import Verif.Props.Histories

/-! # Further runs of Wigner-Ville, short-time Fourier and pseudo Margenau-Hill objects (C88) -/

namespace Tftb.Props

open Tftb Tftb.Spec Tftb.Linear Tftb.Cohen Finset ComplexConjugate

theorem scatter_re {g : ℕ → ℂ} {pos : ℕ → ℕ} {val : ℕ → ℂ} {L p : ℕ} :
    (((Vec.scatter g pos val L p).re : ℝ) : ℂ) = Vec.scatter (fun r => ((g r).re : ℂ)) pos (fun j => ((val j).re : ℂ)) L p := by
  induction L with
  | zero => rfl
  | succ L ih =>
    rw [Vec.scatter_succ, Vec.scatter_succ]
    by_cases hp : p = pos L
    · subst hp; simp
    · rw [Function.update_of_ne hp, Function.update_of_ne hp]; exact ih

/-- The lags that the column of sample `c` of a Wigner-Ville distribution of `N` samples in `n` bins uses. -/
noncomputable def wvdLags (n N c : ℕ) : Finset ℤ :=
  (Icc (-(roundEven ((n : ℝ) / 2) - 1)) (roundEven ((n : ℝ) / 2) - 1)).filter
    (fun τ : ℤ => τ ≤ c ∧ -τ ≤ c ∧ (c : ℤ) + τ < N ∧ (c : ℤ) - τ < N)

/-- Every run of a Wigner-Ville distribution on an object that has been run before (hence holds a real matrix): the imaginary parts of the lag products are
lost, and the rows not reached keep their old content before the transform. -/
theorem C88_wvd_any_run {τ : Type} (o : TFR τ) (M : Mat ℝ) (hM : o.tfr = .real M) (hn : o.nf ≠ 0) (hr : M.rows = o.nf) (hc : M.cols = o.ts.len)
    (hts : o.ts.len = o.signal.len) (hN : (o.signal.len : ℤ) ≤ 2 * roundEven ((o.nf : ℝ) / 2) ∨ o.signal.len ≤ 1) :
    ∃ G : Mat ℝ, wvdRun o = .ok { o with tfr := .real G, freqs := ⟨o.nf, fun k => 0.5 * (k : ℝ) / (o.nf : ℝ)⟩ } ∧ G.rows = o.nf ∧ G.cols = o.ts.len ∧
      ∀ k < o.nf, ∀ c < o.ts.len, G.get k c =
        ∑ τ ∈ wvdLags o.nf o.signal.len c, (wignerKernel o.signal c τ).re * Real.cos (2 * Real.pi * (k * τ / o.nf))
        + ∑ p ∈ staleRows o.nf (wvdLags o.nf o.signal.len c), M.get p c * Real.cos (2 * Real.pi * (k * p / o.nf)) := by
  have hz : ∀ c < o.signal.len, ¬ wvZone o.nf o.signal.len c := fun c hc hzc => ((wvZone_iff o.nf o.signal.len).1 ⟨c, hc, hzc⟩) hN
  obtain ⟨G, g1, g2, g3, g4⟩ := wvdRun_again o hn hts hz M hM hr hc
  refine ⟨G, g1, g2, g3, fun k _ c hc => ?_⟩
  rw [g4 k c hc]
  set T := wvT o.nf o.signal.len c with hT
  have hset : Icc (-T) T = wvdLags o.nf o.signal.len c := by
    rw [hT]
    unfold wvT wvdLags
    ext t
    rw [mem_filter, mem_Icc, mem_Icc]
    omega
  rw [dftC_congr (fun r _ => scatter_re)]
  have key := dftC_over hn (a := -T) (b := T) (fun r => (((M.get r c : ℂ).re : ℝ) : ℂ)) (fun t => ((wignerKernel o.signal c t).re : ℂ)) k
  refine (congrArg Complex.re key).trans ?_
  rw [Complex.add_re, dftC_lagCol hn (by have := wvT_count o.nf o.signal.len c; omega), hset]
  congr 1
  · rw [Complex.re_sum]
    apply Finset.sum_congr rfl
    intro t _
    rw [Complex.re_ofReal_mul, rootPow_eq_expi, re_expi]
    push_cast
    rw [mul_comm (t : ℝ)]
  · rw [Complex.re_sum]
    apply Finset.sum_congr rfl
    intro p _
    rw [Complex.ofReal_re, Complex.re_ofReal_mul, rootPow_eq_expi, re_expi]
    push_cast
    rw [mul_comm (p : ℝ)]

/-- The Wigner-Ville distribution never settles: after an odd number of runs the column of sample 0 is `a, a, …, a` with `a = |x[0]|²`; after an even number
it is `n a, 0, …, 0`. -/
theorem C88_wvd_alternates {τ : Type} (x : Vec ℂ) (ts : Vec τ) (n : ℕ) (hn2 : 2 ≤ n) (hx : x.len ≠ 0) (hts : ts.len = x.len)
    (hN : (x.len : ℤ) ≤ 2 * roundEven ((n : ℝ) / 2) ∨ x.len ≤ 1) (j : ℕ) :
    ∃ (o : TFR τ) (F : Mat ℝ), times wvdRun (j + 1) (TFR.init makeWindow x ts n none) = .ok o ∧ o.tfr = .real F ∧
      F.rows = n ∧ F.cols = ts.len ∧ ∀ k < n, F.get k 0 =
        if j % 2 = 0 then ‖x.get 0‖ ^ 2 else if k = 0 then n * ‖x.get 0‖ ^ 2 else 0 := by
  have hn : n ≠ 0 := by omega
  have hts' : 0 < ts.len := by omega
  have hz : ∀ c < x.len, ¬ wvZone n x.len c := fun c hc hzc => ((wvZone_iff n x.len).1 ⟨c, hc, hzc⟩) hN
  set a : ℝ := ‖x.get 0‖ ^ 2 with ha
  have hk0 : wignerKernel x ((0 : ℕ) : ℤ) 0 = (a : ℂ) := by
    unfold wignerKernel
    rw [add_zero, sub_zero, zext_of_mem (by omega) (by omega), mul_conj_eq_norm_sq]
    rfl
  have hR : (0 : ℤ) ≤ roundEven ((n : ℝ) / 2) - 1 := by rw [roundEven_half]; split <;> omega
  have hset : wvdLags n x.len 0 = {0} := by
    unfold wvdLags
    ext t
    rw [mem_filter, mem_Icc, mem_singleton]
    omega
  have hroot : ∀ k < n, ∑ p ∈ Ico 1 n, Real.cos (2 * Real.pi * (k * p / n)) = (if k = 0 then (n : ℝ) else 0) - 1 := by
    intro k hk
    have h1 := sum_rootPow' hn (k : ℤ)
    rw [Finset.range_eq_Ico, Finset.sum_eq_sum_Ico_succ_bot (Nat.pos_of_ne_zero hn)] at h1
    have h2 : ((n : ℤ) ∣ (k : ℤ)) ↔ k = 0 := by
      constructor
      · intro hd
        by_contra hne
        have := Nat.le_of_dvd (by omega) (by exact_mod_cast hd : n ∣ k)
        omega
      · rintro rfl; simp
    simp only [h2, Nat.cast_zero, zero_mul, rootPow_zero, zero_add] at h1
    have h3 := congrArg Complex.re h1
    rw [Complex.add_re, Complex.re_sum, Complex.one_re] at h3
    have h4 : ∀ p ∈ Ico 1 n, (rootPow n ((p : ℤ) * k)).re = Real.cos (2 * Real.pi * (k * p / n)) := by
      intro p _
      rw [rootPow_eq_expi, re_expi]
      push_cast
      rw [mul_comm (p : ℝ)]
    rw [Finset.sum_congr rfl h4] at h3
    have h5 : (if k = 0 then (n : ℂ) else 0).re = if k = 0 then (n : ℝ) else 0 := by split_ifs <;> simp
    rw [h5] at h3
    linarith
  have hmain : ∀ j, ∃ (o : TFR τ) (F : Mat ℝ), times wvdRun (j + 1) (TFR.init makeWindow x ts n none) = .ok o ∧
      (o.signal = x ∧ o.ts = ts ∧ o.nf = n) ∧ o.tfr = .real F ∧
      F.rows = n ∧ F.cols = ts.len ∧ ∀ k < n, F.get k 0 = if j % 2 = 0 then a else if k = 0 then n * a else 0 := by
    intro j
    induction j with
    | zero =>
      obtain ⟨G, g1, g2, g3, g4⟩ := wvdRun_fresh makeWindow x ts n none hn hts hz
      refine ⟨_, G, by unfold times times; rw [g1]; rfl, ⟨rfl, rfl, rfl⟩, rfl, g2, g3, fun k hk => ?_⟩
      have hT0 : wvT n x.len 0 = 0 := by unfold wvT; rw [roundEven_half]; split <;> omega
      rw [g4 k 0 (by omega), hT0, lagSum_eq]
      simp only [neg_zero, Finset.Icc_self, Finset.sum_singleton, zero_mul]
      rw [hk0, rootPow_zero, mul_one, Complex.ofReal_re, if_pos trivial]
    | succ j ih =>
      obtain ⟨o, F, f1, ⟨f2, f3, f4⟩, f6, f7, f8, f9⟩ := ih
      obtain ⟨G, g1, g2, g3, g4⟩ := C88_wvd_any_run o F f6 (by rw [f4]; exact hn) (by rw [f4]; exact f7) (by rw [f3]; exact f8)
        (by rw [f2, f3]; exact hts) (by rw [f2, f4]; exact hN)
      rw [f4] at g2 g4
      rw [f3] at g3 g4
      rw [f2] at g4
      refine ⟨{ o with tfr := .real G, freqs := ⟨n, fun k => 0.5 * (k : ℝ) / (n : ℝ)⟩ }, G, by rw [times_succ', f1, ok_bind, g1, f4], ⟨f2, f3, f4⟩, rfl, g2, g3, fun k hk => ?_⟩
      rw [g4 k hk 0 hts', hset, staleRows_zero, Finset.sum_singleton, hk0, Complex.ofReal_re]
      simp only [Int.cast_zero, mul_zero, zero_div, Real.cos_zero, mul_one]
      by_cases hj : j % 2 = 0
      · rw [if_neg (by omega)]
        have : ∑ p ∈ Ico 1 n, F.get p 0 * Real.cos (2 * Real.pi * (k * p / n)) = a * ∑ p ∈ Ico 1 n, Real.cos (2 * Real.pi * (k * p / n)) := by
          rw [Finset.mul_sum]
          apply Finset.sum_congr rfl
          intro p hp
          rw [f9 p (mem_Ico.1 hp).2, if_pos hj]
        rw [this, hroot k hk]
        split_ifs <;> ring
      · rw [if_pos (by omega)]
        have : ∑ p ∈ Ico 1 n, F.get p 0 * Real.cos (2 * Real.pi * (k * p / n)) = 0 := by
          apply Finset.sum_eq_zero
          intro p hp
          rw [mem_Ico] at hp
          rw [f9 p hp.2, if_neg hj, if_neg (by omega), zero_mul]
        rw [this, add_zero]
  obtain ⟨o, F, f1, _, f2, f3⟩ := hmain j
  exact ⟨o, F, f1, f2, f3⟩

/-- Two bins, signal `i, 1`: after every odd number of runs column 0 is `1, 1`, after every even number `2, 0`. -/
example (j : ℕ) : ∃ (o : TFR ℤ) (F : Mat ℝ), times wvdRun (j + 1) (TFR.init makeWindow ⟨2, fun i => if i = 0 then Complex.I else 1⟩ ⟨2, fun i => (i : ℤ)⟩ 2 none)
      = .ok o ∧ o.tfr = .real F ∧ F.get 0 0 = (if j % 2 = 0 then 1 else 2) ∧ F.get 1 0 = if j % 2 = 0 then 1 else 0 := by
  obtain ⟨o, F, h1, h2, _, _, h5⟩ := C88_wvd_alternates (⟨2, fun i => if i = 0 then Complex.I else 1⟩ : Vec ℂ) (⟨2, fun i => (i : ℤ)⟩ : Vec ℤ) 2 le_rfl
    (by norm_num) rfl (Or.inl (by rw [roundEven_half]; norm_num)) j
  refine ⟨o, F, h1, h2, ?_, ?_⟩
  · rw [h5 0 (by norm_num)]; simp
  · rw [h5 1 (by norm_num)]; simp

/-! ## Short-time Fourier transform -/

/-- Every run of a short-time Fourier transform: the windowed sum, plus what the rows not reached held before. -/
theorem C88_stft_any_run {τ : Type} (o : TFR τ) (F : Mat ℂ) (L : ℕ) (hF : o.tfr = .cplx F) (hr : F.rows = o.nf) (hc : F.cols = o.ts.len)
    (hh : o.fwindow.len = 2 * L + 1 ∨ o.fwindow.len = 2 * L + 2) (hL : 2 * L < o.nf) :
    ∃ G : Mat ℂ, stftRun o = .ok { o with tfr := .cplx G } ∧ G.rows = o.nf ∧ G.cols = o.ts.len ∧
      ∀ k < o.nf, ∀ m < o.ts.len, G.get k m = windowedDft o.signal o.fwindow L o.nf ((m : ℤ) - 1) k
        + ∑ p ∈ staleRows o.nf (segLags L o.signal.len ((m : ℤ) - 1)), F.get p m * expi (-(2 * Real.pi * (k * p / o.nf))) := by
  have hn : o.nf ≠ 0 := by omega
  have hlh : ((o.fwindow.len : ℤ) - 1) / 2 = L := by omega
  have hR : min (roundEven ((o.nf : ℝ) / 2)) (L : ℤ) = L := by rw [roundEven_half]; split <;> omega
  obtain ⟨S, hf, s1, s2, s3⟩ : ∃ S : Mat ℂ, (Store.cplx F).forCols o.ts.len (stftCol o) = .ok (.cplx S) ∧
      S.rows = o.nf ∧ S.cols = o.ts.len ∧ ∀ r, ∀ c < o.ts.len, S.get r c =
        Vec.scatter (fun r => F.get r c) (lagPos o.nf (stftLo o.nf L c))
          (fun j => (fun t : ℤ => zext o.signal (c + t - 1) * conj (zext o.fwindow (L + t))) (stftLo o.nf L c + j))
          (stftHi o.nf o.signal.len L c + 1 - stftLo o.nf L c).toNat r := by
    refine ⟨_, forCols_cplx hr hc (body := stftCol o) (fun c hc => stftCol_on o hn c hc ⟨o.nf, fun r => F.get r c⟩ rfl), rfl, rfl, ?_⟩
    intro r c hc
    simp only [if_pos hc, hlh]
  have hok : stftRun o = .ok { o with tfr := .cplx ⟨S.rows, S.cols, fun k c => dftC S.rows (fun r => S.get r c) k⟩ } := by
    unfold stftRun
    rw [hF]
    show ((Store.cplx F).forCols F.cols _ >>= _) = _
    rw [hc, hf, ok_bind, fft0_ok (M := (Store.cplx S).asC) (show S.rows ≠ 0 by rw [s1]; exact hn), ok_bind]
    rfl
  refine ⟨_, hok, s1, s2, fun k _ m hm => ?_⟩
  show dftC S.rows (fun r => S.get r m) k = _
  rw [s1, dftC_congr (fun r _ => s3 r m hm)]
  refine (dftC_over hn (a := stftLo o.nf L m) (b := stftHi o.nf o.signal.len L m) (fun r => F.get r m)
    (fun t : ℤ => zext o.signal (m + t - 1) * conj (zext o.fwindow (L + t))) k).trans ?_
  have hset : Icc (stftLo o.nf L m) (stftHi o.nf o.signal.len L m) = segLags L o.signal.len ((m : ℤ) - 1) := by
    unfold stftLo stftHi segLags
    rw [hR]
    ext t
    rw [mem_filter, mem_Icc, mem_Icc]
    omega
  rw [dftC_lagCol hn (by unfold stftLo stftHi; rw [hR]; omega), hset]
  congr 1
  · unfold windowedDft
    have hterm : ∀ τ : ℤ, -(L : ℤ) ≤ τ → τ ≤ L →
        zext o.signal ((m : ℤ) + τ - 1) * conj (zext o.fwindow ((L : ℤ) + τ)) * rootPow o.nf (τ * k)
        = zext o.signal ((m : ℤ) - 1 + τ) * conj (o.fwindow.get ((L : ℤ) + τ).toNat) * expi (-(2 * Real.pi * (k * τ / o.nf))) := by
      intro τ h5 h6
      rw [zext_of_mem (x := o.fwindow) (by omega) (by omega), rootPow_eq_expi, show (m : ℤ) + τ - 1 = (m : ℤ) - 1 + τ by ring]
      congr 2; push_cast; ring
    have hsub : segLags L o.signal.len ((m : ℤ) - 1) ⊆ Icc (-(L : ℤ)) L := Finset.filter_subset _ _
    rw [Finset.sum_congr rfl (fun τ hτ => hterm τ (mem_Icc.1 (hsub hτ)).1 (mem_Icc.1 (hsub hτ)).2)]
    apply Finset.sum_subset hsub
    intro τ hτ hnot
    unfold segLags at hnot
    rw [mem_filter] at hnot
    rw [zext_of_not_mem (fun h => hnot ⟨hτ, h⟩), zero_mul, zero_mul]
  · apply Finset.sum_congr rfl
    intro p _
    rw [rootPow_eq_expi]
    push_cast
    rw [mul_comm (p : ℝ)]

/-- With a one-sample window the transform never settles either: with `a = x[m-1] conj h[0]`, column `m` is `a, …, a` after an odd number of runs and
`n a, 0, …, 0` after an even number. -/
theorem C88_stft_alternates {τ : Type} (x : Vec ℂ) (ts : Vec τ) (n : ℕ) (hn : n ≠ 0) (h : Vec ℂ) (hh : h.len = 1) (m : ℕ) (hm : m < ts.len)
    (hm0 : 0 < m) (hmx : m ≤ x.len) (j : ℕ) :
    ∃ (o : TFR τ) (F : Mat ℂ), times stftRun (j + 1) (TFR.init makeWindow x ts n (some h)) = .ok o ∧ o.tfr = .cplx F ∧
      F.rows = n ∧ F.cols = ts.len ∧ ∀ k < n, F.get k m =
        if j % 2 = 0 then x.get (m - 1) * conj (h.get 0) else if k = 0 then n * (x.get (m - 1) * conj (h.get 0)) else 0 := by
  set a : ℂ := x.get (m - 1) * conj (h.get 0) with ha
  have hwd : ∀ k, windowedDft x h 0 n ((m : ℤ) - 1) k = a := by
    intro k
    unfold windowedDft
    simp only [Nat.cast_zero, neg_zero, Finset.Icc_self, Finset.sum_singleton, add_zero]
    rw [zext_of_mem (by omega) (by omega), show ((m : ℤ) - 1).toNat = m - 1 by omega, ha]
    simp [expi]
  have hset : segLags ((0 : ℕ) : ℤ) x.len ((m : ℤ) - 1) = {0} := by
    unfold segLags
    ext t
    rw [mem_filter, mem_Icc, mem_singleton]
    omega
  have hroot : ∀ k < n, ∑ p ∈ Ico 1 n, expi (-(2 * Real.pi * ((k : ℝ) * p / n))) = (if k = 0 then (n : ℂ) else 0) - 1 := by
    intro k hk
    have h1 := sum_rootPow' hn (k : ℤ)
    rw [Finset.range_eq_Ico, Finset.sum_eq_sum_Ico_succ_bot (Nat.pos_of_ne_zero hn)] at h1
    have h2 : ((n : ℤ) ∣ (k : ℤ)) ↔ k = 0 := by
      constructor
      · intro hd
        by_contra hne
        have := Nat.le_of_dvd (by omega) (by exact_mod_cast hd : n ∣ k)
        omega
      · rintro rfl; simp
    simp only [h2, Nat.cast_zero, zero_mul, rootPow_zero, zero_add] at h1
    rw [← h1, add_sub_cancel_left]
    apply Finset.sum_congr rfl
    intro p _
    rw [rootPow_eq_expi]
    push_cast
    rw [mul_comm (p : ℝ)]
  have hmain : ∀ j, ∃ (o : TFR τ) (F : Mat ℂ), times stftRun (j + 1) (TFR.init makeWindow x ts n (some h)) = .ok o ∧
      (o.signal = x ∧ o.ts = ts ∧ o.nf = n ∧ o.fwindow = h) ∧ o.tfr = .cplx F ∧
      F.rows = n ∧ F.cols = ts.len ∧ ∀ k < n, F.get k m = if j % 2 = 0 then a else if k = 0 then n * a else 0 := by
    have step : ∀ (o : TFR τ) (F : Mat ℂ), o.signal = x → o.ts = ts → o.nf = n → o.fwindow = h → o.tfr = .cplx F →
        F.rows = n → F.cols = ts.len → ∃ G : Mat ℂ, stftRun o = .ok { o with tfr := .cplx G } ∧ G.rows = n ∧ G.cols = ts.len ∧
          ∀ k < n, G.get k m = a + ∑ p ∈ Ico 1 n, F.get p m * expi (-(2 * Real.pi * ((k : ℝ) * p / n))) := by
      intro o F e1 e2 e3 e4 e5 e6 e7
      obtain ⟨G, g1, g2, g3, g4⟩ := C88_stft_any_run o F 0 e5 (by rw [e3]; exact e6) (by rw [e2]; exact e7)
        (by rw [e4]; exact Or.inl hh) (by rw [e3]; omega)
      rw [e3] at g2 g4
      rw [e2] at g3 g4
      rw [e1, e4] at g4
      refine ⟨G, g1, g2, g3, fun k hk => ?_⟩
      rw [g4 k hk m hm, hwd, hset, staleRows_zero]
    intro j
    induction j with
    | zero =>
      obtain ⟨G, g1, g2, g3, g4⟩ := step (TFR.init makeWindow x ts n (some h)) (Mat.zeros n ts.len) rfl rfl rfl rfl rfl rfl rfl
      refine ⟨_, G, by unfold times times; rw [g1]; rfl, ⟨rfl, rfl, rfl, rfl⟩, rfl, g2, g3, fun k hk => ?_⟩
      rw [g4 k hk]
      simp [Mat.zeros]
    | succ j ih =>
      obtain ⟨o, F, f1, ⟨f2, f3, f4, f5⟩, f6, f7, f8, f9⟩ := ih
      obtain ⟨G, g1, g2, g3, g4⟩ := step o F f2 f3 f4 f5 f6 f7 f8
      refine ⟨{ o with tfr := .cplx G }, G, ?_, ⟨f2, f3, f4, f5⟩, rfl, g2, g3, fun k hk => ?_⟩
      · rw [times_succ', f1, ok_bind, g1]
      · rw [g4 k hk]
        by_cases hj : j % 2 = 0
        · rw [if_neg (by omega), Finset.sum_congr rfl (g := fun p : ℕ => a * expi (-(2 * Real.pi * ((k : ℝ) * p / n))))
            (fun p hp => by rw [f9 p (mem_Ico.1 hp).2, if_pos hj]), ← Finset.mul_sum, hroot k hk]
          split_ifs <;> ring
        · rw [if_pos (by omega), Finset.sum_eq_zero, add_zero]
          intro p hp
          rw [mem_Ico] at hp
          rw [f9 p hp.2, if_neg hj, if_neg (by omega), zero_mul]
  obtain ⟨o, F, f1, _, f2, f3⟩ := hmain j
  exact ⟨o, F, f1, f2, f3⟩

example (j : ℕ) : ∃ (o : TFR ℤ) (F : Mat ℂ), times stftRun (j + 1) (TFR.init makeWindow ⟨2, fun _ => Complex.I⟩ ⟨2, fun i => (i : ℤ)⟩ 4 (some ⟨1, fun _ => 1⟩))
      = .ok o ∧ o.tfr = .cplx F ∧ F.get 0 1 = if j % 2 = 0 then Complex.I else 4 * Complex.I := by
  obtain ⟨o, F, h1, h2, _, _, h5⟩ := C88_stft_alternates (⟨2, fun _ => Complex.I⟩ : Vec ℂ) (⟨2, fun i => (i : ℤ)⟩ : Vec ℤ) 4 (by norm_num)
    ⟨1, fun _ => 1⟩ rfl 1 (by norm_num) (by norm_num) (by norm_num) j
  refine ⟨o, F, h1, h2, ?_⟩
  rw [h5 0 (by norm_num)]
  simp

/-! ## Pseudo Margenau-Hill -/

theorem pmhCol_on {τ : Type} (o : TFR τ) (hn : o.nf ≠ 0) (L : ℕ) (hh : o.fwindow.len = 2 * L + 1)
    (hL : (L : ℤ) < roundEven ((o.nf : ℝ) / 2) - 1 ∨ (o.signal.len : ℤ) < roundEven ((o.nf : ℝ) / 2) - 1) (c : ℕ) (hc : c < o.signal.len)
    (v : Vec ℂ) (hv : v.len = o.nf) :
    pmhCol o c v = .ok ⟨o.nf, Vec.scatter v.get (lagPos o.nf (-(min (L : ℤ) ((o.signal.len : ℤ) - c))))
      (fun j => (fun t : ℤ => zext o.fwindow (L + t) * o.signal.get c * conj (zext o.signal ((c : ℤ) - t - 1)))
        (-(min (L : ℤ) ((o.signal.len : ℤ) - c)) + j))
      (min (L : ℤ) ((c : ℤ) - 1) + 1 - -(min (L : ℤ) ((o.signal.len : ℤ) - c))).toNat⟩ := by
  set n := o.nf with hnn
  set x := o.signal with hx
  set h := o.fwindow with hhw
  set a : ℤ := -(min (L : ℤ) ((x.len : ℤ) - c)) with ha
  set b : ℤ := min (L : ℤ) ((c : ℤ) - 1) with hb'
  have hb : ∀ t, a ≤ t → t ≤ b → (0 ≤ (L : ℤ) + t ∧ (L : ℤ) + t < h.len) ∧ (0 ≤ (c : ℤ) - t - 1 ∧ (c : ℤ) - t - 1 < x.len) := by
    intro t h1 h2
    omega
  obtain ⟨vw, w1, w2, w3⟩ := take_range (x := h) a b (fun t => (L : ℤ) + t) (fun t h1 h2 => (hb t h1 h2).1)
  obtain ⟨vb, b1, b2, b3⟩ := take_range (x := x) a b (fun t => (c : ℤ) - t - 1) (fun t h1 h2 => (hb t h1 h2).2)
  have hmid : ((h.len : ℤ) - 1) / 2 = L := by omega
  simp only [pmhCol, ← hnn, ← hx, ← hhw, hmid]
  rw [if_neg (by simp only [decide_eq_true_eq]; omega)]
  have e1 : -(min (roundEven ((n : ℝ) / 2) - 1) (min (L : ℤ) ((x.len : ℤ) - c))) = a := by omega
  have e2 : min (roundEven ((n : ℝ) / 2) - 1) (min (L : ℤ) ((c : ℤ) - 1)) = b := by omega
  rw [e1, e2, w1, ok_bind, Vec.item_ok (by omega) (by omega), ok_bind, b1, ok_bind, Vec.bcast_ok (by rw [w2, b2]), ok_bind]
  refine (put_lags hn a b (v := ⟨vw.len, fun i => vw.get i * x.get c * conj (vb.get i)⟩) hv w2).trans ?_
  congr 2
  exact Vec.scatter_congr rfl (fun _ _ => rfl) (fun j hj => by simp only; rw [w3 j hj, b3 j hj])

/-- Every run of a pseudo Margenau-Hill distribution: the lag sum, plus what the rows not reached held before. -/
theorem C88_pmh_any_run {τ : Type} (o : TFR τ) (F : Mat ℂ) (L : ℕ) (hF : o.tfr = .cplx F) (hr : F.rows = o.nf) (hc : F.cols = o.ts.len)
    (hh : o.fwindow.len = 2 * L + 1) (hL : (L : ℤ) < roundEven ((o.nf : ℝ) / 2) - 1 ∨ (o.signal.len : ℤ) < roundEven ((o.nf : ℝ) / 2) - 1)
    (hts : o.ts.len ≤ o.signal.len) :
    ∃ G : Mat ℂ, pmhRun o = .ok { o with tfr := .cplx G } ∧ G.rows = o.nf ∧ G.cols = o.ts.len ∧
      ∀ k < o.nf, ∀ c < o.ts.len, G.get k c =
        ∑ τ ∈ Icc (-(min (L : ℤ) ((o.signal.len : ℤ) - c))) (min (L : ℤ) ((c : ℤ) - 1)),
          o.fwindow.get ((L : ℤ) + τ).toNat * o.signal.get c * conj (o.signal.get ((c : ℤ) - τ - 1).toNat) * expi (-(2 * Real.pi * (k * τ / o.nf)))
        + ∑ p ∈ staleRows o.nf (Icc (-(min (L : ℤ) ((o.signal.len : ℤ) - c))) (min (L : ℤ) ((c : ℤ) - 1))),
            F.get p c * expi (-(2 * Real.pi * (k * p / o.nf))) := by
  have hn : o.nf ≠ 0 := by
    intro h0
    rw [h0, roundEven_half] at hL
    simp at hL
    omega
  obtain ⟨S, hf, s1, s2, s3⟩ : ∃ S : Mat ℂ, (Store.cplx F).forCols o.ts.len (pmhCol o) = .ok (.cplx S) ∧
      S.rows = o.nf ∧ S.cols = o.ts.len ∧ ∀ r, ∀ c < o.ts.len, S.get r c =
        Vec.scatter (fun r => F.get r c) (lagPos o.nf (-(min (L : ℤ) ((o.signal.len : ℤ) - c))))
          (fun j => (fun t : ℤ => zext o.fwindow (L + t) * o.signal.get c * conj (zext o.signal ((c : ℤ) - t - 1)))
            (-(min (L : ℤ) ((o.signal.len : ℤ) - c)) + j))
          (min (L : ℤ) ((c : ℤ) - 1) + 1 - -(min (L : ℤ) ((o.signal.len : ℤ) - c))).toNat r := by
    refine ⟨_, forCols_cplx hr hc (body := pmhCol o) (fun c hc => pmhCol_on o hn L hh hL c (by omega) ⟨o.nf, fun r => F.get r c⟩ rfl), rfl, rfl, ?_⟩
    intro r c hc
    simp only [if_pos hc]
  have hok : pmhRun o = .ok { o with tfr := .cplx ⟨S.rows, S.cols, fun k c => dftC S.rows (fun r => S.get r c) k⟩ } := by
    unfold pmhRun
    rw [hF, hf, ok_bind, fft0_ok (M := (Store.cplx S).asC) (show S.rows ≠ 0 by rw [s1]; exact hn), ok_bind]
    rfl
  refine ⟨_, hok, s1, s2, fun k _ c hc => ?_⟩
  show dftC S.rows (fun r => S.get r c) k = _
  rw [s1, dftC_congr (fun r _ => s3 r c hc)]
  refine (dftC_over hn (a := -(min (L : ℤ) ((o.signal.len : ℤ) - c))) (b := min (L : ℤ) ((c : ℤ) - 1)) (fun r => F.get r c)
    (fun t : ℤ => zext o.fwindow (L + t) * o.signal.get c * conj (zext o.signal ((c : ℤ) - t - 1))) k).trans ?_
  rw [dftC_lagCol hn (by rw [roundEven_half] at hL; split at hL <;> omega)]
  congr 1
  · apply Finset.sum_congr rfl
    intro t ht
    rw [mem_Icc] at ht
    rw [zext_of_mem (x := o.fwindow) (by omega) (by omega), zext_of_mem (x := o.signal) (by omega) (by omega), rootPow_eq_expi]
    push_cast
    rw [mul_comm (t : ℝ)]
  · apply Finset.sum_congr rfl
    intro p _
    rw [rootPow_eq_expi]
    push_cast
    rw [mul_comm (p : ℝ)]

/-- The column of sample 0 of a pseudo Margenau-Hill distribution with a one-sample window is never written: it keeps being transformed, so a content
`b, 0, …, 0` becomes `b, …, b`. -/
theorem C88_pmh_first_column {τ : Type} (o : TFR τ) (F : Mat ℂ) (hF : o.tfr = .cplx F) (hr : F.rows = o.nf) (hc : F.cols = o.ts.len)
    (hh : o.fwindow.len = 1) (hL : 1 < roundEven ((o.nf : ℝ) / 2)) (hts : o.ts.len ≤ o.signal.len) (h0 : 0 < o.ts.len) :
    ∃ G : Mat ℂ, pmhRun o = .ok { o with tfr := .cplx G } ∧
      ∀ k < o.nf, G.get k 0 = ∑ p ∈ range o.nf, F.get p 0 * expi (-(2 * Real.pi * (k * p / o.nf))) := by
  obtain ⟨G, g1, _, _, g4⟩ := C88_pmh_any_run o F 0 hF hr hc hh (Or.inl (by push_cast; omega)) hts
  refine ⟨G, g1, fun k hk => ?_⟩
  have hset : Icc (-(min ((0 : ℕ) : ℤ) ((o.signal.len : ℤ) - (0 : ℕ)))) (min ((0 : ℕ) : ℤ) (((0 : ℕ) : ℤ) - 1)) = ∅ := by
    rw [Finset.Icc_eq_empty_iff]
    omega
  have hst : staleRows o.nf ∅ = range o.nf := by
    unfold staleRows
    simp
  rw [g4 k hk 0 h0, hset, Finset.sum_empty, zero_add, hst]

/-- A run on a matrix of ones of a signal of ones (8 bins, 3 samples, one-sample window): entry `(0, 1)` is the new product plus the seven old ones. -/
example : ∃ G : Mat ℂ, pmhRun (⟨⟨3, fun _ => 1⟩, arange 0 3, 8, ⟨1, fun _ => 1⟩, ⟨8, fun _ => 0⟩, .cplx ⟨8, 3, fun _ _ => 1⟩⟩ : TFR ℤ)
      = .ok ⟨⟨3, fun _ => 1⟩, arange 0 3, 8, ⟨1, fun _ => 1⟩, ⟨8, fun _ => 0⟩, .cplx G⟩ ∧ G.get 0 1 = 8 ∧ G.get 0 0 = 8 := by
  obtain ⟨G, g1, _, _, g4⟩ := C88_pmh_any_run (⟨⟨3, fun _ => 1⟩, arange 0 3, 8, ⟨1, fun _ => 1⟩, ⟨8, fun _ => 0⟩, .cplx ⟨8, 3, fun _ _ => 1⟩⟩ : TFR ℤ)
    ⟨8, 3, fun _ _ => 1⟩ 0 rfl rfl rfl rfl (Or.inl (by rw [roundEven_half]; norm_num)) le_rfl
  refine ⟨G, g1, ?_, ?_⟩
  · rw [g4 0 (by norm_num) 1 (by show 1 < (arange 0 3).len; simp [arange])]
    have hset : Icc (-(min ((0 : ℕ) : ℤ) (((3 : ℕ) : ℤ) - (1 : ℕ)))) (min ((0 : ℕ) : ℤ) (((1 : ℕ) : ℤ) - 1)) = {0} := by decide
    show ∑ τ ∈ Icc (-(min ((0 : ℕ) : ℤ) (((3 : ℕ) : ℤ) - (1 : ℕ)))) (min ((0 : ℕ) : ℤ) (((1 : ℕ) : ℤ) - 1)), _
      + ∑ p ∈ staleRows 8 (Icc (-(min ((0 : ℕ) : ℤ) (((3 : ℕ) : ℤ) - (1 : ℕ)))) (min ((0 : ℕ) : ℤ) (((1 : ℕ) : ℤ) - 1))), _ = _
    rw [hset, staleRows_zero]
    simp [expi]
    norm_num
  · rw [g4 0 (by norm_num) 0 (by show 0 < (arange 0 3).len; simp [arange])]
    have hset : Icc (-(min ((0 : ℕ) : ℤ) (((3 : ℕ) : ℤ) - (0 : ℕ)))) (min ((0 : ℕ) : ℤ) (((0 : ℕ) : ℤ) - 1)) = ∅ := by decide
    show ∑ τ ∈ Icc (-(min ((0 : ℕ) : ℤ) (((3 : ℕ) : ℤ) - (0 : ℕ)))) (min ((0 : ℕ) : ℤ) (((0 : ℕ) : ℤ) - 1)), _
      + ∑ p ∈ staleRows 8 (Icc (-(min ((0 : ℕ) : ℤ) (((3 : ℕ) : ℤ) - (0 : ℕ)))) (min ((0 : ℕ) : ℤ) (((0 : ℕ) : ℤ) - 1))), _ = _
    rw [hset]
    have hst : staleRows 8 ∅ = range 8 := by unfold staleRows; simp
    rw [hst]
    simp [expi]

end Tftb.Props
