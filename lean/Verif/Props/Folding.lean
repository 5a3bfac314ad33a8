import Verif.Props.RerunsWvd
import Verif.Lemmas.Plot

/-! # Runs of objects that already hold a real array: positive and negative frequencies are folded together (C91) -/

namespace Tftb.Props

open Tftb Tftb.Spec Tftb.Linear Tftb.Cohen Finset ComplexConjugate

/-- Rows `k` and `n - k` agree. -/
def EvenRows (M : Mat ℝ) : Prop := ∀ k c, 0 < k → k < M.rows → M.get (M.rows - k) c = M.get k c

theorem dftC_even {n : ℕ} (hn : n ≠ 0) (y : ℕ → ℝ) {k : ℕ} (hk : k < n) :
    dftC n (fun r => (y r : ℂ)) ((n - k : ℕ) : ℤ) = conj (dftC n (fun r => (y r : ℂ)) k) := by
  rw [conj_dftC, dftC_congr (y := fun r => (y r : ℂ)) (fun r _ => Complex.conj_ofReal _)]
  apply dftC_periodic hn
  rw [Nat.cast_sub hk.le]
  exact ⟨1, by ring⟩

theorem forCols_of_real {M : Mat ℝ} {T : ℕ} {body : ℕ → Vec ℂ → Py (Vec ℂ)} {S : Store} (h : (Store.real M).forCols T body = .ok S) :
    ∃ R : Mat ℝ, S = .real R := by
  unfold Store.forCols at h
  simp only [bind_eq_ok] at h
  obtain ⟨R, _, h⟩ := h
  injection h with h
  exact ⟨_, h.symm⟩

/-- The transform of a real array, followed by a function that does not see conjugation. -/
theorem fold_even {R : Mat ℝ} {F : Mat ℂ} (hF : (Store.real R).asC.fft0 = .ok F) (f : ℂ → ℝ) (hf : ∀ z, f (conj z) = f z) : EvenRows (F.map f) := by
  obtain ⟨_, _, h3⟩ := fft0_dims hF
  rw [fft0_ok h3] at hF
  injection hF with hF
  subst hF
  intro k c _ hk
  show f (dftC R.rows (fun r => (R.get r c : ℂ)) ((R.rows - k : ℕ) : ℤ)) = f (dftC R.rows (fun r => (R.get r c : ℂ)) k)
  rw [dftC_even (n := R.rows) h3 (fun r => R.get r c) hk, hf]

/-- Any run of a spectrogram object that holds a real array (every object that has been run) has equal rows `k` and `n - k`, whatever the signal. -/
theorem C91_spectrogram (o o' : TFR ℤ) (M : Mat ℝ) (hM : o.tfr = .real M) (h : spectroRun o = .ok o') : ∃ G, o'.tfr = .real G ∧ EvenRows G := by
  unfold spectroRun at h
  simp only [bind_eq_ok] at h
  obtain ⟨S, hS, F, hF, h⟩ := h
  injection h with h; subst h
  rw [hM] at hS
  obtain ⟨R, rfl⟩ := forCols_of_real hS
  exact ⟨_, rfl, fold_even hF _ (fun z => by rw [RCLike.norm_conj])⟩

/-- The same for the Page representation. -/
theorem C91_page (o o' : TFR ℤ) (M : Mat ℝ) (hM : o.tfr = .real M) (h : pageRun o = .ok o') : ∃ G, o'.tfr = .real G ∧ EvenRows G := by
  unfold pageRun at h
  simp only [bind_eq_ok] at h
  obtain ⟨S, hS, F, hF, h⟩ := h
  injection h with h; subst h
  rw [hM] at hS
  obtain ⟨R, rfl⟩ := forCols_of_real hS
  exact ⟨_, rfl, fold_even hF _ Complex.conj_re⟩

/-- The same for the Margenau-Hill distribution. -/
theorem C91_mh (o o' : TFR ℤ) (M : Mat ℝ) (hM : o.tfr = .real M) (h : mhRun o = .ok o') : ∃ G, o'.tfr = .real G ∧ EvenRows G := by
  unfold mhRun at h
  simp only [bind_eq_ok] at h
  obtain ⟨S, hS, F, hF, h⟩ := h
  injection h with h; subst h
  rw [hM] at hS
  obtain ⟨R, rfl⟩ := forCols_of_real hS
  exact ⟨_, rfl, fold_even hF _ Complex.conj_re⟩

/-- The same for the Wigner-Ville distribution. -/
theorem C91_wvd {τ : Type} (o o' : TFR τ) (M : Mat ℝ) (hM : o.tfr = .real M) (h : wvdRun o = .ok o') : ∃ G, o'.tfr = .real G ∧ EvenRows G := by
  unfold wvdRun at h
  split_ifs at h
  simp only [bind_eq_ok] at h
  obtain ⟨S, hS, F, hF, h⟩ := h
  injection h with h; subst h
  rw [hM] at hS
  obtain ⟨R, rfl⟩ := forCols_of_real hS
  exact ⟨_, rfl, fold_even hF _ Complex.conj_re⟩

theorem fold_times {σ : Type} {f : TFR σ → Py (TFR σ)} (h1 : ∀ o o', f o = .ok o' → ∃ M, o'.tfr = .real M)
    (h2 : ∀ o o' M, o.tfr = .real M → f o = .ok o' → ∃ G, o'.tfr = .real G ∧ EvenRows G) (j : ℕ) (o o' : TFR σ)
    (h : times f (j + 2) o = .ok o') : ∃ G, o'.tfr = .real G ∧ EvenRows G := by
  rw [times_succ', times_succ'] at h
  simp only [bind_eq_ok] at h
  obtain ⟨b, ⟨a, _, hb⟩, h⟩ := h
  obtain ⟨M, hM⟩ := h1 a b hb
  exact h2 b o' M hM h

/-- Two runs or more, on any object: the rows `k` and `n - k` of the four representations that store a real array are equal. -/
theorem C91_histories (j : ℕ) (o o' : TFR ℤ) (h : times spectroRun (j + 2) o = .ok o' ∨ times pageRun (j + 2) o = .ok o' ∨ times mhRun (j + 2) o = .ok o' ∨
    times wvdRun (j + 2) o = .ok o') : ∃ G, o'.tfr = .real G ∧ EvenRows G := by
  rcases h with h | h | h | h
  · refine fold_times (fun o o' h => ?_) (fun o o' M hM h => C91_spectrogram o o' M hM h) j o o' h
    unfold spectroRun at h
    simp only [bind_eq_ok] at h
    obtain ⟨S, _, F, _, h⟩ := h
    injection h with h; subst h
    exact ⟨_, rfl⟩
  · refine fold_times (fun o o' h => ?_) (fun o o' M hM h => C91_page o o' M hM h) j o o' h
    unfold pageRun at h
    simp only [bind_eq_ok] at h
    obtain ⟨S, _, F, _, h⟩ := h
    injection h with h; subst h
    exact ⟨_, rfl⟩
  · exact fold_times (fun o o' h => mhRun_real h) (fun o o' M hM h => C91_mh o o' M hM h) j o o' h
  · refine fold_times (fun o o' h => ?_) (fun o o' M hM h => C91_wvd o o' M hM h) j o o' h
    unfold wvdRun at h
    split_ifs at h
    simp only [bind_eq_ok] at h
    obtain ⟨S, _, F, _, h⟩ := h
    injection h with h; subst h
    exact ⟨_, rfl⟩

/-- What the second run of the Wigner-Ville distribution is, in terms of the first: the mean of the rows `k` and `n - k`, plus the cosine transform of the rows
that the column does not reach. -/
theorem C91_wvd_second_run {τ : Type} (x : Vec ℂ) (ts : Vec τ) (n : ℕ) (hn : n ≠ 0) (hts : ts.len = x.len)
    (hN : (x.len : ℤ) ≤ 2 * roundEven ((n : ℝ) / 2) ∨ x.len ≤ 1) :
    ∃ (o₁ o₂ : TFR τ) (M₁ M₂ : Mat ℝ), wvdRun (TFR.init makeWindow x ts n none) = .ok o₁ ∧ o₁.tfr = .real M₁ ∧ wvdRun o₁ = .ok o₂ ∧ o₂.tfr = .real M₂ ∧
      M₁.rows = n ∧ M₂.rows = n ∧ ∀ k, 0 < k → k < n → ∀ c < x.len, M₂.get k c = (M₁.get k c + M₁.get (n - k) c) / 2
        + ∑ p ∈ staleRows n (wvdLags n x.len c), M₁.get p c * Real.cos (2 * Real.pi * (k * p / n)) := by
  have hz : ∀ c < x.len, ¬ wvZone n x.len c := fun c hc hzc => ((wvZone_iff n x.len).1 ⟨c, hc, hzc⟩) hN
  obtain ⟨M₁, e1, e2, e3, e4⟩ := wvdRun_fresh makeWindow x ts n none hn hts hz
  set o₁ : TFR τ := { TFR.init makeWindow x ts n none with tfr := .real M₁, freqs := ⟨n, fun k => 0.5 * (k : ℝ) / (n : ℝ)⟩ } with ho
  obtain ⟨M₂, f1, f2, f3, f4⟩ := C88_wvd_any_run o₁ M₁ rfl hn e2 e3 hts hN
  refine ⟨o₁, _, M₁, M₂, e1, rfl, f1, rfl, e2, f2, fun k hk0 hk c hc => ?_⟩
  refine (f4 k hk c (by show c < ts.len; omega)).trans ?_
  show ∑ τ ∈ wvdLags n x.len c, (wignerKernel x c τ).re * Real.cos (2 * Real.pi * (k * τ / n)) + _ = _
  congr 1
  have hset : Icc (-(wvT n x.len c)) (wvT n x.len c) = wvdLags n x.len c := by
    unfold wvT wvdLags
    ext t
    rw [mem_filter, mem_Icc, mem_Icc]
    omega
  rw [e4 k c hc, e4 (n - k) c hc, lagSum_eq, lagSum_eq, hset, Complex.re_sum, Complex.re_sum, ← Finset.sum_add_distrib, Finset.sum_div]
  apply Finset.sum_congr rfl
  intro t _
  have h1 : rootPow n (t * ((n - k : ℕ) : ℤ)) = conj (rootPow n (t * k)) := by
    rw [conj_rootPow]
    apply rootPow_congr hn
    rw [Nat.cast_sub hk.le]
    exact ⟨t, by ring⟩
  have h2 : (rootPow n (t * (k : ℤ))).re = Real.cos (2 * Real.pi * (k * t / n)) := by
    rw [rootPow_eq_expi, re_expi]
    push_cast
    rw [mul_comm (t : ℝ)]
  rw [h1, Complex.mul_re, Complex.mul_re, Complex.conj_re, Complex.conj_im, h2]
  ring

/-- The signal `1, 0, i` in four bins: in the column of sample 1 the first run tells the frequencies of rows 1 and 3 apart (2 and -2), any later run does not. -/
theorem C91_first_run_differs : ∃ (o : TFR ℤ) (M : Mat ℝ),
    wvdRun (TFR.init makeWindow ⟨3, fun i => if i = 0 then 1 else if i = 1 then 0 else Complex.I⟩ (arange 0 3) 4 none) = .ok o ∧ o.tfr = .real M ∧
      M.get 1 1 = 2 ∧ M.get 3 1 = -2 := by
  set x : Vec ℂ := ⟨3, fun i => if i = 0 then 1 else if i = 1 then 0 else Complex.I⟩ with hx
  have hz : ∀ c < x.len, ¬ wvZone 4 x.len c := fun c hc hzc => ((wvZone_iff 4 x.len).1 ⟨c, hc, hzc⟩)
    (Or.inl (by rw [roundEven_half]; show ((3 : ℕ) : ℤ) ≤ _; norm_num))
  obtain ⟨M, e1, e2, e3, e4⟩ := wvdRun_fresh makeWindow x (arange 0 3) 4 none (by norm_num) (by rfl) hz
  have hT : wvT 4 x.len 1 = 1 := by
    unfold wvT; rw [roundEven_half]; show min (min ((1 : ℕ) : ℤ) (((3 : ℕ) : ℤ) - (1 : ℕ) - 1)) _ = 1; norm_num
  have hI : Icc (-(1 : ℤ)) 1 = {-1, 0, 1} := by decide
  have k0 : wignerKernel x ((1 : ℕ) : ℤ) 0 = 0 := by
    unfold wignerKernel
    rw [zext_of_mem (by norm_num) (by show _ < ((3 : ℕ) : ℤ); norm_num)]
    simp [hx]
  have k1 : wignerKernel x ((1 : ℕ) : ℤ) 1 = Complex.I := by
    unfold wignerKernel
    rw [zext_of_mem (by norm_num) (by show _ < ((3 : ℕ) : ℤ); norm_num), zext_of_mem (by norm_num) (by show _ < ((3 : ℕ) : ℤ); norm_num)]
    have : (((1 : ℕ) : ℤ) + 1).toNat = 2 := rfl
    rw [this]
    norm_num [hx]
  have k2 : wignerKernel x ((1 : ℕ) : ℤ) (-1) = -Complex.I := by
    rw [wignerKernel_hermitian, k1, Complex.conj_I]
  have r1 : rootPow 4 1 = -Complex.I := by
    rw [rootPow_eq_expi]
    unfold expi
    apply Complex.ext
    · rw [Complex.exp_ofReal_mul_I_re, show -(2 * Real.pi * (((1 : ℤ) : ℝ) / ((4 : ℕ) : ℝ))) = -(Real.pi / 2) by push_cast; ring, Real.cos_neg, Real.cos_pi_div_two]; simp
    · rw [Complex.exp_ofReal_mul_I_im, show -(2 * Real.pi * (((1 : ℤ) : ℝ) / ((4 : ℕ) : ℝ))) = -(Real.pi / 2) by push_cast; ring, Real.sin_neg, Real.sin_pi_div_two]; simp
  have r2 : rootPow 4 (-1) = Complex.I := by rw [← conj_rootPow, r1]; simp
  have r3 : rootPow 4 3 = Complex.I := by rw [← r2]; exact rootPow_congr (by norm_num) ⟨1, by norm_num⟩
  have r4 : rootPow 4 (-3) = -Complex.I := by rw [← r1]; exact rootPow_congr (by norm_num) ⟨-1, by norm_num⟩
  refine ⟨_, M, e1, rfl, ?_, ?_⟩
  · rw [e4 1 1 (by show 1 < 3; norm_num), hT, lagSum_eq, hI, Finset.sum_insert (by decide), Finset.sum_insert (by decide), Finset.sum_singleton, k0, k1, k2]
    norm_num [r1, r2]
  · rw [e4 3 1 (by show 1 < 3; norm_num), hT, lagSum_eq, hI, Finset.sum_insert (by decide), Finset.sum_insert (by decide), Finset.sum_singleton, k0, k1, k2]
    norm_num [r3, r4]

/-- Two runs of one object: the hypotheses of `C91_wvd` and `C91_wvd_second_run` at the constant signal of length four. -/
example : ∃ (o₁ o₂ : TFR ℤ) (M₁ G : Mat ℝ), wvdRun (TFR.init makeWindow ⟨4, fun _ => 1⟩ (arange 0 (4 : ℕ)) 4 none) = .ok o₁ ∧ o₁.tfr = .real M₁ ∧
    wvdRun o₁ = .ok o₂ ∧ o₂.tfr = .real G ∧ EvenRows G := by
  obtain ⟨o₁, o₂, M₁, M₂, h1, h2, h3, -⟩ := C91_wvd_second_run (τ := ℤ) ⟨4, fun _ => 1⟩ (arange 0 (4 : ℕ)) 4 (by norm_num) (by rw [arange_len]; rfl) (Or.inl (by
    show ((4 : ℕ) : ℤ) ≤ 2 * roundEven (((4 : ℕ) : ℝ) / 2)
    rw [roundEven_half]
    norm_num))
  obtain ⟨G, h4, h5⟩ := C91_wvd o₁ o₂ M₁ h2 h3
  exact ⟨o₁, o₂, M₁, G, h1, h2, h3, h4, h5⟩

end Tftb.Props
