import Verif.Lemmas.TimeFreq

/-! # The analytic signal -/

namespace Tftb

open Finset ComplexConjugate Spec

theorem hilbertMask_add {n k : ℕ} (hk : k < n) : hilbertMask n k + hilbertMask n ((n - k) % n) = 2 := by
  unfold hilbertMask
  by_cases h0 : k = 0
  · subst h0
    rw [Nat.sub_zero, Nat.mod_self, if_pos rfl]; norm_num
  · rw [Nat.mod_eq_of_lt (by omega), if_neg h0, if_neg (show ¬ n - k = 0 by omega)]
    split_ifs <;> first | omega | norm_num

theorem dftC_neg {n : ℕ} (hn : n ≠ 0) (x : ℕ → ℂ) {k : ℕ} (hk : k < n) : dftC n x (-(k : ℤ)) = dftC n x (((n - k) % n : ℕ) : ℤ) := by
  apply dftC_periodic hn
  push_cast [Nat.cast_sub hk.le]
  have : -(k : ℤ) - ((n : ℤ) - k) % n = -(n : ℤ) + ((n : ℤ) - k - ((n : ℤ) - k) % n) := by ring
  rw [this]
  exact dvd_add (dvd_neg.2 dvd_rfl) (Int.dvd_self_sub_emod)

/-- Spectrum of a real signal. -/
theorem conj_dftC_real {n : ℕ} (hn : n ≠ 0) (x : ℕ → ℝ) {k : ℕ} (hk : k < n) :
    conj (dftC n (fun j => (x j : ℂ)) k) = dftC n (fun j => (x j : ℂ)) (((n - k) % n : ℕ) : ℤ) := by
  rw [conj_dftC, ← dftC_neg hn _ hk]
  congr 1
  funext j
  rw [Complex.conj_ofReal]

theorem dftC_eq_of_eq {n : ℕ} (hn : n ≠ 0) {x y : ℕ → ℂ} (h : ∀ k < n, dftC n x (k : ℤ) = dftC n y (k : ℤ)) :
    ∀ t < n, x t = y t := by
  intro t ht
  rw [← idftC_dftC hn x ht, ← idftC_dftC hn y ht]
  unfold idftC
  congr 1
  exact Finset.sum_congr rfl (fun k hk => by simp only [h k (Finset.mem_range.1 hk)])

theorem hilbert_spec {x : Vec ℝ} (h : x.len ≠ 0) :
    ∃ z : Vec ℂ, hilbert x = .ok z ∧ z.len = x.len ∧ (∀ t < x.len, (z.get t).re = x.get t) ∧
      ∀ k < x.len, dftC x.len z.get k = (hilbertMask x.len k : ℂ) * dftC x.len (fun j => (x.get j : ℂ)) k := by
  set n := x.len with hn
  set X : ℕ → ℂ := fun k => dftC n (fun j => (x.get j : ℂ)) k with hX
  have hok : hilbert x = .ok ⟨n, fun t => idftC n (fun k => X k * (hilbertMask n k : ℂ)) t⟩ := by
    unfold hilbert
    rw [fft_ok (by exact h), ok_bind, ifft_ok (by exact h)]
    rfl
  have hspec : ∀ k < n, dftC n (fun t => idftC n (fun k => X k * (hilbertMask n k : ℂ)) t) k = (hilbertMask n k : ℂ) * X k :=
    fun k hk => by rw [dftC_idftC h _ hk]; ring
  refine ⟨_, hok, rfl, fun t ht => ?_, hspec⟩
  set z : ℕ → ℂ := fun t => idftC n (fun k => X k * (hilbertMask n k : ℂ)) t with hz
  have key : ∀ t < n, (1 / 2 : ℂ) * (z t + conj (z t)) = (x.get t : ℂ) := by
    refine dftC_eq_of_eq h (x := fun t => (1 / 2 : ℂ) * (z t + conj (z t))) (y := fun t => (x.get t : ℂ)) (fun k hk => ?_)
    rw [dftC_smul, dftC_add, hspec k hk]
    have h1 : dftC n (fun j => conj (z j)) (k : ℤ) = conj (dftC n z (-(k : ℤ))) := by rw [conj_dftC, neg_neg]
    have hk' : (n - k) % n < n := Nat.mod_lt _ (by omega)
    rw [h1, dftC_neg h z hk, hspec _ hk', map_mul, Complex.conj_ofReal, hX]
    simp only
    rw [conj_dftC_real h x.get hk']
    have h2 : (n - (n - k) % n) % n = k := by
      by_cases h0 : k = 0
      · subst h0; simp
      · rw [Nat.mod_eq_of_lt (show n - k < n by omega), show n - (n - k) = k by omega, Nat.mod_eq_of_lt hk]
    rw [h2, ← add_mul, ← Complex.ofReal_add, hilbertMask_add hk]
    push_cast
    ring
  have := congrArg Complex.re (key t ht)
  simp only [Complex.mul_re, Complex.add_re, Complex.conj_re, Complex.ofReal_re] at this
  norm_num at this
  show (z t).re = _
  linarith

/-- A sequence without real part, whose bins of negative frequency vanish and whose bins of frequency zero and one half are real, vanishes. -/
theorem eq_zero_of_spectrum {n : ℕ} (hn : n ≠ 0) (d : ℕ → ℂ) (hre : ∀ t < n, (d t).re = 0)
    (hneg : ∀ k < n, n < 2 * k → dftC n d k = 0) (h0 : (dftC n d 0).im = 0) (hny : ∀ k : ℕ, 2 * k = n → (dftC n d k).im = 0) :
    ∀ t < n, d t = 0 := by
  set v : ℕ → ℝ := fun t => (d t).im with hv
  have hd : ∀ k : ℤ, dftC n d k = Complex.I * dftC n (fun t => (v t : ℂ)) k := fun k => by
    rw [← dftC_smul]
    apply dftC_congr
    intro t ht
    apply Complex.ext <;> simp [hre t ht, hv]
  have hconj := fun k (hk : k < n) => conj_dftC_real hn v hk
  have hz : ∀ k < n, dftC n (fun t => (v t : ℂ)) (k : ℤ) = 0 := by
    have hself : ∀ k < n, (n - k) % n = k → (dftC n d k).im = 0 → dftC n (fun t => (v t : ℂ)) (k : ℤ) = 0 := by
      intro k hk h1 h2
      have h3 := hconj k hk
      rw [h1, Complex.conj_eq_iff_im] at h3
      rw [hd] at h2
      apply Complex.ext
      · simpa using h2
      · exact h3
    intro k hk
    by_cases hk0 : k = 0
    · subst hk0
      exact hself 0 hk (by simp) (by simpa using h0)
    by_cases h1 : n < 2 * k
    · have := hneg k hk h1
      rw [hd] at this
      exact (mul_eq_zero.1 this).resolve_left Complex.I_ne_zero
    by_cases h2 : 2 * k = n
    · exact hself k hk (by rw [Nat.mod_eq_of_lt (by omega)]; omega) (hny k h2)
    · have h3 := hneg (n - k) (by omega) (by omega)
      rw [hd] at h3
      have h4 := (mul_eq_zero.1 h3).resolve_left Complex.I_ne_zero
      have h5 := hconj k hk
      rw [Nat.mod_eq_of_lt (show n - k < n by omega), h4] at h5
      exact (map_eq_zero (starRingEnd ℂ)).1 h5
  refine dftC_eq_of_eq hn (y := fun _ => 0) (fun k hk => ?_)
  rw [hd, hz k hk]
  unfold dftC
  simp

theorem hilbert_analytic {x : Vec ℝ} (h : x.len ≠ 0) : ∃ z : Vec ℂ, hilbert x = .ok z ∧ IsAnalytic x z ∧
    ∀ k, 0 < k → 2 * k < x.len → dft z k = 2 * dft ⟨x.len, fun t => (x.get t : ℂ)⟩ k := by
  obtain ⟨z, hz, hl, hre, hs⟩ := hilbert_spec h
  have hself : ∀ k < x.len, (x.len - k) % x.len = k → (dftC x.len (fun j => (x.get j : ℂ)) k).im = 0 := by
    intro k hk h1
    have h3 := conj_dftC_real h x.get hk
    rwa [h1, Complex.conj_eq_iff_im] at h3
  refine ⟨z, hz, ⟨hl, hre, fun k hk h2 => ?_, ?_, fun k hk => ?_⟩, fun k h0 h1 => ?_⟩
  · rw [dft_eq_dftC, hl, hs k hk]
    unfold hilbertMask
    rw [if_neg (by omega), if_neg (by omega), if_neg (by omega)]
    simp
  · rw [dft_eq_dftC, hl, hs 0 (by omega)]
    unfold hilbertMask
    rw [if_pos rfl, Complex.ofReal_one, one_mul]
    exact hself 0 (by omega) (by simp)
  · rw [dft_eq_dftC, hl, hs k (by omega)]
    unfold hilbertMask
    rw [if_neg (by omega), if_neg (by omega), if_pos hk, Complex.ofReal_one, one_mul]
    exact hself k (by omega) (by rw [Nat.mod_eq_of_lt (by omega)]; omega)
  · rw [dft_eq_dftC, hl, hs k (by omega), dft_eq_dftC]
    unfold hilbertMask
    rw [if_neg (by omega), if_pos h1]
    norm_num

/-- The analytic signal is determined by the real signal. -/
theorem isAnalytic_unique {x : Vec ℝ} {z w : Vec ℂ} (hz : IsAnalytic x z) (hw : IsAnalytic x w) :
    z.len = w.len ∧ ∀ t < x.len, z.get t = w.get t := by
  refine ⟨hz.len.trans hw.len.symm, ?_⟩
  rcases Nat.eq_zero_or_pos x.len with h | h
  · intro t ht; omega
  have hsub : ∀ k : ℤ, dftC x.len (fun t => z.get t - w.get t) k = dftC x.len z.get k - dftC x.len w.get k := fun k => by
    have := dftC_add x.len z.get (fun t => -1 * w.get t) k
    rw [dftC_smul] at this
    rw [sub_eq_add_neg, ← neg_one_mul, ← this]
    apply dftC_congr
    intro t _
    ring
  have hdz : ∀ k : ℕ, dftC x.len z.get k = dft z k := fun k => by rw [dft_eq_dftC, hz.len]
  have hdw : ∀ k : ℕ, dftC x.len w.get k = dft w k := fun k => by rw [dft_eq_dftC, hw.len]
  have := eq_zero_of_spectrum h.ne' (fun t => z.get t - w.get t) (fun t ht => by rw [Complex.sub_re, hz.re t ht, hw.re t ht, sub_self])
    (fun k hk h2 => by rw [hsub, hdz, hdw, hz.neg k hk h2, hw.neg k hk h2, sub_self])
    (by
      have h1 := hdz 0
      have h2 := hdw 0
      rw [Nat.cast_zero] at h1 h2
      rw [hsub, h1, h2, Complex.sub_im, hz.zero, hw.zero, sub_self])
    (fun k hk => by rw [hsub, hdz, hdw, Complex.sub_im, hz.nyquist k hk, hw.nyquist k hk, sub_self])
  intro t ht
  exact sub_eq_zero.1 (this t ht)

theorem hilbert_empty {x : Vec ℝ} (h : x.len = 0) : hilbert x = .error .valueError := by
  unfold hilbert fft
  rw [if_pos (by exact h)]
  rfl

theorem dftC_const {n k : ℕ} (h0 : 0 < k) (hk : k < n) (c : ℂ) : dftC n (fun _ => c) k = 0 := by
  have hn : n ≠ 0 := by omega
  have h1 := dftC_idftC hn (fun j => if j = 0 then (n : ℂ) * c else 0) hk
  rw [if_neg (by omega)] at h1
  rw [← h1]
  apply dftC_congr
  intro t _
  unfold idftC
  rw [Finset.sum_eq_single_of_mem 0 (Finset.mem_range.2 (by omega)) (fun j _ hj => by simp only [if_neg hj, zero_mul])]
  have : (n : ℂ) ≠ 0 := Nat.cast_ne_zero.2 hn
  simp
  field_simp

/-- Spectrum of the real part. -/
theorem two_dft_re {x : Vec ℝ} {z : Vec ℂ} (hz : IsAnalytic x z) {k : ℕ} (hk : k < x.len) :
    2 * dftC x.len (fun t => (x.get t : ℂ)) k = dftC x.len z.get k + conj (dftC x.len z.get (((x.len - k) % x.len : ℕ) : ℤ)) := by
  have hn : x.len ≠ 0 := by omega
  rw [← dftC_neg hn _ hk, conj_dftC, neg_neg, ← dftC_smul, ← dftC_add]
  apply dftC_congr
  intro t ht
  rw [Complex.add_conj, hz.re t ht]
  push_cast
  ring

theorem analytic_bin {x : Vec ℝ} {z : Vec ℂ} (hz : IsAnalytic x z) {k : ℕ} (h0 : 0 < k) (hk : k < x.len) :
    dftC x.len z.get k = (hilbertMask x.len k : ℂ) * dftC x.len (fun t => (x.get t : ℂ)) k := by
  have hd : ∀ k : ℕ, dftC x.len z.get k = dft z k := fun k => by rw [dft_eq_dftC, hz.len]
  have h2 := two_dft_re hz hk
  rw [Nat.mod_eq_of_lt (by omega), hd, hd] at h2
  unfold hilbertMask
  rw [if_neg (by omega), hd]
  by_cases h3 : 2 * k < x.len
  · rw [if_pos h3]
    rw [hz.neg (x.len - k) (by omega) (by omega), map_zero, add_zero] at h2
    rw [← h2]; norm_num
  · rw [if_neg h3]
    by_cases h4 : 2 * k = x.len
    · rw [if_pos h4]
      have e : x.len - k = k := by omega
      rw [e, Complex.conj_eq_iff_im.2 (hz.nyquist k h4), ← two_mul] at h2
      rw [Complex.ofReal_one, one_mul]
      exact (mul_left_cancel₀ two_ne_zero h2).symm
    · rw [if_neg h4, Complex.ofReal_zero, zero_mul]
      exact hz.neg k hk (by omega)

theorem isAnalytic_smul {x : Vec ℝ} {z : Vec ℂ} (hz : IsAnalytic x z) (c : ℝ) :
    IsAnalytic ⟨x.len, fun t => c * x.get t⟩ ⟨z.len, fun t => (c : ℂ) * z.get t⟩ := by
  have hd : ∀ k : ℕ, dft ⟨z.len, fun t => (c : ℂ) * z.get t⟩ k = c * dft z k := fun k => by
    rw [dft_eq_dftC, dft_eq_dftC]; exact dftC_smul _ _ _ _
  refine ⟨hz.len, fun t ht => ?_, fun k hk h2 => ?_, ?_, fun k hk => ?_⟩
  · simp only [Complex.re_ofReal_mul]
    rw [hz.re t ht]
  · rw [hd, hz.neg k hk h2, mul_zero]
  · rw [hd, Complex.im_ofReal_mul, hz.zero, mul_zero]
  · rw [hd, Complex.im_ofReal_mul, hz.nyquist k hk, mul_zero]

/-- The variance in terms of the spectrum. -/
theorem variance_eq {n : ℕ} (hn : n ≠ 0) (z : ℕ → ℂ) :
    n * ∑ i ∈ range n, ‖z i - (∑ j ∈ range n, z j) / n‖ ^ 2 = ∑ j ∈ range (n - 1), ‖dftC n z ((j + 1 : ℕ) : ℤ)‖ ^ 2 := by
  set m := (∑ j ∈ range n, z j) / (n : ℂ) with hm
  have hn' : (n : ℂ) ≠ 0 := Nat.cast_ne_zero.2 hn
  rw [← parseval hn]
  obtain ⟨p, rfl⟩ : ∃ p, n = p + 1 := ⟨n - 1, by omega⟩
  rw [Finset.sum_range_succ', Nat.add_sub_cancel]
  have hsub : ∀ k : ℤ, dftC (p + 1) (fun t => z t - m) k = dftC (p + 1) z k + dftC (p + 1) (fun _ => -m) k := fun k => by
    rw [← dftC_add]
    apply dftC_congr
    intro t _
    ring
  have h0 : dftC (p + 1) (fun t => z t - m) ((0 : ℕ) : ℤ) = 0 := by
    unfold dftC
    simp only [Nat.cast_zero, mul_zero, rootPow_zero, mul_one]
    rw [Finset.sum_sub_distrib, Finset.sum_const, Finset.card_range, nsmul_eq_mul, hm]
    field_simp
    ring
  rw [h0, norm_zero]
  have hk : ∀ k ∈ range p, ‖dftC (p + 1) (fun t => z t - m) ((k + 1 : ℕ) : ℤ)‖ ^ 2 = ‖dftC (p + 1) z ((k + 1 : ℕ) : ℤ)‖ ^ 2 := by
    intro k hk
    have := Finset.mem_range.1 hk
    rw [hsub, dftC_const (by omega) (by omega), add_zero]
  rw [Finset.sum_congr rfl hk]
  simp

/-- Variance of the analytic signal of a real signal of even length. -/
theorem variance_analytic {x : Vec ℝ} {z : Vec ℂ} (hz : IsAnalytic x z) {m : ℕ} (hm : x.len = 2 * m) (h0 : 0 < m) :
    variance z = 2 * rvariance x.len x.get - ‖dftC x.len (fun t => (x.get t : ℂ)) m‖ ^ 2 / (x.len : ℝ) ^ 2 := by
  have hn : x.len ≠ 0 := by omega
  have hnR : (x.len : ℝ) ≠ 0 := Nat.cast_ne_zero.2 hn
  set n := x.len with hnn
  set X : ℕ → ℂ := fun k => dftC n (fun t => (x.get t : ℂ)) k with hX
  have h1 := variance_eq hn z.get
  have h2 := variance_eq hn (fun t => (x.get t : ℂ))
  have e2 : ∑ i ∈ range n, ‖(x.get i : ℂ) - (∑ j ∈ range n, (x.get j : ℂ)) / n‖ ^ 2 = n * rvariance n x.get := by
    unfold rvariance
    rw [mul_div_cancel₀ _ hnR]
    apply Finset.sum_congr rfl
    intro i _
    have : (x.get i : ℂ) - (∑ j ∈ range n, (x.get j : ℂ)) / n = ((x.get i - (∑ j ∈ range n, x.get j) / n : ℝ) : ℂ) := by push_cast; rfl
    rw [this, Complex.norm_real, Real.norm_eq_abs, sq_abs]
  rw [e2] at h2
  have hv : n * (n * variance z) = ∑ j ∈ range (n - 1), ‖dftC n z.get ((j + 1 : ℕ) : ℤ)‖ ^ 2 := by
    rw [← h1]
    unfold variance mean
    rw [hz.len, ← hnn, mul_div_cancel₀ _ hnR]
  have hsym : ∀ j ∈ range (n - 1), ‖X (n - 1 - 1 - j + 1)‖ ^ 2 = ‖X (j + 1)‖ ^ 2 := by
    intro j hj
    have hj' := Finset.mem_range.1 hj
    have := conj_dftC_real hn x.get (k := j + 1) (by omega)
    rw [Nat.mod_eq_of_lt (by omega)] at this
    have e : n - 1 - 1 - j + 1 = n - (j + 1) := by omega
    rw [e, hX]
    simp only
    rw [← this, Complex.norm_conj]
  set M : ℕ → ℝ := fun k => hilbertMask n k ^ 2 with hM
  have hbin : ∀ j ∈ range (n - 1), ‖dftC n z.get ((j + 1 : ℕ) : ℤ)‖ ^ 2 = M (j + 1) * ‖X (j + 1)‖ ^ 2 := by
    intro j hj
    have hj' := Finset.mem_range.1 hj
    rw [analytic_bin hz (by omega) (by omega), norm_mul, mul_pow, Complex.norm_real, Real.norm_eq_abs, sq_abs]
  rw [Finset.sum_congr rfl hbin] at hv
  have hrefl := Finset.sum_range_reflect (fun j => M (j + 1) * ‖X (j + 1)‖ ^ 2) (n - 1)
  have hdouble : 2 * ∑ j ∈ range (n - 1), M (j + 1) * ‖X (j + 1)‖ ^ 2
      = ∑ j ∈ range (n - 1), (M (j + 1) + M (n - (j + 1))) * ‖X (j + 1)‖ ^ 2 := by
    rw [two_mul]
    conv_lhs => rw [← hrefl]
    rw [hrefl]
    conv_lhs => lhs; rw [← hrefl]
    rw [← Finset.sum_add_distrib]
    apply Finset.sum_congr rfl
    intro j hj
    have hj' := Finset.mem_range.1 hj
    rw [hsym j hj]
    have e : n - 1 - 1 - j + 1 = n - (j + 1) := by omega
    rw [e]
    ring
  have hmask : ∀ j ∈ range (n - 1), (M (j + 1) + M (n - (j + 1))) * ‖X (j + 1)‖ ^ 2
      = 4 * ‖X (j + 1)‖ ^ 2 - if j = m - 1 then 2 * ‖X m‖ ^ 2 else 0 := by
    intro j hj
    have hj' := Finset.mem_range.1 hj
    rw [hM]
    unfold hilbertMask
    by_cases hjm : j = m - 1
    · have e1 : j + 1 = m := by omega
      rw [if_pos hjm, e1]
      simp only
      rw [if_neg (by omega), if_neg (by omega), if_pos (by omega), if_neg (by omega), if_neg (by omega), if_pos (by omega)]
      ring
    · rw [if_neg hjm]
      simp only
      rw [if_neg (by omega), if_neg (show ¬ n - (j + 1) = 0 by omega)]
      by_cases hlt : 2 * (j + 1) < n
      · rw [if_pos hlt, if_neg (show ¬ 2 * (n - (j + 1)) < n by omega), if_neg (show ¬ 2 * (n - (j + 1)) = n by omega)]
        ring
      · rw [if_neg hlt, if_neg (show ¬ 2 * (j + 1) = n by omega), if_pos (show 2 * (n - (j + 1)) < n by omega)]
        ring
  rw [Finset.sum_congr rfl hmask, Finset.sum_sub_distrib, ← Finset.mul_sum, Finset.sum_ite_eq', if_pos (Finset.mem_range.2 (by omega)),
    ← h2] at hdouble
  have hfin : n * (n * variance z) = 2 * (n * (n * rvariance n x.get)) - ‖X m‖ ^ 2 := by linarith
  field_simp
  linarith

end Tftb
