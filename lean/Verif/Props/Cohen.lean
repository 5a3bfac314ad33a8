import Verif.Lemmas.Cohen
import Verif.Props.Wvd

/-! # Pseudo Wigner-Ville, Margenau-Hill and Page (C36, C38, C39) -/

namespace Tftb.Props

open Tftb Tftb.Spec Tftb.Linear Tftb.Cohen Finset ComplexConjugate

/-! ## C36 pseudo Wigner-Ville -/

/-- `PseudoWignerVilleDistribution(x, timestamps=ts, n_fbins=n, fwindow=h).run()` returns the real matrix `M`. -/
def PwvdReturns {τ : Type} (x : Vec ℂ) (ts : Vec τ) (n : ℕ) (h : Option (Vec ℂ)) (M : Mat ℝ) : Prop :=
  ∃ o, pwvdRun (TFR.init makeWindow x ts n h) = .ok (o, M)

theorem pwvd_unique {τ : Type} {x : Vec ℂ} {ts : Vec τ} {n : ℕ} {h : Option (Vec ℂ)} {M M' : Mat ℝ}
    (h1 : PwvdReturns x ts n h M) (h2 : PwvdReturns x ts n h M') : M = M' := by
  obtain ⟨o, h1⟩ := h1
  obtain ⟨o', h2⟩ := h2
  rw [h1] at h2
  injection h2 with h3
  exact (Prod.mk.inj h3).2

theorem pwvZone_empty {n N : ℕ} {lh : ℤ} (hL : lh < roundEven ((n : ℝ) / 2)) (c : ℕ) : ¬ pwvZone n N lh c := by
  unfold pwvZone; omega

theorem midIdx_odd {h : Vec ℂ} {L : ℕ} (hh : h.len = 2 * L + 1) : midIdx h = L := by
  unfold midIdx; omega

/-- Windows with half-length below half of the bins: entry `(k, t)` is the real part of the lag sum of the instantaneous correlation
multiplied by the window. -/
theorem C36_pwvd {τ : Type} (x : Vec ℂ) (ts : Vec τ) (n : ℕ) (h : Vec ℂ) (L : ℕ) (hh : h.len = 2 * L + 1)
    (hL : (L : ℤ) < roundEven ((n : ℝ) / 2)) :
    ∃ M, PwvdReturns x ts n (some h) M ∧ M.rows = n ∧ M.cols = ts.len ∧ ∀ k < n, ∀ t < ts.len,
      M.get k t = (lagSum L n (fun τ => h.get ((L : ℤ) + τ).toNat * wignerKernel x t τ) k).re := by
  have hn : n ≠ 0 := by
    rintro rfl
    rw [roundEven_half] at hL
    simp at hL
    omega
  obtain ⟨F, h1, h2, h3, h4⟩ := pwvdRun_fresh makeWindow x ts n h hn
    (fun c _ => pwvZone_empty (by rw [midIdx_odd hh]; exact hL) c)
  refine ⟨F.map Complex.re, ⟨_, h1⟩, h2, h3, fun k _ t ht => ?_⟩
  show (F.get k t).re = _
  rw [h4 k t ht, midIdx_odd hh, dftC_lagCol_symm hn]
  · congr 1
    rw [lagSum_congr (w := fun τ => zext h ((L : ℤ) + τ) * wignerKernel x t τ) (R := (L : ℤ))
      (v := fun τ => h.get ((L : ℤ) + τ).toNat * wignerKernel x t τ)
      (fun τ h1 h2 => by rw [zext_of_mem (x := h) (i := (L : ℤ) + τ) (by omega) (by omega)])]
    apply lagSum_extend
    · unfold pwvT; omega
    · intro τ h1 h2 h3
      unfold pwvT at h3
      unfold wignerKernel
      by_cases h4 : 0 ≤ (t : ℤ) + τ ∧ (t : ℤ) + τ < x.len
      · rw [zext_of_not_mem (x := x) (i := (t : ℤ) - τ) (by omega)]; simp
      · rw [zext_of_not_mem h4, zero_mul, mul_zero]
  · unfold pwvT
    rw [roundEven_half] at hL ⊢
    split at hL <;> split <;> omega

/-- Exactly when the run returns, for odd windows: no column lies in the zone of the Nyquist lag, which only exists for windows with
half-length at least half of the bins. -/
theorem C36_returns_iff {τ : Type} (x : Vec ℂ) (ts : Vec τ) (n : ℕ) (hn : n ≠ 0) (h : Vec ℂ) (L : ℕ)
    (hh : h.len = 2 * L + 1) :
    (∃ M, PwvdReturns x ts n (some h) M) ↔
      ((L : ℤ) < roundEven ((n : ℝ) / 2) ∨
        ∀ c < ts.len, (x.len : ℤ) - roundEven ((n : ℝ) / 2) < c ∨ (c : ℤ) ≤ roundEven ((n : ℝ) / 2)) := by
  have hm := midIdx_odd hh
  constructor
  · rintro ⟨M, o, h1⟩
    by_contra hcon
    push Not at hcon
    obtain ⟨h2, c, h3, h4, h5⟩ := hcon
    rw [pwvdRun_zone makeWindow x ts n h hn ⟨c, h3, by unfold pwvZone; rw [hm]; omega⟩] at h1
    cases h1
  · intro hcon
    obtain ⟨F, h1, _⟩ := pwvdRun_fresh makeWindow x ts n h hn
      (fun c hc => by
        unfold pwvZone; rw [hm]
        rcases hcon with h1 | h1
        · omega
        · have := h1 c hc; omega)
    exact ⟨_, _, h1⟩

/-- Otherwise it raises `IndexError`. -/
theorem C36_raises {τ : Type} (x : Vec ℂ) (ts : Vec τ) (n : ℕ) (hn : n ≠ 0) (h : Vec ℂ) (L : ℕ)
    (hh : h.len = 2 * L + 1) (hno : ¬ ∃ M, PwvdReturns x ts n (some h) M) :
    pwvdRun (TFR.init makeWindow x ts n (some h)) = .error .indexError := by
  rw [C36_returns_iff x ts n hn h L hh] at hno
  push Not at hno
  obtain ⟨h2, c, h3, h4, h5⟩ := hno
  exact pwvdRun_zone makeWindow x ts n h hn ⟨c, h3, by unfold pwvZone; rw [midIdx_odd hh]; omega⟩

/-- For a Hermitian window the sum is real: taking the real part loses nothing. -/
theorem C36_real {τ : Type} (x : Vec ℂ) (ts : Vec τ) (n : ℕ) (h : Vec ℂ) (L : ℕ) (hh : h.len = 2 * L + 1)
    (hL : (L : ℤ) < roundEven ((n : ℝ) / 2)) (hsym : ∀ i ≤ 2 * L, h.get (2 * L - i) = conj (h.get i))
    (M : Mat ℝ) (hM : PwvdReturns x ts n (some h) M) : ∀ k < n, ∀ t < ts.len,
      (M.get k t : ℂ) = lagSum L n (fun τ => h.get ((L : ℤ) + τ).toNat * wignerKernel x t τ) k := by
  intro k hk t ht
  obtain ⟨M', h1, _, _, h4⟩ := C36_pwvd x ts n h L hh hL
  obtain rfl := pwvd_unique hM h1
  rw [h4 k hk t ht]
  apply lagSum_real
  intro τ hτ1 hτ2
  have e : ((L : ℤ) + -τ).toNat = 2 * L - ((L : ℤ) + τ).toNat := by omega
  rw [e, hsym _ (by omega), map_mul, wignerKernel_hermitian]

/-- Each column sums to `n Re(h[centre]) |x[t]|²`. -/
theorem C36_time_marginal {τ : Type} (x : Vec ℂ) (ts : Vec τ) (n : ℕ) (h : Vec ℂ) (L : ℕ) (hh : h.len = 2 * L + 1)
    (hL : (L : ℤ) < roundEven ((n : ℝ) / 2)) (M : Mat ℝ) (hM : PwvdReturns x ts n (some h) M) :
    ∀ t < ts.len, t < x.len → ∑ k ∈ range n, M.get k t = n * (h.get L).re * ‖x.get t‖ ^ 2 := by
  intro t ht htx
  have hn : n ≠ 0 := by
    rintro rfl
    rw [roundEven_half] at hL
    simp at hL
    omega
  obtain ⟨M', h1, _, _, h4⟩ := C36_pwvd x ts n h L hh hL
  obtain rfl := pwvd_unique hM h1
  rw [Finset.sum_congr rfl (fun k hk => h4 k (Finset.mem_range.1 hk) t ht), ← Complex.re_sum, sum_lagSum hn]
  · unfold wignerKernel
    rw [add_zero, add_zero, sub_zero, zext_of_mem (by omega) (by omega), mul_conj_eq_norm_sq, Int.toNat_natCast,
      Int.toNat_natCast, ← Complex.ofReal_natCast, Complex.re_ofReal_mul, Complex.re_mul_ofReal]
    ring
  · omega
  · rw [roundEven_half] at hL
    split at hL <;> omega

theorem makeWindow_len (n : ℕ) : ∃ L : ℕ, (makeWindow n).len = 2 * L + 1 ∧ 8 * L ≤ n := by
  have hl : (makeWindow n).len = n / 4 + (1 - n / 4 % 2) := rfl
  exact ⟨(makeWindow n).len / 2, by rw [hl]; omega, by rw [hl]; omega⟩

theorem hamming_odd (L i : ℕ) (hi : i ≤ 2 * L) :
    (hamming (2 * L + 1)).get (2 * L - i) = (hamming (2 * L + 1)).get i ∧ (hamming (2 * L + 1)).get L = 1 := by
  by_cases hL : L = 0
  · subst hL
    have : i = 0 := by omega
    subst this
    simp [hamming]
  · have h1 : ¬ (2 * L + 1 = 1) := by omega
    have hL' : (L : ℝ) ≠ 0 := by exact_mod_cast hL
    simp only [hamming, if_neg h1]
    constructor
    · congr 2
      have : 2 * Real.pi * ((2 * L - i : ℕ) : ℝ) / (((2 * L + 1 : ℕ) : ℝ) - 1)
          = 2 * Real.pi - 2 * Real.pi * (i : ℝ) / (((2 * L + 1 : ℕ) : ℝ) - 1) := by
        rw [Nat.cast_sub hi]
        push_cast
        field_simp
        ring
      rw [this, Real.cos_two_pi_sub]
    · have : 2 * Real.pi * (L : ℝ) / (((2 * L + 1 : ℕ) : ℝ) - 1) = Real.pi := by
        push_cast; field_simp; ring
      rw [this, Real.cos_pi]; norm_num

/-- Default window, at least two bins: the run returns, the sums are real and column `t` sums to `n |x[t]|²`. -/
theorem C36_default {τ : Type} (x : Vec ℂ) (ts : Vec τ) (n : ℕ) (hn : 2 ≤ n) :
    ∃ (M : Mat ℝ) (L : ℕ), PwvdReturns x ts n none M ∧ M.rows = n ∧ M.cols = ts.len ∧ (makeWindow n).len = 2 * L + 1 ∧
      (∀ k < n, ∀ t < ts.len, (M.get k t : ℂ)
        = lagSum L n (fun τ => ((hamming (2 * L + 1)).get ((L : ℤ) + τ).toNat : ℂ) * wignerKernel x t τ) k) ∧
      ∀ t < ts.len, t < x.len → ∑ k ∈ range n, M.get k t = n * ‖x.get t‖ ^ 2 := by
  obtain ⟨L, hl, hL8⟩ := makeWindow_len n
  have hL : (L : ℤ) < roundEven ((n : ℝ) / 2) := by rw [roundEven_half]; split <;> omega
  have hg : ∀ i, (makeWindow n).get i = ((hamming (2 * L + 1)).get i : ℂ) := by
    intro i
    rw [← hl]; rfl
  obtain ⟨M, h1, h2, h3, _⟩ := C36_pwvd x ts n (makeWindow n) L hl hL
  refine ⟨M, L, h1, h2, h3, hl, fun k hk t ht => ?_, fun t ht htx => ?_⟩
  · rw [C36_real x ts n (makeWindow n) L hl hL (fun i hi => ?_) M h1 k hk t ht]
    · exact lagSum_congr (fun τ _ _ => by rw [hg]) k
    · rw [hg, hg, (hamming_odd L i hi).1, Complex.conj_ofReal]
  · rw [C36_time_marginal x ts n (makeWindow n) L hl hL M h1 t ht htx, hg, (hamming_odd L L (by omega)).2]
    simp

/-- With the rectangular window of the largest half-length the pseudo Wigner-Ville distribution is the Wigner-Ville
distribution. -/
theorem C36_rectangular {τ : Type} (x : Vec ℂ) (ts : Vec τ) (n : ℕ) (hn : 2 ≤ n) (h : Vec ℂ) (L : ℕ)
    (hh : h.len = 2 * L + 1) (hL : (L : ℤ) = roundEven ((n : ℝ) / 2) - 1) (hone : ∀ i < h.len, h.get i = 1)
    (M M' : Mat ℝ) (hM : PwvdReturns x ts n (some h) M) (hM' : WvdReturns x ts n M') : M.Same M' := by
  have hn0 : n ≠ 0 := by omega
  obtain ⟨hts, hN⟩ := (C32_returns_iff x ts n hn0).1 ⟨M', hM'⟩
  obtain ⟨A, a1, a2, a3, a4⟩ := C33_wvd x ts n hn0 hts hN
  obtain rfl := wvd_unique hM' a1
  obtain ⟨B, b1, b2, b3, b4⟩ := C36_pwvd x ts n h L hh (by omega)
  obtain rfl := pwvd_unique hM b1
  refine ⟨by rw [a2, b2], by rw [a3, b3, hts], fun k hk t ht => ?_⟩
  rw [b2] at hk
  rw [b3] at ht
  rw [b4 k hk t ht, ← Complex.ofReal_re (M'.get k t), a4 k hk t (hts ▸ ht), ← hL]
  congr 1
  apply lagSum_congr
  intro τ h1 h2
  rw [hone _ (by omega), one_mul]

example : ∃ M, PwvdReturns ⟨3, fun _ => 1⟩ (arange 0 3) 4 (some ⟨3, fun _ => 1⟩) M := by
  obtain ⟨M, h1, _⟩ := C36_pwvd ⟨3, fun _ => 1⟩ (arange 0 3) 4 ⟨3, fun _ => 1⟩ 1 rfl (by rw [roundEven_half]; norm_num)
  exact ⟨M, h1⟩

/-! ## C38 Margenau-Hill -/

/-- `MargenauHillDistribution(x, timestamps=ts, n_fbins=n).run()` returns the real matrix `M`. -/
def MhReturns (x : Vec ℂ) (ts : Vec ℤ) (n : ℕ) (M : Mat ℝ) : Prop :=
  ∃ o, mhRun (TFR.init makeWindow x ts n none) = .ok o ∧ o.tfr = .real M

theorem sum_reflect (c m d : ℤ) (G : ℤ → ℂ) (m0 : ℕ) (hm : m = m0) (d0 : ℕ) (hd : d = d0) :
    ∑ t ∈ Finset.Icc (c - m + 1) (c - d), G t = ∑ s ∈ Finset.Ico d0 m0, G (c - s) := by
  symm
  apply Finset.sum_bij (fun (s : ℕ) _ => c - (s : ℤ))
  · intro s hs; rw [Finset.mem_Ico] at hs; rw [Finset.mem_Icc]; omega
  · intro a _ b _ h; omega
  · intro t ht
    rw [Finset.mem_Icc] at ht
    exact ⟨(c - t).toNat, by rw [Finset.mem_Ico]; omega, by omega⟩
  · intro s _; rfl

/-- The run returns exactly when every timestamp is an admissible index of the signal; otherwise `IndexError`. -/
theorem C38_returns_iff (x : Vec ℂ) (ts : Vec ℤ) (n : ℕ) (hn : n ≠ 0) :
    ((∃ M, MhReturns x ts n M) ↔ ∀ c < ts.len, -(x.len : ℤ) ≤ ts.get c ∧ ts.get c < x.len) ∧
    ((¬ ∀ c < ts.len, -(x.len : ℤ) ≤ ts.get c ∧ ts.get c < x.len) →
      mhRun (TFR.init makeWindow x ts n none) = .error .indexError) := by
  obtain ⟨h1, h2⟩ := mhRun_spec makeWindow x ts n none hn
  have herr : (¬ ∀ c < ts.len, -(x.len : ℤ) ≤ ts.get c ∧ ts.get c < x.len) →
      mhRun (TFR.init makeWindow x ts n none) = .error .indexError := by
    intro hcon
    apply h2
    by_contra hcon2
    push Not at hcon2
    exact hcon (fun c hc => hcon2 c hc)
  refine ⟨⟨?_, ?_⟩, herr⟩
  · rintro ⟨M, o, ho, _⟩
    by_contra hcon
    rw [herr hcon] at ho
    cases ho
  · intro hP
    obtain ⟨M, h3, _⟩ := h1 hP
    exact ⟨M, _, h3, rfl⟩

/-- Closed form, for all timestamps inside the signal and all numbers of bins: products of `x[t]` with samples `1, 2, …`. -/
theorem C38_margenau_hill (x : Vec ℂ) (ts : Vec ℤ) (n : ℕ) (hn : n ≠ 0)
    (hts : ∀ c < ts.len, 0 ≤ ts.get c ∧ ts.get c < x.len) :
    ∃ M, MhReturns x ts n M ∧ M.rows = n ∧ M.cols = ts.len ∧ ∀ k < n, ∀ c < ts.len,
      M.get k c = (∑ s ∈ Finset.Ico 1 (min n x.len), x.get (ts.get c).toNat * conj (x.get s)
        * expi (-(2 * Real.pi * (k * (ts.get c - s) / n)))).re := by
  obtain ⟨M, h1, h2, h3, h4⟩ := (mhRun_spec makeWindow x ts n none hn).1
    (fun c hc => idxOk_of_lt (hts c hc).1 (hts c hc).2)
  refine ⟨M, ⟨_, h1, rfl⟩, h2, h3, fun k _ c hc => ?_⟩
  rw [h4 k c hc, dftC_lagCol hn (by omega), wrapIdx_of_nonneg (hts c hc).1,
    sum_reflect (ts.get c) (min (n : ℤ) x.len) 1 _ (min n x.len) (by omega) 1 rfl]
  congr 1
  apply Finset.sum_congr rfl
  intro s hs
  rw [Finset.mem_Ico] at hs
  rw [zext_of_mem (x := x) (i := ts.get c - (ts.get c - s)) (by omega) (by omega), rootPow_eq_expi]
  have e1 : (ts.get c - (ts.get c - (s : ℤ))).toNat = s := by omega
  rw [e1]
  congr 3
  push_cast
  ring

theorem mh_unique {x : Vec ℂ} {ts : Vec ℤ} {n : ℕ} {M M' : Mat ℝ} (h : MhReturns x ts n M)
    (h' : MhReturns x ts n M') : M = M' := by
  obtain ⟨o, h1, h2⟩ := h
  obtain ⟨o', h1', h2'⟩ := h'
  rw [h1] at h1'
  injection h1' with h3
  subst h3
  rw [h2] at h2'
  injection h2'

theorem arange_default (N : ℕ) : (arange 0 (N : ℤ)).len = N ∧ ∀ c, (arange 0 (N : ℤ)).get c = (c : ℤ) := by
  refine ⟨by rw [arange_len]; simp, fun c => by rw [arange_get]; simp⟩

theorem expi_split (N : ℕ) (k t s : ℝ) :
    expi (-(2 * Real.pi * (k * (t - s) / N)))
      = expi (-(2 * Real.pi * (k / N) * t)) * conj (expi (-(2 * Real.pi * (k / N) * s))) := by
  rw [conj_expi, ← expi_add]
  congr 1
  ring

/-- Default parameters: `Re(x[t] e^{-2πikt/N} conj(X_k - x[0]))` where `X_k` is the DFT of the signal: sample 0 is left out of
the sum. -/
theorem C38_default (x : Vec ℂ) (hx : x.len ≠ 0) :
    ∃ M, MhReturns x (arange 0 x.len) x.len M ∧ M.rows = x.len ∧ M.cols = x.len ∧ ∀ k < x.len, ∀ t < x.len,
      M.get k t = (x.get t * expi (-(2 * Real.pi * (k / x.len) * t)) * conj (dft x k - x.get 0)).re := by
  obtain ⟨hl, hg⟩ := arange_default x.len
  obtain ⟨M, h1, h2, h3, h4⟩ := C38_margenau_hill x (arange 0 x.len) x.len hx
    (fun c hc => by rw [hl] at hc; rw [hg]; omega)
  rw [hl] at h3
  refine ⟨M, h1, h2, h3, fun k hk t ht => ?_⟩
  rw [h4 k hk t (by rw [hl]; exact ht)]
  simp only [hg, min_self, Int.toNat_natCast]
  congr 1
  have : dft x k - x.get 0 = ∑ s ∈ Finset.Ico 1 x.len, x.get s * expi (-(2 * Real.pi * (k / x.len) * s)) := by
    unfold dft dtft
    rw [← Finset.sum_range_add_sum_Ico _ (show 1 ≤ x.len by omega)]
    simp
  rw [this, map_sum, Finset.mul_sum]
  apply Finset.sum_congr rfl
  intro s _
  rw [Int.cast_natCast, expi_split, map_mul]
  ring

/-- Default parameters: column `t ≥ 1` sums to `N |x[t]|²`, column 0 sums to 0. -/
theorem C38_time_marginal (x : Vec ℂ) (hx : x.len ≠ 0) (M : Mat ℝ) (hM : MhReturns x (arange 0 x.len) x.len M) :
    (∀ t, 1 ≤ t → t < x.len → ∑ k ∈ range x.len, M.get k t = x.len * ‖x.get t‖ ^ 2) ∧
    ∑ k ∈ range x.len, M.get k 0 = 0 := by
  obtain ⟨hl, hg⟩ := arange_default x.len
  obtain ⟨M', h1, _, _, h4⟩ := C38_margenau_hill x (arange 0 x.len) x.len hx
    (fun c hc => by rw [hl] at hc; rw [hg]; omega)
  obtain rfl := mh_unique hM h1
  have key : ∀ t < x.len, ∑ k ∈ range x.len, M.get k t
      = (∑ s ∈ Finset.Ico 1 x.len, if s = t then (x.len : ℂ) * (x.get t * conj (x.get t)) else 0).re := by
    intro t ht
    rw [Finset.sum_congr rfl (fun k hk => h4 k (Finset.mem_range.1 hk) t (by rw [hl]; exact ht)), ← Complex.re_sum,
      Finset.sum_comm]
    simp only [hg, min_self, Int.toNat_natCast]
    congr 1
    apply Finset.sum_congr rfl
    intro s hs
    rw [Finset.mem_Ico] at hs
    rw [← Finset.mul_sum]
    have e1 : ∑ k ∈ range x.len, expi (-(2 * Real.pi * ((k : ℝ) * (((t : ℤ) : ℝ) - (s : ℝ)) / x.len)))
        = ∑ k ∈ range x.len, rootPow x.len ((k : ℤ) * ((t : ℤ) - (s : ℤ))) := by
      apply Finset.sum_congr rfl
      intro k _
      rw [rootPow_eq_expi]
      push_cast
      rfl
    rw [e1, sum_rootPow' hx]
    by_cases hst : s = t
    · subst hst; simp; ring
    · rw [if_neg hst, if_neg, mul_zero]
      rw [natCast_dvd_sub_iff ht hs.2]
      exact fun h => hst h.symm
  constructor
  · intro t h1 ht
    rw [key t ht, Finset.sum_ite_eq' (Finset.Ico 1 x.len) t, if_pos (Finset.mem_Ico.2 ⟨h1, ht⟩), mul_conj_eq_norm_sq,
      ← Complex.ofReal_natCast, Complex.re_ofReal_mul, Complex.ofReal_re]
  · rw [key 0 (by omega), Finset.sum_ite_eq' (Finset.Ico 1 x.len) 0, if_neg (by simp)]
    simp

/-- Default parameters: row `k` sums to `|X_k|² - Re(X_k conj x[0])`; the frequency marginal is exact for signals starting with a
zero sample. -/
theorem C38_freq_marginal (x : Vec ℂ) (hx : x.len ≠ 0) (M : Mat ℝ) (hM : MhReturns x (arange 0 x.len) x.len M) :
    ∀ k < x.len, ∑ t ∈ range x.len, M.get k t = ‖dft x k‖ ^ 2 - (dft x k * conj (x.get 0)).re := by
  intro k hk
  obtain ⟨M', h1, _, _, h4⟩ := C38_default x hx
  obtain rfl := mh_unique hM h1
  rw [Finset.sum_congr rfl (fun t ht => h4 k hk t (Finset.mem_range.1 ht)), ← Complex.re_sum, ← Finset.sum_mul]
  have : ∑ t ∈ range x.len, x.get t * expi (-(2 * Real.pi * ((k : ℝ) / x.len) * t)) = dft x k := rfl
  rw [this, map_sub, mul_sub, mul_conj_eq_norm_sq, Complex.sub_re, Complex.ofReal_re]

example : ∃ M, MhReturns ⟨2, fun _ => 1⟩ (arange 0 2) 2 M ∧ M.get 0 0 = 1 ∧ M.get 0 1 = 1 := by
  obtain ⟨M, h1, _, _, h4⟩ := C38_default ⟨2, fun _ => 1⟩ (by norm_num)
  have hd : dft ⟨2, fun _ => 1⟩ 0 = 2 := by
    simp [dft, dtft]
  refine ⟨M, h1, ?_, ?_⟩
  · rw [h4 0 (by norm_num) 0 (by norm_num), hd]; norm_num
  · rw [h4 0 (by norm_num) 1 (by norm_num), hd]; norm_num

/-! ## C39 Page -/

/-- `PageRepresentation(x, timestamps=ts, n_fbins=n).run()` returns the real matrix `M`. -/
def PageReturns (x : Vec ℂ) (ts : Vec ℤ) (n : ℕ) (M : Mat ℝ) : Prop :=
  ∃ o, pageRun (TFR.init makeWindow x ts n none) = .ok o ∧ o.tfr = .real M

theorem page_unique {x : Vec ℂ} {ts : Vec ℤ} {n : ℕ} {M M' : Mat ℝ} (h : PageReturns x ts n M)
    (h' : PageReturns x ts n M') : M = M' := by
  obtain ⟨o, h1, h2⟩ := h
  obtain ⟨o', h1', h2'⟩ := h'
  rw [h1] at h1'
  injection h1' with h3
  subst h3
  rw [h2] at h2'
  injection h2'

/-- The run returns exactly when every timestamp is an admissible index of the signal; otherwise `IndexError`. -/
theorem C39_returns_iff (x : Vec ℂ) (ts : Vec ℤ) (n : ℕ) (hn : n ≠ 0) :
    ((∃ M, PageReturns x ts n M) ↔ ∀ c < ts.len, -(x.len : ℤ) ≤ ts.get c ∧ ts.get c < x.len) ∧
    ((¬ ∀ c < ts.len, -(x.len : ℤ) ≤ ts.get c ∧ ts.get c < x.len) →
      pageRun (TFR.init makeWindow x ts n none) = .error .indexError) := by
  obtain ⟨h1, h2⟩ := pageRun_spec makeWindow x ts n none hn
  have herr : (¬ ∀ c < ts.len, -(x.len : ℤ) ≤ ts.get c ∧ ts.get c < x.len) →
      pageRun (TFR.init makeWindow x ts n none) = .error .indexError := by
    intro hcon
    apply h2
    by_contra hcon2
    push Not at hcon2
    exact hcon (fun c hc => hcon2 c hc)
  refine ⟨⟨?_, ?_⟩, herr⟩
  · rintro ⟨M, o, ho, _⟩
    by_contra hcon
    rw [herr hcon] at ho
    cases ho
  · intro hP
    obtain ⟨M, h3, _⟩ := h1 hP
    exact ⟨M, _, h3, rfl⟩

/-- Closed form, for all timestamps inside the signal and all numbers of bins. -/
theorem C39_page (x : Vec ℂ) (ts : Vec ℤ) (n : ℕ) (hn : n ≠ 0)
    (hts : ∀ c < ts.len, 0 ≤ ts.get c ∧ ts.get c < x.len) :
    ∃ M, PageReturns x ts n M ∧ M.rows = n ∧ M.cols = ts.len ∧ ∀ k < n, ∀ c < ts.len,
      M.get k c = (∑ s ∈ range (min n x.len), x.get (ts.get c).toNat * conj (x.get s)
        * expi (-(2 * Real.pi * (k * (ts.get c - 1 - s) / n)))).re := by
  obtain ⟨M, h1, h2, h3, h4⟩ := (pageRun_spec makeWindow x ts n none hn).1
    (fun c hc => idxOk_of_lt (hts c hc).1 (hts c hc).2)
  refine ⟨M, ⟨_, h1, rfl⟩, h2, h3, fun k _ c hc => ?_⟩
  have e0 : Finset.Icc (ts.get c - min (n : ℤ) x.len) (ts.get c - 1)
      = Finset.Icc ((ts.get c - 1) - min (n : ℤ) x.len + 1) (ts.get c - 1 - 0) := by
    congr 1 <;> ring
  rw [h4 k c hc, dftC_lagCol hn (by omega), wrapIdx_of_nonneg (hts c hc).1, e0,
    sum_reflect (ts.get c - 1) (min (n : ℤ) x.len) 0 _ (min n x.len) (by omega) 0 rfl, Nat.Ico_zero_eq_range]
  congr 1
  apply Finset.sum_congr rfl
  intro s hs
  rw [Finset.mem_range] at hs
  rw [zext_of_mem (x := x) (i := ts.get c - (ts.get c - 1 - s) - 1) (by omega) (by omega), rootPow_eq_expi]
  have e2 : (ts.get c - (ts.get c - 1 - (s : ℤ)) - 1).toNat = s := by omega
  rw [e2]
  congr 3
  push_cast
  ring

/-- Default parameters: `Re(x[t] e^{-2πik(t-1)/N} conj(X_k))` where `X_k` is the DFT of the *whole* signal. -/
theorem C39_default (x : Vec ℂ) (hx : x.len ≠ 0) :
    ∃ M, PageReturns x (arange 0 x.len) x.len M ∧ M.rows = x.len ∧ M.cols = x.len ∧ ∀ k < x.len, ∀ t < x.len,
      M.get k t = (x.get t * expi (-(2 * Real.pi * (k / x.len) * ((t : ℝ) - 1))) * conj (dft x k)).re := by
  obtain ⟨hl, hg⟩ := arange_default x.len
  obtain ⟨M, h1, h2, h3, h4⟩ := C39_page x (arange 0 x.len) x.len hx
    (fun c hc => by rw [hl] at hc; rw [hg]; omega)
  rw [hl] at h3
  refine ⟨M, h1, h2, h3, fun k hk t ht => ?_⟩
  rw [h4 k hk t (by rw [hl]; exact ht)]
  simp only [hg, min_self, Int.toNat_natCast]
  congr 1
  unfold dft dtft
  rw [map_sum, Finset.mul_sum]
  apply Finset.sum_congr rfl
  intro s _
  rw [Int.cast_natCast, expi_split, map_mul]
  ring

/-- Column sums: `N Re(x[t] conj x[t-1])`, where `x[-1]` is the last sample. -/
theorem C39_column_sum (x : Vec ℂ) (hx : x.len ≠ 0) (M : Mat ℝ) (hM : PageReturns x (arange 0 x.len) x.len M) :
    ∀ t < x.len, ∑ k ∈ range x.len, M.get k t
      = x.len * (x.get t * conj (x.get ((t + x.len - 1) % x.len))).re := by
  intro t ht
  obtain ⟨hl, hg⟩ := arange_default x.len
  obtain ⟨M', h1, _, _, h4⟩ := C39_page x (arange 0 x.len) x.len hx
    (fun c hc => by rw [hl] at hc; rw [hg]; omega)
  obtain rfl := page_unique hM h1
  set p := (t + x.len - 1) % x.len with hp
  have hpl : p < x.len := Nat.mod_lt _ (by omega)
  have hpt : (x.len : ℤ) ∣ ((t : ℤ) - 1) - p := by
    have h1 : ((p : ℕ) : ℤ) = ((t : ℤ) + x.len - 1) % x.len := by
      rw [hp]; push_cast [Nat.cast_sub (show 1 ≤ t + x.len by omega)]; rfl
    rw [h1]
    have := Int.emod_add_mul_ediv ((t : ℤ) + x.len - 1) x.len
    refine ⟨((t : ℤ) + x.len - 1) / x.len - 1, ?_⟩
    rw [mul_sub, mul_one]
    omega
  rw [Finset.sum_congr rfl (fun k hk => h4 k (Finset.mem_range.1 hk) t (by rw [hl]; exact ht)), ← Complex.re_sum,
    Finset.sum_comm]
  simp only [hg, min_self, Int.toNat_natCast]
  have e1 : ∀ s ∈ range x.len, ∑ k ∈ range x.len, x.get t * conj (x.get s)
      * expi (-(2 * Real.pi * ((k : ℝ) * (((t : ℤ) : ℝ) - 1 - (s : ℝ)) / x.len)))
      = if s = p then (x.len : ℂ) * (x.get t * conj (x.get p)) else 0 := by
    intro s hs
    rw [Finset.mem_range] at hs
    rw [← Finset.mul_sum]
    have e1 : ∑ k ∈ range x.len, expi (-(2 * Real.pi * ((k : ℝ) * (((t : ℤ) : ℝ) - 1 - (s : ℝ)) / x.len)))
        = ∑ k ∈ range x.len, rootPow x.len ((k : ℤ) * ((t : ℤ) - 1 - (s : ℤ))) := by
      apply Finset.sum_congr rfl
      intro k _
      rw [rootPow_eq_expi]
      push_cast
      rfl
    rw [e1, sum_rootPow' hx]
    by_cases hst : s = p
    · subst hst; rw [if_pos rfl, if_pos hpt]; ring
    · rw [if_neg hst, if_neg, mul_zero]
      intro hd
      have h5 : (x.len : ℤ) ∣ (p : ℤ) - s := by
        have := dvd_sub hd hpt
        have e : ((t : ℤ) - 1 - s) - ((t : ℤ) - 1 - p) = (p : ℤ) - s := by ring
        rwa [e] at this
      rw [natCast_dvd_sub_iff hpl hs] at h5
      exact hst h5.symm
  rw [Finset.sum_congr rfl e1, Finset.sum_ite_eq' (range x.len) p, if_pos (Finset.mem_range.2 hpl),
    ← Complex.ofReal_natCast, Complex.re_ofReal_mul]

/-- Row sums: `cos(2πk/N) |X_k|²`. -/
theorem C39_row_sum (x : Vec ℂ) (hx : x.len ≠ 0) (M : Mat ℝ) (hM : PageReturns x (arange 0 x.len) x.len M) :
    ∀ k < x.len, ∑ t ∈ range x.len, M.get k t = Real.cos (2 * Real.pi * k / x.len) * ‖dft x k‖ ^ 2 := by
  intro k hk
  obtain ⟨M', h1, _, _, h4⟩ := C39_default x hx
  obtain rfl := page_unique hM h1
  rw [Finset.sum_congr rfl (fun t ht => h4 k hk t (Finset.mem_range.1 ht)), ← Complex.re_sum, ← Finset.sum_mul]
  have : ∑ t ∈ range x.len, x.get t * expi (-(2 * Real.pi * ((k : ℝ) / x.len) * ((t : ℝ) - 1)))
      = expi (2 * Real.pi * k / x.len) * dft x k := by
    unfold dft dtft
    rw [Finset.mul_sum]
    apply Finset.sum_congr rfl
    intro t _
    have : -(2 * Real.pi * ((k : ℝ) / x.len) * ((t : ℝ) - 1))
        = 2 * Real.pi * k / x.len + -(2 * Real.pi * ((k : ℝ) / x.len) * t) := by ring
    rw [this, expi_add]
    ring
  rw [this, mul_assoc, mul_conj_eq_norm_sq, Complex.re_mul_ofReal]
  congr 1
  unfold expi
  rw [Complex.exp_ofReal_mul_I_re]

/-- Quadratic: multiplying the signal by `a` multiplies the representation by `|a|²`. -/
theorem C39_scale (x : Vec ℂ) (hx : x.len ≠ 0) (a : ℂ) (M M' : Mat ℝ) (hM : PageReturns x (arange 0 x.len) x.len M)
    (hM' : PageReturns (x.map (fun z => a * z)) (arange 0 x.len) x.len M') :
    ∀ k < x.len, ∀ t < x.len, M'.get k t = ‖a‖ ^ 2 * M.get k t := by
  intro k hk t ht
  obtain ⟨A, a1, _, _, a4⟩ := C39_default x hx
  obtain ⟨B, b1, _, _, b4⟩ := C39_default (x.map (fun z => a * z)) hx
  obtain rfl := page_unique hM a1
  obtain rfl := page_unique hM' b1
  rw [a4 k hk t ht, b4 k hk t ht]
  have e1 : dft (x.map (fun z => a * z)) k = a * dft x k := by
    unfold dft dtft
    rw [Finset.mul_sum]
    exact Finset.sum_congr rfl (fun s _ => by rw [Vec.map_get, Vec.map_len]; ring)
  rw [e1, Vec.map_get, Vec.map_len, map_mul]
  have e2 : ∀ u v w : ℂ, a * u * v * (conj a * w) = ((‖a‖ ^ 2 : ℝ) : ℂ) * (u * v * w) := by
    intro u v w; rw [← mul_conj_eq_norm_sq]; ring
  rw [e2, Complex.re_ofReal_mul]

/-- It is not causal: two signals with the same past (and present) can have different columns. -/
theorem C39_not_causal : ∃ (x y : Vec ℂ) (t : ℕ) (M M' : Mat ℝ), x.len = y.len ∧ t < x.len ∧
    (∀ i ≤ t, x.get i = y.get i) ∧ PageReturns x (arange 0 x.len) x.len M ∧ PageReturns y (arange 0 y.len) y.len M' ∧
    ∃ k < x.len, M.get k t ≠ M'.get k t := by
  obtain ⟨A, a1, _, _, a4⟩ := C39_default ⟨2, fun i => if i = 0 then 1 else 0⟩ (by norm_num)
  obtain ⟨B, b1, _, _, b4⟩ := C39_default ⟨2, fun _ => 1⟩ (by norm_num)
  refine ⟨⟨2, fun i => if i = 0 then 1 else 0⟩, ⟨2, fun _ => 1⟩, 0, A, B, rfl, by norm_num, ?_, a1, b1, 0, by norm_num, ?_⟩
  · intro i hi
    have : i = 0 := by omega
    subst this; rfl
  · rw [a4 0 (by norm_num) 0 (by norm_num), b4 0 (by norm_num) 0 (by norm_num)]
    simp [dft, dtft]

/-- `PageRepresentation.plot` never returns, whatever has been run before. -/
theorem C39_plot_raises (o : TFR ℤ) (thr : ℝ) : pagePlot o thr = .error .typeError := rfl

/-! ## C61 pseudo Margenau-Hill -/

/-- `PseudoMargenauHillDistribution(x, timestamps=ts, n_fbins=n, fwindow=h).run()` returns the complex matrix `F`. -/
def PmhReturns {τ : Type} (x : Vec ℂ) (ts : Vec τ) (n : ℕ) (h : Option (Vec ℂ)) (F : Mat ℂ) : Prop :=
  ∃ o, pmhRun (TFR.init pmhWindow x ts n h) = .ok o ∧ o.tfr = .cplx F

theorem pmh_unique {τ : Type} {x : Vec ℂ} {ts : Vec τ} {n : ℕ} {h : Option (Vec ℂ)} {M M' : Mat ℂ}
    (h1 : PmhReturns x ts n h M) (h2 : PmhReturns x ts n h M') : M = M' := by
  obtain ⟨o, h1, e1⟩ := h1
  obtain ⟨o', h2, e2⟩ := h2
  rw [h1] at h2
  injection h2 with h3
  subst h3
  rw [e1] at e2
  injection e2

/-- Odd window shorter than the half of the bins, or signal shorter than that: the run returns exactly when there are at most as many timestamps as samples (else
`IndexError`); column `c` is the lag sum of `h[τ] x[c] conj x[c - 1 - τ]`: the lag is shifted by one. -/
theorem C61_pmh {τ : Type} (x : Vec ℂ) (ts : Vec τ) (n : ℕ) (h : Vec ℂ) (L : ℕ) (hh : h.len = 2 * L + 1)
    (hL : (L : ℤ) < roundEven ((n : ℝ) / 2) - 1 ∨ (x.len : ℤ) < roundEven ((n : ℝ) / 2) - 1) :
    (ts.len ≤ x.len → ∃ F, PmhReturns x ts n (some h) F ∧ F.rows = n ∧ F.cols = ts.len ∧ ∀ k < n, ∀ c < ts.len,
      F.get k c = lagSum L n (fun τ => h.get ((L : ℤ) + τ).toNat * x.get c * conj (zext x ((c : ℤ) - 1 - τ))) k) ∧
    (x.len < ts.len → pmhRun (TFR.init pmhWindow x ts n (some h)) = .error .indexError) := by
  have hn : n ≠ 0 := by
    rintro rfl
    rw [roundEven_half] at hL
    simp at hL
    omega
  have hcol := fun c => pmhCol_eq pmhWindow x ts n h hn L hh hL c
  constructor
  · intro hts
    have hok : pmhRun (TFR.init pmhWindow x ts n (some h)) = .ok { TFR.init pmhWindow x ts n (some h) with
        tfr := .cplx ⟨n, ts.len, fun k c => dftC n (fun r => if c < ts.len then
          lagCol n (-(min (L : ℤ) ((x.len : ℤ) - c))) (min (L : ℤ) ((c : ℤ) - 1))
          (fun t => zext h (L + t) * x.get c * conj (zext x ((c : ℤ) - t - 1))) r else 0) k⟩ } := by
      unfold pmhRun
      show ((Store.cplx (Mat.zeros n ts.len)).forCols ts.len _ >>= _) = _
      rw [forCols_fresh (g := fun c => ⟨n, lagCol n (-(min (L : ℤ) ((x.len : ℤ) - c))) (min (L : ℤ) ((c : ℤ) - 1))
          (fun t => zext h (L + t) * x.get c * conj (zext x ((c : ℤ) - t - 1)))⟩)
        (fun c hc => by rw [hcol c (by omega), if_pos (by omega)]), ok_bind, fresh_fft hn, ok_bind]
    refine ⟨_, ⟨_, hok, rfl⟩, rfl, rfl, fun k _ c hc => ?_⟩
    simp only [if_pos hc]
    have h2 : 2 * min (L : ℤ) x.len + 1 ≤ n := by
      rw [roundEven_half] at hL
      split at hL <;> omega
    rw [dftC_lagCol hn (by omega), lagSum_eq]
    apply Finset.sum_subset_zero_on_sdiff
    · intro t ht; rw [Finset.mem_Icc] at ht ⊢; omega
    · intro t ht
      rw [Finset.mem_sdiff, Finset.mem_Icc, Finset.mem_Icc] at ht
      rw [zext_of_not_mem (x := x) (i := (c : ℤ) - 1 - t) (by omega)]
      simp
    · intro t ht
      rw [Finset.mem_Icc] at ht
      have e : (c : ℤ) - t - 1 = (c : ℤ) - 1 - t := by ring
      rw [zext_of_mem (x := h) (i := (L : ℤ) + t) (by omega) (by omega), e]
  · intro hts
    unfold pmhRun
    show ((Store.cplx (Mat.zeros n ts.len)).forCols ts.len _ >>= _) = _
    rw [forCols_fresh_error (g := fun c => ⟨n, lagCol n (-(min (L : ℤ) ((x.len : ℤ) - c))) (min (L : ℤ) ((c : ℤ) - 1))
          (fun t => zext h (L + t) * x.get c * conj (zext x ((c : ℤ) - t - 1)))⟩) (c0 := x.len) hts
        (fun c hc => by rw [hcol c (by omega), if_pos (by omega)]) (e := .indexError)
        (by rw [hcol x.len le_rfl, if_neg (by omega)])]
    rfl

/-- In the remaining case, window and signal both reaching half the bins, the run raises `IndexError` for all timestamps (the largest lag is a float). -/
theorem C61_long {τ : Type} (x : Vec ℂ) (ts : Vec τ) (n : ℕ) (h : Vec ℂ) (L : ℕ) (hh : h.len = 2 * L + 1)
    (hL : roundEven ((n : ℝ) / 2) - 1 ≤ L) (hN : roundEven ((n : ℝ) / 2) - 1 ≤ x.len) (hts : ts.len ≠ 0) :
    pmhRun (TFR.init pmhWindow x ts n (some h)) = .error .indexError := by
  have hcol : pmhCol (TFR.init pmhWindow x ts n (some h)) 0 ⟨n, fun _ => 0⟩ = .error .indexError := by
    have hmid : ((h.len : ℤ) - 1) / 2 = L := by omega
    simp only [pmhCol, TFR.init, Option.getD_some, hmid]
    rw [if_pos]
    left
    simp only [decide_eq_true_eq]
    omega
  unfold pmhRun
  show ((Store.cplx (Mat.zeros n ts.len)).forCols ts.len _ >>= _) = _
  rw [forCols_fresh_error (g := fun _ => ⟨0, fun _ => 0⟩) (c0 := 0) (by omega) (fun c hc => absurd hc (by omega)) hcol]
  rfl

example : pmhRun (TFR.init pmhWindow ⟨8, fun _ => 1⟩ (arange 0 8) 8 (some ⟨7, fun _ => 1⟩)) = .error .indexError :=
  C61_long _ _ 8 _ 3 rfl (by rw [roundEven_half]; norm_num) (by rw [roundEven_half]; norm_num) (by rw [arange_len]; norm_num)

/-- The column sums are `n h[centre] x[c] conj x[c-1]` (with `x[-1] = 0`), not `n |x[c]|²`. -/
theorem C61_column_sum {τ : Type} (x : Vec ℂ) (ts : Vec τ) (n : ℕ) (h : Vec ℂ) (L : ℕ) (hh : h.len = 2 * L + 1)
    (hL : (L : ℤ) < roundEven ((n : ℝ) / 2) - 1) (F : Mat ℂ) (hF : PmhReturns x ts n (some h) F) :
    ∀ c < ts.len, ∑ k ∈ range n, F.get k c = n * (h.get L * x.get c * conj (zext x ((c : ℤ) - 1))) := by
  intro c hc
  have hn : n ≠ 0 := by
    rintro rfl
    rw [roundEven_half] at hL
    simp at hL
    omega
  obtain ⟨h1, h2⟩ := C61_pmh x ts n h L hh (.inl hL)
  by_cases hts : ts.len ≤ x.len
  · obtain ⟨F', f1, _, _, f4⟩ := h1 hts
    obtain rfl := pmh_unique hF f1
    rw [Finset.sum_congr rfl (fun k hk => f4 k (Finset.mem_range.1 hk) c hc), sum_lagSum hn (by omega)]
    · simp
    · rw [roundEven_half] at hL
      split at hL <;> omega
  · obtain ⟨o, ho, _⟩ := hF
    rw [h2 (by omega)] at ho
    cases ho

/-- Default parameters: the class works exactly for signals of at least three samples. -/
theorem C61_default (x : Vec ℂ) :
    (3 ≤ x.len → ∃ o, pmhRun (TFR.initDefault pmhWindow x) = .ok o) ∧
    (x.len = 1 ∨ x.len = 2 → pmhRun (TFR.initDefault pmhWindow x) = .error .indexError) := by
  have hl : (pmhWindow x.len).len = if x.len / 4 % 2 = 0 then x.len / 4 + 1 else x.len / 4 := rfl
  constructor
  · intro hx
    obtain ⟨L, hL⟩ : ∃ L, (pmhWindow x.len).len = 2 * L + 1 := ⟨(pmhWindow x.len).len / 2, by rw [hl]; split <;> omega⟩
    have hL8 : 8 * L ≤ x.len := by rw [hl] at hL; split at hL <;> omega
    obtain ⟨F, ⟨o, ho, _⟩, _⟩ := (C61_pmh x (arange 0 x.len) x.len (pmhWindow x.len) L hL
      (.inl <| by rw [roundEven_half]; split <;> omega)).1 (by rw [(arange_default x.len).1])
    exact ⟨o, ho⟩
  · intro hx
    have h0 : (pmhWindow x.len).len = 1 := by rw [hl]; rcases hx with h | h <;> rw [h] <;> rfl
    have hhalf : roundEven ((x.len : ℝ) / 2) - 1 ≤ 0 := by rw [roundEven_half]; split <;> omega
    have hcol : pmhCol (TFR.initDefault pmhWindow x) 0 ⟨x.len, fun _ => 0⟩ = .error .indexError := by
      unfold pmhCol TFR.initDefault TFR.init
      simp only [Option.getD_none, h0]
      rw [if_pos]
      left
      simp only [decide_eq_true_eq]
      omega
    unfold pmhRun
    have hlen : (arange 0 (x.len : ℤ)).len = x.len := (arange_default x.len).1
    show ((Store.cplx (Mat.zeros x.len (arange 0 (x.len : ℤ)).len)).forCols (arange 0 (x.len : ℤ)).len _ >>= _) = _
    rw [forCols_fresh_error (g := fun _ => ⟨0, fun _ => 0⟩) (c0 := 0) (by rw [hlen]; omega)
      (fun c hc => absurd hc (by omega)) hcol]
    rfl

/-- The default window has odd length: the quarter of the number of bins, plus one if that is even.  It is the Hamming window divided by its
middle value, hence one in the middle, symmetric and positive. -/
theorem C61_window (n : ℕ) : ∃ L : ℕ, (2 * L + 1 = n / 4 ∨ 2 * L = n / 4) ∧ (pmhWindow n).len = 2 * L + 1 ∧ (pmhWindow n).get L = 1 ∧
    (1 ≤ L → ∀ i ≤ 2 * L, (pmhWindow n).get i = ((0.54 - 0.46 * Real.cos (Real.pi * i / L) : ℝ) : ℂ)) := by
  obtain ⟨L, hL⟩ : ∃ L, (if n / 4 % 2 = 0 then n / 4 + 1 else n / 4) = 2 * L + 1 := ⟨n / 4 / 2, by split <;> omega⟩
  have hM : (2 * L + 1 - 1) / 2 = L := by omega
  have hmid : (hamming (2 * L + 1)).get L = 1 := by
    unfold hamming
    simp only
    by_cases h : 2 * L + 1 = 1
    · rw [if_pos h]
    · rw [if_neg h]
      have hL0 : (L : ℝ) ≠ 0 := by exact_mod_cast (by omega : L ≠ 0)
      have : 2 * Real.pi * (L : ℝ) / (((2 * L + 1 : ℕ) : ℝ) - 1) = Real.pi := by push_cast; field_simp; ring
      rw [this, Real.cos_pi]
      norm_num
  refine ⟨L, by split at hL <;> omega, by unfold pmhWindow; simp only [hL]; rfl, ?_, fun h1 i hi => ?_⟩
  · unfold pmhWindow
    simp only [hL, hM, Vec.map]
    rw [hmid]
    norm_num
  · unfold pmhWindow
    simp only [hL, hM, Vec.map]
    rw [hmid, div_one]
    unfold hamming
    simp only
    rw [if_neg (by omega)]
    congr 3
    push_cast
    have hL0 : (L : ℝ) ≠ 0 := by exact_mod_cast (by omega : L ≠ 0)
    congr 1
    field_simp
    ring

example : ∃ o, pmhRun (TFR.initDefault pmhWindow ⟨8, fun _ => 1⟩) = .ok o :=
  (C61_default ⟨8, fun _ => 1⟩).1 (by norm_num)

end Tftb.Props
