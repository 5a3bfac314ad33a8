import Verif.Lemmas.Affine

/-! # C58: the default band of the affine distributions -/

namespace Tftb.Props

open Finset Spec Aff

/-- Real part of a signal. -/
noncomputable def realPart (x : Vec ℂ) : Vec ℝ := x.map Complex.re

theorem halfBins_pos {n : ℕ} (hn : 2 ≤ n) : 1 ≤ halfBins n := by unfold halfBins; split <;> omega

theorem edge_eq (k h : ℕ) : (k : ℝ) / (2 * h) / 0.05 = 10 * k / h := by
  rcases Nat.eq_zero_or_pos h with rfl | hh
  · simp
  · have : (h : ℝ) ≠ 0 := by exact_mod_cast hh.ne'
    field_simp
    ring

/-- The band when no edge is given: the outermost strong bins of the real part, rounded outwards to multiples of `0.05`, but never below
`0.01`. -/
theorem C58_band (x : Vec ℂ) (hn : 2 ≤ x.len) (hx : ∃ k < halfBins x.len, dft ((realPart x).map Complex.ofReal) k ≠ 0) :
    ∃ (fmin fmax : ℝ) (lo hi : ℕ), init x (arange 0 x.len) none none = .ok (fmin, fmax, fmax - fmin, (fmax - fmin) / (fmin + fmax) * 2) ∧
      StrongRange (realPart x) lo hi ∧
      fmin = max (1 / 100) ((⌊10 * (lo : ℝ) / halfBins x.len⌋ : ℝ) / 20) ∧
      fmax = (⌈10 * (hi : ℝ) / halfBins x.len⌉ : ℝ) / 20 ∧
      1 / 100 ≤ fmin ∧ 0 ≤ fmax ∧ fmax ≤ 1 / 2 ∧
      (∀ k, Strong (realPart x) k → (k : ℝ) / (2 * halfBins x.len) ≤ fmax ∧ fmin ≤ max (1 / 100) ((k : ℝ) / (2 * halfBins x.len))) ∧
      (0 < hi → 1 / 20 ≤ fmax) := by
  obtain ⟨lo, hi, hr⟩ := strongRange_exists (s := realPart x) hx
  set h := halfBins x.len with hh
  have hpos : (0 : ℝ) < h := by exact_mod_cast halfBins_pos hn
  have hb := band_strong (realPart x) hn none none hr
  simp only [Option.getD_none] at hb
  set fmin : ℝ := max (1 / 100) ((⌊10 * (lo : ℝ) / h⌋ : ℝ) / 20) with hmin
  set fmax : ℝ := (⌈10 * (hi : ℝ) / h⌉ : ℝ) / 20 with hmax
  have hl : (realPart x).len = x.len := rfl
  rw [edge_eq, edge_eq, hl, ← hh] at hb
  have e1 : max 0.01 (0.05 * (⌊10 * (lo : ℝ) / h⌋ : ℝ)) = fmin := by
    rw [hmin]; congr 1 <;> ring
  have e2 : 0.05 * (⌈10 * (hi : ℝ) / h⌉ : ℝ) = fmax := by rw [hmax]; ring
  rw [e1, e2] at hb
  have h0 : 1 / 100 ≤ fmin := le_max_left _ _
  have hceil0 : (0 : ℤ) ≤ ⌈10 * (hi : ℝ) / h⌉ := Int.ceil_nonneg (by positivity)
  have h1 : 0 ≤ fmax := by rw [hmax]; have : (0 : ℝ) ≤ (⌈10 * (hi : ℝ) / h⌉ : ℝ) := by exact_mod_cast hceil0
                           positivity
  have hhi : (hi : ℝ) < h := by exact_mod_cast hr.hi_strong.1
  have hdiv : ∀ k : ℕ, (k : ℝ) / (2 * h) = 10 * (k : ℝ) / h / 20 := fun k => by field_simp; ring
  refine ⟨fmin, fmax, lo, hi, ?_, hr, rfl, rfl, h0, h1, ?_, fun k hk => ⟨?_, ?_⟩, fun hp => ?_⟩
  · unfold init
    rw [show x.map Complex.re = realPart x from rfl, hb, ok_bind]
    simp only
    rw [if_neg (by linarith)]
  · have : ⌈10 * (hi : ℝ) / h⌉ ≤ 10 := by
      rw [Int.ceil_le, div_le_iff₀ hpos]; push_cast; linarith
    have : (⌈10 * (hi : ℝ) / h⌉ : ℝ) ≤ 10 := by exact_mod_cast this
    rw [hmax]; linarith
  · rw [hdiv, hmax]
    have hk' : (k : ℝ) ≤ hi := by exact_mod_cast (hr.bounds k hk).2
    have := Int.le_ceil (10 * (hi : ℝ) / h)
    have : 10 * (k : ℝ) / h ≤ 10 * (hi : ℝ) / h := by gcongr
    linarith
  · rw [hdiv, hmin]
    apply max_le_max le_rfl
    have hk' : (lo : ℝ) ≤ k := by exact_mod_cast (hr.bounds k hk).1
    have := Int.floor_le (10 * (lo : ℝ) / h)
    have : 10 * (lo : ℝ) / h ≤ 10 * (k : ℝ) / h := by gcongr
    linarith
  · have : (0 : ℝ) < 10 * (hi : ℝ) / h := by have : (0 : ℝ) < hi := by exact_mod_cast hp
                                             positivity
    have : (1 : ℤ) ≤ ⌈10 * (hi : ℝ) / h⌉ := Int.one_le_ceil_iff.2 this
    have : (1 : ℝ) ≤ (⌈10 * (hi : ℝ) / h⌉ : ℝ) := by exact_mod_cast this
    rw [hmax]; linarith

/-- An edge that is given is used as it is; only a missing one is estimated. -/
theorem C58_given (x : Vec ℂ) (hn : 2 ≤ x.len) (a b : ℝ) :
    (a + b ≠ 0 → ∀ ts, init x ts (some a) (some b) = .ok (a, b, b - a, (b - a) / (a + b) * 2)) ∧
    ∀ lo hi, StrongRange (realPart x) lo hi →
      (0 ≤ a → 0 < a + (hi : ℝ) → init x (arange 0 x.len) (some a) none = .ok (a, (⌈10 * (hi : ℝ) / halfBins x.len⌉ : ℝ) / 20,
        (⌈10 * (hi : ℝ) / halfBins x.len⌉ : ℝ) / 20 - a,
        ((⌈10 * (hi : ℝ) / halfBins x.len⌉ : ℝ) / 20 - a) / (a + (⌈10 * (hi : ℝ) / halfBins x.len⌉ : ℝ) / 20) * 2)) ∧
      (0 ≤ b → init x (arange 0 x.len) none (some b) = .ok (max (1 / 100) ((⌊10 * (lo : ℝ) / halfBins x.len⌋ : ℝ) / 20), b,
        b - max (1 / 100) ((⌊10 * (lo : ℝ) / halfBins x.len⌋ : ℝ) / 20),
        (b - max (1 / 100) ((⌊10 * (lo : ℝ) / halfBins x.len⌋ : ℝ) / 20)) /
          (max (1 / 100) ((⌊10 * (lo : ℝ) / halfBins x.len⌋ : ℝ) / 20) + b) * 2)) := by
  have hpos : (0 : ℝ) < halfBins x.len := by exact_mod_cast halfBins_pos hn
  constructor
  · intro hab ts
    unfold init band
    simp only [ok_bind]
    rw [if_neg hab]
  · intro lo hi hr
    have hl : (realPart x).len = x.len := rfl
    constructor
    · intro ha hah
      have hb := band_strong (realPart x) hn (some a) none hr
      simp only [Option.getD_none, Option.getD_some] at hb
      rw [edge_eq, hl, show 0.05 * (⌈10 * (hi : ℝ) / halfBins x.len⌉ : ℝ) = (⌈10 * (hi : ℝ) / halfBins x.len⌉ : ℝ) / 20 by ring] at hb
      unfold init
      rw [show x.map Complex.re = realPart x from rfl, hb, ok_bind]
      simp only
      rw [if_neg]
      have h1 := Int.le_ceil (10 * (hi : ℝ) / halfBins x.len)
      have h2 : (0 : ℝ) ≤ 10 * (hi : ℝ) / halfBins x.len := by positivity
      intro h0
      have h3 : 10 * (hi : ℝ) / halfBins x.len = 0 := by linarith
      have h4 : (hi : ℝ) = 0 := by
        rw [div_eq_zero_iff] at h3
        rcases h3 with h3 | h3 <;> linarith
      rw [h4, add_zero] at hah
      linarith
    · intro hb0
      have hb := band_strong (realPart x) hn none (some b) hr
      simp only [Option.getD_none, Option.getD_some] at hb
      rw [edge_eq, hl, show max 0.01 (0.05 * (⌊10 * (lo : ℝ) / halfBins x.len⌋ : ℝ)) = max (1 / 100) ((⌊10 * (lo : ℝ) / halfBins x.len⌋ : ℝ) / 20)
        by congr 1 <;> ring] at hb
      unfold init
      rw [show x.map Complex.re = realPart x from rfl, hb, ok_bind]
      simp only
      rw [if_neg]
      have := le_max_left (1 / 100 : ℝ) ((⌊10 * (lo : ℝ) / halfBins x.len⌋ : ℝ) / 20)
      intro h0
      linarith

/-- No band is found, and the constructor raises, for fewer than two samples and when the real part has nothing in the bins that are looked
at (the zero signal, but also a real part at the Nyquist frequency alone, or a purely imaginary signal). -/
theorem C58_raises (x : Vec ℂ) (fmin fmax : Option ℝ) (hnone : fmin = none ∨ fmax = none)
    (hx : ∀ k < halfBins x.len, dft ((realPart x).map Complex.ofReal) k = 0) :
    init x (arange 0 x.len) fmin fmax = .error .valueError := by
  unfold init
  rw [show x.map Complex.re = realPart x from rfl, show (x.len : ℤ) = ((realPart x).len : ℤ) from rfl]
  rcases Nat.lt_or_ge x.len 2 with h | h
  · rw [band_short (realPart x) h fmin fmax hnone]; rfl
  · rw [band_silent (realPart x) h fmin fmax hnone hx]; rfl

theorem strongRange_single {s : Vec ℝ} {k : ℕ} (hk : k < halfBins s.len) (h : dft (s.map Complex.ofReal) k ≠ 0)
    (h0 : ∀ j < halfBins s.len, j ≠ k → dft (s.map Complex.ofReal) j = 0) : StrongRange s k k := by
  have hpos : 0 < ‖dft (s.map Complex.ofReal) k‖ ^ 2 := by positivity
  have hs : Strong s k := by
    refine ⟨hk, fun j hj => ?_⟩
    by_cases e : j = k
    · rw [e]; linarith
    · rw [h0 j hj e]; norm_num; linarith
  refine ⟨hs, hs, fun j hj => ?_⟩
  by_contra hne
  have hjk : j ≠ k := by omega
  have := hj.2 k hk
  rw [h0 j hj.1 hjk] at this
  norm_num at this
  have hp := hpos.le
  linarith [this, hpos]

theorem init_single (x : Vec ℂ) (hn : 2 ≤ x.len) {k : ℕ} (hr : StrongRange (realPart x) k k) :
    ∃ R, init x (arange 0 x.len) none none = .ok (max (1 / 100) ((⌊10 * (k : ℝ) / halfBins x.len⌋ : ℝ) / 20),
      (⌈10 * (k : ℝ) / halfBins x.len⌉ : ℝ) / 20,
      (⌈10 * (k : ℝ) / halfBins x.len⌉ : ℝ) / 20 - max (1 / 100) ((⌊10 * (k : ℝ) / halfBins x.len⌋ : ℝ) / 20), R) := by
  have hx : ∃ k < halfBins x.len, dft ((realPart x).map Complex.ofReal) k ≠ 0 := by
    refine ⟨k, hr.lo_strong.1, fun e => ?_⟩
    have := hr.lo_strong.2 k hr.lo_strong.1
    rw [e] at this
    norm_num at this
  obtain ⟨fmin, fmax, lo, hi, h, hr', e1, e2, -⟩ := C58_band x hn hx
  have hlo : lo = k := by
    have h1 := (hr'.bounds k hr.lo_strong).1
    have h2 := (hr.bounds lo hr'.lo_strong).1
    omega
  have hhi : hi = k := by
    have h1 := (hr'.bounds k hr.lo_strong).2
    have h2 := (hr.bounds hi hr'.hi_strong).2
    omega
  subst hlo
  subst hhi
  rw [h, e1, e2]
  exact ⟨_, rfl⟩

/-- A constant signal gets the reversed band `fmin = 0.01`, `fmax = 0`. -/
theorem C58_constant (x : Vec ℂ) (hn : 2 ≤ x.len) (c : ℝ) (hc : c ≠ 0) (hx : ∀ t < x.len, (x.get t).re = c) :
    ∃ R, init x (arange 0 x.len) none none = .ok (1 / 100, 0, -(1 / 100), R) := by
  have hd : ∀ k : ℕ, dft ((realPart x).map Complex.ofReal) k = dftC x.len (fun _ => (c : ℂ)) k := fun k => by
    rw [dft_eq_dftC]
    exact Finset.sum_congr rfl (fun t ht => by
      show (((x.get t).re : ℝ) : ℂ) * _ = _
      rw [hx t (mem_range.1 ht)]
      rfl)
  have hr : StrongRange (realPart x) 0 0 := by
    refine strongRange_single (halfBins_pos hn) ?_ (fun j hj hne => ?_)
    · rw [hd]
      have : dftC x.len (fun _ => (c : ℂ)) ((0 : ℕ) : ℤ) = x.len * c := by
        unfold dftC
        simp [rootPow]
      rw [this]
      have : (x.len : ℂ) ≠ 0 := by exact_mod_cast (by omega : x.len ≠ 0)
      have : (c : ℂ) ≠ 0 := by exact_mod_cast hc
      positivity
    · rw [hd]
      have : halfBins (realPart x).len ≤ x.len := by show halfBins x.len ≤ x.len; unfold halfBins; split <;> omega
      exact dftC_const (by omega) (by omega) _
  obtain ⟨R, h⟩ := init_single x hn hr
  refine ⟨R, ?_⟩
  rw [h]
  norm_num

/-- A tone at bin `k` gets the interval between the multiples of `0.05` around `k / (2 halfBins n)`, which is its frequency
`k / n` when `n` is even. -/
theorem C58_tone (x : Vec ℂ) (k : ℕ) (hk : 0 < k) (hkn : k < halfBins x.len) (A : ℂ) (hA : A ≠ 0)
    (hx : ∀ t < x.len, x.get t = A * expi (2 * Real.pi * (k / x.len) * t)) :
    ∃ R, init x (arange 0 x.len) none none = .ok (max (1 / 100) ((⌊10 * (k : ℝ) / halfBins x.len⌋ : ℝ) / 20),
      (⌈10 * (k : ℝ) / halfBins x.len⌉ : ℝ) / 20,
      (⌈10 * (k : ℝ) / halfBins x.len⌉ : ℝ) / 20 - max (1 / 100) ((⌊10 * (k : ℝ) / halfBins x.len⌋ : ℝ) / 20), R) := by
  have h2b : ∀ n j, j < halfBins n → 2 * j < n := fun n j h => by unfold halfBins at h; split at h <;> omega
  have h2k := h2b _ _ hkn
  set n := x.len with hn
  have hn0 : n ≠ 0 := by omega
  have hd : ∀ j : ℕ, j < n → dft ((realPart x).map Complex.ofReal) j
      = (if j = k then A / 2 * n else 0) + (if j = n - k then (starRingEnd ℂ) A / 2 * n else 0) := fun j hj => by
    rw [dft_eq_dftC, ← dftC_tone hn0 (A / 2) (m := k) (k := j) (by omega) hj,
      ← dftC_tone hn0 ((starRingEnd ℂ) A / 2) (m := n - k) (k := j) (by omega) hj, ← dftC_add]
    refine Finset.sum_congr rfl (fun t ht => ?_)
    have ht' : t < n := mem_range.1 ht
    congr 1
    show (((x.get t).re : ℝ) : ℂ) = _
    have e1 : expi (2 * Real.pi * (k / n) * t) = rootPow n (-((t : ℤ) * k)) := by
      rw [rootPow_eq_expi]; congr 1; push_cast; ring
    have e2 : rootPow n (-((t : ℤ) * ((n - k : ℕ) : ℤ))) = (starRingEnd ℂ) (rootPow n (-((t : ℤ) * k))) := by
      rw [conj_rootPow, neg_neg]
      refine rootPow_congr hn0 ⟨-(t : ℤ), ?_⟩
      have : ((n - k : ℕ) : ℤ) = (n : ℤ) - k := by omega
      rw [this]; ring
    simp only
    rw [hx t ht', e1, e2, Complex.re_eq_add_conj, map_mul]
    ring
  have hr : StrongRange (realPart x) k k := by
    refine strongRange_single hkn ?_ (fun j hj hne => ?_)
    · rw [hd k (by omega), if_pos rfl, if_neg (by omega), add_zero]
      have : (n : ℂ) ≠ 0 := by exact_mod_cast hn0
      exact mul_ne_zero (div_ne_zero hA two_ne_zero) this
    · have hj' := h2b n j hj
      rw [hd j (by omega), if_neg hne, if_neg (by omega), add_zero]
  exact init_single x (by omega) hr

/-- When the frequency of the tone is itself a multiple of `0.05`, the band is empty: both edges coincide. -/
theorem C58_tone_empty_band (x : Vec ℂ) (k p : ℕ) (hp : 0 < p) (hx2 : 2 ∣ x.len) (hkp : 20 * k = p * x.len) (hp10 : p < 10) (hn : x.len ≠ 0)
    (A : ℂ) (hA : A ≠ 0) (hx : ∀ t < x.len, x.get t = A * expi (2 * Real.pi * (k / x.len) * t)) :
    ∃ R, init x (arange 0 x.len) none none = .ok ((k : ℝ) / x.len, (k : ℝ) / x.len, 0, R) := by
  obtain ⟨m, hm⟩ := hx2
  have hh : halfBins x.len = m := by unfold halfBins; split <;> omega
  have hm0 : 0 < m := by omega
  have h10 : 10 * k = p * m := by rw [hm] at hkp; nlinarith
  have hk : 0 < k := by
    rcases Nat.eq_zero_or_pos k with rfl | h
    · have : 0 < p * m := Nat.mul_pos hp hm0
      omega
    · exact h
  have hkm : k < halfBins x.len := by
    rw [hh]
    have : p * m < 10 * m := by nlinarith
    omega
  obtain ⟨R, h⟩ := C58_tone x k hk hkm A hA hx
  have hmR : (m : ℝ) ≠ 0 := by exact_mod_cast hm0.ne'
  have hq : 10 * (k : ℝ) / halfBins x.len = ((p : ℤ) : ℝ) := by
    rw [hh, div_eq_iff hmR]
    exact_mod_cast h10
  have hf : (k : ℝ) / x.len = (p : ℝ) / 20 := by
    have : (x.len : ℝ) = 2 * m := by exact_mod_cast hm
    rw [this, div_eq_div_iff (by positivity) (by norm_num)]
    have : (10 : ℝ) * k = p * m := by exact_mod_cast h10
    linarith
  refine ⟨R, ?_⟩
  have hp1 : (1 : ℝ) ≤ p := by exact_mod_cast hp
  rw [h, hq, Int.floor_intCast, Int.ceil_intCast, hf]
  push_cast
  rw [max_eq_right (by linarith), sub_self]

/-- The band depends on the real part only. -/
theorem C58_real_part (x y : Vec ℂ) (ts : Vec ℤ) (fmin fmax : Option ℝ) (h : realPart x = realPart y) : init x ts fmin fmax = init y ts fmin fmax := by
  unfold init
  rw [show x.map Complex.re = realPart x from rfl, h]
  rfl

/-- Two-dimensional signals (the "cross" distributions) are refused, even with two columns; one-dimensional ones are both components. -/
theorem C55_affine_cross (X : Mat ℂ) (v : Vec ℂ) : components (.two X) = .error .indexError ∧ components (.one v) = .ok (v, v) := ⟨rfl, rfl⟩

/-- 40 samples of a tone at frequency 1/4: empty band. -/
example : ∃ R, init ⟨40, fun t => 1 * expi (2 * Real.pi * (((10 : ℕ) : ℝ) / ((40 : ℕ) : ℝ)) * t)⟩ (arange 0 (40 : ℕ)) none none
    = .ok (((10 : ℕ) : ℝ) / ((40 : ℕ) : ℝ), ((10 : ℕ) : ℝ) / ((40 : ℕ) : ℝ), 0, R) :=
  C58_tone_empty_band ⟨40, fun t => 1 * expi (2 * Real.pi * (((10 : ℕ) : ℝ) / ((40 : ℕ) : ℝ)) * t)⟩ 10 5 (by norm_num) (by norm_num) (by norm_num)
    (by norm_num) (by norm_num) 1 one_ne_zero (fun t _ => rfl)

/-- 128 samples of a tone at bin 10 (frequency 0.078): the band is `[0.05, 0.1]`. -/
example : ∃ R, init ⟨128, fun t => 1 * expi (2 * Real.pi * (((10 : ℕ) : ℝ) / ((128 : ℕ) : ℝ)) * t)⟩ (arange 0 (128 : ℕ)) none none
    = .ok (1 / 20, 1 / 10, 1 / 20, R) := by
  obtain ⟨R, h⟩ := C58_tone ⟨128, fun t => 1 * expi (2 * Real.pi * (((10 : ℕ) : ℝ) / ((128 : ℕ) : ℝ)) * t)⟩ 10 (by norm_num)
    (by norm_num [halfBins]) 1 one_ne_zero (fun t _ => rfl)
  refine ⟨R, h.trans ?_⟩
  have h1 : ⌊(100 / 64 : ℝ)⌋ = 1 := by rw [Int.floor_eq_iff]; norm_num
  have h2 : ⌈(100 / 64 : ℝ)⌉ = 2 := by rw [Int.ceil_eq_iff]; norm_num
  have h3 : (10 * ((10 : ℕ) : ℝ) / (halfBins 128 : ℕ)) = 100 / 64 := by norm_num [halfBins]
  rw [h3, h1, h2]
  norm_num

end Tftb.Props
