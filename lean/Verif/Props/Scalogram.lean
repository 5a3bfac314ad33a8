import Verif.Lemmas.Spwv
import Verif.Lemmas.Scalogram

/-! # C56: the scalogram -/

namespace Tftb.Props

open Finset Spec Aff

/-- Frequency of voice `p` among `n` between `fmin` and `fmax`: geometric progression. -/
noncomputable def voiceFreq (n : ℕ) (fmin fmax : ℝ) (p : ℕ) : ℝ := fmin * (fmax / fmin) ^ ((p : ℝ) / ((n : ℝ) - 1))

theorem voiceFreq_pos {n : ℕ} {fmin fmax : ℝ} (h0 : 0 < fmin) (h1 : fmin < fmax) (p : ℕ) : 0 < voiceFreq n fmin fmax p := by
  unfold voiceFreq
  have : 0 < fmax / fmin := div_pos (h0.trans h1) h0
  positivity

theorem voiceFreq_le {n : ℕ} (hn : 2 ≤ n) {fmin fmax : ℝ} (h0 : 0 < fmin) (h1 : fmin < fmax) {p : ℕ} (hp : p < n) :
    voiceFreq n fmin fmax p ≤ fmax := by
  have hq : 1 ≤ fmax / fmin := by rw [le_div_iff₀ h0]; linarith
  have hn1 : (0 : ℝ) < (n : ℝ) - 1 := by have : (2 : ℝ) ≤ n := by exact_mod_cast hn
                                         linarith
  have hp1 : (p : ℝ) / ((n : ℝ) - 1) ≤ 1 := by
    rw [div_le_one hn1]
    have : (p : ℝ) + 1 ≤ n := by exact_mod_cast hp
    linarith
  calc voiceFreq n fmin fmax p ≤ fmin * (fmax / fmin) ^ (1 : ℝ) :=
        mul_le_mul_of_nonneg_left (Real.rpow_le_rpow_of_exponent_le hq hp1) h0.le
    _ = fmax := by rw [Real.rpow_one]; field_simp

theorem voiceScale {n : ℕ} {fmin fmax : ℝ} (h0 : 0 < fmin) (h1 : fmin < fmax) (p : ℕ) :
    fmax / fmin * (1 / (fmax / fmin)) ^ ((p : ℝ) / ((n : ℝ) - 1)) = fmax / voiceFreq n fmin fmax p := by
  have hq : 0 < fmax / fmin := div_pos (h0.trans h1) h0
  unfold voiceFreq
  rw [one_div, Real.inv_rpow hq.le, ← div_eq_mul_inv, div_div]

theorem voiceFreq_ends {n : ℕ} (hn : 2 ≤ n) {fmin fmax : ℝ} (h0 : 0 < fmin) :
    voiceFreq n fmin fmax 0 = fmin ∧ voiceFreq n fmin fmax (n - 1) = fmax := by
  unfold voiceFreq
  have hn1 : ((n - 1 : ℕ) : ℝ) / ((n : ℝ) - 1) = 1 := by
    have : (2 : ℝ) ≤ n := by exact_mod_cast hn
    rw [Nat.cast_sub (by omega), Nat.cast_one, div_self (by linarith)]
  constructor
  · simp
  · rw [hn1, Real.rpow_one]; field_simp

/-- Half length, in samples, of the Morlet wavelet of voice `p`: `w · fmax / f_p`, rounded. -/
noncomputable def halfLength (n : ℕ) (fmin fmax w : ℝ) (p : ℕ) : ℕ := (roundEven (w * (fmax / voiceFreq n fmin fmax p))).toNat

/-- Morlet wavelet transform of `z` at voice `p` and instant `t`. -/
noncomputable def morletCoeff (z : Vec ℂ) (fmin fmax w : ℝ) (p : ℕ) (t : ℤ) : ℂ :=
  filtered z (halfLength z.len fmin fmax w p)
    (morletAt (w * (fmax / voiceFreq z.len fmin fmax p)) (voiceFreq z.len fmin fmax p)) t

theorem mul_conj_re (v : ℂ) : (v * (starRingEnd ℂ) v).re = ‖v‖ ^ 2 := by
  rw [Complex.mul_conj, Complex.ofReal_re, Complex.normSq_eq_norm_sq]

theorem norm_div_sqrt_sq (v : ℂ) {a : ℝ} (ha : 0 < a) : ‖v / (Real.sqrt a : ℂ)‖ ^ 2 = ‖v‖ ^ 2 / a := by
  rw [norm_div, div_pow, Complex.norm_real, Real.norm_of_nonneg (Real.sqrt_nonneg _), Real.sq_sqrt ha.le]

theorem hilbert_centred (x : Vec ℂ) (hn : 2 ≤ x.len) {z : Vec ℂ} (hz : IsAnalytic (centredReal x) z) :
    ∃ z', hilbert (centredReal x) = .ok z' ∧ z'.len = x.len ∧ ∀ t < x.len, z'.get t = z.get t := by
  obtain ⟨z', h, hz', -⟩ := hilbert_analytic (x := centredReal x) (by show x.len ≠ 0; omega)
  obtain ⟨-, hu⟩ := isAnalytic_unique hz' hz
  exact ⟨z', h, hz'.len, hu⟩

theorem filtered_congr {z z' : Vec ℂ} (hl : z'.len = z.len) (h : ∀ t < z.len, z'.get t = z.get t) (r : ℕ) (g : ℤ → ℂ) (t : ℤ) :
    filtered z' r g t = filtered z r g t := by
  unfold filtered
  rw [hl]
  exact Finset.sum_congr rfl (fun j hj => by rw [h j (mem_range.1 hj)])

theorem dft_congr {z z' : Vec ℂ} (hl : z'.len = z.len) (h : ∀ t < z.len, z'.get t = z.get t) (k : ℕ) : dft z' k = dft z k := by
  rw [dft_eq_dftC, dft_eq_dftC, hl]
  exact Finset.sum_congr rfl (fun j hj => by rw [h j (mem_range.1 hj)])

theorem half_round_pos {a : ℝ} (h : 1 / 2 < a) : 1 ≤ roundEven a := by
  by_contra hne
  have h1 : roundEven a ≤ 0 := by omega
  unfold roundEven at h1
  rcases lt_or_ge a 1 with ha | ha
  · have hf : ⌊a⌋ = 0 := by rw [Int.floor_eq_iff]; constructor <;> norm_num <;> linarith
    rw [hf] at h1
    norm_num at h1
    rw [if_neg (by linarith), if_pos h] at h1
    omega
  · have hf : 1 ≤ ⌊a⌋ := Int.le_floor.2 (by exact_mod_cast ha)
    split_ifs at h1 <;> omega

/-- Which part of the spectrum normalises the result: bins `1 + round(fmin (n - 2))` to `1 + round(fmax (n - 2))`. -/
noncomputable def bandBin (n : ℕ) (f : ℝ) : ℕ := (1 + roundEven (f * ((n : ℝ) - 2))).toNat

theorem bandBin_cast {n : ℕ} (hn : 2 ≤ n) {f : ℝ} (hf : 0 ≤ f) : (bandBin n f : ℤ) = 1 + roundEven (f * ((n : ℝ) - 2)) := by
  unfold bandBin
  have hn2 : (0 : ℝ) ≤ (n : ℝ) - 2 := by have : (2 : ℝ) ≤ n := by exact_mod_cast hn
                                         linarith
  have := (roundEven_bounds (f * ((n : ℝ) - 2))).1
  have hp : 0 ≤ f * ((n : ℝ) - 2) := mul_nonneg hf hn2
  have : (-1 : ℝ) < roundEven (f * ((n : ℝ) - 2)) := by linarith
  have : (-1 : ℤ) < roundEven (f * ((n : ℝ) - 2)) := by exact_mod_cast this
  omega

/-- **Morlet scalogram.**  `n` voices at the geometric frequencies `f_p`.  Entry `(p, t)` is a common factor times `(f_p / fmax) |W_p(t)|²`,
`W` the Morlet transform of the analytic signal of the centred real part; the factor makes the trapezoidal integral over time and
frequency equal to `1/n` times the energy of the analytic signal in the band.  The fourth returned array is not `W_p(t)` but
`W_p(t - halfLength p)`: it is delayed.  If the transform vanishes identically the result is NaN. -/
theorem C56_morlet (x : Vec ℂ) (hn : 2 ≤ x.len) (fmin? fmax? w? : Option ℝ) (nv? : Option ℕ) (fmin fmax b R w : ℝ)
    (hi : init x (arange 0 x.len) fmin? fmax? = .ok (fmin, fmax, b, R)) (h0 : 0 < fmin) (h1 : fmin < fmax) (h2 : fmax ≤ 1)
    (hnv : nv? = none ∨ nv? = some x.len) (hw : w = w?.getD (Real.sqrt x.len)) (hw1 : 1 / 2 < w) (z : Vec ℂ) (hz : IsAnalytic (centredReal x) z) :
    ((∀ p < x.len, ∀ t : ℕ, t < x.len → morletCoeff z fmin fmax w p t = 0) → scalogram x fmin? fmax? nv? w? = .error .nonFinite) ∧
    ((∃ p < x.len, ∃ t : ℕ, t < x.len ∧ morletCoeff z fmin fmax w p t ≠ 0) → ∃ (M : ScalResult) (C : ℝ),
      scalogram x fmin? fmax? nv? w? = .ok M ∧ M.tfr.rows = x.len ∧ M.tfr.cols = x.len ∧ M.ts = arange 0 x.len ∧
      M.f = ⟨x.len, voiceFreq x.len fmin fmax⟩ ∧ M.wt.rows = x.len ∧ M.wt.cols = x.len ∧
      (∀ p < x.len, ∀ t < x.len, M.tfr.get p t = C * (voiceFreq x.len fmin fmax p / fmax) * ‖morletCoeff z fmin fmax w p t‖ ^ 2) ∧
      (∀ p < x.len, ∀ t < x.len, M.wt.get p t = morletCoeff z fmin fmax w p ((t : ℤ) - halfLength x.len fmin fmax w p)
        / (Real.sqrt (fmax / voiceFreq x.len fmin fmax p) : ℂ)) ∧
      0 ≤ C ∧
      trapz2 M.tfr (fun t => t) (voiceFreq x.len fmin fmax) * x.len
        = ∑ k ∈ Finset.Icc (bandBin x.len fmin) (bandBin x.len fmax), ‖dft z k‖ ^ 2) := by
  set n := x.len with hnn
  obtain ⟨z', hz', hzl, hzz⟩ := hilbert_centred x hn hz
  have hzl0 : z.len = n := hz.len
  have hn0 : (0 : ℝ) < n := by exact_mod_cast (by omega : 0 < n)
  have hfp := fun p => voiceFreq_pos (n := n) h0 h1 p
  have hap : ∀ p, 0 < fmax / voiceFreq n fmin fmax p := fun p => div_pos (h0.trans h1) (hfp p)
  have hr : ∀ p < n, ((halfLength n fmin fmax w p : ℕ) : ℤ) = roundEven (w * (fmax / voiceFreq n fmin fmax p)) ∧
      1 ≤ halfLength n fmin fmax w p := by
    intro p hp
    have ha1 : 1 ≤ fmax / voiceFreq n fmin fmax p := by
      rw [le_div_iff₀ (hfp p), one_mul]; exact voiceFreq_le hn h0 h1 hp
    have := half_round_pos (a := w * (fmax / voiceFreq n fmin fmax p)) (by nlinarith)
    unfold halfLength
    omega
  have hcoef : ∀ p (t : ℤ), filtered z' (halfLength n fmin fmax w p)
      (morletAt (w * (fmax / voiceFreq n fmin fmax p)) (voiceFreq n fmin fmax p)) t = morletCoeff z fmin fmax w p t := by
    intro p t
    rw [filtered_congr (z := z) (by omega) (fun t ht => hzz t (by omega))]
    unfold morletCoeff
    rw [hzl0]
  have hvoice : ∀ p < n, morletVoice z' (arange 0 n) w (fmax / fmin * (1 / (fmax / fmin)) ^ ((p : ℝ) / ((n : ℝ) - 1)))
      (fmin * (fmax / fmin) ^ ((p : ℝ) / ((n : ℝ) - 1))) = .ok
      (⟨n, fun t => morletCoeff z fmin fmax w p ((t : ℤ) - halfLength n fmin fmax w p) / (Real.sqrt (fmax / voiceFreq n fmin fmax p) : ℂ)⟩,
       ⟨n, fun t => morletCoeff z fmin fmax w p t / (Real.sqrt (fmax / voiceFreq n fmin fmax p) : ℂ) *
         (starRingEnd ℂ) (morletCoeff z fmin fmax w p t / (Real.sqrt (fmax / voiceFreq n fmin fmax p) : ℂ))⟩) := by
    intro p hp
    rw [voiceScale h0 h1, show fmin * (fmax / fmin) ^ ((p : ℝ) / ((n : ℝ) - 1)) = voiceFreq n fmin fmax p from rfl]
    have hzl' : z'.len = n := hzl
    have e := morletVoice_ok (z := z') (by omega) w _ (voiceFreq n fmin fmax p) (halfLength n fmin fmax w p) (hr p hp).1 (hr p hp).2
    rw [hzl'] at e
    rw [e]
    simp only [hcoef]
  obtain ⟨wt, T, hv, hwr, hwc, hTr, hTc, hget, -⟩ := voices_ok (nv := n) (n := n) (m := n)
    (f := ⟨n, fun i => fmin * (fmax / fmin) ^ ((i : ℝ) / ((n : ℝ) - 1))⟩)
    (a := ⟨n, fun i => (fmax / fmin) * (1 / (fmax / fmin)) ^ ((i : ℝ) / ((n : ℝ) - 1))⟩)
    (voice := fun a f => morletVoice z' (arange 0 n) w a f) le_rfl _ _ hvoice
  have htr : transform z' (arange 0 n) (w?.getD (Real.sqrt n)) n
      ⟨n, fun i => fmin * (fmax / fmin) ^ ((i : ℝ) / ((n : ℝ) - 1))⟩
      ⟨n, fun i => (fmax / fmin) * (1 / (fmax / fmin)) ^ ((i : ℝ) / ((n : ℝ) - 1))⟩ (Mat.zeros n n) (Mat.zeros n n) = .ok (wt, T) := by
    unfold transform
    rw [← hw, if_pos (by linarith), hv]
  have hT : ∀ p < n, ∀ t < n, (T.get p t).re = voiceFreq n fmin fmax p / fmax * ‖morletCoeff z fmin fmax w p t‖ ^ 2 := by
    intro p hp t _
    rw [(hget p hp t).2, mul_conj_re, norm_div_sqrt_sq _ (hap p)]
    have := (hfp p).ne'
    have := (h0.trans h1).ne'
    field_simp
  have hE : ∀ p t : ℕ, 0 ≤ voiceFreq n fmin fmax p / fmax * ‖morletCoeff z fmin fmax w p t‖ ^ 2 := fun p t => by
    have := (hfp p).le
    have := (h0.trans h1).le
    positivity
  have hEne : ∀ p t : ℕ, voiceFreq n fmin fmax p / fmax * ‖morletCoeff z fmin fmax w p t‖ ^ 2 = 0 ↔ morletCoeff z fmin fmax w p t = 0 := by
    intro p t
    have h3 := (hfp p).ne'
    have h4 := (h0.trans h1).ne'
    constructor
    · intro h
      rcases mul_eq_zero.1 h with h | h
      · exact absurd h (div_ne_zero h3 h4)
      · exact norm_eq_zero.1 (pow_eq_zero_iff (two_ne_zero) |>.1 h)
    · intro h; rw [h]; simp
  have hnv' : nv?.getD x.len = x.len := by rcases hnv with h | h <;> rw [h] <;> rfl
  have hmain := scalogram_norm x hn hi h0 h1 h2 hnv' hz' hzl hE htr hTr hTc hT
    (bandBin_cast hn h0.le) (bandBin_cast hn (h0.trans h1).le)
  simp only at hmain
  obtain ⟨hA, hB⟩ := hmain
  constructor
  · intro h
    exact hA (fun p hp t ht => (hEne p t).2 (h p hp t ht))
  · rintro ⟨p, hp, t, ht, hne⟩
    obtain ⟨M, C, hM, hr1, hr2, hr3, hr4, hr5, hr6, hr7, hr8⟩ := hB ⟨p, hp, t, ht, fun h => hne ((hEne p t).1 h)⟩
    refine ⟨M, C, hM, hr1, hr2, hr3, hr4, by rw [hr5, hwr], by rw [hr5, hwc], fun p hp t ht => by rw [hr6 p hp t ht, ← mul_assoc],
      fun p hp t ht => by rw [hr5]; exact (hget p hp t).1, hr7, ?_⟩
    refine hr8.trans (Finset.sum_congr rfl (fun k _ => ?_))
    rw [dft_congr (z := z) (by omega) (fun t ht => hzz t (by omega))]

/-- Mexican hat transform of `z` at frequency `f` and instant `t`. -/
noncomputable def mexhatCoeff (z : Vec ℂ) (f : ℝ) (t : ℤ) : ℂ := filtered z ⌈3 / (2 * f)⌉.toNat (mexhatAt f) t

/-- **Mexican hat scalogram** (`waveparams = 0`).  As for Morlet, except that entry `(p, t)` and coefficient `(p, t)` are those of instant
`t + 1`: the transform is stored one sample early. -/
theorem C56_mexhat (x : Vec ℂ) (hn : 2 ≤ x.len) (fmin? fmax? : Option ℝ) (nv? : Option ℕ) (fmin fmax b R : ℝ)
    (hi : init x (arange 0 x.len) fmin? fmax? = .ok (fmin, fmax, b, R)) (h0 : 0 < fmin) (h1 : fmin < fmax) (h2 : fmax ≤ 1 / 2)
    (hnv : nv? = none ∨ nv? = some x.len) (z : Vec ℂ) (hz : IsAnalytic (centredReal x) z) :
    ((∀ p < x.len, ∀ t : ℕ, t < x.len → mexhatCoeff z (voiceFreq x.len fmin fmax p) (t + 1) = 0) →
      scalogram x fmin? fmax? nv? (some 0) = .error .nonFinite) ∧
    ((∃ p < x.len, ∃ t : ℕ, t < x.len ∧ mexhatCoeff z (voiceFreq x.len fmin fmax p) (t + 1) ≠ 0) → ∃ (M : ScalResult) (C : ℝ),
      scalogram x fmin? fmax? nv? (some 0) = .ok M ∧ M.tfr.rows = x.len ∧ M.tfr.cols = x.len ∧ M.ts = arange 0 x.len ∧
      M.f = ⟨x.len, voiceFreq x.len fmin fmax⟩ ∧ M.wt.rows = x.len ∧ M.wt.cols = x.len ∧
      (∀ p < x.len, ∀ t < x.len, M.tfr.get p t = C * (voiceFreq x.len fmin fmax p / fmax) *
        ‖mexhatCoeff z (voiceFreq x.len fmin fmax p) (t + 1)‖ ^ 2) ∧
      (∀ p < x.len, ∀ t < x.len, M.wt.get p t = mexhatCoeff z (voiceFreq x.len fmin fmax p) (t + 1)
        / (Real.sqrt (fmax / voiceFreq x.len fmin fmax p) : ℂ)) ∧
      0 ≤ C ∧
      trapz2 M.tfr (fun t => t) (voiceFreq x.len fmin fmax) * x.len
        = ∑ k ∈ Finset.Icc (bandBin x.len fmin) (bandBin x.len fmax), ‖dft z k‖ ^ 2) := by
  set n := x.len with hnn
  obtain ⟨z', hz', hzl, hzz⟩ := hilbert_centred x hn hz
  have hzl0 : z.len = n := hz.len
  have hfp := fun p => voiceFreq_pos (n := n) h0 h1 p
  have hap : ∀ p, 0 < fmax / voiceFreq n fmin fmax p := fun p => div_pos (h0.trans h1) (hfp p)
  have hcoef : ∀ (f : ℝ) (t : ℤ), filtered z' ⌈3 / (2 * f)⌉.toNat (mexhatAt f) t = mexhatCoeff z f t := by
    intro f t
    rw [filtered_congr (z := z) (by omega) (fun t ht => hzz t (by omega))]
    rfl
  have hvoice : ∀ p < n, mexhatVoice z' (arange 0 n) (fmax / fmin * (1 / (fmax / fmin)) ^ ((p : ℝ) / ((n : ℝ) - 1)))
      (fmin * (fmax / fmin) ^ ((p : ℝ) / ((n : ℝ) - 1))) = .ok
      (⟨n, fun t => mexhatCoeff z (voiceFreq n fmin fmax p) (t + 1) / (Real.sqrt (fmax / voiceFreq n fmin fmax p) : ℂ)⟩,
       ⟨n, fun t => mexhatCoeff z (voiceFreq n fmin fmax p) (t + 1) / (Real.sqrt (fmax / voiceFreq n fmin fmax p) : ℂ) *
         (starRingEnd ℂ) (mexhatCoeff z (voiceFreq n fmin fmax p) (t + 1) / (Real.sqrt (fmax / voiceFreq n fmin fmax p) : ℂ))⟩) := by
    intro p hp
    rw [voiceScale h0 h1, show fmin * (fmax / fmin) ^ ((p : ℝ) / ((n : ℝ) - 1)) = voiceFreq n fmin fmax p from rfl]
    have hzl' : z'.len = n := hzl
    have hm : ((⌈3 / (2 * voiceFreq n fmin fmax p)⌉.toNat : ℕ) : ℤ) = ⌈3 / (2 * voiceFreq n fmin fmax p)⌉ := by
      have : 0 ≤ ⌈3 / (2 * voiceFreq n fmin fmax p)⌉ := Int.ceil_nonneg (by have := hfp p; positivity)
      omega
    have e := mexhatVoice_ok (z := z') (by omega) (fmax / voiceFreq n fmin fmax p) (voiceFreq n fmin fmax p) (hfp p)
      ((voiceFreq_le hn h0 h1 hp).trans h2) _ hm
    rw [hzl'] at e
    rw [e]
    simp only [hcoef]
  obtain ⟨wt, T, hv, hwr, hwc, hTr, hTc, hget, -⟩ := voices_ok (nv := n) (n := n) (m := n)
    (f := ⟨n, fun i => fmin * (fmax / fmin) ^ ((i : ℝ) / ((n : ℝ) - 1))⟩)
    (a := ⟨n, fun i => (fmax / fmin) * (1 / (fmax / fmin)) ^ ((i : ℝ) / ((n : ℝ) - 1))⟩)
    (voice := fun a f => mexhatVoice z' (arange 0 n) a f) le_rfl _ _ hvoice
  have htr : transform z' (arange 0 n) ((some (0 : ℝ)).getD (Real.sqrt n)) n
      ⟨n, fun i => fmin * (fmax / fmin) ^ ((i : ℝ) / ((n : ℝ) - 1))⟩
      ⟨n, fun i => (fmax / fmin) * (1 / (fmax / fmin)) ^ ((i : ℝ) / ((n : ℝ) - 1))⟩ (Mat.zeros n n) (Mat.zeros n n) = .ok (wt, T) := by
    unfold transform
    rw [Option.getD_some, if_neg (lt_irrefl _), if_pos rfl, hv]
  have hT : ∀ p < n, ∀ t < n, (T.get p t).re
      = voiceFreq n fmin fmax p / fmax * ‖mexhatCoeff z (voiceFreq n fmin fmax p) (t + 1)‖ ^ 2 := by
    intro p hp t _
    rw [(hget p hp t).2, mul_conj_re, norm_div_sqrt_sq _ (hap p)]
    have := (hfp p).ne'
    have := (h0.trans h1).ne'
    field_simp
  have hE : ∀ p t : ℕ, 0 ≤ voiceFreq n fmin fmax p / fmax * ‖mexhatCoeff z (voiceFreq n fmin fmax p) (t + 1)‖ ^ 2 := fun p t => by
    have := (hfp p).le
    have := (h0.trans h1).le
    positivity
  have hEne : ∀ p t : ℕ, voiceFreq n fmin fmax p / fmax * ‖mexhatCoeff z (voiceFreq n fmin fmax p) (t + 1)‖ ^ 2 = 0
      ↔ mexhatCoeff z (voiceFreq n fmin fmax p) (t + 1) = 0 := by
    intro p t
    have h3 := (hfp p).ne'
    have h4 := (h0.trans h1).ne'
    constructor
    · intro h
      rcases mul_eq_zero.1 h with h | h
      · exact absurd h (div_ne_zero h3 h4)
      · exact norm_eq_zero.1 (pow_eq_zero_iff (two_ne_zero) |>.1 h)
    · intro h; rw [h]; simp
  have hnv' : nv?.getD x.len = x.len := by rcases hnv with h | h <;> rw [h] <;> rfl
  have hmain := scalogram_norm x hn hi h0 h1 (by linarith) hnv' hz' hzl hE htr hTr hTc hT
    (bandBin_cast hn h0.le) (bandBin_cast hn (h0.trans h1).le)
  simp only at hmain
  obtain ⟨hA, hB⟩ := hmain
  constructor
  · intro h
    exact hA (fun p hp t ht => (hEne p t).2 (h p hp t ht))
  · rintro ⟨p, hp, t, ht, hne⟩
    obtain ⟨M, C, hM, hr1, hr2, hr3, hr4, hr5, hr6, hr7, hr8⟩ := hB ⟨p, hp, t, ht, fun h => hne ((hEne p t).1 h)⟩
    refine ⟨M, C, hM, hr1, hr2, hr3, hr4, by rw [hr5, hwr], by rw [hr5, hwc], fun p hp t ht => by rw [hr6 p hp t ht, ← mul_assoc],
      fun p hp t ht => by rw [hr5]; exact (hget p hp t).1, hr7, ?_⟩
    refine hr8.trans (Finset.sum_congr rfl (fun k _ => ?_))
    rw [dft_congr (z := z) (by omega) (fun t ht => hzz t (by omega))]

theorem zero_isAnalytic {s : Vec ℝ} (h : ∀ t < s.len, s.get t = 0) : IsAnalytic s ⟨s.len, fun _ => 0⟩ := by
  have hd : ∀ k, dft (⟨s.len, fun _ => 0⟩ : Vec ℂ) k = 0 := fun k => by
    rw [dft_eq_dftC]; unfold dftC; simp
  exact ⟨rfl, fun t ht => (h t ht).symm, fun k _ _ => hd k, by rw [hd]; rfl, fun k _ => by rw [hd]; rfl⟩

theorem filtered_zero (n r : ℕ) (g : ℤ → ℂ) (t : ℤ) : filtered ⟨n, fun _ => 0⟩ r g t = 0 := by
  unfold filtered
  exact Finset.sum_eq_zero (fun j _ => by simp)

theorem init_given (x : Vec ℂ) (ts : Vec ℤ) {a b : ℝ} (h : a + b ≠ 0) : init x ts (some a) (some b) = .ok (a, b, b - a, (b - a) / (a + b) * 2) := by
  unfold init band
  simp only [ok_bind]
  rw [if_neg h]

/-- A constant real part gives NaN, whatever the band. -/
theorem C56_constant (x : Vec ℂ) (hn : 2 ≤ x.len) (fmin fmax : ℝ) (w? : Option ℝ) (nv? : Option ℕ) (h0 : 0 < fmin) (h1 : fmin < fmax) (h2 : fmax ≤ 1)
    (hnv : nv? = none ∨ nv? = some x.len) (hw1 : 1 / 2 < w?.getD (Real.sqrt x.len)) (c : ℝ) (hx : ∀ t < x.len, (x.get t).re = c) :
    scalogram x (some fmin) (some fmax) nv? w? = .error .nonFinite := by
  have hz : IsAnalytic (centredReal x) ⟨x.len, fun _ => 0⟩ := by
    refine zero_isAnalytic (s := centredReal x) (fun t ht => ?_)
    have ht' : t < x.len := ht
    show (x.get t).re - (∑ j ∈ range x.len, (x.get j).re) / x.len = 0
    rw [hx t ht', Finset.sum_congr rfl (fun j hj => hx j (mem_range.1 hj))]
    have : (x.len : ℝ) ≠ 0 := by exact_mod_cast (by omega : x.len ≠ 0)
    simp
    field_simp
    ring
  exact (C56_morlet x hn _ _ w? nv? fmin fmax _ _ _ (init_given x _ (by linarith)) h0 h1 h2 hnv rfl hw1 _ hz).1
    (fun p _ t _ => filtered_zero _ _ _ _)

theorem smul_isAnalytic {s s' : Vec ℝ} {z : Vec ℂ} (hz : IsAnalytic s z) (c : ℝ) (hl : s'.len = s.len) (h : ∀ t < s.len, s'.get t = c * s.get t) :
    IsAnalytic s' ⟨z.len, fun t => c * z.get t⟩ := by
  have hd : ∀ k, dft (⟨z.len, fun t => c * z.get t⟩ : Vec ℂ) k = c * dft z k := fun k => by
    rw [dft_eq_dftC, dft_eq_dftC]; exact dftC_smul _ _ _ _
  refine ⟨hz.len.trans hl.symm, fun t ht => ?_, fun k hk h2 => ?_, ?_, fun k hk => ?_⟩
  · rw [h t (by omega), ← hz.re t (by omega)]
    simp
  · rw [hd, hz.neg k (by omega) (by omega), mul_zero]
  · rw [hd, Complex.im_ofReal_mul, hz.zero, mul_zero]
  · rw [hd, Complex.im_ofReal_mul, hz.nyquist k (by omega), mul_zero]

theorem centred_smul {x y : Vec ℂ} {c : ℝ} (hl : y.len = x.len) (h : ∀ t < x.len, (y.get t).re = c * (x.get t).re) {t : ℕ} (ht : t < x.len) :
    (centredReal y).get t = c * (centredReal x).get t := by
  show (y.get t).re - (∑ j ∈ range y.len, (y.get j).re) / y.len = c * ((x.get t).re - (∑ j ∈ range x.len, (x.get j).re) / x.len)
  rw [hl, h t ht, Finset.sum_congr rfl (fun j hj => h j (mem_range.1 hj)), ← Finset.mul_sum]
  ring

/-- Multiplying the (real part of the) signal by `c ≠ 0` multiplies the scalogram by `c²` and the coefficients by `c`. -/
theorem C56_scaling (x y : Vec ℂ) (hn : 2 ≤ x.len) (fmin fmax : ℝ) (w? : Option ℝ) (nv? : Option ℕ) (h0 : 0 < fmin) (h1 : fmin < fmax) (h2 : fmax ≤ 1)
    (hnv : nv? = none ∨ nv? = some x.len) (hw1 : 1 / 2 < w?.getD (Real.sqrt x.len)) (c : ℝ) (hc : c ≠ 0) (hl : y.len = x.len)
    (hy : ∀ t < x.len, (y.get t).re = c * (x.get t).re) (M : ScalResult) (hM : scalogram x (some fmin) (some fmax) nv? w? = .ok M) :
    ∃ M' : ScalResult, scalogram y (some fmin) (some fmax) nv? w? = .ok M' ∧ M'.f = M.f ∧
      ∀ p < x.len, ∀ t < x.len, M'.tfr.get p t = c ^ 2 * M.tfr.get p t ∧ M'.wt.get p t = c * M.wt.get p t := by
  obtain ⟨z, -, hz, -⟩ := hilbert_analytic (x := centredReal x) (by show x.len ≠ 0; omega)
  set w := w?.getD (Real.sqrt x.len) with hw
  have hz' : IsAnalytic (centredReal y) ⟨z.len, fun t => c * z.get t⟩ := smul_isAnalytic hz c hl (fun t ht => centred_smul hl hy ht)
  have hfilt : ∀ (r : ℕ) (g : ℤ → ℂ) (t : ℤ), filtered ⟨z.len, fun t => c * z.get t⟩ r g t = c * filtered z r g t := by
    intro r g t
    unfold filtered
    rw [Finset.mul_sum]
    refine Finset.sum_congr rfl (fun j _ => ?_)
    split
    · ring
    · simp
  have hco : ∀ p (t : ℤ), morletCoeff ⟨z.len, fun t => c * z.get t⟩ fmin fmax w p t = c * morletCoeff z fmin fmax w p t :=
    fun p t => hfilt _ _ _
  have hd : ∀ k, dft (⟨z.len, fun t => c * z.get t⟩ : Vec ℂ) k = c * dft z k := fun k => by
    rw [dft_eq_dftC, dft_eq_dftC]; exact dftC_smul _ _ _ _
  have A := C56_morlet x hn _ _ w? nv? fmin fmax _ _ w (init_given x _ (by linarith)) h0 h1 h2 hnv hw hw1 z hz
  have B := C56_morlet y (by omega) _ _ w? nv? fmin fmax _ _ w (init_given y _ (by linarith)) h0 h1 h2 (by rw [hl]; exact hnv)
    (by rw [hl]) hw1 _ hz'
  by_cases hall : ∀ p < x.len, ∀ t : ℕ, t < x.len → morletCoeff z fmin fmax w p t = 0
  · rw [A.1 hall] at hM
    exact absurd hM (by simp)
  · push Not at hall
    obtain ⟨p, hp, t, ht, hne⟩ := hall
    obtain ⟨M0, C, hM0, r1, r2, -, hf, -, -, htfr, hwt, hC, hen⟩ := A.2 ⟨p, hp, t, ht, hne⟩
    rw [hM0] at hM
    injection hM with hM
    subst hM
    have hc' : (c : ℂ) ≠ 0 := by exact_mod_cast hc
    obtain ⟨M', C', hM', r1', r2', -, hf', -, -, htfr', hwt', hC', hen'⟩ := B.2
      ⟨p, by omega, t, by omega, by rw [hco]; exact mul_ne_zero hc' hne⟩
    rw [hl] at hf' htfr' hwt' hen' r1' r2'
    refine ⟨M', hM', by rw [hf, hf'], ?_⟩
    set E : ℕ → ℕ → ℝ := fun p t => voiceFreq x.len fmin fmax p / fmax * ‖morletCoeff z fmin fmax w p t‖ ^ 2 with hE
    have hEn : ∀ p t, 0 ≤ E p t := fun p t => by
      have := (voiceFreq_pos (n := x.len) h0 h1 p).le
      have := (h0.trans h1).le
      simp only [hE]; positivity
    have hinc : ∀ p, p + 1 < x.len → voiceFreq x.len fmin fmax p < voiceFreq x.len fmin fmax (p + 1) := by
      intro p _
      have hn1 : (0 : ℝ) < (x.len : ℝ) - 1 := by have : (2 : ℝ) ≤ x.len := by exact_mod_cast hn
                                                 linarith
      refine mul_lt_mul_of_pos_left (Real.rpow_lt_rpow_of_exponent_lt (by rw [lt_div_iff₀ h0]; linarith) ?_) h0
      push_cast
      rw [div_lt_div_iff_of_pos_right hn1]
      linarith
    have hI : trapz2 ⟨x.len, x.len, E⟩ (fun i => i) (voiceFreq x.len fmin fmax) ≠ 0 := by
      intro h
      have h3 := trapz2_eq_zero hn E hEn _ hinc h p hp t ht
      simp only [hE] at h3
      rcases mul_eq_zero.1 h3 with h4 | h4
      · exact (div_ne_zero (voiceFreq_pos (n := x.len) h0 h1 p).ne' (h0.trans h1).ne') h4
      · exact hne (norm_eq_zero.1 (pow_eq_zero_iff (two_ne_zero) |>.1 h4))
    have hnorm : ∀ p (t : ℕ), ‖morletCoeff ⟨z.len, fun t => c * z.get t⟩ fmin fmax w p t‖ ^ 2
        = c ^ 2 * ‖morletCoeff z fmin fmax w p t‖ ^ 2 := by
      intro p t
      rw [hco, norm_mul, mul_pow, Complex.norm_real, Real.norm_eq_abs, sq_abs]
    have e1 : trapz2 M0.tfr (fun i => i) (voiceFreq x.len fmin fmax)
        = C * trapz2 ⟨x.len, x.len, E⟩ (fun i => i) (voiceFreq x.len fmin fmax) := by
      unfold trapz2
      rw [r1, r2, ← trapz_smul]
      refine trapz_congr (fun _ _ => rfl) (fun j hj => ?_)
      simp only
      rw [← trapz_smul]
      exact trapz_congr (fun _ _ => rfl) (fun t ht => by rw [htfr j hj t ht]; simp only [hE]; ring)
    have e2 : trapz2 M'.tfr (fun i => i) (voiceFreq x.len fmin fmax)
        = C' * c ^ 2 * trapz2 ⟨x.len, x.len, E⟩ (fun i => i) (voiceFreq x.len fmin fmax) := by
      unfold trapz2
      rw [r1', r2', ← trapz_smul]
      refine trapz_congr (fun _ _ => rfl) (fun j hj => ?_)
      simp only
      rw [← trapz_smul]
      exact trapz_congr (fun _ _ => rfl) (fun t ht => by rw [htfr' j hj t ht, hnorm]; simp only [hE]; ring)
    have hS : ∑ k ∈ Finset.Icc (bandBin x.len fmin) (bandBin x.len fmax), ‖dft (⟨z.len, fun t => c * z.get t⟩ : Vec ℂ) k‖ ^ 2
        = c ^ 2 * ∑ k ∈ Finset.Icc (bandBin x.len fmin) (bandBin x.len fmax), ‖dft z k‖ ^ 2 := by
      rw [Finset.mul_sum]
      refine Finset.sum_congr rfl (fun k _ => ?_)
      rw [hd, norm_mul, mul_pow, Complex.norm_real, Real.norm_eq_abs, sq_abs]
    have hCC : C' = C := by
      rw [hS, ← hen, e1, e2] at hen'
      have hn0 : (x.len : ℝ) ≠ 0 := by exact_mod_cast (by omega : x.len ≠ 0)
      have hc2 : c ^ 2 ≠ 0 := pow_ne_zero 2 hc
      have hk : c ^ 2 * (trapz2 ⟨x.len, x.len, E⟩ (fun i => i) (voiceFreq x.len fmin fmax) * x.len) ≠ 0 :=
        mul_ne_zero hc2 (mul_ne_zero hI hn0)
      apply mul_right_cancel₀ hk
      linarith
    intro p hp t ht
    refine ⟨?_, ?_⟩
    · rw [htfr p hp t ht, htfr' p hp t ht, hnorm, hCC]; ring
    · rw [hwt p hp t ht, hwt' p hp t ht, hco]; ring

theorem fft_congr {v w : Vec ℂ} (hl : v.len = w.len) (h : ∀ t < w.len, v.get t = w.get t) : fft v = fft w := by
  unfold fft
  rw [hl]
  split
  · rfl
  · refine congrArg Except.ok (congrArg (Vec.mk _) (funext fun k => ?_))
    exact Finset.sum_congr rfl (fun j hj => by rw [h j (mem_range.1 hj)])

theorem hilbert_congr {v w : Vec ℝ} (hl : v.len = w.len) (h : ∀ t < w.len, v.get t = w.get t) : hilbert v = hilbert w := by
  unfold hilbert
  rw [fft_congr (v := v.map (fun a : ℝ => (a : ℂ))) (w := w.map (fun a : ℝ => (a : ℂ))) hl
    (fun t ht => congrArg Complex.ofReal (h t ht))]

/-- Adding a real constant, or anything imaginary, changes nothing. -/
theorem C56_offset (x y : Vec ℂ) (fmin fmax : ℝ) (w? : Option ℝ) (nv? : Option ℕ) (c : ℝ) (hl : y.len = x.len)
    (hy : ∀ t < x.len, (y.get t).re = (x.get t).re + c) :
    scalogram y (some fmin) (some fmax) nv? w? = scalogram x (some fmin) (some fmax) nv? w? := by
  have hin : init y (arange 0 x.len) (some fmin) (some fmax) = init x (arange 0 x.len) (some fmin) (some fmax) := rfl
  unfold scalogram
  simp only
  rw [hl, hin]
  by_cases h0 : x.len = 0
  · have e : ∀ v : Vec ℂ, v.len = 0 → (v.map Complex.re).mean = .error .nonFinite := fun v hv => by
      unfold Vec.mean; rw [if_pos (by exact hv)]
    rw [e x h0, e y (by omega)]
    rfl
  · have e : ∀ v : Vec ℂ, v.len ≠ 0 → (v.map Complex.re).mean = .ok ((∑ j ∈ range v.len, (v.get j).re) / v.len) := fun v hv => by
      unfold Vec.mean; rw [if_neg (by exact hv)]; rfl
    rw [e x h0, e y (by omega)]
    simp only [ok_bind]
    have hh : hilbert ((y.map Complex.re).map (fun a => a - (∑ j ∈ range y.len, (y.get j).re) / y.len))
        = hilbert ((x.map Complex.re).map (fun a => a - (∑ j ∈ range x.len, (x.get j).re) / x.len)) := by
      refine hilbert_congr hl (fun t ht => ?_)
      have ht' : t < x.len := ht
      show (y.get t).re - (∑ j ∈ range y.len, (y.get j).re) / y.len = (x.get t).re - (∑ j ∈ range x.len, (x.get j).re) / x.len
      rw [hl, hy t ht', Finset.sum_congr rfl (fun j hj => hy j (mem_range.1 hj)), Finset.sum_add_distrib, Finset.sum_const, card_range,
        nsmul_eq_mul]
      have : (x.len : ℝ) ≠ 0 := by exact_mod_cast h0
      field_simp
      ring
    rw [hh]

theorem foldlM_range_error {σ : Type} {f : σ → ℕ → Py σ} {N K : ℕ} {e : PyErr} (P : ℕ → σ → Prop) {s : σ} (h0 : P 0 s)
    (h : ∀ k < K, ∀ s, P k s → ∃ s', f s k = .ok s' ∧ P (k + 1) s') (hK : K < N) (hE : ∀ s, P K s → f s K = .error e) :
    (List.range N).foldlM f s = .error e := by
  obtain ⟨s', hs', hP⟩ := foldlM_range_ok (N := K) P h0 h
  obtain ⟨d, rfl⟩ : ∃ d, N = K + 1 + d := ⟨N - (K + 1), by omega⟩
  rw [List.range_add, List.range_succ, List.foldlM_append, List.foldlM_append, hs']
  show (([K].foldlM f s') >>= _) = _
  rw [List.foldlM_cons, hE s' hP]
  rfl

theorem voices_error {nv n m K : ℕ} {f a : Vec ℝ} {voice : ℝ → ℝ → Py (Vec ℂ × Vec ℂ)} (hK : K < nv) (hKm : K ≤ m)
    (h : ∀ p < K, ∃ u v, voice (a.get p) (f.get p) = .ok (⟨n, u⟩, ⟨n, v⟩))
    (hE : voice (a.get K) (f.get K) = .error .indexError ∨ (m ≤ K ∧ ∃ u v, voice (a.get K) (f.get K) = .ok (⟨n, u⟩, ⟨n, v⟩))) :
    voices nv f a voice (Mat.zeros nv n) (Mat.zeros m n) = .error .indexError := by
  unfold voices
  refine foldlM_range_error (K := K) (fun k s => s.1.rows = nv ∧ s.1.cols = n ∧ s.2.rows = m ∧ s.2.cols = n)
    ⟨rfl, rfl, rfl, rfl⟩ ?_ hK ?_
  · rintro k hk ⟨A, B⟩ ⟨h1, h2, h3, h4⟩
    simp only at h1 h2 h3 h4
    obtain ⟨u, v, huv⟩ := h k hk
    refine ⟨(⟨A.rows, A.cols, fun i j => if i = k then u j else A.get i j⟩,
        ⟨B.rows, B.cols, fun i j => if i = k then v j else B.get i j⟩), ?_, h1, h2, h3, h4⟩
    rw [huv, ok_bind]
    simp only
    rw [setRow_ok (by omega) (by exact h2.symm), ok_bind, setRow_ok (by omega) (by exact h4.symm), ok_bind]
  · rintro ⟨A, B⟩ ⟨h1, h2, h3, h4⟩
    simp only at h1 h2 h3 h4
    rcases hE with hE | ⟨hm, u, v, huv⟩
    · rw [hE]; rfl
    · rw [huv, ok_bind]
      simp only
      rw [setRow_ok (by omega) (by exact h2.symm), ok_bind]
      unfold setRow
      rw [if_pos (by omega)]
      rfl

theorem morletVoice_cases {z : Vec ℂ} (hz : z.len ≠ 0) {w a : ℝ} (f : ℝ) (ha : 0 ≤ w * a) :
    morletVoice z (arange 0 z.len) w a f = .error .indexError ∨ ∃ u v, morletVoice z (arange 0 z.len) w a f = .ok (⟨z.len, u⟩, ⟨z.len, v⟩) := by
  have h0 : 0 ≤ roundEven (w * a) := by
    have := (roundEven_bounds (w * a)).1
    have : (-1 : ℝ) < roundEven (w * a) := by linarith
    have : (-1 : ℤ) < roundEven (w * a) := by exact_mod_cast this
    omega
  obtain ⟨r, hr⟩ := Int.eq_ofNat_of_zero_le h0
  rcases Nat.eq_zero_or_pos r with h | h
  · left; exact morletVoice_error hz w a f (by rw [hr, h]; rfl)
  · right; exact ⟨_, _, morletVoice_ok hz w a f r hr.symm h⟩

/-- The prefix of a run with explicit band, up to the transform. -/
theorem scalogram_prefix (x : Vec ℂ) (hn : 2 ≤ x.len) (fmin fmax : ℝ) (w? : Option ℝ) (nv : ℕ) (hnv : 2 ≤ nv) (h0 : 0 < fmin) (h1 : fmin < fmax)
    (z : Vec ℂ) (hz : hilbert (centredReal x) = .ok z) (e : PyErr)
    (he : transform z (arange 0 x.len) (w?.getD (Real.sqrt x.len)) nv ⟨nv, voiceFreq nv fmin fmax⟩
      ⟨nv, fun p => fmax / voiceFreq nv fmin fmax p⟩ (Mat.zeros nv x.len) (Mat.zeros x.len x.len) = .error e) (nv? : Option ℕ)
    (hnv? : nv?.getD x.len = nv) : scalogram x (some fmin) (some fmax) nv? w? = .error e := by
  have hmean : (x.map Complex.re).mean = .ok ((∑ j ∈ range x.len, (x.get j).re) / x.len) := by
    unfold Vec.mean
    rw [if_neg (by show x.len ≠ 0; omega)]
    rfl
  have hq : 1 < fmax / fmin := by rw [lt_div_iff₀ h0]; linarith
  unfold scalogram
  simp only
  rw [init_given x _ (by linarith), ok_bind]
  simp only
  rw [hnv?, hmean, ok_bind]
  have hc : (x.map Complex.re).map (fun a => a - (∑ j ∈ range x.len, (x.get j).re) / x.len) = centredReal x := rfl
  rw [hc, hz, ok_bind, nanChecks_ok h0 (h0.trans h1), ok_bind, logspace_ok h0 (h0.trans h1) hnv, ok_bind, logspace_ok (by linarith) one_pos hnv, ok_bind]
  have e1 : (fun i : ℕ => fmax / fmin * (1 / (fmax / fmin)) ^ ((i : ℝ) / ((nv : ℝ) - 1))) = fun p => fmax / voiceFreq nv fmin fmax p :=
    funext fun p => voiceScale h0 h1 p
  rw [e1]
  unfold voiceFreq at he ⊢
  rw [he]
  rfl

/-- More voices than samples: `IndexError` (the buffer has one row per sample). -/
theorem C56_too_many_voices (x : Vec ℂ) (hn : 2 ≤ x.len) (fmin fmax w : ℝ) (nv : ℕ) (hnv : x.len < nv) (h0 : 0 < fmin) (h1 : fmin < fmax) (hw : 0 < w) :
    scalogram x (some fmin) (some fmax) (some nv) (some w) = .error .indexError := by
  obtain ⟨z, hz, ha, -⟩ := hilbert_analytic (x := centredReal x) (by show x.len ≠ 0; omega)
  have hzl : z.len = x.len := ha.len
  refine scalogram_prefix x hn fmin fmax (some w) nv (by omega) h0 h1 z hz _ ?_ (some nv) rfl
  unfold transform
  rw [Option.getD_some, if_pos hw]
  have hpos : ∀ p, 0 ≤ w * (fmax / voiceFreq nv fmin fmax p) := fun p =>
    (mul_pos hw (div_pos (h0.trans h1) (voiceFreq_pos h0 h1 p))).le
  have hcases := fun p => morletVoice_cases (z := z) (by omega) (voiceFreq nv fmin fmax p) (hpos p)
  rw [hzl] at hcases
  by_cases hex : ∃ p, p < x.len ∧ morletVoice z (arange 0 x.len) w (fmax / voiceFreq nv fmin fmax p) (voiceFreq nv fmin fmax p) = .error .indexError
  · classical
    obtain ⟨hp1, hp2⟩ := Nat.find_spec hex
    refine voices_error (K := Nat.find hex) (by omega) hp1.le (fun p hp => ?_) (Or.inl hp2)
    have hmin := Nat.find_min hex hp
    rcases hcases p with h | h
    · exact absurd ⟨by omega, h⟩ hmin
    · exact h
  · push Not at hex
    refine voices_error (K := x.len) hnv le_rfl (fun p hp => ?_) ?_
    · rcases hcases p with h | h
      · exact absurd h (hex p hp)
      · exact h
    · rcases hcases x.len with h | h
      · exact Or.inl h
      · exact Or.inr ⟨le_rfl, h⟩

/-- A wavelet parameter of at most one half: the wavelet of the last voice is a single sample, and the run raises `IndexError`. -/
theorem C56_short_wavelet (x : Vec ℂ) (hn : 2 ≤ x.len) (fmin fmax w : ℝ) (h0 : 0 < fmin) (h1 : fmin < fmax) (hw : 0 < w) (hw1 : w ≤ 1 / 2) :
    scalogram x (some fmin) (some fmax) none (some w) = .error .indexError := by
  obtain ⟨z, hz, ha, -⟩ := hilbert_analytic (x := centredReal x) (by show x.len ≠ 0; omega)
  have hzl : z.len = x.len := ha.len
  refine scalogram_prefix x hn fmin fmax (some w) x.len hn h0 h1 z hz _ ?_ none rfl
  unfold transform
  rw [Option.getD_some, if_pos hw]
  have hpos : ∀ p, 0 ≤ w * (fmax / voiceFreq x.len fmin fmax p) := fun p =>
    (mul_pos hw (div_pos (h0.trans h1) (voiceFreq_pos h0 h1 p))).le
  have hcases := fun p => morletVoice_cases (z := z) (by omega) (voiceFreq x.len fmin fmax p) (hpos p)
  have hlast : morletVoice z (arange 0 z.len) w (fmax / voiceFreq x.len fmin fmax (x.len - 1)) (voiceFreq x.len fmin fmax (x.len - 1))
      = .error .indexError := by
    refine morletVoice_error (by omega) _ _ _ ?_
    rw [(voiceFreq_ends hn h0).2, div_self (h0.trans h1).ne', mul_one]
    unfold roundEven
    have hf : ⌊w⌋ = 0 := by rw [Int.floor_eq_iff]; constructor <;> norm_num <;> linarith
    rw [hf]
    norm_num
    intro _
    linarith
  rw [hzl] at hcases hlast
  have hex : ∃ p, p < x.len ∧ morletVoice z (arange 0 x.len) w (fmax / voiceFreq x.len fmin fmax p) (voiceFreq x.len fmin fmax p) = .error .indexError :=
    ⟨x.len - 1, by omega, hlast⟩
  classical
  obtain ⟨hp1, hp2⟩ := Nat.find_spec hex
  refine voices_error (K := Nat.find hex) hp1 hp1.le (fun p hp => ?_) (Or.inl hp2)
  have hmin := Nat.find_min hex hp
  rcases hcases p with h | h
  · exact absurd ⟨by omega, h⟩ hmin
  · exact h

theorem integrate2d_rows_error (M : Mat ℝ) (x y : Vec ℝ) (hn : M.cols ≠ 0) (hx : 2 ≤ x.len) (h3 : 3 ≤ y.len) (hy : y.len < M.rows) :
    ProcUtils.integrate2d M (some x) (some y) = .error .valueError := by
  unfold ProcUtils.integrate2d
  simp only [Option.getD_some]
  rw [if_neg hn, Vec.item_ok (by norm_num) (by exact_mod_cast (by omega : 1 < x.len)), ok_bind,
    Vec.item_ok (by norm_num) (by exact_mod_cast (by omega : 0 < x.len)), ok_bind]
  have k1 : ∀ n : ℕ, Vec.clampIdx n 0 = 0 := by intro n; unfold Vec.clampIdx; simp
  have k2 : ∀ n : ℕ, Vec.clampIdx n ((n : ℤ) - 1) = n - 1 := by
    intro n; unfold Vec.clampIdx; split <;> omega
  have k2' : Vec.clampIdx y.len ((M.rows : ℤ) - 1) = y.len := by unfold Vec.clampIdx; rw [if_neg (by omega)]; omega
  have k3 : ∀ n : ℕ, Vec.clampIdx n 1 = min n 1 := by intro n; unfold Vec.clampIdx; simp
  have k4 : ∀ n : ℕ, Vec.clampIdx n n = n := by intro n; unfold Vec.clampIdx; split <;> omega
  rw [Vec.bcast_ok (by simp only [Vec.slice, k1, k2, k3, k4]; omega), ok_bind]
  have he : Vec.bcast (· - ·) (y.slice 1 y.len) (y.slice 0 ((M.rows : ℤ) - 1)) = (.error .valueError : Py (Vec ℝ)) := by
    unfold Vec.bcast
    simp only [Vec.slice, k1, k2', k3, k4]
    rw [if_neg (by omega), if_neg (by omega), if_neg (by omega)]
  rw [he]
  rfl

/-- Fewer voices than samples (but at least three): `ValueError` from the integration. -/
theorem C56_too_few_voices (x : Vec ℂ) (fmin fmax w : ℝ) (nv : ℕ) (h3 : 3 ≤ nv) (hnv : nv < x.len) (h0 : 0 < fmin) (h1 : fmin < fmax)
    (hw : 1 / 2 < w) : scalogram x (some fmin) (some fmax) (some nv) (some w) = .error .valueError := by
  obtain ⟨z, hz, ha, -⟩ := hilbert_analytic (x := centredReal x) (by show x.len ≠ 0; omega)
  have hzl : z.len = x.len := ha.len
  have hfp := fun p => voiceFreq_pos (n := nv) h0 h1 p
  have hvoice : ∀ p < nv, ∃ u v, morletVoice z (arange 0 x.len) w (fmax / voiceFreq nv fmin fmax p) (voiceFreq nv fmin fmax p)
      = .ok (⟨x.len, u⟩, ⟨x.len, v⟩) := by
    intro p hp
    have ha1 : 1 ≤ fmax / voiceFreq nv fmin fmax p := by
      rw [le_div_iff₀ (hfp p), one_mul]; exact voiceFreq_le (by omega) h0 h1 hp
    have := half_round_pos (a := w * (fmax / voiceFreq nv fmin fmax p)) (by nlinarith)
    obtain ⟨r, hr⟩ := Int.eq_ofNat_of_zero_le (by omega : 0 ≤ roundEven (w * (fmax / voiceFreq nv fmin fmax p)))
    have e := morletVoice_ok (z := z) (by omega) w (fmax / voiceFreq nv fmin fmax p) (voiceFreq nv fmin fmax p) r hr.symm (by omega)
    rw [hzl] at e
    exact ⟨_, _, e⟩
  choose! u v huv using hvoice
  obtain ⟨wt, T, hv, -, -, hTr, hTc, -⟩ := voices_ok (nv := nv) (n := x.len) (m := x.len) (f := ⟨nv, voiceFreq nv fmin fmax⟩)
    (a := ⟨nv, fun p => fmax / voiceFreq nv fmin fmax p⟩) (voice := fun a f => morletVoice z (arange 0 x.len) w a f) (by omega) u v huv
  have hmean : (x.map Complex.re).mean = .ok ((∑ j ∈ range x.len, (x.get j).re) / x.len) := by
    unfold Vec.mean
    rw [if_neg (by show x.len ≠ 0; omega)]
    rfl
  have hq : 1 < fmax / fmin := by rw [lt_div_iff₀ h0]; linarith
  unfold scalogram
  simp only
  rw [init_given x _ (by linarith), ok_bind]
  simp only
  rw [Option.getD_some, Option.getD_some, hmean, ok_bind]
  have hc : (x.map Complex.re).map (fun a => a - (∑ j ∈ range x.len, (x.get j).re) / x.len) = centredReal x := rfl
  rw [hc, hz, ok_bind, nanChecks_ok h0 (h0.trans h1), ok_bind, logspace_ok h0 (h0.trans h1) (by omega), ok_bind, logspace_ok (by linarith) one_pos (by omega), ok_bind]
  have e1 : (fun i : ℕ => fmax / fmin * (1 / (fmax / fmin)) ^ ((i : ℝ) / ((nv : ℝ) - 1))) = fun p => fmax / voiceFreq nv fmin fmax p :=
    funext fun p => voiceScale h0 h1 p
  have e2 : (fun i : ℕ => fmin * (fmax / fmin) ^ ((i : ℝ) / ((nv : ℝ) - 1))) = voiceFreq nv fmin fmax := rfl
  have htr : transform z (arange 0 x.len) w nv ⟨nv, voiceFreq nv fmin fmax⟩ ⟨nv, fun p => fmax / voiceFreq nv fmin fmax p⟩
      (Mat.zeros nv x.len) (Mat.zeros x.len x.len) = .ok (wt, T) := by
    unfold transform
    rw [if_pos (by linarith), hv]
  rw [e1, e2, htr, ok_bind]
  simp only
  rw [fft_ok (by omega), ok_bind, integrate2d_rows_error (T.map Complex.re) _ ⟨nv, voiceFreq nv fmin fmax⟩ (by show T.cols ≠ 0; omega)
    (by show 2 ≤ ((x.len : ℤ) - 0).toNat; omega) h3 (by show nv < T.rows; omega)]
  rfl

/-- A negative wavelet parameter selects no transform at all: NaN. -/
theorem C56_negative_wavelet (x : Vec ℂ) (hn : 2 ≤ x.len) (fmin fmax w : ℝ) (h0 : 0 < fmin) (h1 : fmin < fmax) (h2 : fmax ≤ 1) (hw : w < 0) :
    scalogram x (some fmin) (some fmax) none (some w) = .error .nonFinite := by
  obtain ⟨z, hz, ha, -⟩ := hilbert_analytic (x := centredReal x) (by show x.len ≠ 0; omega)
  have htr : transform z (arange 0 x.len) ((some w).getD (Real.sqrt x.len)) x.len
      ⟨x.len, fun i => fmin * (fmax / fmin) ^ ((i : ℝ) / ((x.len : ℝ) - 1))⟩
      ⟨x.len, fun i => (fmax / fmin) * (1 / (fmax / fmin)) ^ ((i : ℝ) / ((x.len : ℝ) - 1))⟩ (Mat.zeros x.len x.len) (Mat.zeros x.len x.len)
      = .ok (Mat.zeros x.len x.len, Mat.zeros x.len x.len) := by
    unfold transform
    rw [Option.getD_some, if_neg (by linarith), if_neg hw.ne]
  exact (scalogram_norm (E := fun _ _ => 0) (nv? := none) x hn (init_given x _ (by linarith)) h0 h1 h2 rfl hz ha.len (fun _ _ => le_rfl) htr rfl rfl
    (fun p _ t _ => rfl) (bandBin_cast hn h0.le) (bandBin_cast hn (h0.trans h1).le)).1 (fun _ _ _ _ => rfl)

/-- First bin (counted from 0) of the band that normalises the other affine distributions: `round(f (T - 2))` for `T` instants; the scalogram
uses the bins one higher. -/
noncomputable def bandBin' (T : ℕ) (f : ℝ) : ℕ := (roundEven (f * ((T : ℝ) - 2))).toNat

/-- **Bad bands.**  Opposite edges (in particular two zeros) and `fmin = 0` raise `ZeroDivisionError`.  With a positive `waveparams` (the default, if there are
samples), edges of opposite signs or `fmax = 0` raise `ValueError`; with `waveparams = 0` an edge that is not positive raises `AssertionError`.  In the other
cases with an edge that is not positive (two negative edges and a positive `waveparams`, a negative `waveparams`, no voice) the frequencies are NaN. -/
theorem C56_bad_band (x : Vec ℂ) (hn : 1 ≤ x.len) (fmin fmax : ℝ) (w? : Option ℝ) (nv? : Option ℕ) :
    (fmin + fmax = 0 ∨ fmin = 0 → scalogram x (some fmin) (some fmax) nv? w? = .error .zeroDivisionError) ∧
    (fmin + fmax ≠ 0 → fmin ≠ 0 → fmin ≤ 0 ∨ fmax ≤ 0 → scalogram x (some fmin) (some fmax) nv? w? = .error
      (if nv? = some 0 ∨ w?.getD 1 < 0 then .nonFinite
      else if w? = some 0 then .assertionError
      else if fmin < 0 ∧ fmax < 0 then .nonFinite else .valueError)) := by
  obtain ⟨z, hz, -⟩ := hilbert_analytic (x := centredReal x) (by show x.len ≠ 0; omega)
  have hmean : (x.map Complex.re).mean = .ok ((∑ j ∈ range x.len, (x.get j).re) / x.len) := by
    unfold Vec.mean; rw [if_neg (by show x.len ≠ 0; omega)]; rfl
  have hc : (x.map Complex.re).map (fun a => a - (∑ j ∈ range x.len, (x.get j).re) / x.len) = centredReal x := rfl
  have hsq : 0 < Real.sqrt x.len := Real.sqrt_pos.2 (by exact_mod_cast (by omega : 0 < x.len))
  have hgo : ∀ e, fmin + fmax ≠ 0 → nanChecks fmin fmax (w?.getD (Real.sqrt x.len)) (nv?.getD x.len) = .error e →
      scalogram x (some fmin) (some fmax) nv? w? = .error e := fun e h h' => by
    unfold scalogram
    simp only
    rw [init_given x _ h, ok_bind]
    simp only
    rw [hmean, ok_bind, hc, hz, ok_bind, h']
    rfl
  have hnan : fmin + fmax ≠ 0 → fmin ≤ 0 ∨ fmax ≤ 0 → nanChecks fmin fmax (w?.getD (Real.sqrt x.len)) (nv?.getD x.len) = .ok () →
      scalogram x (some fmin) (some fmax) nv? w? = .error .nonFinite := fun h h' hk => by
    have hlog : ∀ n, logspace fmin fmax n = .error .nonFinite := fun n => by
      unfold logspace
      rw [if_neg (by rintro ⟨h1, h2⟩; rcases h' with h' | h' <;> linarith)]
    unfold scalogram
    simp only
    rw [init_given x _ h, ok_bind]
    simp only
    rw [hmean, ok_bind, hc, hz, ok_bind, hk, ok_bind, hlog]
    rfl
  constructor
  · intro h
    by_cases h0 : fmin + fmax = 0
    · have : init x (arange 0 x.len) (some fmin) (some fmax) = .error .zeroDivisionError := by
        unfold init band
        simp only [ok_bind]
        rw [if_pos h0]
      unfold scalogram
      simp only
      rw [this]
      rfl
    · exact hgo _ h0 (by unfold nanChecks; rw [if_pos (h.resolve_left h0)])
  · intro h h0 h'
    have hlen : (x.len : ℕ) ≠ 0 := by omega
    by_cases hA : nv? = some 0 ∨ w?.getD 1 < 0
    · rw [if_pos hA]
      refine hnan h h' ?_
      unfold nanChecks
      rcases hA with rfl | hw
      · rw [if_neg h0, if_neg (by simp), if_neg (by simp)]
      · have hw' : w?.getD (Real.sqrt x.len) < 0 := by
          cases hq : w? with
          | none => rw [hq] at hw; exact absurd hw (by norm_num)
          | some w => rw [hq] at hw; exact hw
        rw [if_neg h0, if_neg (by rintro ⟨-, h1, -⟩; linarith), if_neg (by rintro ⟨-, h1, -⟩; linarith)]
    · rw [if_neg hA]
      push Not at hA
      have hnv : nv?.getD x.len ≠ 0 := by
        cases hq : nv? with
        | none => exact hlen
        | some k => intro hk; exact hA.1 (by rw [hq]; exact congrArg some hk)
      by_cases hw0 : w? = some 0
      · rw [if_pos hw0]
        subst hw0
        refine hgo _ h ?_
        unfold nanChecks
        rw [if_neg h0, if_neg (by rintro ⟨-, h1, -⟩; exact lt_irrefl _ h1), if_pos ⟨hnv, rfl, h'⟩]
      · rw [if_neg hw0]
        have hw : 0 < w?.getD (Real.sqrt x.len) := by
          cases hq : w? with
          | none => exact hsq
          | some w =>
            rcases lt_trichotomy w 0 with h1 | h1 | h1
            · exact absurd h1 (not_lt.2 (by have := hA.2; rwa [hq] at this))
            · exact absurd (by rw [hq, h1]) hw0
            · exact h1
        by_cases hB : fmin < 0 ∧ fmax < 0
        · rw [if_pos hB]
          refine hnan h h' ?_
          unfold nanChecks
          rw [if_neg h0, if_neg (by rintro ⟨-, -, h1⟩; exact absurd h1 (not_le.2 (div_pos_of_neg_of_neg hB.2 hB.1))),
            if_neg (by rintro ⟨-, h1, -⟩; exact absurd h1 hw.ne')]
        · rw [if_neg hB]
          refine hgo _ h ?_
          unfold nanChecks
          have hle : fmax / fmin ≤ 0 := by
            rcases lt_or_gt_of_ne h0 with h1 | h1
            · exact div_nonpos_of_nonneg_of_nonpos (by by_contra hc; exact hB ⟨h1, by linarith⟩) h1.le
            · exact div_nonpos_of_nonpos_of_nonneg (h'.resolve_left (by linarith)) h1.le
          rw [if_neg h0, if_pos ⟨hnv, hw, hle⟩]

example : scalogram ⟨4, fun i => (i : ℂ)⟩ (some (-1 / 4)) (some (1 / 8)) none none = .error .valueError := by
  have := (C56_bad_band ⟨4, fun i => (i : ℂ)⟩ (by norm_num) (-1 / 4) (1 / 8) none none).2 (by norm_num) (by norm_num) (Or.inl (by norm_num))
  rwa [if_neg (by simp), if_neg (by simp), if_neg (by norm_num)] at this

/-- **Wavelets given as arrays** never work: `Scalogram` with an array of two or more entries (or of none) as `waveparams` always raises. -/
theorem C56_wavelet_array (x : Vec ℂ) (fmin fmax : Option ℝ) (wavelet : Utils.Arr12 ℝ) (_ : (ravel wavelet).len ≠ 1) (r : ScalResult) : scalogramWavelet x fmin fmax wavelet ≠ .ok r := by
  intro h
  unfold scalogramWavelet at h
  simp only at h
  obtain ⟨⟨a, b, _, _⟩, -, h⟩ := bind_eq_ok.1 h
  obtain ⟨_, -, h⟩ := bind_eq_ok.1 h
  obtain ⟨_, -, h⟩ := bind_eq_ok.1 h
  simp only at h
  split at h
  · cases h
  split at h
  · cases h
  cases wavelet with
  | one v => cases h
  | two M =>
    simp only at h
    generalize (if M.rows < M.cols then M.cols else M.rows) = m at h
    by_cases hm : m = 0
    · rw [if_pos hm] at h; cases h
    · rw [if_neg hm] at h; cases h

/-- Which error: that of the constructor on the instants `0, …, n - 1`; else `ZeroDivisionError` for a band starting at 0; else `ValueError` for an
array with entries (its truth value) or without two dimensions or without extent; else `TypeError` (a slice with a float). -/
theorem C56_wavelet_errors (x : Vec ℂ) (hn : 1 ≤ x.len) (fmin fmax : Option ℝ) (wavelet : Utils.Arr12 ℝ) :
    (∀ e, init x (arange 0 x.len) fmin fmax = .error e → scalogramWavelet x fmin fmax wavelet = .error e) ∧
    ∀ a b c d, init x (arange 0 x.len) fmin fmax = .ok (a, b, c, d) →
      (a = 0 → scalogramWavelet x fmin fmax wavelet = .error .zeroDivisionError) ∧
      (a ≠ 0 → (ravel wavelet).len ≠ 0 → scalogramWavelet x fmin fmax wavelet = .error .valueError) ∧
      (a ≠ 0 → ∀ v, wavelet = .one v → scalogramWavelet x fmin fmax wavelet = .error .valueError) ∧
      (a ≠ 0 → ∀ M, wavelet = .two M → M.rows * M.cols = 0 → scalogramWavelet x fmin fmax wavelet
        = .error (if M.rows = 0 ∧ M.cols = 0 then .valueError else .typeError)) := by
  obtain ⟨z, hz, -⟩ := hilbert_analytic (x := centredReal x) (by show x.len ≠ 0; omega)
  have hmean : (x.map Complex.re).mean = .ok ((∑ j ∈ range x.len, (x.get j).re) / x.len) := by
    unfold Vec.mean; rw [if_neg (by show x.len ≠ 0; omega)]; rfl
  have hc : (x.map Complex.re).map (fun a => a - (∑ j ∈ range x.len, (x.get j).re) / x.len) = centredReal x := rfl
  constructor
  · intro e he
    unfold scalogramWavelet
    simp only
    rw [he]
    rfl
  · intro a b c d he
    have key : scalogramWavelet x fmin fmax wavelet = if a = 0 then .error .zeroDivisionError
        else if (ravel wavelet).len ≠ 0 then .error .valueError
        else match wavelet with
          | .one _ => .error .valueError
          | .two M => if (if M.rows < M.cols then M.cols else M.rows) = 0 then .error .valueError else .error .typeError := by
      unfold scalogramWavelet
      simp only
      rw [he, ok_bind]
      simp only
      rw [hmean, ok_bind, hc, hz, ok_bind]
      rfl
    rw [key]
    refine ⟨fun h => if_pos h, fun h h' => by rw [if_neg h, if_pos h'], fun h v hv => ?_, fun h M hM h' => ?_⟩
    · subst hv
      rw [if_neg h]
      simp
    · subst hM
      rw [if_neg h, if_neg (show ¬ ((ravel (Utils.Arr12.two M)).len ≠ 0) from fun hne => hne h')]
      simp only
      by_cases h3 : M.rows = 0 ∧ M.cols = 0
      · rw [if_pos h3, if_pos (by rw [h3.1, h3.2]; simp)]
      · rw [if_neg h3, if_neg (by split <;> omega)]

/-- A matrix without rows: `TypeError`. -/
example : scalogramWavelet ⟨4, fun i => (i : ℂ)⟩ (some (1 / 10)) (some (2 / 5)) (.two ⟨0, 3, fun _ _ => 1⟩) = .error .typeError := by
  have h := ((C56_wavelet_errors ⟨4, fun i => (i : ℂ)⟩ (by norm_num) (some (1 / 10)) (some (2 / 5)) (.two ⟨0, 3, fun _ _ => 1⟩)).2 _ _ _ _
    (init_given ⟨4, fun i => (i : ℂ)⟩ _ (by norm_num))).2.2.2 (by norm_num) _ rfl (by norm_num)
  simpa using h

/-- In particular, for a usable band, `ValueError` (the truth value of the array). -/
theorem C56_wavelet_value_error (x : Vec ℂ) (hn : 1 ≤ x.len) (fmin fmax : ℝ) (h0 : 0 < fmin) (h1 : 0 < fmax) (w : Vec ℝ) (hw : 2 ≤ w.len) :
    scalogramWavelet x (some fmin) (some fmax) (.one w) = .error .valueError := by
  obtain ⟨z, hz, -⟩ := hilbert_analytic (x := centredReal x) (by show x.len ≠ 0; omega)
  have hmean : (x.map Complex.re).mean = .ok ((∑ j ∈ range x.len, (x.get j).re) / x.len) := by
    unfold Vec.mean; rw [if_neg (by show x.len ≠ 0; omega)]; rfl
  have hc : (x.map Complex.re).map (fun a => a - (∑ j ∈ range x.len, (x.get j).re) / x.len) = centredReal x := rfl
  unfold scalogramWavelet
  simp only
  rw [init_given x _ (by linarith), ok_bind]
  simp only
  rw [hmean, ok_bind, hc, hz, ok_bind, if_neg h0.ne', if_pos (by show w.len ≠ 0; omega)]

example : scalogramWavelet ⟨4, fun i => (i : ℂ)⟩ (some (1 / 10)) (some (2 / 5)) (.one ⟨3, fun i => (i : ℝ)⟩) = .error .valueError :=
  C56_wavelet_value_error _ (by norm_num) _ _ (by norm_num) (by norm_num) _ (by norm_num)

/-- **Normalisation of the Unterberger, D-Flandrin and Bertrand distributions.**  Whatever matrix the interpolation produced, for regularly
spaced instants: NaN if its trapezoidal integral vanishes; otherwise it is multiplied by a constant, such that the integral times the number
of voices is the energy of the analytic signal of the real part in bins `round(fmin (T - 2))` to `round(fmax (T - 2))`. -/
theorem C56_affine (M : Mat ℝ) (s : Vec ℝ) (z : Vec ℂ) (hz : IsAnalytic s z) (ts : Vec ℤ) (hT : 2 ≤ ts.len) (hreg : Regular ts) (f : Vec ℝ) (fmin fmax : ℝ)
    (nv : ℕ) (hnv : nv ≠ 0) (hr : f.len = M.rows) (hc : M.cols = ts.len) (hs : ts.len ≤ s.len) (h0 : 0 ≤ fmin) (h1 : fmin ≤ fmax) (h2 : fmax ≤ 1) :
    let I := trapz2 M (fun i => (ts.get i : ℝ)) f.get
    let S := ∑ k ∈ Finset.Icc (bandBin' ts.len fmin) (bandBin' ts.len fmax), ‖dft z k‖ ^ 2
    (I = 0 → normaliseTf M s ts f fmin fmax nv = .error .nonFinite) ∧
    (I ≠ 0 → ∃ M', normaliseTf M s ts f fmin fmax nv = .ok M' ∧ M'.rows = M.rows ∧ M'.cols = M.cols ∧
      (∀ p t, M'.get p t = S / (I * nv) * M.get p t) ∧ trapz2 M' (fun i => (ts.get i : ℝ)) f.get * nv = S) := by
  intro I S
  have hT2 : (0 : ℝ) ≤ (ts.len : ℝ) - 2 := by have : (2 : ℝ) ≤ ts.len := by exact_mod_cast hT
                                              linarith
  have hrn : ∀ a : ℝ, 0 ≤ a → 0 ≤ roundEven a := fun a ha => by
    have hb := (roundEven_bounds a).1
    by_contra hlt
    have h3 : roundEven a ≤ -1 := by omega
    have h4 : (roundEven a : ℝ) ≤ -1 := by exact_mod_cast h3
    linarith
  have hb0 : (bandBin' ts.len fmin : ℤ) = roundEven (fmin * ((ts.len : ℝ) - 2)) := Int.toNat_of_nonneg (hrn _ (mul_nonneg h0 hT2))
  have hb1 : (bandBin' ts.len fmax : ℤ) = roundEven (fmax * ((ts.len : ℝ) - 2)) := Int.toNat_of_nonneg (hrn _ (mul_nonneg (h0.trans h1) hT2))
  have hround : roundEven (fmax * ((ts.len : ℝ) - 2)) ≤ (ts.len : ℤ) - 2 := by
    have hb := (roundEven_bounds (fmax * ((ts.len : ℝ) - 2))).2
    have : fmax * ((ts.len : ℝ) - 2) ≤ (ts.len : ℝ) - 2 := by nlinarith
    have h3 : ((roundEven (fmax * ((ts.len : ℝ) - 2)) : ℤ) : ℝ) < (((ts.len : ℤ) - 2 + 1 : ℤ) : ℝ) := by push_cast; linarith
    have h4 : roundEven (fmax * ((ts.len : ℝ) - 2)) < (ts.len : ℤ) - 2 + 1 := by exact_mod_cast h3
    omega
  have hi : ProcUtils.integrate2d M (some (ts.map (fun t : ℤ => (t : ℝ)))) (some f) = .ok I := by
    rw [C47_trapezoidal M _ _ (by omega) hc.symm hr ((ts.get 1 - ts.get 0 : ℤ) : ℝ) (fun i hi => by
      show ((ts.get (i + 1) : ℝ)) - (ts.get i : ℝ) = _
      rw [← Int.cast_sub, hreg i (by omega) 0 (by omega)])]
    rfl
  have hn : normaliseTf M s ts f fmin fmax nv = if I = 0 ∨ nv = 0 then .error .nonFinite else .ok (M.map (fun v => v * S / I / nv)) := by
    obtain ⟨z', h, hz', -⟩ := hilbert_analytic (x := s) (by omega)
    obtain ⟨-, hu⟩ := isAnalytic_unique hz' hz
    have hl := hz'.len
    unfold normaliseTf normalizeAna
    simp only
    rw [h, ok_bind, fft_ok (by omega), ok_bind, ← hb0, ← hb1]
    simp only [ok_bind]
    rw [hi, ok_bind, show (1 : ℤ) + (bandBin' ts.len fmin : ℤ) - 1 = (bandBin' ts.len fmin : ℤ) by ring, add_comm (1 : ℤ), slice_norm_sq (by show _ ≤ z'.len; omega)]
    have hS : (∑ k ∈ Finset.Icc (bandBin' ts.len fmin) (bandBin' ts.len fmax), ‖dftC z'.len z'.get k‖ ^ 2) = S := by
      refine Finset.sum_congr rfl (fun k _ => ?_)
      rw [← dft_eq_dftC, dft_congr (z := z) (by rw [hl, hz.len]) (fun t ht => hu t (by rw [← hz.len]; exact ht))]
    rw [← hS]
  have hnv' : (nv : ℝ) ≠ 0 := by exact_mod_cast hnv
  refine ⟨fun h => by rw [hn, if_pos (Or.inl h)], fun h => ?_⟩
  have hent : ∀ p t, (M.map (fun v => v * S / I / nv)).get p t = S / (I * nv) * M.get p t := fun p t => by
    show M.get p t * S / I / nv = _
    field_simp
  refine ⟨M.map (fun v => v * S / I / nv), by rw [hn, if_neg (by push Not; exact ⟨h, hnv⟩)], rfl, rfl, hent, ?_⟩
  have e : trapz2 (M.map (fun v => v * S / I / nv)) (fun i => (ts.get i : ℝ)) f.get = S / (I * nv) * I := by
    show trapz M.rows f.get (fun j => trapz M.cols _ ((M.map (fun v => v * S / I / nv)).get j)) = S / (I * nv) * trapz M.rows f.get (fun j => trapz M.cols _ (M.get j))
    rw [← trapz_smul]
    refine trapz_congr (fun _ _ => rfl) (fun j hj => ?_)
    rw [← trapz_smul]
    exact trapz_congr (fun _ _ => rfl) (fun t _ => hent j t)
  rw [e]
  field_simp

/-- A 2 × 2 matrix with one entry 8 (integral 2 on unit grids) and the real signal `1, 1` (spectrum `2, 0`): band bin 0, energy 4, two voices. -/
example : ∃ M', normaliseTf ⟨2, 2, fun i j => if i = 0 ∧ j = 0 then 8 else 0⟩ ⟨2, fun _ => 1⟩ (arange 0 (2 : ℕ)) ⟨2, fun i => (i : ℝ)⟩ (1 / 8) (1 / 4) 2
    = .ok M' ∧ M'.get 0 0 = 8 := by
  have hz : IsAnalytic ⟨2, fun _ => (1 : ℝ)⟩ ⟨2, fun _ => (1 : ℂ)⟩ := by
    refine ⟨rfl, fun t _ => by simp, fun k h1 h2 => ?_, ?_, fun k hk => ?_⟩
    · have : ((⟨2, fun _ => (1 : ℂ)⟩ : Vec ℂ)).len = 2 := rfl
      simp only at h1 h2
      omega
    · rw [dft_eq_dftC]; simp [dftC, rootPow]
    · have hk' : k = 1 := by simp only at hk; omega
      subst hk'
      rw [dft_eq_dftC]
      rw [show dftC 2 (fun _ => (1 : ℂ)) ((1 : ℕ) : ℤ) = 0 from dftC_const (by norm_num) (by norm_num) 1]
      rfl
  have hI : trapz2 ⟨2, 2, fun i j => if i = 0 ∧ j = 0 then (8 : ℝ) else 0⟩ (fun i => (((arange 0 (2 : ℕ)).get i : ℤ) : ℝ)) (fun i => (i : ℝ)) = 2 := by
    simp [trapz2, trapz, arange_get]
    try norm_num
  have hb : ∀ f, bandBin' 2 f = 0 := fun f => by unfold bandBin'; norm_num; exact (by simpa using (roundEven_natCast 0).le)
  have hd : dft (⟨2, fun _ => (1 : ℂ)⟩ : Vec ℂ) 0 = 2 := by rw [dft_eq_dftC]; simp [dftC]
  obtain ⟨M', h, -, -, he, -⟩ := (C56_affine ⟨2, 2, fun i j => if i = 0 ∧ j = 0 then (8 : ℝ) else 0⟩ ⟨2, fun _ => (1 : ℝ)⟩ ⟨2, fun _ => (1 : ℂ)⟩ hz
    (arange 0 (2 : ℕ)) (by decide) (fun i _ j _ => by simp only [arange_get]; push_cast; ring) ⟨2, fun i => (i : ℝ)⟩ (1 / 8) (1 / 4) 2 (by norm_num) rfl rfl
    le_rfl (by norm_num) (by norm_num) (by norm_num)).2 (by rw [hI]; norm_num)
  refine ⟨M', h, ?_⟩
  rw [he 0 0, hI]
  have hl : (arange 0 ((2 : ℕ) : ℤ)).len = 2 := rfl
  rw [hl, hb, hb]
  simp [hd]
  norm_num

/-- Two samples `1, -1`, band `[1/8, 1/4]`, wavelet parameter 1: the run succeeds. -/
example : ∃ M, scalogram ⟨2, fun t => (-1) ^ t⟩ (some (1 / 8)) (some (1 / 4)) none (some 1) = .ok M ∧ M.tfr.rows = 2 ∧
    M.f.get 0 = 1 / 8 ∧ M.f.get 1 = 1 / 4 := by
  have hz : IsAnalytic (centredReal ⟨2, fun t => (-1) ^ t⟩) ⟨2, fun t => (-1) ^ t⟩ := by
    refine ⟨rfl, fun t ht => ?_, fun k hk h2 => ?_, ?_, fun k hk => ?_⟩
    · have : t = 0 ∨ t = 1 := by have : t < 2 := ht
                                 omega
      rcases this with rfl | rfl <;> simp [centredReal, Finset.sum_range_succ]
    · have h3 : k < 2 := hk
      have h4 : 2 < 2 * k := h2
      omega
    · simp [dft, dtft, Finset.sum_range_succ, expi]
    · have h3 : 2 * k = 2 := hk
      have : k = 1 := by omega
      subst this
      simp only [dft, dtft, Finset.sum_range_succ, Finset.sum_range_zero, expi]
      have : (((-(2 * Real.pi * (((1 : ℕ) : ℝ) / ((2 : ℕ) : ℝ)) * ((1 : ℕ) : ℝ))) : ℝ) : ℂ) * Complex.I = -(Real.pi * Complex.I) := by
        push_cast; ring
      rw [this, Complex.exp_neg, Complex.exp_pi_mul_I]
      norm_num
  have hv : voiceFreq 2 (1 / 8) (1 / 4) 1 = 1 / 4 := (voiceFreq_ends (n := 2) le_rfl (by norm_num)).2
  have hne : morletCoeff ⟨2, fun t => (-1) ^ t⟩ (1 / 8) (1 / 4) 1 1 ((0 : ℕ) : ℤ) ≠ 0 := by
    unfold morletCoeff halfLength
    rw [hv]
    have hr : (roundEven (1 * (1 / 4 / (1 / 4)))).toNat = 1 := by
      norm_num
      have : roundEven ((1 : ℤ) : ℝ) = 1 := roundEven_intCast 1
      norm_num at this
      rw [this]; rfl
    rw [hr]
    intro h
    have h' := congrArg Complex.re h
    simp only [filtered, Finset.sum_range_succ, Finset.sum_range_zero, morletAt, expi] at h'
    norm_num at h'
    have e : -(2 * (Real.pi : ℂ) * (1 / 4) * Complex.I) = ((-(Real.pi / 2) : ℝ) : ℂ) * Complex.I := by push_cast; ring
    rw [e, Complex.exp_ofReal_mul_I_re, Real.cos_neg, Real.cos_pi_div_two] at h'
    norm_num at h'
  obtain ⟨M, C, hM, h1, -, -, h4, -⟩ := (C56_morlet ⟨2, fun t => (-1) ^ t⟩ le_rfl _ _ (some 1) none (1 / 8) (1 / 4) _ _ 1
    (init_given _ _ (by norm_num)) (by norm_num) (by norm_num) (by norm_num) (Or.inl rfl) rfl (by norm_num) _ hz).2
    ⟨1, by norm_num, 0, by norm_num, hne⟩
  refine ⟨M, hM, h1, ?_, ?_⟩
  · rw [h4]; exact (voiceFreq_ends (n := 2) le_rfl (by norm_num)).1
  · rw [h4]; exact hv

end Tftb.Props
