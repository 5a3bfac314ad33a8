import Verif.Model.Misc
import Verif.Lemmas.Hilbert
import Verif.Lemmas.Analytic
import Verif.Lemmas.Post
import Verif.Props.Analytic
import Mathlib.Analysis.SpecialFunctions.Pow.Deriv
import Mathlib.Analysis.Complex.ExponentialBounds

/-! # C24: Klauder wavelet, Altes signal, power-law group delay -/

namespace Tftb.Props

open Finset Spec Misc ComplexConjugate

/-! ## Klauder wavelet -/

/-- Spectrum of the Klauder wavelet at frequency `f`. -/
noncomputable def klauderSpectrum (a f0 f : ℝ) : ℝ := Real.exp (-2 * Real.pi * a * f) * f ^ (2 * Real.pi * a * f0 - 1 / 2)

/-- Value put in bin `k` out of `2 q`: that of the frequency of the bin, zero in the first. -/
noncomputable def klauderBin (q : ℕ) (a f0 : ℝ) (k : ℕ) : ℝ :=
  if k = 0 then 0 else klauderSpectrum a f0 ((min k (2 * q - k) : ℕ) / (2 * q : ℕ))

theorem klauderBin_pos {q k : ℕ} (a f0 : ℝ) (h0 : 0 < k) (hk : k < 2 * q) : 0 < klauderBin q a f0 k := by
  unfold klauderBin klauderSpectrum
  rw [if_neg (by omega)]
  have h1 : (0 : ℝ) < ((min k (2 * q - k) : ℕ) : ℝ) := by exact_mod_cast (by omega : 0 < min k (2 * q - k))
  have h2 : (0 : ℝ) < ((2 * q : ℕ) : ℝ) := by exact_mod_cast (by omega : 0 < 2 * q)
  exact mul_pos (Real.exp_pos _) (Real.rpow_pos_of_pos (div_pos h1 h2) _)

theorem sum_rotate {q : ℕ} (f : ℕ → ℝ) : ∑ i ∈ range (2 * q), f ((i + q) % (2 * q)) = ∑ i ∈ range (2 * q), f i := by
  rw [two_mul, Finset.sum_range_add, Finset.sum_range_add, add_comm]
  congr 1
  · apply Finset.sum_congr rfl
    intro i hi
    have := Finset.mem_range.1 hi
    have e : q + i + q = i + (q + q) := by ring
    rw [e, Nat.add_mod_right, Nat.mod_eq_of_lt (by omega)]
  · apply Finset.sum_congr rfl
    intro i hi
    have := Finset.mem_range.1 hi
    rw [Nat.mod_eq_of_lt (by omega), add_comm]

theorem idftC_real {n : ℕ} (hn : n ≠ 0) (W : ℕ → ℝ) (hW : ∀ k < n, W ((n - k) % n) = W k) :
    ∀ t < n, (idftC n (fun k => (W k : ℂ)) t).im = 0 := by
  have h : ∀ t < n, conj (idftC n (fun k => (W k : ℂ)) t) = idftC n (fun k => (W k : ℂ)) t := by
    have := dftC_eq_of_eq hn (x := fun t => conj (idftC n (fun k => (W k : ℂ)) t)) (y := fun t => idftC n (fun k => (W k : ℂ)) t)
      (fun k hk => by
        have h1 := conj_dftC n (fun t => idftC n (fun k => (W k : ℂ)) t) (-(k : ℤ))
        rw [neg_neg] at h1
        rw [← h1, dftC_neg hn _ hk, dftC_idftC hn _ (Nat.mod_lt _ (by omega)), dftC_idftC hn _ hk, Complex.conj_ofReal, hW k hk])
    exact this
  intro t ht
  exact Complex.conj_eq_iff_im.1 (h t ht)

theorem re_rootPow (n : ℕ) (a : ℤ) : (rootPow n (-a)).re = Real.cos (2 * Real.pi * a / n) := by
  rw [rootPow_eq_exp, Complex.exp_ofReal_mul_I_re]
  congr 1
  push_cast
  ring

/-- `klauder`: `2 ⌊n/2⌋` samples of unit energy, the cosine sum of the Klauder spectrum centred on the middle sample: symmetric, of zero mean, and
largest in the middle. -/
theorem C24_klauder (n : ℕ) (a f0 : ℝ) (hn : 2 ≤ n) (h0 : 0 < f0) (h1 : f0 < 1 / 2) :
    ∃ (x : Vec ℝ) (E : ℝ), klauder n a f0 = .ok x ∧ x.len = 2 * (n / 2) ∧ 0 < E ∧
      (∀ i < x.len, x.get i = (∑ k ∈ range (2 * (n / 2)), klauderBin (n / 2) a f0 k
        * Real.cos (2 * Real.pi * (k * ((i : ℝ) - (n / 2 : ℕ))) / (2 * (n / 2) : ℕ))) / E) ∧
      ∑ i ∈ range x.len, x.get i ^ 2 = 1 ∧ ∑ i ∈ range x.len, x.get i = 0 ∧
      (∀ j < n / 2, x.get (n / 2 - j) = x.get (n / 2 + j)) ∧
      (∀ i < x.len, |x.get i| ≤ x.get (n / 2)) := by
  set q := n / 2 with hq
  have hq1 : 1 ≤ q := by omega
  set N := 2 * q with hN
  have hN0 : N ≠ 0 := by omega
  have hNR : (0 : ℝ) < N := by exact_mod_cast Nat.pos_of_ne_zero hN0
  set W : ℕ → ℝ := klauderBin q a f0 with hW
  set w : ℕ → ℂ := fun t => idftC N (fun k => (W k : ℂ)) t with hw
  have hsym : ∀ k < N, W ((N - k) % N) = W k := by
    intro k hk
    rcases Nat.eq_zero_or_pos k with rfl | hk0
    · simp
    · rw [Nat.mod_eq_of_lt (by omega), hW]
      unfold klauderBin
      rw [if_neg (by omega), if_neg (by omega)]
      congr 3
      omega
  have hreal := idftC_real hN0 W hsym
  have hwre : ∀ t < N, w t = (((w t).re : ℝ) : ℂ) := fun t ht => by
    apply Complex.ext
    · simp
    · rw [hw]; simpa using hreal t ht
  have hre : ∀ t : ℕ, ∀ s : ℤ, (N : ℤ) ∣ (t : ℤ) - s → (w t).re = (∑ k ∈ range N, W k * Real.cos (2 * Real.pi * (k * (s : ℝ)) / N)) / N := by
    intro t s hts
    rw [hw]
    simp only
    unfold idftC
    have e : (∑ k ∈ range N, (W k : ℂ) * rootPow N (-((k : ℤ) * (t : ℤ)))) / (N : ℂ)
        = (∑ k ∈ range N, (W k : ℂ) * rootPow N (-((k : ℤ) * s))) / ((N : ℝ) : ℂ) := by
      congr 1
      apply Finset.sum_congr rfl
      intro k _
      congr 1
      apply rootPow_congr hN0
      have : -((k : ℤ) * t) - -((k : ℤ) * s) = -(k : ℤ) * (t - s) := by ring
      rw [this]
      exact Dvd.dvd.mul_left hts _
    rw [e, Complex.div_ofReal_re, Complex.re_sum]
    congr 1
    apply Finset.sum_congr rfl
    intro k _
    rw [Complex.re_ofReal_mul, re_rootPow]
    congr 2
    push_cast
    ring
  have hE : 0 < ∑ t ∈ range N, ‖w t‖ ^ 2 := by
    have hp := parseval hN0 w
    have h2 : 0 < ∑ k ∈ range N, ‖dftC N w k‖ ^ 2 := by
      refine Finset.sum_pos' (fun _ _ => by positivity) ⟨1, Finset.mem_range.2 (by omega), ?_⟩
      rw [hw]
      rw [dftC_idftC hN0 _ (by omega)]
      have := klauderBin_pos a f0 (q := q) (k := 1) (by norm_num) (by omega)
      rw [Complex.norm_real]
      have h3 : ‖W 1‖ > 0 := norm_pos_iff.2 this.ne'
      positivity
    rw [hp] at h2
    exact (mul_pos_iff_of_pos_left hNR).1 h2
  set V : Vec ℂ := ⟨N, fun i => w ((i + q) % N)⟩ with hV
  have hsum : ∑ i ∈ range N, ‖V.get i‖ ^ 2 = ∑ t ∈ range N, ‖w t‖ ^ 2 := sum_rotate (fun t => ‖w t‖ ^ 2)
  have hnorm : V.norm = Real.sqrt (∑ t ∈ range N, ‖w t‖ ^ 2) := by
    unfold Vec.norm
    rw [show V.len = N from rfl, hsum]
  have hnpos : 0 < V.norm := by rw [hnorm]; exact Real.sqrt_pos.2 hE
  have hok : klauder n a f0 = .ok ⟨N, fun i => (w ((i + q) % N)).re / V.norm⟩ := by
    have t1 : truncInt (((n : ℤ) : ℝ) / 2) = (q : ℤ) := by
      have := trunc_half n
      rw [← hq] at this
      rw [← this]; push_cast; rfl
    have t2 : truncInt (((n : ℤ) : ℝ) / 2 + 1) = (q : ℤ) + 1 := by
      have h3 := trunc_half (n + 2)
      have e : (n + 2) / 2 = q + 1 := by omega
      rw [e] at h3
      have e2 : (((n + 2 : ℕ) : ℝ)) / 2 = ((n : ℤ) : ℝ) / 2 + 1 := by push_cast; ring
      rw [e2] at h3
      rw [h3]; push_cast; rfl
    unfold klauder
    rw [if_neg (by omega), if_neg (by norm_num; exact ⟨by linarith, h0⟩), t1, t2]
    have e3 : ((q : ℤ) + 1).toNat = q + 1 := by omega
    simp only [e3]
    unfold Vec.setItem
    rw [if_pos ⟨by simp [Vec.map, linspace], by simp [Vec.map, linspace]⟩, ok_bind]
    simp only [Vec.map, linspace, Vec.slice, Vec.clampIdx, Vec.reverse, Vec.append]
    have e4 : min (q + 1) (if (q : ℤ) < 0 then (q : ℤ) + ((q + 1 : ℕ) : ℤ) else (q : ℤ)).toNat = q := by
      rw [if_neg (by omega)]; omega
    have e5 : min (q + 1) (if (q : ℤ) + 1 < 0 then (q : ℤ) + 1 + ((q + 1 : ℕ) : ℤ) else (q : ℤ) + 1).toNat = q + 1 := by
      rw [if_neg (by omega)]; omega
    have e6 : min (q + 1) (if (1 : ℤ) < 0 then (1 : ℤ) + ((q + 1 : ℕ) : ℤ) else (1 : ℤ)).toNat = 1 := by
      rw [if_neg (by omega)]; simp
    have e7 : min (q + 1) (if (0 : ℤ) < 0 then (0 : ℤ) + ((q + 1 : ℕ) : ℤ) else (0 : ℤ)).toNat = 0 := by
      simp
    simp only [e4, e5, e6, e7]
    have e8 : q - 0 + (q + 1 - 1) = N := by omega
    simp only [e8]
    have key : ∀ G : ℕ → ℂ, (∀ k < N, G k = (W k : ℂ)) → (do
        let wavet ← ifft ⟨N, G⟩
        let wavet := fftshift wavet
        if wavet.norm = 0 then .error .nonFinite
        else (.ok (wavet.map (fun z : ℂ => z.re / wavet.norm)) : Py (Vec ℝ))) = .ok ⟨N, fun i => (w ((i + q) % N)).re / V.norm⟩ := by
      intro G hG
      rw [ifft_ok (by exact hN0), ok_bind]
      have hGw : ∀ t : ℤ, idftC N G t = idftC N (fun k => (W k : ℂ)) t := fun t => by
        unfold idftC
        congr 1
        exact Finset.sum_congr rfl (fun k hk => by rw [hG k (Finset.mem_range.1 hk)])
      have hfs : fftshift (⟨N, fun k => idftC N G (k : ℤ)⟩ : Vec ℂ) = V := by
        unfold fftshift
        simp only
        rw [hV]
        congr 1
        funext i
        have : N - N / 2 = q := by omega
        rw [this, hGw]
      simp only
      rw [hfs, if_neg hnpos.ne']
      rfl
    refine key _ (fun k hk => ?_)
    have hmod : ∀ j : ℕ, (if j = 0 then (0 : ℝ) else Real.exp (-2 * Real.pi * a * if q + 1 = 1 then 0 else 0 + (j : ℝ) * ((0.5 - 0) / (((q + 1 : ℕ) : ℝ) - 1))) *
        (if q + 1 = 1 then 0 else 0 + (j : ℝ) * ((0.5 - 0) / (((q + 1 : ℕ) : ℝ) - 1))) ^ (2 * Real.pi * a * f0 - 0.5))
        = if j = 0 then 0 else klauderSpectrum a f0 ((j : ℝ) / N) := by
      intro j
      by_cases hj : j = 0
      · rw [if_pos hj, if_pos hj]
      · rw [if_neg hj, if_neg hj, if_neg (by omega)]
        have e10 : 0 + (j : ℝ) * ((0.5 - 0) / (((q + 1 : ℕ) : ℝ) - 1)) = (j : ℝ) / N := by
          have hqR : (q : ℝ) ≠ 0 := Nat.cast_ne_zero.2 (by omega)
          rw [hN]
          rw [show (0.5 : ℝ) = 1 / 2 by norm_num, show (((q + 1 : ℕ) : ℝ) - 1) = q by push_cast; ring]
          push_cast
          field_simp
          ring
        rw [e10]
        unfold klauderSpectrum
        norm_num
    have hup : ∀ (g : ℕ → ℝ) (j : ℕ), Function.update g (wrapIdx (q + 1) 0) 0 j = if j = 0 then 0 else g j := by
      intro g j
      have : wrapIdx (q + 1) 0 = 0 := by unfold wrapIdx; simp
      rw [this, Function.update_apply]
    congr 1
    rw [hup, hup, hmod, hmod, hW]
    unfold klauderBin
    by_cases hkq : k < q - 0
    · rw [if_pos hkq]
      have e11 : min k (2 * q - k) = 0 + k := by omega
      rw [e11, ← hN]
      simp only [Nat.zero_add]
    · rw [if_neg hkq, if_neg (by omega), if_neg (by omega)]
      have e11 : min k (2 * q - k) = 1 + (q + 1 - 1 - 1 - (k - (q - 0))) := by omega
      rw [e11, ← hN]
  have hclosed : ∀ i < N, (w ((i + q) % N)).re / V.norm = (∑ k ∈ range N, W k * Real.cos (2 * Real.pi * (k * ((i : ℝ) - q)) / N)) / (N * V.norm) := by
    intro i _
    have := hre ((i + q) % N) ((i : ℤ) - q) (by
      have h2 : ((((i + q) % N : ℕ)) : ℤ) = ((i : ℤ) + q) % N := by push_cast; rfl
      rw [h2]
      have h3 : ((i : ℤ) + q) % N - ((i : ℤ) - q) = (N : ℤ) - ((i : ℤ) + q - ((i : ℤ) + q) % N) := by push_cast [hN]; ring
      rw [h3]
      exact dvd_sub dvd_rfl Int.dvd_self_sub_emod)
    rw [this, div_div]
    congr 1
    apply Finset.sum_congr rfl
    intro k _
    push_cast
    rfl
  have hWnn : ∀ k ∈ range N, 0 ≤ W k := by
    intro k hk
    rcases Nat.eq_zero_or_pos k with rfl | h
    · rw [hW]; unfold klauderBin; simp
    · exact (klauderBin_pos a f0 h (Finset.mem_range.1 hk)).le
  have hEpos : 0 < N * V.norm := by positivity
  refine ⟨_, N * V.norm, hok, rfl, hEpos, fun i hi => hclosed i hi, ?_, ?_, fun j hj => ?_, fun i hi => ?_⟩
  · simp only [div_pow]
    rw [← Finset.sum_div, sum_rotate (fun t => (w t).re ^ 2), hnorm, Real.sq_sqrt hE.le]
    have : ∑ t ∈ range (2 * q), (w t).re ^ 2 = ∑ t ∈ range N, ‖w t‖ ^ 2 := by
      apply Finset.sum_congr rfl
      intro t ht
      rw [hwre t (Finset.mem_range.1 ht)]
      rw [Complex.norm_real, Real.norm_eq_abs, sq_abs, Complex.ofReal_re]
    rw [this, div_self hE.ne']
  · simp only
    rw [← Finset.sum_div, sum_rotate (fun t => (w t).re)]
    have h2 : dftC N w 0 = 0 := by
      have := dftC_idftC hN0 (fun k => (W k : ℂ)) (k := 0) (by omega)
      rw [Nat.cast_zero] at this
      rw [hw, this, hW]
      unfold klauderBin
      simp
    unfold dftC at h2
    simp only [mul_zero, rootPow_zero, mul_one] at h2
    have h3 := congrArg Complex.re h2
    rw [Complex.re_sum, Complex.zero_re] at h3
    rw [h3, zero_div]
  · simp only
    rw [hclosed _ (by omega), hclosed _ (by omega)]
    congr 1
    apply Finset.sum_congr rfl
    intro k _
    congr 1
    have e : ((q - j : ℕ) : ℝ) - q = -(((q + j : ℕ) : ℝ) - q) := by push_cast [Nat.cast_sub hj.le]; ring
    rw [e, ← Real.cos_neg]
    congr 1
    ring
  · simp only
    rw [hclosed i hi, hclosed q (by omega), abs_div, abs_of_pos hEpos]
    apply div_le_div_of_nonneg_right _ hEpos.le
    refine (Finset.abs_sum_le_sum_abs _ _).trans (Finset.sum_le_sum (fun k hk => ?_))
    rw [abs_mul, abs_of_nonneg (hWnn k hk)]
    apply mul_le_mul_of_nonneg_left _ (hWnn k hk)
    simp
    exact Real.abs_cos_le_one _

/-- The spectrum of the Klauder wavelet (for a positive attenuation) peaks at the frequency `f0 - 1/(4 π a)`, below the nominal centre `f0`. -/
theorem C24_klauder_peak (a f0 f : ℝ) (ha : 0 < a) (hp : 0 < f0 - 1 / (4 * Real.pi * a)) (hf : 0 < f) (hne : f ≠ f0 - 1 / (4 * Real.pi * a)) :
    klauderSpectrum a f0 f < klauderSpectrum a f0 (f0 - 1 / (4 * Real.pi * a)) := by
  have hpi := Real.pi_pos
  set g := f0 - 1 / (4 * Real.pi * a) with hg
  have hpow : 2 * Real.pi * a * f0 - 1 / 2 = 2 * Real.pi * a * g := by
    rw [hg]
    field_simp
    ring
  unfold klauderSpectrum
  rw [hpow, Real.rpow_def_of_pos hf, Real.rpow_def_of_pos hp, ← Real.exp_add, ← Real.exp_add]
  apply Real.exp_lt_exp.2
  have h1 : Real.log (f / g) < f / g - 1 := Real.log_lt_sub_one_of_pos (by positivity) (fun h => hne (by
    field_simp at h; exact h))
  rw [Real.log_div hf.ne' hp.ne'] at h1
  have h2 : 0 < 2 * Real.pi * a := by positivity
  have h3 : g * (Real.log f - Real.log g) < f - g := by
    have := mul_lt_mul_of_pos_left h1 hp
    have e : g * (f / g - 1) = f - g := by field_simp
    linarith
  nlinarith

/-- A single point, or none, and a centre outside `(0, 1/2)` are refused. -/
theorem C24_klauder_rejects (a f0 : ℝ) :
    (0 < f0 → f0 < 1 / 2 → klauder 1 a f0 = .error .valueError) ∧
    (∀ n : ℤ, n ≤ 0 → klauder n a f0 = .error .assertionError) ∧
    (∀ n : ℤ, f0 ≤ 0 ∨ 1 / 2 ≤ f0 → klauder n a f0 = .error .assertionError) := by
  refine ⟨fun h0 h1 => ?_, fun n hn => ?_, fun n h => ?_⟩
  · have t1 : truncInt (((1 : ℤ) : ℝ) / 2) = 0 := by
      have := trunc_half 1
      push_cast at this ⊢
      exact this
    have t2 : truncInt (((1 : ℤ) : ℝ) / 2 + 1) = 1 := by
      have h3 := trunc_half 3
      norm_num at h3 ⊢
      exact h3
    unfold klauder
    rw [if_neg (by omega), if_neg (by norm_num; exact ⟨by linarith, h0⟩), t1, t2]
    simp only [Int.toNat_one]
    unfold Vec.setItem
    rw [if_pos ⟨by simp [Vec.map, linspace], by simp [Vec.map, linspace]⟩, ok_bind]
    simp [Vec.map, linspace, Vec.slice, Vec.clampIdx, Vec.reverse, Vec.append, ifft]
  · unfold klauder
    rw [if_pos hn]
  · unfold klauder
    by_cases hn : n ≤ 0
    · rw [if_pos hn]
    · rw [if_neg hn, if_pos]
      rintro ⟨h1, h2⟩
      norm_num at h1
      rcases h with h | h <;> linarith

example : ∃ x, klauder 9 10 (1 / 5) = .ok x ∧ x.len = 8 ∧ ∑ i ∈ range x.len, x.get i = 0 ∧ x.get 3 = x.get 5 := by
  obtain ⟨x, E, h, hl, -, -, -, hs, hsym, -⟩ := C24_klauder 9 10 (1 / 5) (by norm_num) (by norm_num) (by norm_num)
  exact ⟨x, by exact_mod_cast h, hl, hs, hsym 1 (by norm_num)⟩

/-! ## Altes signal -/

/-- `altes` (`0 < fmin < fmax`, attenuation above one): `n` samples of unit energy, taken at the instants `t1, t1 + 1, …`, of a chirp whose
envelope is at most one and equals `1 / alpha` at both ends of the interval `[t1, t1 + n]`, and whose phase (in cycles) has derivative
`-g fmax` at the start and `-g fmin` at the end, with `g = exp (log² (fmax/fmin) / (8 log alpha)) > 1`. -/
theorem C24_altes (n : ℕ) (fmin fmax alpha : ℝ) (hn : 1 ≤ n) (h0 : 0 < fmin) (h1 : fmin < fmax) (ha : 1 < alpha) :
    ∃ (t1 g : ℝ) (env phase : ℝ → ℝ), t1 = n * fmin / (fmax - fmin) ∧ g = Real.exp (Real.log (fmax / fmin) ^ 2 / (8 * Real.log alpha)) ∧
      (∀ t, 0 < t → 0 < env t ∧ env t ≤ 1) ∧ env t1 = 1 / alpha ∧ env (t1 + n) = 1 / alpha ∧
      (∀ t, 0 < t → phase t = -(g * fmax * t1) * Real.log (t / Real.sqrt (t1 * (t1 + n)))) ∧
      (∀ t, 0 < t → HasDerivAt phase (-(g * fmax * t1) / t) t) ∧ g * fmax * t1 / (t1 + n) = g * fmin ∧
      ((∃ i < n, Real.cos (2 * Real.pi * phase (t1 + i)) ≠ 0) →
        ∃ (x : Vec ℝ) (E : ℝ), altes n fmin fmax alpha = .ok x ∧ x.len = n ∧ 0 < E ∧
          (∀ i < n, x.get i = env (t1 + i) * Real.cos (2 * Real.pi * phase (t1 + i)) / E) ∧ ∑ i ∈ range n, x.get i ^ 2 = 1) := by
  have hf : 0 < fmax := h0.trans h1
  have hnR : (0 : ℝ) < n := by exact_mod_cast hn
  set L := Real.log (fmax / fmin) with hL
  have hLpos : 0 < L := Real.log_pos (by rw [lt_div_iff₀ h0]; linarith)
  set A := Real.log alpha with hA
  have hApos : 0 < A := Real.log_pos ha
  set g := Real.exp (L ^ 2 / (8 * A)) with hg
  have hgpos : 0 < g := Real.exp_pos _
  have hlg : Real.log g = L ^ 2 / (8 * A) := Real.log_exp _
  have hlgpos : 0 < Real.log g := by rw [hlg]; positivity
  have hbeta : Real.sqrt (2 * Real.log g * A) = L / 2 := by
    rw [hlg]
    have : 2 * (L ^ 2 / (8 * A)) * A = (L / 2) ^ 2 := by field_simp; ring
    rw [this, Real.sqrt_sq (by positivity)]
  set β := L / 2 with hβ
  have hβpos : 0 < β := by positivity
  have hee : 0 < Real.exp β - Real.exp (-β) := by
    have := Real.exp_lt_exp.2 (show -β < β by linarith)
    linarith
  set t0 := (n : ℝ) / (Real.exp β - Real.exp (-β)) with ht0
  have ht0pos : 0 < t0 := div_pos hnR hee
  set t1 := t0 * Real.exp (-β) with ht1
  have ht1pos : 0 < t1 := mul_pos ht0pos (Real.exp_pos _)
  have ht2 : t0 * Real.exp β = t1 + n := by
    have : t0 * (Real.exp β - Real.exp (-β)) = n := by rw [ht0]; field_simp
    rw [ht1]; linarith
  set nu0 := Real.sqrt (fmin * fmax) with hnu0
  have hfe : fmax = fmin * Real.exp (2 * β) := by
    rw [hβ, show 2 * (L / 2) = L by ring, hL, Real.exp_log (by positivity)]
    field_simp
  have hnu : nu0 = fmin * Real.exp β := by
    rw [hnu0, hfe, show fmin * (fmin * Real.exp (2 * β)) = (fmin * Real.exp β) ^ 2 by
      rw [mul_pow, ← Real.exp_nat_mul]; push_cast; ring, Real.sqrt_sq (by positivity)]
  set b := -t0 * nu0 * g * Real.log g with hb
  set env : ℝ → ℝ := fun t => Real.exp (-(Real.log (t / t0) ^ 2) / (2 * Real.log g)) with henv
  set phase : ℝ → ℝ := fun t => b * Real.log (t / t0) / Real.log g with hphase
  have hend : ∀ t, Real.log (t / t0) ^ 2 = β ^ 2 → env t = 1 / alpha := by
    intro t ht
    rw [henv]
    simp only
    rw [ht, hlg]
    have : -β ^ 2 / (2 * (L ^ 2 / (8 * A))) = -A := by rw [hβ]; field_simp; ring
    rw [this, Real.exp_neg, hA, Real.exp_log (by linarith), one_div]
  have hden : 0 < fmin * Real.exp (2 * β) - fmin := by rw [← hfe]; linarith
  have ht0s : Real.sqrt (t1 * (t1 + n)) = t0 := by
    rw [← ht2, ht1, show t0 * Real.exp (-β) * (t0 * Real.exp β) = t0 ^ 2 * (Real.exp (-β) * Real.exp β) by ring, ← Real.exp_add]
    rw [neg_add_cancel, Real.exp_zero, mul_one, Real.sqrt_sq ht0pos.le]
  refine ⟨t1, g, env, phase, ?_, rfl, fun t _ => ⟨Real.exp_pos _, ?_⟩, ?_, ?_, fun t ht => ?_, fun t ht => ?_, ?_, fun hne => ?_⟩
  · rw [eq_div_iff (by linarith), hfe, ht1, ht0, Real.exp_neg, two_mul, Real.exp_add]
    have h5 := Real.exp_pos β
    rw [Real.exp_neg] at hee
    have h6 : Real.exp β ^ 2 - 1 ≠ 0 := by
      intro h
      have : Real.exp β - (Real.exp β)⁻¹ = 0 := by
        field_simp
        linarith
      linarith
    field_simp
  · rw [henv]
    simp only
    apply Real.exp_le_one_iff.2
    exact div_nonpos_of_nonpos_of_nonneg (neg_nonpos.2 (sq_nonneg _)) (by positivity)
  · apply hend
    rw [ht1, mul_div_cancel_left₀ _ ht0pos.ne', Real.log_exp]
    ring
  · apply hend
    rw [← ht2, mul_div_cancel_left₀ _ ht0pos.ne', Real.log_exp]
  · rw [ht0s, hphase]
    simp only
    rw [hb, hnu, hfe, ht1, two_mul, Real.exp_add, Real.exp_neg]
    have := (Real.exp_pos β).ne'
    have := hlgpos.ne'
    field_simp
  · have hd : HasDerivAt (fun t : ℝ => Real.log (t / t0)) (1 / t0 / (t / t0)) t :=
      ((hasDerivAt_id t).div_const t0).log (div_pos ht ht0pos).ne'
    have h2 := (hd.const_mul b).div_const (Real.log g)
    refine HasDerivAt.congr_deriv h2 ?_
    rw [hb, hnu, hfe, ht1, two_mul, Real.exp_add, Real.exp_neg]
    have := (Real.exp_pos β).ne'
    have := hlgpos.ne'
    field_simp
  · rw [← ht2, hfe, ht1, two_mul, Real.exp_add, Real.exp_neg]
    have := (Real.exp_pos β).ne'
    field_simp
  · set u : ℕ → ℝ := fun i => env (t1 + i) * Real.cos (2 * Real.pi * phase (t1 + i)) with hu
    have hpos : 0 < ∑ i ∈ range n, u i ^ 2 := by
      obtain ⟨i, hi, hci⟩ := hne
      refine Finset.sum_pos' (fun _ _ => sq_nonneg _) ⟨i, Finset.mem_range.2 hi, ?_⟩
      have : u i ≠ 0 := mul_ne_zero (Real.exp_pos _).ne' hci
      positivity
    set E := Real.sqrt (∑ i ∈ range n, u i ^ 2) with hE
    have hEpos : 0 < E := Real.sqrt_pos.2 hpos
    have hok : altes n fmin fmax alpha = .ok ⟨n, fun i => u i / E⟩ := by
      unfold altes
      rw [if_neg h0.ne', if_neg (by
        push Not
        exact fun _ => ⟨by positivity, by linarith, by linarith, by linarith⟩)]
      simp only [← hL, ← hA, ← hg, hbeta, ← ht0, ← ht1, ← hnu0, ← hb]
      rw [slice_zero_nat (by simp [linspace])]
      have hlin : ∀ i : ℕ, (linspace t1 (t0 * Real.exp β) (n + 1)).get i = t1 + i := by
        intro i
        unfold linspace
        simp only
        rw [if_neg (by omega), ht2]
        push_cast
        have : ((n : ℝ) + 1 - 1) = n := by ring
        rw [this]
        field_simp
        ring
      have hx : (⟨n, (linspace t1 (t0 * Real.exp β) (n + 1)).get⟩ : Vec ℝ).map (fun s => Real.exp (-(Real.log (s / t0) ^ 2) / (2 * Real.log g)) *
          Real.cos (2 * Real.pi * b * Real.log (s / t0) / Real.log g)) = ⟨n, u⟩ := by
        unfold Vec.map
        congr 1
        funext i
        simp only [hlin, hu, henv, hphase]
        congr 2
        ring
      rw [hx]
      have hnr : normR ⟨n, u⟩ = E := rfl
      rw [hnr, if_neg (fun h => hEpos.ne' h.1)]
      rfl
    refine ⟨_, E, hok, rfl, hEpos, fun _ _ => rfl, ?_⟩
    simp only [div_pow]
    rw [← Finset.sum_div, hE, Real.sq_sqrt hpos.le, div_self hpos.ne']

/-- Invalid bounds; no point is an empty signal whatever the others are. -/
theorem C24_altes_rejects (n : ℕ) (fmin fmax alpha : ℝ) :
    altes n 0 fmax alpha = .error .zeroDivisionError ∧
    (fmin ≠ 0 → 1 ≤ n → (fmax / fmin ≤ 0 ∨ alpha ≤ 0 ∨ alpha = 1 ∨ fmax = fmin) → altes n fmin fmax alpha = .error .nonFinite) ∧
    (fmin ≠ 0 → ∃ x, altes 0 fmin fmax alpha = .ok x ∧ x.len = 0) := by
  refine ⟨?_, fun h0 hn h => ?_, fun h0 => ?_⟩
  · unfold altes; rw [if_pos rfl]
  · unfold altes; rw [if_neg h0, if_pos ⟨hn, h⟩]
  · unfold altes
    rw [if_neg h0, if_neg (fun h => absurd h.1 (lt_irrefl 0))]
    dsimp only
    rw [if_neg]
    · exact ⟨_, rfl, by simp [Vec.map, Vec.slice, linspace]⟩
    · intro h
      exact h.2 (by simp [Vec.map, Vec.slice, linspace])

/-- One sample, bounds `e⁻³` and `e⁻¹`, attenuation `e`: the signal exists. -/
example : ∃ x, altes 1 (Real.exp (-3)) (Real.exp (-1)) (Real.exp 1) = .ok x ∧ x.len = 1 ∧ x.get 0 ^ 2 = 1 := by
  obtain ⟨t1, g, env, phase, ht, hg, -, -, -, hp, -, -, h⟩ := C24_altes 1 (Real.exp (-3)) (Real.exp (-1)) (Real.exp 1) le_rfl (Real.exp_pos _)
    (Real.exp_lt_exp.2 (by norm_num)) (by rw [← Real.exp_zero]; exact Real.exp_lt_exp.2 (by norm_num))
  have he := Real.exp_pos 1
  have he2 : 2 < Real.exp 1 := by have := Real.exp_one_gt_d9; linarith
  have hsq : 0 < Real.exp 1 ^ 2 - 1 := by nlinarith
  have hm1 : Real.exp (-1) = (Real.exp 1)⁻¹ := Real.exp_neg 1
  have hm3 : Real.exp (-3) = (Real.exp 1 ^ 3)⁻¹ := by
    rw [Real.exp_neg, ← Real.exp_nat_mul]; norm_num
  have ht1 : t1 = 1 / (Real.exp 1 ^ 2 - 1) := by
    rw [ht, hm1, hm3, Nat.cast_one]
    have : (Real.exp 1)⁻¹ - (Real.exp 1 ^ 3)⁻¹ = (Real.exp 1 ^ 2 - 1) / Real.exp 1 ^ 3 := by field_simp
    rw [this]
    field_simp
  have ht1pos : 0 < t1 := by rw [ht1]; positivity
  have hlr : Real.log (Real.exp (-1) / Real.exp (-3)) = 2 := by
    rw [← Real.exp_sub, Real.log_exp]; norm_num
  have hg' : g = Real.exp (1 / 2) := by
    rw [hg, hlr, Real.log_exp]; norm_num
  have hs : Real.sqrt (t1 * (t1 + (1 : ℕ))) = t1 * Real.exp 1 := by
    have : t1 * (t1 + (1 : ℕ)) = (t1 * Real.exp 1) ^ 2 := by
      rw [ht1]
      push_cast
      field_simp
      ring
    rw [this, Real.sqrt_sq (by positivity)]
  have hph : phase (t1 + (0 : ℕ)) = g * Real.exp (-1) * t1 := by
    rw [Nat.cast_zero, add_zero, hp t1 ht1pos, hs]
    have : t1 / (t1 * Real.exp 1) = Real.exp (-1) := by
      rw [hm1]; field_simp
    rw [this, Real.log_exp]
    ring
  have hlt : phase (t1 + (0 : ℕ)) < 1 / 4 := by
    rw [hph, hg', ← Real.exp_add]
    have h1 : Real.exp (1 / 2 + -1) < 1 := (by rw [← Real.exp_zero]; exact Real.exp_lt_exp.2 (by norm_num))
    have h2 : t1 < 1 / 4 := by
      rw [ht1]
      apply one_div_lt_one_div_of_lt (by norm_num)
      have := Real.exp_one_gt_d9
      nlinarith
    have h3 := Real.exp_pos (1 / 2 + -1)
    nlinarith
  have hpos : 0 < phase (t1 + (0 : ℕ)) := by
    rw [hph, hg']
    positivity
  have hcos : Real.cos (2 * Real.pi * phase (t1 + (0 : ℕ))) ≠ 0 := by
    generalize phase (t1 + (0 : ℕ)) = w at hlt hpos
    have h1 := mul_pos Real.pi_pos hpos
    have h2 := mul_lt_mul_of_pos_left hlt Real.pi_pos
    exact (Real.cos_pos_of_mem_Ioo ⟨by linarith [Real.pi_pos], by linarith⟩).ne'
  obtain ⟨x, E, hx, hl, -, -, hs1⟩ := h ⟨0, by norm_num, hcos⟩
  refine ⟨x, hx, hl, ?_⟩
  simpa using hs1

/-! ## Power-law group delay -/

/-- Phase (in cycles, reversed) given to frequency `ν` by `gdpower`. -/
noncomputable def gdPhase (n : ℕ) (p rate ν : ℝ) : ℝ :=
  if p = 0 then n / 10 * ν + rate * Real.log ν
  else if p < 1 then n / 10 * ν + (n : ℝ) ^ (p * rate) * ν ^ p / p
  else n * 2 ^ (p - 1) * rate * ν ^ p / p

theorem ceil_half (n : ℕ) : (⌈(n : ℝ) / 2.0⌉).toNat = (n + 1) / 2 := by
  have h : ⌈(n : ℝ) / 2.0⌉ = (((n + 1) / 2 : ℕ) : ℤ) := by
    rw [Int.ceil_eq_iff]
    have h1 : n ≤ 2 * ((n + 1) / 2) := by omega
    have h2 : 2 * ((n + 1) / 2) ≤ n + 1 := by omega
    have h1' : (n : ℝ) ≤ 2 * (((n + 1) / 2 : ℕ) : ℝ) := by exact_mod_cast h1
    have h2' : 2 * (((n + 1) / 2 : ℕ) : ℝ) ≤ n + 1 := by exact_mod_cast h2
    rw [Int.cast_natCast]
    norm_num
    constructor <;> linarith
  rw [h, Int.toNat_natCast]

theorem gdBranch_ok (n : ℕ) (p rate : ℝ) (nu am : Vec ℝ) (hn : 1 ≤ n) (hp : p ≠ 1) :
    ∃ t0 d, gdBranch n ((n + 1) / 2) p rate nu am = .ok (⟨n, fun t => idftC n (fun i => if i < (n + 1) / 2 then
        expi (-(2 * Real.pi * gdPhase n p rate (nu.get i))) * (am.get i : ℂ) else 0) t⟩, t0, d) ∧
      ∀ ν, 0 < ν → HasDerivAt (gdPhase n p rate) (t0 + d * ν ^ (p - 1)) ν := by
  have hn0 : n ≠ 0 := by omega
  have hsp : ∀ phase : ℕ → ℝ, (∀ i, phase i = gdPhase n p rate (nu.get i)) →
      gdSpectrum n ((n + 1) / 2) phase am = .ok ⟨n, fun t => idftC n (fun i => if i < (n + 1) / 2 then
        expi (-(2 * Real.pi * gdPhase n p rate (nu.get i))) * (am.get i : ℂ) else 0) t⟩ := by
    intro phase hph
    unfold gdSpectrum
    rw [ifft_ok (by exact hn0)]
    congr 2
    funext t
    simp only
    congr 1
    funext i
    split_ifs
    · congr 1
      rw [hph]
      unfold expi
      congr 1
      push_cast
      ring
    · rfl
  have hderiv : ∀ (q ν : ℝ), q ≠ 0 → 0 < ν → HasDerivAt (fun x : ℝ => x ^ q / q) (ν ^ (q - 1)) ν := by
    intro q ν hq hν
    refine HasDerivAt.congr_deriv ((Real.hasDerivAt_rpow_const (Or.inl hν.ne')).div_const q) ?_
    field_simp
  by_cases h0 : p = 0
  · refine ⟨(n : ℝ) / 10, rate, ?_, fun ν hν => ?_⟩
    · unfold gdBranch
      rw [if_neg (fun h => h.2 h0), if_pos h0]
      simp only
      rw [hsp _ (fun i => by unfold gdPhase; rw [if_pos h0]; norm_num), ok_bind]
      norm_num
    · have e : gdPhase n p rate = fun x => n / 10 * x + rate * Real.log x := by
        funext x; unfold gdPhase; rw [if_pos h0]
      rw [e]
      refine HasDerivAt.congr_deriv (((hasDerivAt_id ν).const_mul ((n : ℝ) / 10)).add ((Real.hasDerivAt_log hν.ne').const_mul rate)) ?_
      rw [h0, zero_sub, Real.rpow_neg_one]
      ring
  · by_cases h1 : p < 1
    · refine ⟨(n : ℝ) / 10, (n : ℝ) ^ (p * rate), ?_, fun ν hν => ?_⟩
      · unfold gdBranch
        rw [if_pos ⟨h1, h0⟩, if_neg (fun h => hn0 h.1)]
        simp only
        rw [hsp _ (fun i => by unfold gdPhase; rw [if_neg h0, if_pos h1]; norm_num), ok_bind]
        norm_num
      · have e : gdPhase n p rate = fun x => n / 10 * x + (n : ℝ) ^ (p * rate) * (x ^ p / p) := by
          funext x; unfold gdPhase; rw [if_neg h0, if_pos h1]; ring
        rw [e]
        refine HasDerivAt.congr_deriv (((hasDerivAt_id ν).const_mul ((n : ℝ) / 10)).add ((hderiv p ν h0 hν).const_mul ((n : ℝ) ^ (p * rate)))) ?_
        ring
    · refine ⟨0, (n : ℝ) * (2 : ℝ) ^ (p - 1) * rate, ?_, fun ν hν => ?_⟩
      · unfold gdBranch
        rw [if_neg (fun h => h1 h.1), if_neg h0, if_neg hp]
        simp only
        rw [hsp _ (fun i => by unfold gdPhase; rw [if_neg h0, if_neg h1]; ring), ok_bind]
      · have e : gdPhase n p rate = fun x => n * 2 ^ (p - 1) * rate * (x ^ p / p) := by
          funext x; unfold gdPhase; rw [if_neg h0, if_neg h1]; ring
        rw [e]
        refine HasDerivAt.congr_deriv ((hderiv p ν h0 hν).const_mul (n * 2 ^ (p - 1) * rate)) ?_
        ring

theorem gdNu (n : ℕ) (hn : 1 ≤ n) : ((linspace 0 0.5 ((n + 1) / 2 + 1)).slice 1 (((n + 1) / 2 : ℕ) + 1)) =
    ⟨(n + 1) / 2, fun i => ((i : ℝ) + 1) / (2 * ((n + 1) / 2 : ℕ))⟩ := by
  set l := (n + 1) / 2 with hl
  have hl1 : 1 ≤ l := by omega
  unfold linspace Vec.slice Vec.clampIdx
  simp only
  have e5 : min (l + 1) (if ((l : ℤ) + 1) < 0 then (l : ℤ) + 1 + ((l + 1 : ℕ) : ℤ) else (l : ℤ) + 1).toNat = l + 1 := by
    rw [if_neg (by omega)]; omega
  have e6 : min (l + 1) (if (1 : ℤ) < 0 then (1 : ℤ) + ((l + 1 : ℕ) : ℤ) else (1 : ℤ)).toNat = 1 := by
    rw [if_neg (by omega)]; simp
  rw [e5, e6, Nat.add_sub_cancel]
  congr 1
  funext i
  rw [if_neg (by omega), show (0.5 : ℝ) = 1 / 2 by norm_num, show (((l + 1 : ℕ) : ℝ) - 1) = l by push_cast; ring]
  have : (l : ℝ) ≠ 0 := Nat.cast_ne_zero.2 (by omega)
  push_cast
  field_simp
  ring

/-- `gdpower`, degree other than one, three points and more: `n` samples of zero mean and unit energy with empty bins from `⌈n/2⌉` on; bin `k` below
holds, up to a common positive factor, the amplitude `ν ^ ((p-2)/6)` at the phase `-2 π φ(ν)` of the frequency `ν = (k+1)/(2⌈n/2⌉)`; the delay
returned is the derivative `φ'(ν)` (plus `n + 1` for a negative rate). -/
theorem C24_gdpower (n : ℕ) (p rate : ℝ) (hn : 3 ≤ n) (hp : p ≠ 1) (hr : rate ≠ 0) :
    ∃ (r : GdResult) (c : ℝ), gdpower n p rate = .ok r ∧ r.x.len = n ∧ r.gpd.len = (n + 1) / 2 ∧ r.nu.len = (n + 1) / 2 ∧ 0 < c ∧
      mean r.x = 0 ∧ energy r.x = 1 ∧
      (∀ i < (n + 1) / 2, r.nu.get i = ((i : ℝ) + 1) / (2 * ((n + 1) / 2 : ℕ))) ∧
      (∀ k, 1 ≤ k → k < (n + 1) / 2 → dft r.x k
        = ((c * r.nu.get k ^ ((p - 2) / 6) : ℝ) : ℂ) * expi (-(2 * Real.pi * gdPhase n p rate (r.nu.get k)))) ∧
      (∀ k, (n + 1) / 2 ≤ k → k < n → dft r.x k = 0) ∧
      (∀ i < (n + 1) / 2, HasDerivAt (gdPhase n p rate) (r.gpd.get i - if rate < 0 then (n : ℝ) + 1 else 0) (r.nu.get i)) := by
  have hn0 : n ≠ 0 := by omega
  have hnR : (n : ℝ) ≠ 0 := Nat.cast_ne_zero.2 hn0
  have hnC : (n : ℂ) ≠ 0 := Nat.cast_ne_zero.2 hn0
  set l := (n + 1) / 2 with hl
  have hl2 : 2 ≤ l := by omega
  set ν : ℕ → ℝ := fun i => ((i : ℝ) + 1) / (2 * (l : ℝ)) with hν
  have hνpos : ∀ i, 0 < ν i := fun i => by
    have : (0 : ℝ) < l := by exact_mod_cast (by omega : 0 < l)
    rw [hν]; positivity
  set am : ℕ → ℝ := fun i => ν i ^ ((p - 2.0) / 6.0) with ham
  obtain ⟨t0, d, hb, hd⟩ := gdBranch_ok n p rate ⟨l, ν⟩ ⟨l, am⟩ (by omega) hp
  set S : ℕ → ℂ := fun i => if i < l then expi (-(2 * Real.pi * gdPhase n p rate (ν i))) * (am i : ℂ) else 0 with hS
  set y : ℕ → ℂ := fun t => idftC n S t with hy
  set m : ℂ := (∑ i ∈ range n, y i) / (n : ℂ) with hm
  have hdft : ∀ k, 0 < k → k < n → dftC n (fun t => y t - m) k = S k := by
    intro k h0 hk
    have e : dftC n (fun t => y t - m) k = dftC n y k + dftC n (fun _ => -m) k := by
      rw [← dftC_add]
      apply dftC_congr
      intro t _
      ring
    rw [e, dftC_const h0 hk, add_zero, hy, dftC_idftC hn0 S hk]
  have hsum : ∑ i ∈ range n, (y i - m) = 0 := by
    rw [Finset.sum_sub_distrib, Finset.sum_const, Finset.card_range, nsmul_eq_mul, hm]
    field_simp
    ring
  have hpos : 0 < ∑ i ∈ range n, ‖y i - m‖ ^ 2 := by
    have hpar := parseval hn0 (fun t => y t - m)
    have h2 : 0 < ∑ k ∈ range n, ‖dftC n (fun t => y t - m) k‖ ^ 2 := by
      refine Finset.sum_pos' (fun _ _ => by positivity) ⟨1, Finset.mem_range.2 (by omega), ?_⟩
      rw [hdft 1 (by norm_num) (by omega), hS]
      simp only
      rw [if_pos (by omega), norm_mul, norm_expi, one_mul, Complex.norm_real]
      have : am 1 ≠ 0 := (Real.rpow_pos_of_pos (hνpos 1) _).ne'
      have := norm_pos_iff.2 this
      positivity
    rw [hpar] at h2
    exact (mul_pos_iff_of_pos_left (by positivity)).1 h2
  set E := Real.sqrt (∑ i ∈ range n, ‖y i - m‖ ^ 2) with hE
  have hEpos : 0 < E := Real.sqrt_pos.2 hpos
  have hok : gdpower n p rate = .ok ⟨⟨n, fun i => (y i - m) / (E : ℂ)⟩,
      ⟨l, fun i => t0 + |npSign rate - 1| / 2.0 * (n + 1) + d * ν i ^ (p - 1)⟩, ⟨l, ν⟩⟩ := by
    unfold gdpower
    rw [ceil_half, ← hl]
    simp only
    have hnu := gdNu n (by omega)
    rw [← hl] at hnu
    rw [hnu, if_neg hr]
    simp only [Vec.map]
    rw [hb, ok_bind]
    simp only
    rw [if_neg hp]
    have hnorm : Vec.norm ⟨n, fun i => y i - (∑ i ∈ range n, y i) / (n : ℂ)⟩ = E := rfl
    simp only [Vec.sum]
    rw [hnorm, if_neg hEpos.ne']
  refine ⟨_, 1 / E, hok, rfl, rfl, rfl, by positivity, ?_, ?_, fun _ _ => rfl, fun k h1 h2 => ?_, fun k h1 h2 => ?_, fun i hi => ?_⟩
  · unfold mean
    simp only
    rw [← Finset.sum_div, hsum, zero_div, zero_div]
  · unfold energy
    simp only [norm_div, div_pow]
    rw [← Finset.sum_div, Complex.norm_real, Real.norm_eq_abs, sq_abs, hE, Real.sq_sqrt hpos.le, div_self hpos.ne']
  · have e : dft ⟨n, fun i => (y i - m) / (E : ℂ)⟩ k = 1 / (E : ℂ) * S k := by
      rw [dft_eq_dftC, ← hdft k (by omega) (by omega), ← dftC_smul]
      apply dftC_congr
      intro t _
      simp only
      ring
    simp only
    rw [e, hS]
    simp only
    rw [if_pos h2, ham]
    simp only
    norm_num
    ring
  · have e : dft ⟨n, fun i => (y i - m) / (E : ℂ)⟩ k = 1 / (E : ℂ) * S k := by
      rw [dft_eq_dftC, ← hdft k (by omega) (by omega), ← dftC_smul]
      apply dftC_congr
      intro t _
      simp only
      ring
    simp only
    rw [e, hS]
    simp only
    rw [if_neg (by omega), mul_zero]
  · simp only
    refine HasDerivAt.congr_deriv (hd (ν i) (hνpos i)) ?_
    unfold npSign
    by_cases h : rate < 0
    · rw [if_neg (by linarith), if_pos h, if_pos h]
      norm_num
      ring
    · have : 0 < rate := lt_of_le_of_ne (not_lt.1 h) (Ne.symm hr)
      rw [if_pos this, if_neg h]
      norm_num

/-- One or two points give 0/0; a zero rate is refused. -/
theorem C24_gdpower_short (n : ℕ) (p rate : ℝ) :
    (rate ≠ 0 → p ≠ 1 → 1 ≤ n → n ≤ 2 → gdpower n p rate = .error .nonFinite) ∧ gdpower n p 0 = .error .typeError := by
  refine ⟨fun hr hp h1 h2 => ?_, ?_⟩
  · have hn0 : n ≠ 0 := by omega
    have hnC : (n : ℂ) ≠ 0 := Nat.cast_ne_zero.2 hn0
    unfold gdpower
    rw [ceil_half]
    simp only
    have hl : (n + 1) / 2 = 1 := by omega
    have hnu := gdNu n (by omega)
    rw [hl] at hnu ⊢
    rw [hnu, if_neg hr]
    simp only [Vec.map]
    obtain ⟨t0, d, hb, -⟩ := gdBranch_ok n p rate ⟨1, fun i => ((i : ℝ) + 1) / (2 * ((1 : ℕ) : ℝ))⟩
      ⟨1, fun i => (((i : ℝ) + 1) / (2 * ((1 : ℕ) : ℝ))) ^ ((p - 2.0) / 6.0)⟩ h1 hp
    rw [hl] at hb
    rw [hb, ok_bind]
    simp only
    rw [if_neg hp, if_pos]
    unfold Vec.norm
    rw [Real.sqrt_eq_zero (Finset.sum_nonneg (fun _ _ => by positivity))]
    apply Finset.sum_eq_zero
    intro t _
    simp only [Vec.sum]
    set S : ℕ → ℂ := fun i => if i < 1 then expi (-(2 * Real.pi * gdPhase n p rate (((i : ℝ) + 1) / (2 * ((1 : ℕ) : ℝ))))) *
      (((((i : ℝ) + 1) / (2 * ((1 : ℕ) : ℝ))) ^ ((p - 2.0) / 6.0) : ℝ) : ℂ) else 0 with hS
    have hc : ∀ s : ℕ, idftC n S s = S 0 / n := by
      intro s
      unfold idftC
      rw [Finset.sum_eq_single_of_mem 0 (Finset.mem_range.2 (by omega)) (fun j _ hj => by
        rw [hS]; simp only; rw [if_neg (by omega), zero_mul])]
      simp
    simp only [hc]
    rw [Finset.sum_const, Finset.card_range, nsmul_eq_mul, mul_div_cancel_left₀ _ hnC, sub_self, norm_zero]
    norm_num
  · unfold gdpower
    exact if_pos rfl

/-- Without points: Python raises zero to a negative power, or NumPy refuses the empty inverse transform. -/
theorem C24_gdpower_empty (p rate : ℝ) (hr : rate ≠ 0) (hp : p ≠ 1) :
    gdpower 0 p rate = .error (if p < 1 ∧ p * rate < 0 then .zeroDivisionError else .valueError) := by
  have hs : ∀ (l : ℕ) (ph : ℕ → ℝ) (am : Vec ℝ), gdSpectrum 0 l ph am = .error .valueError := by
    intro l ph am
    unfold gdSpectrum ifft
    exact if_pos rfl
  unfold gdpower
  simp only
  rw [if_neg hr]
  unfold gdBranch
  simp only [hs]
  by_cases h0 : p = 0
  · subst h0
    rw [if_neg (fun h => h.2 rfl), if_pos rfl, if_neg (by simp)]
    rfl
  · by_cases h1 : p < 1
    · rw [if_pos ⟨h1, h0⟩]
      by_cases h2 : p * rate < 0
      · rw [if_pos ⟨trivial, h2⟩, if_pos ⟨h1, h2⟩]
        rfl
      · rw [if_neg (fun h => h2 h.2), if_neg (fun h => h2 h.2)]
        rfl
    · rw [if_neg (fun h => h1 h.1), if_neg h0, if_neg hp, if_neg (fun h => h1 h.1)]
      rfl

/-- `gdpower` of degree one never returns: `TypeError`, or `ValueError` from `anapulse` when there are no points. -/
theorem C55_gdpower_one (n : ℕ) (rate : ℝ) : gdpower n 1 rate = .error (if rate ≠ 0 ∧ n = 0 then .valueError else .typeError) := by
  unfold gdpower
  simp only
  by_cases hr : rate = 0
  · rw [show (if rate ≠ 0 ∧ n = 0 then PyErr.valueError else .typeError) = .typeError from if_neg (fun h => h.1 hr)]
    exact if_pos hr
  · rw [if_neg hr]
    unfold gdBranch
    rw [if_neg (fun h => by linarith [h.1]), if_neg (by norm_num), if_pos rfl]
    rcases Nat.eq_zero_or_pos n with rfl | hn
    · rw [(C20_empty ((0 : ℕ) : ℤ) _ (by norm_num)).1, if_pos ⟨hr, rfl⟩]
      rfl
    · obtain ⟨z, hz, -⟩ := C20_anapulse n n hn
      rw [hz, ok_bind, ok_bind, if_pos trivial, if_neg (by omega)]

example : ∃ (r : GdResult) (c : ℝ), gdpower 8 0 1 = .ok r ∧ 0 < c ∧ r.nu.get 3 = 1 / 2 ∧ r.gpd.get 3 = 4 / 5 + 2 ∧ dft r.x 5 = 0 := by
  obtain ⟨r, c, h, -, -, -, hc, -, -, hnu, -, hz, hd⟩ := C24_gdpower 8 0 1 (by norm_num) (by norm_num) (by norm_num)
  have h3 : r.nu.get 3 = 1 / 2 := by rw [hnu 3 (by norm_num)]; norm_num
  refine ⟨r, c, h, hc, h3, ?_, hz 5 (by norm_num) (by norm_num)⟩
  have h1 := hd 3 (by norm_num)
  rw [h3, if_neg (by norm_num), sub_zero] at h1
  have e : gdPhase 8 0 1 = fun x => (8 : ℕ) / 10 * x + 1 * Real.log x := by
    funext x; unfold gdPhase; rw [if_pos rfl]
  have h2 : HasDerivAt (gdPhase 8 0 1) (((8 : ℕ) : ℝ) / 10 * 1 + 1 * (1 / 2 : ℝ)⁻¹) (1 / 2) := by
    rw [e]
    exact ((hasDerivAt_id (1 / 2 : ℝ)).const_mul (((8 : ℕ) : ℝ) / 10)).add ((Real.hasDerivAt_log (by norm_num)).const_mul 1)
  rw [h1.unique h2]
  norm_num

end Tftb.Props
