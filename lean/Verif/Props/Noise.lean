import Verif.Model.Noise
import Verif.Lemmas.Hilbert
import Verif.Lemmas.Analytic
import Verif.Props.Utils

/-! # C21: complex noise; C65: noisy doppler signal -/

namespace Tftb.Props

open Finset Spec Noise Utils

theorem std_sq (n : ℕ) (x : ℕ → ℝ) : std ⟨n, x⟩ = Real.sqrt (rvariance n x) := by
  unfold std rvariance Vec.sum
  rfl

theorem rvariance_nonneg (n : ℕ) (x : ℕ → ℝ) : 0 ≤ rvariance n x :=
  div_nonneg (Finset.sum_nonneg (fun _ _ => sq_nonneg _)) (Nat.cast_nonneg _)

theorem rvariance_pos {n : ℕ} {x : ℕ → ℝ} (h : ∃ i < n, ∃ j < n, x i ≠ x j) : 0 < rvariance n x := by
  obtain ⟨i, hi, j, hj, hij⟩ := h
  have hn : (0 : ℝ) < n := by exact_mod_cast (by omega : 0 < n)
  refine div_pos (lt_of_le_of_ne (Finset.sum_nonneg (fun _ _ => sq_nonneg _)) (fun h0 => hij ?_)) hn
  have hz := (Finset.sum_eq_zero_iff_of_nonneg (fun _ _ => sq_nonneg _)).1 h0.symm
  have h1 := hz i (Finset.mem_range.2 hi)
  have h2 := hz j (Finset.mem_range.2 hj)
  have h1' := pow_eq_zero_iff (two_ne_zero) |>.1 h1
  have h2' := pow_eq_zero_iff (two_ne_zero) |>.1 h2
  linarith

theorem rvariance_affine (n : ℕ) (x : ℕ → ℝ) (a b : ℝ) (hn : n ≠ 0) : rvariance n (fun i => a * x i + b) = a ^ 2 * rvariance n x := by
  have hn' : (n : ℝ) ≠ 0 := Nat.cast_ne_zero.2 hn
  unfold rvariance
  rw [← mul_div_assoc, Finset.mul_sum]
  congr 1
  apply Finset.sum_congr rfl
  intro i _
  rw [Finset.sum_add_distrib, ← Finset.mul_sum, Finset.sum_const, Finset.card_range, nsmul_eq_mul]
  have : (a * ∑ j ∈ range n, x j + n * b) / (n : ℝ) = a * ((∑ j ∈ range n, x j) / n) + b := by field_simp
  rw [this]
  ring

theorem shaped_ok {n P : ℕ} (hn : 1 ≤ n) (hP : n ≤ P) {x : ℕ → ℝ} (hv : 0 < rvariance P x) :
    ∃ (z w : Vec ℂ), shaped n ⟨P, x⟩ = .ok z ∧ z.len = n ∧
      IsAnalytic ⟨P, fun i => x i / (Real.sqrt (rvariance P x) * Real.sqrt 2)⟩ w ∧ ∀ i < n, z.get i = w.get (P - n + i) := by
  obtain ⟨w, hw, ha, -⟩ := hilbert_analytic (x := ⟨P, x⟩) (by simp only; omega)
  have hs := Real.sqrt_pos.2 hv
  have ha2 := isAnalytic_smul ha (1 / (Real.sqrt (rvariance P x) * Real.sqrt 2))
  have hlen : w.len = P := ha.len
  refine ⟨⟨n, fun i => w.get (P - n + i) / (Real.sqrt (rvariance P x) : ℂ) / (Real.sqrt 2 : ℂ)⟩,
    ⟨w.len, fun t => ((1 / (Real.sqrt (rvariance P x) * Real.sqrt 2) : ℝ) : ℂ) * w.get t⟩, ?_, rfl, ?_, fun i _ => ?_⟩
  · unfold shaped
    rw [hw, ok_bind, std_sq, if_neg hs.ne']
    simp only
    rw [Vec.take_ok]
    · simp only [Vec.map, arange, hlen]
      congr 1
      have e : ((n : ℤ) - 0).toNat = n := by omega
      rw [e]
      congr 1
      funext i
      have e2 : ((P : ℤ) - ((n : ℤ) - 1 - (0 + (i : ℤ))) - 1) = (P : ℤ) - n + i := by ring
      rw [e2]
      have e3 : ((P : ℤ) - n + i) = ((P - n + i : ℕ) : ℤ) := by omega
      rw [e3, wrapIdx_natCast]
    · intro j hj
      simp only [Vec.map, arange] at hj ⊢
      omega
  · have : (fun i => x i / (Real.sqrt (rvariance P x) * Real.sqrt 2)) = fun t => 1 / (Real.sqrt (rvariance P x) * Real.sqrt 2) * x t := by
      funext t; ring
    rw [this]
    exact ha2
  · simp only
    push_cast
    field_simp

/-- `noisecu`, three points and more: the last `n` samples of the analytic signal of `2 ^ k` uniform draws on `[-1/2, 1/2)` scaled to variance
one half, where `2 ^ k` is the first power of two not below `n`. -/
theorem C21_noisecu (n k : ℕ) (draw : ℕ → ℝ) (hn : 3 ≤ n) (hk : n ≤ 2 ^ k) (hmin : ∀ j, n ≤ 2 ^ j → k ≤ j)
    (hv : ∃ i < 2 ^ k, ∃ j < 2 ^ k, draw i ≠ draw j) :
    ∃ z w : Vec ℂ, noisecu n draw = .ok (.one z) ∧ z.len = n ∧
      IsAnalytic ⟨2 ^ k, fun i => (draw i - 1 / 2) / (Real.sqrt (rvariance (2 ^ k) draw) * Real.sqrt 2)⟩ w ∧
      ∀ i < n, z.get i = w.get (2 ^ k - n + i) := by
  obtain ⟨p, hp, hp1, hp2⟩ := C04_nextpow2_least n (by omega)
  have hpk : p = k := le_antisymm (hp2 k (by exact_mod_cast hk)) (hmin p (by exact_mod_cast hp1))
  subst hpk
  have hP : (2 ^ p : ℕ) ≠ 0 := by positivity
  have hva := rvariance_affine (2 ^ p) draw 1 (-(1 / 2)) hP
  have e : (fun i => 1 * draw i + -(1 / 2)) = fun i => draw i - 0.5 := by funext i; norm_num; ring
  rw [e, one_pow, one_mul] at hva
  obtain ⟨z, w, hz, hl, ha, hg⟩ := shaped_ok (n := n) (P := 2 ^ p) (x := fun i => draw i - 0.5) (by omega) hk (by rw [hva]; exact rvariance_pos hv)
  rw [hva] at ha
  refine ⟨z, w, ?_, hl, ?_, hg⟩
  · unfold noisecu
    rw [if_neg (by omega), hp, ok_bind, Int.toNat_natCast]
    simp only
    rw [hz]
    rfl
  · have : (fun i => (draw i - 1 / 2) / (Real.sqrt (rvariance (2 ^ p) draw) * Real.sqrt 2))
        = fun i => (draw i - 0.5) / (Real.sqrt (rvariance (2 ^ p) draw) * Real.sqrt 2) := by funext i; norm_num
    rw [this]
    exact ha

/-- `noisecg`, three points and more: the same with Gaussian draws. -/
theorem C21_noisecg (n k : ℕ) (draw : ℕ → ℝ) (hn : 3 ≤ n) (hk : n ≤ 2 ^ k) (hmin : ∀ j, n ≤ 2 ^ j → k ≤ j)
    (hv : ∃ i < 2 ^ k, ∃ j < 2 ^ k, draw i ≠ draw j) :
    ∃ z w : Vec ℂ, noisecg n draw = .ok (.one z) ∧ z.len = n ∧
      IsAnalytic ⟨2 ^ k, fun i => draw i / (Real.sqrt (rvariance (2 ^ k) draw) * Real.sqrt 2)⟩ w ∧
      ∀ i < n, z.get i = w.get (2 ^ k - n + i) := by
  obtain ⟨p, hp, hp1, hp2⟩ := C04_nextpow2_least n (by omega)
  have hpk : p = k := le_antisymm (hp2 k (by exact_mod_cast hk)) (hmin p (by exact_mod_cast hp1))
  subst hpk
  obtain ⟨z, w, hz, hl, ha, hg⟩ := shaped_ok (n := n) (P := 2 ^ p) (x := draw) (by omega) hk (rvariance_pos hv)
  refine ⟨z, w, ?_, hl, ha, hg⟩
  unfold noisecg
  rw [if_neg (by omega), if_neg (by omega), hp, ok_bind, Int.toNat_natCast]
  simp only
  rw [hz]
  rfl

theorem rootPow_half {m : ℕ} (hm : 0 < m) (i : ℕ) : rootPow (2 * m) ((i : ℤ) * (m : ℤ)) = (-1 : ℂ) ^ i := by
  have h : rootPow (2 * m) (m : ℤ) = -1 := by
    have e : (-(2 * Real.pi * ((m : ℤ) : ℝ) / ((2 * m : ℕ) : ℝ)) : ℝ) = -Real.pi := by
      have : (m : ℝ) ≠ 0 := Nat.cast_ne_zero.2 (by omega)
      push_cast
      field_simp
    rw [rootPow_eq_exp, e, Complex.ofReal_neg, neg_mul, Complex.exp_neg, Complex.exp_pi_mul_I]
    norm_num
  rw [show (i : ℤ) * (m : ℤ) = (m : ℤ) * i by ring, rootPow_nat_mul, h]

theorem variance_scaled {k : ℕ} (hk : 2 ≤ k) (draw : ℕ → ℝ) (hv : 0 < rvariance (2 ^ k) draw) (b : ℝ) {w z : Vec ℂ}
    (ha : IsAnalytic ⟨2 ^ k, fun i => 1 / (Real.sqrt (rvariance (2 ^ k) draw) * Real.sqrt 2) * draw i + b⟩ w)
    (hl : z.len = 2 ^ k) (hg : ∀ i < 2 ^ k, z.get i = w.get (2 ^ k - 2 ^ k + i)) :
    variance z = 1 - (∑ i ∈ range (2 ^ k), (-1) ^ i * draw i) ^ 2 / (2 * (2 ^ k) ^ 2 * rvariance (2 ^ k) draw) := by
  obtain ⟨m, hm, hm0⟩ : ∃ m, 2 ^ k = 2 * m ∧ 0 < m := ⟨2 ^ (k - 1), by rw [← pow_succ']; congr 1; omega, by positivity⟩
  have hwl : w.len = 2 ^ k := ha.len
  have hzw : variance z = variance w := by
    have h1 : ∀ i ∈ range (2 ^ k), z.get i = w.get i := fun i hi => by
      rw [hg i (Finset.mem_range.1 hi), Nat.sub_self, Nat.zero_add]
    unfold variance mean
    rw [hl, hwl, Finset.sum_congr rfl h1]
    congr 1
    exact Finset.sum_congr rfl (fun i hi => by rw [h1 i hi])
  rw [hzw, variance_analytic ha (by exact hm) hm0]
  simp only
  rw [rvariance_affine _ _ _ _ (by positivity)]
  set c := 1 / (Real.sqrt (rvariance (2 ^ k) draw) * Real.sqrt 2) with hc
  have hc2 : c ^ 2 = 1 / (2 * rvariance (2 ^ k) draw) := by
    rw [hc, div_pow, mul_pow, Real.sq_sqrt hv.le, Real.sq_sqrt (by norm_num)]
    ring
  have hX : dftC (2 ^ k) (fun t => ((c * draw t + b : ℝ) : ℂ)) m = ((c * ∑ i ∈ range (2 ^ k), (-1) ^ i * draw i : ℝ) : ℂ) := by
    have e : dftC (2 ^ k) (fun t => ((c * draw t + b : ℝ) : ℂ)) m
        = dftC (2 ^ k) (fun t => (c : ℂ) * (draw t : ℂ)) m + dftC (2 ^ k) (fun _ => (b : ℂ)) m := by
      rw [← dftC_add]
      apply dftC_congr
      intro t _
      push_cast
      ring
    rw [e, dftC_const hm0 (by omega), add_zero, dftC_smul]
    unfold dftC
    push_cast
    congr 1
    apply Finset.sum_congr rfl
    intro i _
    rw [hm, rootPow_half hm0]
    ring
  rw [hX, Complex.norm_real, Real.norm_eq_abs, sq_abs, mul_pow, hc2]
  push_cast
  field_simp

/-- Exact variance of the noise on a power of two of samples: one, short of the normalised squared alternating sum of the draws. -/
theorem C21_variance (k : ℕ) (draw : ℕ → ℝ) (hk : 2 ≤ k) (hv : ∃ i < 2 ^ k, ∃ j < 2 ^ k, draw i ≠ draw j) :
    ∃ zu zg : Vec ℂ, noisecu ((2 ^ k : ℕ) : ℤ) draw = .ok (.one zu) ∧ noisecg ((2 ^ k : ℕ) : ℤ) draw = .ok (.one zg) ∧
      variance zu = 1 - (∑ i ∈ range (2 ^ k), (-1) ^ i * draw i) ^ 2 / (2 * (2 ^ k) ^ 2 * rvariance (2 ^ k) draw) ∧
      variance zg = 1 - (∑ i ∈ range (2 ^ k), (-1) ^ i * draw i) ^ 2 / (2 * (2 ^ k) ^ 2 * rvariance (2 ^ k) draw) := by
  have h3 : 3 ≤ 2 ^ k := by
    have : 2 ^ 2 ≤ 2 ^ k := Nat.pow_le_pow_right (by norm_num) hk
    omega
  have hmin : ∀ j, 2 ^ k ≤ 2 ^ j → k ≤ j := fun j hj => (Nat.pow_le_pow_iff_right (by norm_num)).1 hj
  obtain ⟨zu, wu, hu, hul, hua, hug⟩ := C21_noisecu (2 ^ k) k draw h3 le_rfl hmin hv
  obtain ⟨zg, wg, hg, hgl, hga, hgg⟩ := C21_noisecg (2 ^ k) k draw h3 le_rfl hmin hv
  refine ⟨zu, zg, hu, hg, ?_, ?_⟩
  · refine variance_scaled hk draw (rvariance_pos hv) (-(1 / 2) / (Real.sqrt (rvariance (2 ^ k) draw) * Real.sqrt 2)) (w := wu) ?_ hul hug
    convert hua using 3
    ring
  · refine variance_scaled hk draw (rvariance_pos hv) 0 (w := wg) ?_ hgl hgg
    convert hga using 3
    ring

/-- Hence the variance on a power of two of samples is at most one, and equal to one exactly when the alternating sum of the draws vanishes. -/
theorem C21_variance_le_one (k : ℕ) (draw : ℕ → ℝ) (hk : 2 ≤ k) (hv : ∃ i < 2 ^ k, ∃ j < 2 ^ k, draw i ≠ draw j) :
    ∃ zu zg : Vec ℂ, noisecu ((2 ^ k : ℕ) : ℤ) draw = .ok (.one zu) ∧ noisecg ((2 ^ k : ℕ) : ℤ) draw = .ok (.one zg) ∧
      variance zu ≤ 1 ∧ variance zg ≤ 1 ∧ (variance zu = 1 ↔ ∑ i ∈ range (2 ^ k), (-1) ^ i * draw i = 0) := by
  obtain ⟨zu, zg, h1, h2, h3, h4⟩ := C21_variance k draw hk hv
  have hp : 0 < rvariance (2 ^ k) draw := rvariance_pos hv
  refine ⟨zu, zg, h1, h2, ?_, ?_, ?_⟩
  · rw [h3]
    have : 0 ≤ (∑ i ∈ range (2 ^ k), (-1) ^ i * draw i) ^ 2 / (2 * (2 ^ k) ^ 2 * rvariance (2 ^ k) draw) := by positivity
    linarith
  · rw [h4]
    have : 0 ≤ (∑ i ∈ range (2 ^ k), (-1) ^ i * draw i) ^ 2 / (2 * (2 ^ k) ^ 2 * rvariance (2 ^ k) draw) := by positivity
    linarith
  · rw [h3, sub_eq_self, div_eq_zero_iff, or_iff_left (by positivity), sq_eq_zero_iff]

/-- Two points and fewer: `noisecu` returns a column of `n` rows, `noisecg` raises; without points `noisecg` refuses. -/
theorem C21_short (draw : ℕ → ℝ) :
    (∀ n : ℕ, n ≤ 2 → ∃ M : Mat ℂ, noisecu n draw = .ok (.two M) ∧ M.rows = n ∧ M.cols = 1 ∧
      ∀ i < n, ((M.get i 0).re = (draw i - 1 / 2) * Real.sqrt 6 ∧ (M.get i 0).im = (draw (n + i) - 1 / 2) * Real.sqrt 6)) ∧
    (∀ n : ℤ, n < 0 → noisecu n draw = .error .valueError) ∧
    (∀ n : ℤ, n ≤ 0 → noisecg n draw = .error .assertionError) ∧
    (∀ n : ℤ, 1 ≤ n → n ≤ 2 → noisecg n draw = .error .typeError) := by
  refine ⟨fun n hn => ?_, fun n hn => ?_, fun n hn => ?_, fun n h1 h2 => ?_⟩
  · have hok : noisecu n draw = .ok (.two ⟨n, 1, fun i _ =>
        (((draw i - 0.5 : ℝ) : ℂ) + Complex.I * ((draw (n + i) - 0.5 : ℝ) : ℂ)) * (Real.sqrt 6 : ℂ)⟩) := by
      unfold noisecu
      rw [if_pos (by omega), if_neg (by omega), Int.toNat_natCast]
    refine ⟨_, hok, rfl, rfl, fun i _ => ⟨?_, ?_⟩⟩
    · simp only [Complex.add_re, Complex.ofReal_re, Complex.mul_re, Complex.I_re, Complex.I_im, Complex.ofReal_im]
      norm_num
    · simp only [Complex.add_im, Complex.ofReal_re, Complex.mul_im, Complex.I_re, Complex.I_im, Complex.ofReal_im]
      norm_num
  · unfold noisecu
    rw [if_pos (by omega), if_pos hn]
  · unfold noisecg
    rw [if_pos hn]
  · unfold noisecg
    rw [if_neg (by omega), if_pos h2]

example : ∃ z w : Vec ℂ, noisecg 5 (fun i => (i : ℝ)) = .ok (.one z) ∧ z.len = 5 ∧ z.get 0 = w.get 3 ∧ w.len = 8 := by
  obtain ⟨z, w, h, hl, ha, hg⟩ := C21_noisecg 5 3 (fun i => (i : ℝ)) (by norm_num) (by norm_num)
    (fun j hj => by
      by_contra h
      push Not at h
      have : 2 ^ j ≤ 2 ^ 2 := Nat.pow_le_pow_right (by norm_num) (by omega)
      omega)
    ⟨0, by norm_num, 1, by norm_num, by norm_num⟩
  exact ⟨z, w, h, hl, hg 0 (by norm_num), ha.len⟩

/-- Alternating draws: the variance is only one half. -/
example : ∃ z, noisecg 4 (fun i => (-1) ^ i) = .ok (.one z) ∧ variance z = 1 / 2 := by
  obtain ⟨-, z, -, h, -, hv⟩ := C21_variance 2 (fun i => (-1) ^ i) le_rfl ⟨0, by norm_num, 1, by norm_num, by norm_num⟩
  refine ⟨z, by exact_mod_cast h, ?_⟩
  rw [hv]
  unfold rvariance
  norm_num [Finset.sum_range_succ]

/-! ## C65: noisy doppler signal -/

theorem slice_tail {α : Type} (n : ℕ) (g : ℕ → α) (hn : 1 ≤ n) :
    (⟨2 * n, g⟩ : Vec α).slice ((n : ℤ) + 1) (2 * n + 1) = ⟨n - 1, fun i => g (n + 1 + i)⟩ := by
  unfold Vec.slice Vec.clampIdx
  simp only
  rw [if_neg (by omega), if_neg (by omega)]
  have e1 : min (2 * n) (2 * (n : ℤ) + 1).toNat = 2 * n := by omega
  have e2 : min (2 * n) ((n : ℤ) + 1).toNat = n + 1 := by omega
  rw [e1, e2]
  congr 1
  omega

/-- `dopnoise` on `n ≥ 2` points: `n - 1` samples of unit energy; the frequency law is that of the samples `2 … n`; the signal is, up to
a positive factor, the analytic signal of the filtered draws, damped by the square root of the distance. -/
theorem C65_dopnoise (n : ℕ) (s f d v tc c : ℝ) (draw y : ℕ → ℝ) (hn : 2 ≤ n) (hs : s ≠ 0) (hc : c ≠ 0)
    (hd : d ≠ 0 ∨ v ≠ 0 ∧ ∀ i < 2 * n, 2 ≤ i → tc ≠ (i : ℝ) + 1 - n) (hy0 : y 0 = 0) (hy1 : y 1 = 0)
    (hy : ∀ t, y (t + 2) = draw (t + 2) - 0.81 * (draw t + y t)
      + 1.8 * Real.cos (2 * Real.pi * ((1 - v ^ 2 * (((t : ℝ) + 3 - tc - n) / s) / Real.sqrt (d ^ 2 + (v * (((t : ℝ) + 3 - tc - n) / s)) ^ 2) / c)
        * f / s)) * y (t + 1))
    (hne : ∃ i, n + 1 ≤ i ∧ i < 2 * n ∧ y i ≠ 0) :
    ∃ (z w : Vec ℂ) (law : Vec ℝ) (e : ℝ), dopnoise n s f d v (some tc) c draw = .ok (z, law) ∧ z.len = n - 1 ∧ law.len = n - 1 ∧
      energy z = 1 ∧ 0 < e ∧ IsAnalytic ⟨n - 1, fun i => y (n + 1 + i)⟩ w ∧
      (∀ i < n - 1, law.get i
        = (1 - v ^ 2 * (((i : ℝ) + 2 - tc) / s) / Real.sqrt (d ^ 2 + (v * (((i : ℝ) + 2 - tc) / s)) ^ 2) / c) * f / s) ∧
      (∀ i < n - 1, z.get i = w.get i / ((e * Real.sqrt (Real.sqrt (d ^ 2 + (v * (((i : ℝ) + 2 - tc) / s)) ^ 2)) : ℝ) : ℂ)) := by
  have hdist : ∀ i < 2 * n, 2 ≤ i → 0 < dopDist n s d v tc i := fun i hi h2 => by
    unfold dopDist
    apply Real.sqrt_pos.2
    rcases hd with hd | ⟨hv, ht⟩
    · have : 0 < d ^ 2 := by positivity
      positivity
    · have h3 : dopTime n s tc i ≠ 0 := by
        unfold dopTime
        exact div_ne_zero (fun h => ht i hi h2 (by linarith)) hs
      have : 0 < (v * dopTime n s tc i) ^ 2 := by positivity
      positivity
  have hyf : ∀ t, y t = dopFilter draw (dopLaw n s f d v tc c) t := by
    have : ∀ t, y t = dopFilter draw (dopLaw n s f d v tc c) t ∧ y (t + 1) = dopFilter draw (dopLaw n s f d v tc c) (t + 1) := by
      intro t
      induction t with
      | zero => exact ⟨by rw [hy0]; rfl, by rw [hy1]; rfl⟩
      | succ t ih =>
        refine ⟨ih.2, ?_⟩
        rw [hy t]
        show _ = draw (t + 2) - 0.9 ^ 2 * (draw t + dopFilter draw (dopLaw n s f d v tc c) t)
          + 2 * 0.9 * Real.cos (2.0 * Real.pi * dopLaw n s f d v tc c (t + 2)) * dopFilter draw (dopLaw n s f d v tc c) (t + 1)
        rw [← ih.1, ← ih.2]
        have el : dopLaw n s f d v tc c (t + 2) = (1 - v ^ 2 * (((t : ℝ) + 3 - tc - n) / s)
            / Real.sqrt (d ^ 2 + (v * (((t : ℝ) + 3 - tc - n) / s)) ^ 2) / c) * f / s := by
          unfold dopLaw dopDist dopTime
          push_cast
          have e3 : (t : ℝ) + 2 + 1 = t + 3 := by ring
          rw [e3]
        rw [el]
        norm_num
    exact fun t => (this t).1
  have htime : ∀ i, dopTime n s tc (n + 1 + i) = ((i : ℝ) + 2 - tc) / s := fun i => by
    unfold dopTime
    push_cast
    congr 1
    ring
  have hD : ∀ i, dopDist n s d v tc (n + 1 + i) = Real.sqrt (d ^ 2 + (v * (((i : ℝ) + 2 - tc) / s)) ^ 2) := fun i => by
    unfold dopDist
    rw [htime]
  obtain ⟨w, hw, ha, -⟩ := hilbert_analytic (x := ⟨n - 1, fun i => y (n + 1 + i)⟩) (by simp only; omega)
  have hwl : w.len = n - 1 := ha.len
  set u : Vec ℂ := ⟨n - 1, fun i => w.get i / (Real.sqrt (dopDist n s d v tc (n + 1 + i)) : ℂ)⟩ with hu
  have hupos : 0 < ∑ i ∈ range (n - 1), ‖u.get i‖ ^ 2 := by
    obtain ⟨i, hi1, hi2, hi3⟩ := hne
    refine Finset.sum_pos' (fun _ _ => by positivity) ⟨i - (n + 1), Finset.mem_range.2 (by omega), ?_⟩
    have hre := ha.re (i - (n + 1)) (by simp only; omega)
    simp only at hre
    rw [show n + 1 + (i - (n + 1)) = i by omega] at hre
    have hw0 : w.get (i - (n + 1)) ≠ 0 := fun h => hi3 (by rw [← hre, h, Complex.zero_re])
    rw [hu]
    simp only
    have := Real.sqrt_pos.2 (hdist (n + 1 + (i - (n + 1))) (by omega) (by omega))
    rw [norm_div, Complex.norm_real, Real.norm_eq_abs, abs_of_pos this]
    have := norm_pos_iff.2 hw0
    positivity
  have he := Real.sqrt_pos.2 hupos
  set e := Real.sqrt (∑ i ∈ range (n - 1), ‖u.get i‖ ^ 2) with hee
  have hok : dopnoise n s f d v (some tc) c draw = .ok (⟨n - 1, fun i => u.get i / (e : ℂ)⟩, ⟨n - 1, fun i => dopLaw n s f d v tc c (n + 1 + i)⟩) := by
    unfold dopnoise
    simp only [Option.getD_some]
    rw [if_neg (by
      rintro ⟨-, h | h | ⟨i, hi, h2, h⟩⟩
      · exact hs h
      · exact hc h
      · exact (hdist i hi h2).ne' h)]
    rw [slice_tail n _ (by omega), slice_tail n _ (by omega), slice_tail n _ (by omega)]
    have e1 : (fun i => dopFilter draw (dopLaw n s f d v tc c) (n + 1 + i)) = fun i => y (n + 1 + i) := by
      funext i; rw [hyf]
    rw [e1, hw, ok_bind, Vec.bcast_ok (by exact hwl), ok_bind]
    simp only [hwl]
    rw [if_neg he.ne']
    rfl
  refine ⟨_, w, _, e, hok, rfl, rfl, ?_, he, ha, fun i _ => ?_, fun i _ => ?_⟩
  · unfold energy
    simp only [norm_div, div_pow]
    rw [← Finset.sum_div, Complex.norm_real, Real.norm_eq_abs, sq_abs, hee, Real.sq_sqrt hupos.le, div_self hupos.ne']
  · simp only
    unfold dopLaw
    rw [hD, htime]
  · rw [hu]
    simp only
    rw [hD]
    push_cast
    rw [div_div, mul_comm]

/-- The default centre is the middle instant, rounded down. -/
theorem C65_default (n : ℕ) (s f d v c : ℝ) (draw : ℕ → ℝ) :
    dopnoise n s f d v none c draw = dopnoise n s f d v (some ((n / 2 : ℕ) : ℝ)) c draw := by
  have e : ⌊(n : ℝ) / 2.0⌋ = ((n / 2 : ℕ) : ℤ) := by
    rw [Int.floor_eq_iff]
    have h : (n : ℝ) = 2 * ((n / 2 : ℕ) : ℝ) + ((n % 2 : ℕ) : ℝ) := by exact_mod_cast (Nat.div_add_mod n 2).symm
    have h2 : ((n % 2 : ℕ) : ℝ) < 2 := by exact_mod_cast Nat.mod_lt n (by norm_num)
    have h3 : (0 : ℝ) ≤ ((n % 2 : ℕ) : ℝ) := Nat.cast_nonneg _
    rw [Int.cast_natCast]
    norm_num
    constructor <;> linarith
  unfold dopnoise
  simp only [Option.getD_none, Option.getD_some, e, Int.cast_natCast]

/-- A zero sampling frequency, a zero wave velocity, or a source meeting the observer gives NaN. -/
theorem C65_undefined (n : ℕ) (s f d v tc c : ℝ) (draw : ℕ → ℝ) (hn : 2 ≤ n)
    (h : s = 0 ∨ c = 0 ∨ d = 0 ∧ (v = 0 ∨ ∃ i < 2 * n, 2 ≤ i ∧ tc = (i : ℝ) + 1 - n)) :
    dopnoise n s f d v (some tc) c draw = .error .nonFinite := by
  unfold dopnoise
  simp only [Option.getD_some]
  rw [if_pos]
  refine ⟨by omega, ?_⟩
  rcases h with h | h | ⟨h, h'⟩
  · exact Or.inl h
  · exact Or.inr (Or.inl h)
  · rcases h' with h' | ⟨i, hi, hi2, h'⟩
    · exact Or.inr (Or.inr ⟨2, by omega, le_rfl, by simp [dopDist, h, h']⟩)
    · exact Or.inr (Or.inr ⟨i, hi, hi2, by simp [dopDist, dopTime, h, h']⟩)

example : dopnoise 3 1 1 0 2 none 340 (fun _ => 1) = .error .nonFinite := by
  rw [C65_default]
  exact C65_undefined 3 1 1 0 2 _ 340 _ (by norm_num) (Or.inr (Or.inr ⟨rfl, Or.inr ⟨3, by norm_num, by norm_num, by norm_num⟩⟩))

/-- A silent filter output (for instance constant zero draws) cannot be normalised. -/
theorem C65_silent (n : ℕ) (s f d v tc c : ℝ) (hn : 2 ≤ n) : dopnoise n s f d v (some tc) c (fun _ => 0) = .error .nonFinite := by
  have hz : ∀ law : ℕ → ℝ, ∀ t, dopFilter (fun _ => 0) law t = 0 ∧ dopFilter (fun _ => 0) law (t + 1) = 0 := by
    intro law t
    induction t with
    | zero => exact ⟨rfl, rfl⟩
    | succ t ih =>
      refine ⟨ih.2, ?_⟩
      show (0 : ℝ) - 0.9 ^ 2 * (0 + dopFilter (fun _ => 0) law t)
          + 2 * 0.9 * Real.cos (2.0 * Real.pi * law (t + 2)) * dopFilter (fun _ => 0) law (t + 1) = 0
      rw [ih.1, ih.2]
      ring
  unfold dopnoise
  simp only [Option.getD_some]
  split_ifs with h
  · rfl
  · rw [slice_tail n _ (by omega), slice_tail n _ (by omega), slice_tail n _ (by omega)]
    obtain ⟨w, hw, ha, -⟩ := hilbert_analytic (x := ⟨n - 1, fun _ => 0⟩) (by simp only; omega)
    have e1 : (fun i => dopFilter (fun _ => 0) (dopLaw n s f d v tc c) (n + 1 + i)) = fun _ => (0 : ℝ) := by
      funext i; exact (hz _ _).1
    have hwl : w.len = n - 1 := ha.len
    have hz0 : IsAnalytic ⟨n - 1, fun _ => 0⟩ ⟨n - 1, fun _ => 0⟩ :=
      ⟨rfl, fun _ _ => rfl, fun _ _ _ => by simp [dft, dtft], by simp [dft, dtft], fun _ _ => by simp [dft, dtft]⟩
    rw [e1, hw, ok_bind, Vec.bcast_ok (by exact hwl), ok_bind]
    simp only
    rw [if_pos]
    rw [Real.sqrt_eq_zero (Finset.sum_nonneg fun _ _ => by positivity)]
    refine Finset.sum_eq_zero fun i hi => ?_
    rw [(isAnalytic_unique ha hz0).2 i (by have := Finset.mem_range.1 hi; simp only; omega)]
    simp

/-- On fewer than two points the slice is empty and `dopnoise` raises `ValueError`. -/
theorem C65_short (s f d v : ℝ) (tc : Option ℝ) (c : ℝ) (draw : ℕ → ℝ) :
    dopnoise 0 s f d v tc c draw = .error .valueError ∧
    dopnoise 1 s f d v tc c draw = .error .valueError := by
  constructor
  · unfold dopnoise
    rw [if_neg (by simp)]
    simp only
    rw [hilbert_empty]
    · rfl
    · simp [Vec.slice, Vec.clampIdx]
  · unfold dopnoise
    simp only
    rw [if_neg (by rintro ⟨h, -⟩; omega), hilbert_empty]
    · rfl
    · simp [Vec.slice, Vec.clampIdx]

/-- At rest the law is constant and the filter time-invariant. -/
example : ∃ z law, dopnoise 3 2 1 1 0 (some 1) 340 (fun i => if i = 4 then 1 else 0) = .ok (z, law) ∧ z.len = 2 ∧ energy z = 1 ∧
    law.get 0 = 1 / 2 := by
  obtain ⟨z, w, law, e, h, h1, -, h2, -, -, h3, -⟩ := C65_dopnoise 3 2 1 1 0 1 340 (fun i => if i = 4 then 1 else 0)
    (dopFilter (fun i => if i = 4 then 1 else 0) (fun _ => 1 / 2)) (by norm_num) (by norm_num) (by norm_num) (Or.inl (by norm_num)) rfl rfl
    (fun t => by
      show (if t + 2 = 4 then (1 : ℝ) else 0) - 0.9 ^ 2 * ((if t = 4 then 1 else 0) + dopFilter _ _ t)
        + 2 * 0.9 * Real.cos (2.0 * Real.pi * (1 / 2)) * dopFilter _ _ (t + 1) = _
      norm_num)
    ⟨4, by norm_num, by norm_num, by simp [dopFilter]⟩
  refine ⟨z, law, h, h1, h2, ?_⟩
  rw [h3 0 (by norm_num)]
  norm_num

end Tftb.Props
