import Verif.Props.Noise
import Verif.Props.Scalogram
import Verif.Lemmas.TimeFreq
import Mathlib.RingTheory.Polynomial.Chebyshev

/-! # Symmetries of the noise generators; the Doppler noise of a source at rest (C124) -/

namespace Tftb.Props

open Finset Spec Noise ComplexConjugate

/-! ## Analytic projections of transformed signals -/

/-- Rotating a real signal rotates its analytic signal. -/
theorem rotate_isAnalytic {n : ℕ} {x : ℕ → ℝ} {z : Vec ℂ} (hz : IsAnalytic ⟨n, x⟩ z) (d : ℕ) :
    IsAnalytic ⟨n, fun i => x ((i + d) % n)⟩ ⟨n, fun i => z.get ((i + d) % n)⟩ := by
  rcases Nat.eq_zero_or_pos n with rfl | h0
  · refine ⟨rfl, fun t ht => absurd ht (by simp), fun k hk => absurd hk (by simp), ?_, fun k hk => ?_⟩
    · simp [dft, dtft]
    · simp [dft, dtft]
  have hl : z.len = n := hz.len
  have hd : ∀ k : ℕ, dft ⟨n, fun i => z.get ((i + d) % n)⟩ k = rootPow n (-((d : ℤ) * k)) * dft z k := fun k => by
    rw [dft_eq_dftC, dft_eq_dftC, hl]
    exact dftC_rotate (n := n) (by omega) z.get d k
  refine ⟨rfl, fun t _ => hz.re _ (Nat.mod_lt _ h0), fun k hk h2 => ?_, ?_, fun k hk => ?_⟩
  · rw [hd, hz.neg k hk h2, mul_zero]
  · rw [hd, Nat.cast_zero, mul_zero, neg_zero, rootPow_zero, one_mul]
    exact hz.zero
  · have hk' : 2 * k = n := hk
    have hr : rootPow n (-((d : ℤ) * k)) = (((-1) ^ d : ℝ) : ℂ) := by
      subst hk'
      rw [rootPow_neg, rootPow_half (by omega)]
      push_cast
      rw [← inv_pow]
      norm_num
    rw [hd, hr, Complex.im_ofReal_mul, hz.nyquist k hk, mul_zero]

/-- Reversing a real signal reverses its analytic signal and conjugates it. -/
theorem reverse_isAnalytic {n : ℕ} {x : ℕ → ℝ} {z : Vec ℂ} (hz : IsAnalytic ⟨n, x⟩ z) :
    IsAnalytic ⟨n, fun i => x (n - 1 - i)⟩ ⟨n, fun i => conj (z.get (n - 1 - i))⟩ := by
  rcases Nat.eq_zero_or_pos n with rfl | h0
  · refine ⟨rfl, fun t ht => absurd ht (by simp), fun k hk => absurd hk (by simp), ?_, fun k hk => ?_⟩
    · simp [dft, dtft]
    · simp [dft, dtft]
  have hl : z.len = n := hz.len
  have hd : ∀ k : ℕ, dft ⟨n, fun i => conj (z.get (n - 1 - i))⟩ k = conj (rootPow n (-(((n - 1 : ℕ) : ℤ) * k)) * dft z k) := fun k => by
    rw [dft_eq_dftC, dft_eq_dftC, hl]
    unfold dftC
    dsimp only
    rw [← Finset.sum_range_reflect, Finset.mul_sum, map_sum]
    refine Finset.sum_congr rfl fun j hj => ?_
    have hj' := mem_range.1 hj
    have e : n - 1 - (n - 1 - j) = j := by omega
    rw [e, map_mul, map_mul, conj_rootPow, conj_rootPow, mul_left_comm, ← rootPow_add]
    congr 2
    rw [Nat.cast_sub (by omega)]
    ring
  refine ⟨rfl, fun t ht => ?_, fun k hk h2 => ?_, ?_, fun k hk => ?_⟩
  · have ht' : t < n := ht
    show (conj (z.get (n - 1 - t))).re = x (n - 1 - t)
    rw [Complex.conj_re]
    exact hz.re _ (by show n - 1 - t < n; omega)
  · rw [hd, hz.neg k hk h2, mul_zero, map_zero]
  · rw [hd, Nat.cast_zero, mul_zero, neg_zero, rootPow_zero, one_mul, Complex.conj_im, hz.zero, neg_zero]
  · have hk' : 2 * k = n := hk
    have hr : rootPow n (-(((n - 1 : ℕ) : ℤ) * k)) = (((-1) ^ (n - 1) : ℝ) : ℂ) := by
      subst hk'
      rw [rootPow_neg, rootPow_half (by omega)]
      push_cast
      rw [← inv_pow]
      norm_num
    rw [hd, hr, Complex.conj_im, Complex.im_ofReal_mul, hz.nyquist k hk, mul_zero, neg_zero]

theorem rvariance_rotate {n : ℕ} (x : ℕ → ℝ) (d : ℕ) : rvariance n (fun i => x ((i + d) % n)) = rvariance n x := by
  unfold rvariance
  rw [sum_rotate d (fun j => x j), sum_rotate d (fun j => (x j - (∑ j ∈ range n, x j) / n) ^ 2)]

theorem rvariance_reverse {n : ℕ} (x : ℕ → ℝ) : rvariance n (fun i => x (n - 1 - i)) = rvariance n x := by
  unfold rvariance
  rw [Finset.sum_range_reflect (fun j => x j) n, Finset.sum_range_reflect (fun j => (x j - (∑ j ∈ range n, x j) / n) ^ 2) n]

/-! ## The noise generators -/

theorem pow_min (k : ℕ) : ∀ j, 2 ^ k ≤ 2 ^ j → k ≤ j := fun _ hj => (Nat.pow_le_pow_iff_right (by norm_num)).1 hj

theorem three_le_pow {k : ℕ} (hk : 2 ≤ k) : 3 ≤ 2 ^ k := by
  have : 2 ^ 2 ≤ 2 ^ k := Nat.pow_le_pow_right (by norm_num) hk
  omega

/-- **Scaled draws.**  Multiplying all Gaussian draws by `c ≠ 0` multiplies the noise by the sign of `c`: the noise does not depend on the deviation of the draws. -/
theorem C124_scale (n : ℕ) (draw : ℕ → ℝ) (hn : 3 ≤ n) (k : ℕ) (hk : n ≤ 2 ^ k) (hmin : ∀ j, n ≤ 2 ^ j → k ≤ j)
    (hv : ∃ i < 2 ^ k, ∃ j < 2 ^ k, draw i ≠ draw j) (c : ℝ) (hc : c ≠ 0) :
    ∃ z z' : Vec ℂ, noisecg n draw = .ok (.one z) ∧ noisecg n (fun i => c * draw i) = .ok (.one z') ∧ z.len = n ∧ z'.len = n ∧
      ∀ i < n, z'.get i = (c / |c| : ℝ) * z.get i := by
  obtain ⟨z, w, e, hl, ha, hg⟩ := C21_noisecg n k draw hn hk hmin hv
  obtain ⟨z', w', e', hl', ha', hg'⟩ := C21_noisecg n k (fun i => c * draw i) hn hk hmin (by
    obtain ⟨i, hi, j, hj, hij⟩ := hv
    exact ⟨i, hi, j, hj, fun h => hij (mul_left_cancel₀ hc h)⟩)
  refine ⟨z, z', e, e', hl, hl', fun i hi => ?_⟩
  have hva := rvariance_affine (2 ^ k) draw c 0 (by positivity)
  simp only [add_zero] at hva
  have hab : |c| ≠ 0 := abs_ne_zero.2 hc
  have := isAnalytic_unique ha' (smul_isAnalytic ha (c / |c|) rfl (fun t _ => by
    show c * draw t / (Real.sqrt (rvariance (2 ^ k) fun i => c * draw i) * Real.sqrt 2) = c / |c| * (draw t / (Real.sqrt (rvariance (2 ^ k) draw) * Real.sqrt 2))
    rw [hva, Real.sqrt_mul (sq_nonneg c), Real.sqrt_sq_eq_abs]
    field_simp))
  rw [hg' i hi, hg i hi]
  exact this.2 _ (by show 2 ^ k - n + i < 2 ^ k; omega)

/-- **Reflected draws.**  Replacing every uniform draw `u` by `1 - u` changes the sign of the noise. -/
theorem C124_reflect (n : ℕ) (draw : ℕ → ℝ) (hn : 3 ≤ n) (k : ℕ) (hk : n ≤ 2 ^ k) (hmin : ∀ j, n ≤ 2 ^ j → k ≤ j)
    (hv : ∃ i < 2 ^ k, ∃ j < 2 ^ k, draw i ≠ draw j) :
    ∃ z z' : Vec ℂ, noisecu n draw = .ok (.one z) ∧ noisecu n (fun i => 1 - draw i) = .ok (.one z') ∧ z.len = n ∧ z'.len = n ∧
      ∀ i < n, z'.get i = -z.get i := by
  obtain ⟨z, w, e, hl, ha, hg⟩ := C21_noisecu n k draw hn hk hmin hv
  obtain ⟨z', w', e', hl', ha', hg'⟩ := C21_noisecu n k (fun i => 1 - draw i) hn hk hmin (by
    obtain ⟨i, hi, j, hj, hij⟩ := hv
    exact ⟨i, hi, j, hj, fun h => hij (by linarith)⟩)
  refine ⟨z, z', e, e', hl, hl', fun i hi => ?_⟩
  have hva := rvariance_affine (2 ^ k) draw (-1) 1 (by positivity)
  have hfun : (fun i => 1 - draw i) = fun i => -1 * draw i + 1 := by funext i; ring
  have := isAnalytic_unique ha' (smul_isAnalytic ha (-1) rfl (fun t _ => by
    show (1 - draw t - 1 / 2) / (Real.sqrt (rvariance (2 ^ k) fun i => 1 - draw i) * Real.sqrt 2)
      = -1 * ((draw t - 1 / 2) / (Real.sqrt (rvariance (2 ^ k) draw) * Real.sqrt 2))
    rw [hfun, hva, neg_one_sq, one_mul]
    ring))
  rw [hg' i hi, hg i hi, this.2 _ (by show 2 ^ k - n + i < 2 ^ k; omega)]
  push_cast
  ring

/-- **The two generators** are the same function of the draws, up to the 1/2 subtracted from the uniform ones. -/
theorem C124_same (n : ℕ) (draw : ℕ → ℝ) (hn : 3 ≤ n) (k : ℕ) (hk : n ≤ 2 ^ k) (hmin : ∀ j, n ≤ 2 ^ j → k ≤ j)
    (hv : ∃ i < 2 ^ k, ∃ j < 2 ^ k, draw i ≠ draw j) :
    ∃ z z' : Vec ℂ, noisecu n draw = .ok (.one z) ∧ noisecg n (fun i => draw i - 1 / 2) = .ok (.one z') ∧ z.len = n ∧ z'.len = n ∧
      ∀ i < n, z'.get i = z.get i := by
  obtain ⟨z, w, e, hl, ha, hg⟩ := C21_noisecu n k draw hn hk hmin hv
  obtain ⟨z', w', e', hl', ha', hg'⟩ := C21_noisecg n k (fun i => draw i - 1 / 2) hn hk hmin (by
    obtain ⟨i, hi, j, hj, hij⟩ := hv
    exact ⟨i, hi, j, hj, fun h => hij (by linarith)⟩)
  refine ⟨z, z', e, e', hl, hl', fun i hi => ?_⟩
  have hva := rvariance_affine (2 ^ k) draw 1 (-(1 / 2)) (by positivity)
  have hfun : (fun i => draw i - 1 / 2) = fun i => 1 * draw i + -(1 / 2) := by funext i; ring
  have hs : (fun i => (draw i - 1 / 2) / (Real.sqrt (rvariance (2 ^ k) fun i => draw i - 1 / 2) * Real.sqrt 2))
      = fun i => (draw i - 1 / 2) / (Real.sqrt (rvariance (2 ^ k) draw) * Real.sqrt 2) := by
    rw [hfun, hva, one_pow, one_mul]
  rw [hs] at ha'
  rw [hg' i hi, hg i hi]
  exact (isAnalytic_unique ha' ha).2 _ (by show 2 ^ k - n + i < 2 ^ k; omega)

/-- **Fewer points** give the end of the noise of the full power of two of points, from the same draws. -/
theorem C124_tail (n : ℕ) (draw : ℕ → ℝ) (hn : 3 ≤ n) (k : ℕ) (hk : n ≤ 2 ^ k) (hmin : ∀ j, n ≤ 2 ^ j → k ≤ j)
    (hv : ∃ i < 2 ^ k, ∃ j < 2 ^ k, draw i ≠ draw j) :
    ∃ z z' u u' : Vec ℂ, noisecg n draw = .ok (.one z) ∧ noisecg ((2 ^ k : ℕ) : ℤ) draw = .ok (.one z') ∧
      noisecu n draw = .ok (.one u) ∧ noisecu ((2 ^ k : ℕ) : ℤ) draw = .ok (.one u') ∧
      ∀ i < n, z.get i = z'.get (2 ^ k - n + i) ∧ u.get i = u'.get (2 ^ k - n + i) := by
  obtain ⟨z, w, e, hl, ha, hg⟩ := C21_noisecg n k draw hn hk hmin hv
  obtain ⟨z', w', e', hl', ha', hg'⟩ := C21_noisecg (2 ^ k) k draw (by omega) le_rfl (pow_min k) hv
  obtain ⟨u, v, f, -, hb, hh⟩ := C21_noisecu n k draw hn hk hmin hv
  obtain ⟨u', v', f', -, hb', hh'⟩ := C21_noisecu (2 ^ k) k draw (by omega) le_rfl (pow_min k) hv
  refine ⟨z, z', u, u', e, e', f, f', fun i hi => ⟨?_, ?_⟩⟩
  · rw [hg i hi, hg' _ (by omega), Nat.sub_self, zero_add]
    exact (isAnalytic_unique ha ha').2 _ (by show 2 ^ k - n + i < 2 ^ k; omega)
  · rw [hh i hi, hh' _ (by omega), Nat.sub_self, zero_add]
    exact (isAnalytic_unique hb hb').2 _ (by show 2 ^ k - n + i < 2 ^ k; omega)

/-- **Rotated draws.**  On a power of two of points, rotating the draws rotates the noise: no sample is special. -/
theorem C124_shift (k : ℕ) (hk : 2 ≤ k) (draw : ℕ → ℝ) (hv : ∃ i < 2 ^ k, ∃ j < 2 ^ k, draw i ≠ draw j) (d : ℕ) :
    ∃ z z' u u' : Vec ℂ, noisecg ((2 ^ k : ℕ) : ℤ) draw = .ok (.one z) ∧ noisecg ((2 ^ k : ℕ) : ℤ) (fun i => draw ((i + d) % 2 ^ k)) = .ok (.one z') ∧
      noisecu ((2 ^ k : ℕ) : ℤ) draw = .ok (.one u) ∧ noisecu ((2 ^ k : ℕ) : ℤ) (fun i => draw ((i + d) % 2 ^ k)) = .ok (.one u') ∧
      ∀ i < 2 ^ k, z'.get i = z.get ((i + d) % 2 ^ k) ∧ u'.get i = u.get ((i + d) % 2 ^ k) := by
  have h3 := three_le_pow hk
  have hv' : ∃ i < 2 ^ k, ∃ j < 2 ^ k, draw ((i + d) % 2 ^ k) ≠ draw ((j + d) % 2 ^ k) := by
    by_contra hcon
    push Not at hcon
    obtain ⟨i, hi, j, hj, hij⟩ := hv
    have hsurj : ∀ i < 2 ^ k, ∃ l < 2 ^ k, (l + d) % 2 ^ k = i := fun i hi => by
      have hd := Nat.mod_lt d (show 0 < 2 ^ k by omega)
      refine ⟨(i + (2 ^ k - d % 2 ^ k)) % 2 ^ k, Nat.mod_lt _ (by omega), ?_⟩
      rw [Nat.mod_add_mod]
      have : i + (2 ^ k - d % 2 ^ k) + d = i + 2 ^ k * (1 + d / 2 ^ k) := by
        have := Nat.mod_add_div d (2 ^ k)
        rw [mul_add]; omega
      rw [this, Nat.add_mul_mod_self_left, Nat.mod_eq_of_lt hi]
    obtain ⟨a, ha, ea⟩ := hsurj i hi
    obtain ⟨b, hb, eb⟩ := hsurj j hj
    exact hij (by rw [← ea, ← eb]; exact hcon a ha b hb)
  obtain ⟨z, w, e, hl, ha, hg⟩ := C21_noisecg (2 ^ k) k draw h3 le_rfl (pow_min k) hv
  obtain ⟨z', w', e', hl', ha', hg'⟩ := C21_noisecg (2 ^ k) k _ h3 le_rfl (pow_min k) hv'
  obtain ⟨u, v, f, -, hb, hh⟩ := C21_noisecu (2 ^ k) k draw h3 le_rfl (pow_min k) hv
  obtain ⟨u', v', f', -, hb', hh'⟩ := C21_noisecu (2 ^ k) k _ h3 le_rfl (pow_min k) hv'
  rw [rvariance_rotate] at ha' hb'
  refine ⟨z, z', u, u', e, e', f, f', fun i hi => ?_⟩
  have hm : (i + d) % 2 ^ k < 2 ^ k := Nat.mod_lt _ (by omega)
  rw [hg' i hi, hg _ hm, hh' i hi, hh _ hm, Nat.sub_self, zero_add, zero_add]
  exact ⟨(isAnalytic_unique ha' (rotate_isAnalytic ha d)).2 i hi, (isAnalytic_unique hb' (rotate_isAnalytic hb d)).2 i hi⟩

/-- **Reversed draws** give the noise reversed and conjugated. -/
theorem C124_reverse (k : ℕ) (hk : 2 ≤ k) (draw : ℕ → ℝ) (hv : ∃ i < 2 ^ k, ∃ j < 2 ^ k, draw i ≠ draw j) :
    ∃ z z' u u' : Vec ℂ, noisecg ((2 ^ k : ℕ) : ℤ) draw = .ok (.one z) ∧ noisecg ((2 ^ k : ℕ) : ℤ) (fun i => draw (2 ^ k - 1 - i)) = .ok (.one z') ∧
      noisecu ((2 ^ k : ℕ) : ℤ) draw = .ok (.one u) ∧ noisecu ((2 ^ k : ℕ) : ℤ) (fun i => draw (2 ^ k - 1 - i)) = .ok (.one u') ∧
      ∀ i < 2 ^ k, z'.get i = conj (z.get (2 ^ k - 1 - i)) ∧ u'.get i = conj (u.get (2 ^ k - 1 - i)) := by
  have h3 := three_le_pow hk
  have hv' : ∃ i < 2 ^ k, ∃ j < 2 ^ k, draw (2 ^ k - 1 - i) ≠ draw (2 ^ k - 1 - j) := by
    obtain ⟨i, hi, j, hj, hij⟩ := hv
    refine ⟨2 ^ k - 1 - i, by omega, 2 ^ k - 1 - j, by omega, ?_⟩
    rw [show 2 ^ k - 1 - (2 ^ k - 1 - i) = i by omega, show 2 ^ k - 1 - (2 ^ k - 1 - j) = j by omega]
    exact hij
  obtain ⟨z, w, e, hl, ha, hg⟩ := C21_noisecg (2 ^ k) k draw h3 le_rfl (pow_min k) hv
  obtain ⟨z', w', e', hl', ha', hg'⟩ := C21_noisecg (2 ^ k) k _ h3 le_rfl (pow_min k) hv'
  obtain ⟨u, v, f, -, hb, hh⟩ := C21_noisecu (2 ^ k) k draw h3 le_rfl (pow_min k) hv
  obtain ⟨u', v', f', -, hb', hh'⟩ := C21_noisecu (2 ^ k) k _ h3 le_rfl (pow_min k) hv'
  rw [rvariance_reverse] at ha' hb'
  refine ⟨z, z', u, u', e, e', f, f', fun i hi => ?_⟩
  have hm : 2 ^ k - 1 - i < 2 ^ k := by omega
  rw [hg' i hi, hg _ hm, hh' i hi, hh _ hm, Nat.sub_self, zero_add, zero_add]
  exact ⟨(isAnalytic_unique ha' (reverse_isAnalytic ha)).2 i hi, (isAnalytic_unique hb' (reverse_isAnalytic hb)).2 i hi⟩

/-! ## Doppler noise of a source at rest -/

/-- Impulse response of the resonance at angular frequency `θ`, damping 0.9: `1, 2·0.9 cos θ, 2·0.9² cos 2θ, …`. -/
noncomputable def resonance (θ : ℝ) (k : ℕ) : ℝ := if k = 0 then 1 else 2 * 0.9 ^ k * Real.cos (k * θ)

/-- What the two draws before the start of the recursion leave: `0, 0, -0.9² U_0(cos θ), -0.9³ U_1(cos θ), …`, `U` the Chebyshev polynomials of the second kind. -/
noncomputable def startUp (θ : ℝ) (k : ℕ) : ℝ :=
  if k < 2 then 0 else -(0.9 ^ k * (Polynomial.Chebyshev.U ℝ ((k : ℤ) - 2)).eval (Real.cos θ))

/-- The draws through the resonance. -/
noncomputable def resonated (θ : ℝ) (x : ℕ → ℝ) (t : ℕ) : ℝ :=
  ∑ k ∈ range (t - 1), resonance θ k * x (t - k) + startUp θ t * x 0 + startUp θ (t - 1) * x 1

theorem resonance_rec (θ : ℝ) (k : ℕ) :
    resonance θ (k + 2) = 1.8 * Real.cos θ * resonance θ (k + 1) - 0.81 * resonance θ k - if k = 0 then 0.81 else 0 := by
  unfold resonance
  rw [if_neg (by omega), if_neg (by omega)]
  have h2 : Real.cos (((k + 2 : ℕ) : ℝ) * θ) = 2 * Real.cos θ * Real.cos (((k + 1 : ℕ) : ℝ) * θ) - Real.cos ((k : ℝ) * θ) := by
    rw [show ((k + 2 : ℕ) : ℝ) * θ = ((k + 1 : ℕ) : ℝ) * θ + θ by push_cast; ring, show (k : ℝ) * θ = ((k + 1 : ℕ) : ℝ) * θ - θ by push_cast; ring,
      Real.cos_add, Real.cos_sub]
    ring
  rw [h2]
  by_cases h : k = 0
  · subst h
    simp
    ring
  · rw [if_neg h, if_neg h, pow_succ, pow_succ]
    ring

theorem startUp_rec (θ : ℝ) (k : ℕ) :
    startUp θ (k + 2) = 1.8 * Real.cos θ * startUp θ (k + 1) - 0.81 * startUp θ k - if k = 0 then 0.81 else 0 := by
  unfold startUp
  rw [if_neg (by omega)]
  have e : ((k + 2 : ℕ) : ℤ) - 2 = k := by push_cast; ring
  rw [e]
  rcases k with _ | _ | k
  · simp
    norm_num
  · simp
    ring
  · rw [if_neg (by omega), if_neg (by omega), if_neg (by omega)]
    have h := congrArg (Polynomial.eval (Real.cos θ)) (Polynomial.Chebyshev.U_add_two ℝ (k : ℤ))
    simp only [Polynomial.eval_sub, Polynomial.eval_mul, Polynomial.eval_ofNat, Polynomial.eval_X] at h
    have e2 : ((k + 1 + 1 + 1 : ℕ) : ℤ) - 2 = k + 1 := by push_cast; ring
    have e3 : ((k + 1 + 1 : ℕ) : ℤ) - 2 = k := by push_cast; ring
    have e4 : ((k + 1 + 1 : ℕ) : ℤ) = k + 2 := by push_cast; ring
    rw [e2, e3, e4, h]
    ring

theorem resonated_rec (θ : ℝ) (x : ℕ → ℝ) (t : ℕ) :
    resonated θ x (t + 2) = x (t + 2) - 0.81 * (x t + resonated θ x t) + 1.8 * Real.cos θ * resonated θ x (t + 1) := by
  have r0 : resonance θ 0 = 1 := by simp [resonance]
  have r1 : resonance θ 1 = 1.8 * Real.cos θ := by
    unfold resonance
    rw [if_neg (by omega)]
    norm_num
  have s0 : startUp θ 0 = 0 := by simp [startUp]
  have s1 : startUp θ 1 = 0 := by simp [startUp]
  rcases t with _ | _ | t
  · have s2 := startUp_rec θ 0
    unfold resonated
    simp [r0, s0, s1] at s2 ⊢
    rw [s2]
    ring
  · have s2 := startUp_rec θ 0
    have s3 := startUp_rec θ 1
    unfold resonated
    simp [r0, r1, s0, s1, Finset.sum_range_succ] at s2 s3 ⊢
    rw [s3, s2]
    ring
  · have hS := startUp_rec θ (t + 2)
    have hS' := startUp_rec θ (t + 1)
    rw [if_neg (by omega)] at hS hS'
    unfold resonated
    have e1 : t + 1 + 1 + 2 - 1 = t + 1 + 1 + 1 := by omega
    have e2 : t + 1 + 1 - 1 = t + 1 := by omega
    have e3 : t + 1 + 1 + 1 - 1 = t + 1 + 1 := by omega
    rw [e1, e2, e3, Finset.sum_range_succ' _ (t + 1 + 1), Finset.sum_range_succ' _ (t + 1)]
    rw [Finset.sum_range_succ' (fun k => resonance θ k * x (t + 1 + 1 + 1 - k)) (t + 1)]
    have hx : ∀ k ∈ range (t + 1), resonance θ (k + 1 + 1) * x (t + 1 + 1 + 2 - (k + 1 + 1))
        = 1.8 * Real.cos θ * (resonance θ (k + 1) * x (t + 1 + 1 + 1 - (k + 1))) - 0.81 * (resonance θ k * x (t + 1 + 1 - k))
          - if k = 0 then 0.81 * x (t + 1 + 1) else 0 := by
      intro k hk
      have hk' := mem_range.1 hk
      rw [show t + 1 + 1 + 2 - (k + 1 + 1) = t + 1 + 1 - k by omega, show t + 1 + 1 + 1 - (k + 1) = t + 1 + 1 - k by omega, resonance_rec]
      by_cases h : k = 0
      · rw [if_pos h, if_pos h, h, Nat.sub_zero]
        ring
      · rw [if_neg h, if_neg h]
        ring
    rw [Finset.sum_congr rfl hx, Finset.sum_sub_distrib, Finset.sum_sub_distrib, ← Finset.mul_sum, ← Finset.mul_sum, Finset.sum_ite_eq' (range (t + 1)) 0,
      if_pos (by simp)]
    simp only [Nat.sub_zero, zero_add, r0, r1]
    rw [show t + 1 + 1 + 2 - 1 = t + 1 + 1 + 1 by omega, show t + 1 + 1 + 2 = t + 2 + 2 by omega, hS, show t + 1 + 1 + 1 = t + 1 + 2 by omega, hS',
      show t + 1 + 1 = t + 2 by omega]
    ring

/-- **Doppler noise of a source at rest** (`v_target = 0`).  The frequency law is constant, `f / s`; the noise is, up to one positive factor, the analytic signal of
the draws through a resonance at that frequency, whose impulse response after `k` samples is `2·0.9^k cos(2π k f/s)` (1 for `k = 0`). -/
theorem C124_dop_rest (n : ℕ) (s f d tc c : ℝ) (draw : ℕ → ℝ) (hn : 2 ≤ n) (hs : s ≠ 0) (hc : c ≠ 0) (hd : d ≠ 0)
    (hne : ∃ i, n + 1 ≤ i ∧ i < 2 * n ∧ resonated (2 * Real.pi * (f / s)) draw i ≠ 0) :
    ∃ (z w : Vec ℂ) (law : Vec ℝ) (K : ℝ), dopnoise n s f d 0 (some tc) c draw = .ok (z, law) ∧ z.len = n - 1 ∧ law.len = n - 1 ∧ energy z = 1 ∧ 0 < K ∧
      IsAnalytic ⟨n - 1, fun i => resonated (2 * Real.pi * (f / s)) draw (n + 1 + i)⟩ w ∧
      ∀ i < n - 1, law.get i = f / s ∧ z.get i = w.get i / (K : ℂ) := by
  obtain ⟨z, w, law, e, hz, h1, h2, h3, h4, h5, h6, h7⟩ := C65_dopnoise n s f d 0 tc c draw (resonated (2 * Real.pi * (f / s)) draw) hn hs hc (Or.inl hd)
    (by simp [resonated, startUp]) (by simp [resonated, startUp])
    (fun t => by
      rw [resonated_rec]
      congr 4
      ring) hne
  have hd2 : 0 < Real.sqrt (Real.sqrt (d ^ 2)) := Real.sqrt_pos.2 (Real.sqrt_pos.2 (by positivity))
  refine ⟨z, w, law, e * Real.sqrt (Real.sqrt (d ^ 2)), hz, h1, h2, h3, by positivity, h5, fun i hi => ⟨?_, ?_⟩⟩
  · rw [h6 i hi]
    ring
  · rw [h7 i hi]
    congr 5
    ring

/-- Four Gaussian draws `0, 1, 2, 3`: the noise of three points is the end of the noise of four, and tripling the draws changes nothing. -/
example : ∃ z z' : Vec ℂ, noisecg (3 : ℕ) (fun i => (i : ℝ)) = .ok (.one z) ∧ noisecg (3 : ℕ) (fun i => 3 * (i : ℝ)) = .ok (.one z') ∧ ∀ i < 3, z'.get i = z.get i := by
  obtain ⟨z, z', h1, h2, -, -, h⟩ := C124_scale 3 (fun i => (i : ℝ)) le_rfl 2 (by norm_num) (fun j hj => by
    by_contra hc
    have : 2 ^ j ≤ 2 ^ 1 := Nat.pow_le_pow_right (by norm_num) (by omega)
    omega) ⟨0, by norm_num, 1, by norm_num, by norm_num⟩ 3 (by norm_num)
  refine ⟨z, z', h1, h2, fun i hi => ?_⟩
  rw [h i hi, abs_of_pos (by norm_num : (0 : ℝ) < 3), div_self (by norm_num), Complex.ofReal_one, one_mul]

/-- Four draws `0, 1, 2, 3` rotated to `1, 2, 3, 0`: sample 0 of the new noise is sample 1 of the old one; reversed to `3, 2, 1, 0`: the conjugate of sample 3. -/
example : ∃ z z' z'' : Vec ℂ, noisecg ((2 ^ 2 : ℕ) : ℤ) (fun i => (i : ℝ)) = .ok (.one z) ∧
    noisecg ((2 ^ 2 : ℕ) : ℤ) (fun i => (((i + 1) % 2 ^ 2 : ℕ) : ℝ)) = .ok (.one z') ∧ z'.get 0 = z.get 1 ∧
    noisecg ((2 ^ 2 : ℕ) : ℤ) (fun i => ((2 ^ 2 - 1 - i : ℕ) : ℝ)) = .ok (.one z'') ∧ z''.get 0 = conj (z.get 3) := by
  obtain ⟨z, z', _, _, h1, h2, -, -, h⟩ := C124_shift 2 le_rfl (fun i => (i : ℝ)) ⟨0, by norm_num, 1, by norm_num, by norm_num⟩ 1
  obtain ⟨y, z'', _, _, h3, h4, -, -, h'⟩ := C124_reverse 2 le_rfl (fun i => (i : ℝ)) ⟨0, by norm_num, 1, by norm_num, by norm_num⟩
  have hy : z = y := by
    rw [h1] at h3
    injection h3 with h3
    injection h3
  refine ⟨z, z', z'', h1, h2, ?_, h4, ?_⟩
  · simpa using (h 0 (by norm_num)).1
  · rw [hy]
    simpa using (h' 0 (by norm_num)).1

/-- A source at rest at a quarter of the sampling frequency, five points, one draw at sample 6: the resonance gives `1, 0, -2·0.81, 0`. -/
example : (∃ z law, dopnoise 5 4 1 1 0 (some 2) 340 (fun i => if i = 6 then 1 else 0) = .ok (z, law) ∧ energy z = 1) ∧
    resonated (2 * Real.pi * (1 / 4)) (fun i => if i = 6 then 1 else 0) 6 = 1 ∧
    resonated (2 * Real.pi * (1 / 4)) (fun i => if i = 6 then 1 else 0) 7 = 0 ∧
    resonated (2 * Real.pi * (1 / 4)) (fun i => if i = 6 then 1 else 0) 8 = -1.62 := by
  have c1 : Real.cos (2 * Real.pi * 4⁻¹) = 0 := by rw [← Real.cos_pi_div_two]; congr 1; ring
  have c2 : Real.cos (2 * (2 * Real.pi * 4⁻¹)) = -1 := by rw [← Real.cos_pi]; congr 1; ring
  have e6 : resonated (2 * Real.pi * (1 / 4)) (fun i => if i = 6 then 1 else 0) 6 = 1 := by
    simp [resonated, resonance, Finset.sum_range_succ]
  obtain ⟨z, w, law, K, h, -, -, h3, -⟩ := C124_dop_rest 5 4 1 1 2 340 (fun i => if i = 6 then 1 else 0) (by norm_num) (by norm_num) (by norm_num) (by norm_num)
    ⟨6, by norm_num, by norm_num, by rw [e6]; norm_num⟩
  refine ⟨⟨z, law, h, h3⟩, e6, ?_, ?_⟩
  · simp [resonated, resonance, Finset.sum_range_succ, c1]
  · simp [resonated, resonance, Finset.sum_range_succ, c2]
    norm_num

/-! ## Constant draws -/

theorem shaped_constant {n P : ℕ} (hP : 1 ≤ P) {x : ℕ → ℝ} {a : ℝ} (hc : ∀ i < P, x i = a) : shaped n ⟨P, x⟩ = .error .nonFinite := by
  obtain ⟨w, hw, -, -⟩ := hilbert_analytic (x := ⟨P, x⟩) (by simp only; omega)
  have hP' : (P : ℝ) ≠ 0 := by
    have : P ≠ 0 := by omega
    exact_mod_cast this
  have hs : (⟨P, x⟩ : Vec ℝ).sum = P * a := by
    unfold Vec.sum
    rw [Finset.sum_congr rfl fun i hi => hc i (Finset.mem_range.1 hi)]
    simp
  have h0 : Noise.std ⟨P, x⟩ = 0 := by
    unfold Noise.std
    rw [hs]
    simp only
    rw [Finset.sum_congr rfl (g := fun _ => (0 : ℝ)) fun i hi => by
      rw [hc i (Finset.mem_range.1 hi)]; field_simp; ring]
    simp
  unfold shaped
  rw [hw, ok_bind, if_pos h0]

/-- Draws that are all equal have no deviation to be scaled to one: both generators compute NaN. -/
theorem C21_constant (n : ℕ) (draw : ℕ → ℝ) (hn : 3 ≤ n) (a : ℝ) (hc : ∀ i, draw i = a) :
    noisecu n draw = .error .nonFinite ∧ noisecg n draw = .error .nonFinite := by
  obtain ⟨p, hp, -, -⟩ := C04_nextpow2_least n (by omega)
  have hP : 1 ≤ 2 ^ p := Nat.one_le_two_pow
  constructor
  · unfold noisecu
    rw [if_neg (by omega), hp, ok_bind, Int.toNat_natCast]
    simp only
    rw [shaped_constant hP (a := a - 0.5) (fun i _ => by simp only [hc])]
    rfl
  · unfold noisecg
    rw [if_neg (by omega), if_neg (by omega), hp, ok_bind, Int.toNat_natCast]
    simp only
    rw [shaped_constant hP (a := a) (fun i _ => hc i)]
    rfl

/-- Five points, every draw one half. -/
example : noisecu 5 (fun _ => 1 / 2) = .error .nonFinite ∧ noisecg 5 (fun _ => 1 / 2) = .error .nonFinite :=
  C21_constant 5 _ (by norm_num) (1 / 2) fun _ => rfl

end Tftb.Props
