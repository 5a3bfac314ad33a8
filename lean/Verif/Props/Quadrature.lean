import Verif.Props.Analytic
import Verif.Props.Noise
import Verif.Props.FM
import Verif.Props.WvdMoments
import Verif.Lemmas.Chirp

/-! # Real and imaginary parts of analytic projections (C118) -/

namespace Tftb.Props

open Tftb Finset Tftb.Spec Tftb.Analytic Tftb.FM Tftb.Noise

local notation "conj" => starRingEnd ℂ

/-! ## Sums of squares -/

theorem sum_sq_dftC {n : ℕ} (hn : n ≠ 0) (z : ℕ → ℂ) : n * ∑ t ∈ range n, z t ^ 2 = ∑ k ∈ range n, dftC n z k * dftC n z (((n - k) % n : ℕ) : ℤ) := by
  have hn' : (n : ℂ) ≠ 0 := Nat.cast_ne_zero.2 hn
  have h1 : ∀ t ∈ range n, z t ^ 2 = z t * ((∑ k ∈ range n, dftC n z k * rootPow n (-((k : ℤ) * t))) / n) := by
    intro t ht
    have := idftC_dftC hn z (Finset.mem_range.1 ht)
    unfold idftC at this
    rw [this, sq]
  rw [Finset.sum_congr rfl h1]
  simp only [mul_div_assoc', Finset.mul_sum]
  simp only [← Finset.sum_div, ← Finset.mul_sum]
  rw [mul_div_cancel_left₀ _ hn']
  simp only [Finset.mul_sum]
  rw [Finset.sum_comm]
  refine Finset.sum_congr rfl fun k hk => ?_
  rw [← dftC_neg hn z (Finset.mem_range.1 hk)]
  conv_rhs => unfold dftC
  rw [Finset.mul_sum]
  refine Finset.sum_congr rfl fun t _ => ?_
  rw [show ((t : ℤ) * -(k : ℤ)) = -((k : ℤ) * t) by ring]
  unfold dftC
  ring

/-- Bin `N / 2` of a real signal of even length. -/
theorem dftC_half {n : ℕ} (hn : n ≠ 0) (h2 : n % 2 = 0) (x : ℕ → ℝ) : dftC n (fun t => (x t : ℂ)) ((n / 2 : ℕ) : ℤ) = ((∑ t ∈ range n, (-1) ^ t * x t : ℝ) : ℂ) := by
  obtain ⟨m, rfl⟩ : ∃ m, n = 2 * m := ⟨n / 2, by omega⟩
  have hm : 0 < m := by omega
  rw [show 2 * m / 2 = m by omega]
  unfold dftC
  push_cast
  refine Finset.sum_congr rfl fun t _ => ?_
  rw [rootPow_half hm]
  ring

theorem dftC_zero_bin (n : ℕ) (x : ℕ → ℂ) : dftC n x 0 = ∑ t ∈ range n, x t := by
  unfold dftC
  simp

theorem analytic_dc {x : Vec ℝ} {z : Vec ℂ} (hz : IsAnalytic x z) : ∑ t ∈ range x.len, z.get t = ((∑ t ∈ range x.len, x.get t : ℝ) : ℂ) := by
  refine Complex.ext ?_ ?_
  · rw [Complex.re_sum, Complex.ofReal_re]
    exact Finset.sum_congr rfl fun t ht => hz.re t (Finset.mem_range.1 ht)
  · have := hz.zero
    rw [dft_eq_dftC, hz.len] at this
    rw [Complex.ofReal_im, ← this, Nat.cast_zero, dftC_zero_bin]

/-! ## The statements -/

/-- **The square.**  The samples of an analytic projection squared add up to the squares of the mean and of the alternating sum: to zero but for these. -/
theorem C118_square (x : Vec ℝ) (z : Vec ℂ) (hn : x.len ≠ 0) (hz : IsAnalytic x z) :
    ∑ t ∈ range x.len, z.get t ^ 2
      = ((((∑ t ∈ range x.len, x.get t) ^ 2 + if x.len % 2 = 0 then (∑ t ∈ range x.len, (-1) ^ t * x.get t) ^ 2 else 0) / x.len : ℝ) : ℂ) := by
  have hn' : (x.len : ℂ) ≠ 0 := Nat.cast_ne_zero.2 hn
  have hd : ∀ k : ℕ, dftC x.len z.get k = dft z k := fun k => by rw [dft_eq_dftC, hz.len]
  have h := sum_sq_dftC hn z.get
  have h0 : dftC x.len z.get ((0 : ℕ) : ℤ) = ((∑ t ∈ range x.len, x.get t : ℝ) : ℂ) := by
    rw [Nat.cast_zero, dftC_zero_bin, analytic_dc hz]
  have hsum : ∑ k ∈ range x.len, dftC x.len z.get k * dftC x.len z.get (((x.len - k) % x.len : ℕ) : ℤ)
      = (((∑ t ∈ range x.len, x.get t) ^ 2 + if x.len % 2 = 0 then (∑ t ∈ range x.len, (-1) ^ t * x.get t) ^ 2 else 0 : ℝ) : ℂ) := by
    have hz0 : ∀ k, 0 < k → k < x.len → 2 * k ≠ x.len → dftC x.len z.get k * dftC x.len z.get (((x.len - k) % x.len : ℕ) : ℤ) = 0 := by
      intro k h0 h1 h2
      rw [Nat.mod_eq_of_lt (by omega), hd, hd]
      rcases Nat.lt_or_ge (2 * k) x.len with h3 | h3
      · rw [hz.neg (x.len - k) (by omega) (by omega), mul_zero]
      · rw [hz.neg k h1 (by omega), zero_mul]
    have e : x.len = (x.len - 1) + 1 := by omega
    conv_lhs => rw [e]
    rw [Finset.sum_range_succ', ← e, show (x.len - 0) % x.len = 0 by simp, h0]
    by_cases h2 : x.len % 2 = 0
    · rw [if_pos h2, Finset.sum_eq_single_of_mem (x.len / 2 - 1) (Finset.mem_range.2 (by omega))]
      · rw [show x.len / 2 - 1 + 1 = x.len / 2 by omega, show (x.len - x.len / 2) % x.len = x.len / 2 by rw [Nat.mod_eq_of_lt (by omega)]; omega,
          analytic_bin hz (by omega) (by omega)]
        unfold hilbertMask
        rw [if_neg (by omega), if_neg (by omega), if_pos (by omega), dftC_half hn h2]
        push_cast
        ring
      · intro j hj hne
        have hj' := Finset.mem_range.1 hj
        exact hz0 (j + 1) (by omega) (by omega) (by omega)
    · rw [if_neg h2, Finset.sum_eq_zero]
      · push_cast
        ring
      · intro j hj
        have hj' := Finset.mem_range.1 hj
        exact hz0 (j + 1) (by omega) (by omega) (by omega)
  rw [hsum] at h
  rw [Complex.ofReal_div, ← h, Complex.ofReal_natCast]
  field_simp

/-- **Quadrature.**  Real and imaginary part are orthogonal, the imaginary part has mean zero, and the energy is twice that of the real part but for mean
and alternating sum; so it lies between once and twice that energy. -/
theorem C118_quadrature (x : Vec ℝ) (z : Vec ℂ) (hn : x.len ≠ 0) (hz : IsAnalytic x z) :
    ∑ t ∈ range x.len, (z.get t).re * (z.get t).im = 0 ∧ ∑ t ∈ range x.len, (z.get t).im = 0 ∧
    energy z = 2 * ∑ t ∈ range x.len, x.get t ^ 2
      - ((∑ t ∈ range x.len, x.get t) ^ 2 + if x.len % 2 = 0 then (∑ t ∈ range x.len, (-1) ^ t * x.get t) ^ 2 else 0) / x.len ∧
    ∑ t ∈ range x.len, x.get t ^ 2 ≤ energy z ∧ energy z ≤ 2 * ∑ t ∈ range x.len, x.get t ^ 2 := by
  have h := C118_square x z hn hz
  set Q := ((∑ t ∈ range x.len, x.get t) ^ 2 + if x.len % 2 = 0 then (∑ t ∈ range x.len, (-1) ^ t * x.get t) ^ 2 else 0) / (x.len : ℝ) with hQ
  have hQ0 : 0 ≤ Q := by
    rw [hQ]
    split_ifs <;> positivity
  have him := congrArg Complex.im h
  have hre := congrArg Complex.re h
  rw [Complex.im_sum, Complex.ofReal_im] at him
  rw [Complex.re_sum, Complex.ofReal_re] at hre
  have e1 : ∑ t ∈ range x.len, (z.get t ^ 2).im = 2 * ∑ t ∈ range x.len, (z.get t).re * (z.get t).im := by
    rw [Finset.mul_sum]
    refine Finset.sum_congr rfl fun t _ => ?_
    rw [sq, Complex.mul_im]; ring
  have e2 : ∑ t ∈ range x.len, (z.get t ^ 2).re = 2 * ∑ t ∈ range x.len, x.get t ^ 2 - energy z := by
    unfold energy
    rw [hz.len, Finset.mul_sum, ← Finset.sum_sub_distrib]
    refine Finset.sum_congr rfl fun t ht => ?_
    rw [← Complex.normSq_eq_norm_sq, Complex.normSq_apply, sq, Complex.mul_re, hz.re t (Finset.mem_range.1 ht)]; ring
  have e3 : ∑ t ∈ range x.len, x.get t ^ 2 ≤ energy z := by
    unfold energy
    rw [hz.len]
    refine Finset.sum_le_sum fun t ht => ?_
    rw [← Complex.normSq_eq_norm_sq, Complex.normSq_apply, hz.re t (Finset.mem_range.1 ht)]
    nlinarith [mul_self_nonneg (z.get t).im]
  have hdc := congrArg Complex.im (analytic_dc hz)
  rw [Complex.im_sum, Complex.ofReal_im] at hdc
  rw [e2] at hre
  exact ⟨by linarith, hdc, by linarith, e3, by linarith⟩

/-- **What the generators return.**  `anapulse`, `anastep`, `anasing` for every position and strength. -/
theorem C118_generators (n : ℕ) (hn : 1 ≤ n) (ti h : ℝ) (hh : 0 < h ∨ 4 ≤ n) : ∃ p s g, anapulse n (some ti) = .ok p ∧ anastep n (some ti) = .ok s ∧
    anasing n (some ti) h = .ok g ∧ ∀ z, z = p ∨ z = s ∨ z = g →
      z.len = n ∧ ∑ t ∈ range n, (z.get t).re * (z.get t).im = 0 ∧ ∑ t ∈ range n, (z.get t).im = 0 ∧
      ∑ t ∈ range n, (z.get t).re ^ 2 ≤ energy z ∧ energy z ≤ 2 * ∑ t ∈ range n, (z.get t).re ^ 2 := by
  have key : ∀ (x : Vec ℝ) (z : Vec ℂ), x.len = n → IsAnalytic x z →
      z.len = n ∧ ∑ t ∈ range n, (z.get t).re * (z.get t).im = 0 ∧ ∑ t ∈ range n, (z.get t).im = 0 ∧
      ∑ t ∈ range n, (z.get t).re ^ 2 ≤ energy z ∧ energy z ≤ 2 * ∑ t ∈ range n, (z.get t).re ^ 2 := by
    intro x z hx hz
    obtain ⟨h1, h2, -, h4, h5⟩ := C118_quadrature x z (by omega) hz
    have e : ∑ t ∈ range x.len, (z.get t).re ^ 2 = ∑ t ∈ range x.len, x.get t ^ 2 :=
      Finset.sum_congr rfl fun t ht => by rw [hz.re t (Finset.mem_range.1 ht)]
    rw [← hx, e]
    exact ⟨hz.len, h1, h2, h4, h5⟩
  obtain ⟨p, ep, hp⟩ := C20_anapulse n ti hn
  obtain ⟨s, es, hs⟩ := C20_anastep n ti hn
  have hg : ∃ (g : Vec ℂ) (x : Vec ℝ), anasing n (some ti) h = .ok g ∧ x.len = n ∧ IsAnalytic x g := by
    by_cases h0 : 0 < h
    · obtain ⟨g, M, eg, hg, -⟩ := C64_positive n ti h hn h0
      exact ⟨g, _, eg, rfl, hg⟩
    · obtain ⟨g, x, c, eg, hx, hg, -⟩ := C64_nonpositive n ti h (by rcases hh with hh | hh; exact absurd hh h0; exact hh) (not_lt.1 h0)
      exact ⟨g, x, eg, hx, hg⟩
  obtain ⟨g, x, eg, hx, hg⟩ := hg
  refine ⟨p, s, g, ep, es, eg, fun z hz => ?_⟩
  rcases hz with rfl | rfl | rfl
  · exact key _ _ rfl hp
  · exact key _ _ rfl hs
  · exact key _ _ hx hg

/-- **Noise.**  With a power of two of samples, at least four, the two noise generators return orthogonal real and imaginary parts for every draw that is not constant. -/
theorem C118_noise (k : ℕ) (draw : ℕ → ℝ) (hk : 2 ≤ k) (hv : ∃ i < 2 ^ k, ∃ j < 2 ^ k, draw i ≠ draw j) :
    ∃ zu zg : Vec ℂ, noisecu ((2 ^ k : ℕ) : ℤ) draw = .ok (.one zu) ∧ noisecg ((2 ^ k : ℕ) : ℤ) draw = .ok (.one zg) ∧
      ∀ z, z = zu ∨ z = zg → ∑ t ∈ range (2 ^ k), (z.get t).re * (z.get t).im = 0 ∧ ∑ t ∈ range (2 ^ k), (z.get t).im = 0 := by
  have h3 : 3 ≤ 2 ^ k := by
    have : 2 ^ 2 ≤ 2 ^ k := Nat.pow_le_pow_right (by norm_num) hk
    omega
  have hmin : ∀ j, 2 ^ k ≤ 2 ^ j → k ≤ j := fun j hj => (Nat.pow_le_pow_iff_right (by norm_num)).1 hj
  obtain ⟨zu, wu, eu, hlu, hu, hiu⟩ := C21_noisecu (2 ^ k) k draw h3 le_rfl hmin hv
  obtain ⟨zg, wg, eg, hlg, hg, hig⟩ := C21_noisecg (2 ^ k) k draw h3 le_rfl hmin hv
  refine ⟨zu, zg, eu, eg, fun z hz => ?_⟩
  rcases hz with rfl | rfl
  · obtain ⟨h1, h2, -⟩ := C118_quadrature _ _ (by show 2 ^ k ≠ 0; omega) hu
    refine ⟨(Finset.sum_congr rfl fun t ht => ?_).trans h1, (Finset.sum_congr rfl fun t ht => ?_).trans h2⟩ <;>
      rw [hiu t (Finset.mem_range.1 ht), show 2 ^ k - 2 ^ k + t = t by omega]
  · obtain ⟨h1, h2, -⟩ := C118_quadrature _ _ (by show 2 ^ k ≠ 0; omega) hg
    refine ⟨(Finset.sum_congr rfl fun t ht => ?_).trans h1, (Finset.sum_congr rfl fun t ht => ?_).trans h2⟩ <;>
      rw [hig t (Finset.mem_range.1 ht), show 2 ^ k - 2 ^ k + t = t by omega]

/-- **Energy of the step** with `m` ones after sample `p`. -/
theorem C118_step_energy (n p m : ℕ) (hm : p + 1 + m = n) : ∃ s, anastep n (some (p : ℝ)) = .ok s ∧
    energy s = 2 * (m : ℝ) - ((m : ℝ) ^ 2 + if n % 2 = 0 ∧ m % 2 = 1 then 1 else 0) / n := by
  obtain ⟨s, e, hs⟩ := C20_anastep n p (by omega)
  obtain ⟨-, -, h, -⟩ := C118_quadrature _ _ (by show n ≠ 0; omega) hs
  refine ⟨s, e, ?_⟩
  rw [h]
  dsimp only
  have hc : ∀ t : ℕ, ((p : ℝ) < (t : ℝ)) ↔ p < t := fun t => by exact_mod_cast Iff.rfl
  have hsum : ∀ f : ℕ → ℝ, ∑ t ∈ range n, f t * (if (p : ℝ) < (t : ℝ) then 1 else 0) = ∑ j ∈ range m, f (p + 1 + j) := by
    intro f
    rw [← hm, Finset.sum_range_add, Finset.sum_eq_zero, zero_add]
    · refine Finset.sum_congr rfl fun j _ => ?_
      rw [if_pos ((hc _).2 (by omega)), mul_one]
    · intro t ht
      have := Finset.mem_range.1 ht
      rw [if_neg (by rw [hc]; omega), mul_zero]
  have s1 : ∑ t ∈ range n, (if (p : ℝ) < (t : ℝ) then (1 : ℝ) else 0) = m := by
    have := hsum (fun _ => 1)
    simp only [one_mul] at this
    rw [this]; simp
  have s2 : ∑ t ∈ range n, (if (p : ℝ) < (t : ℝ) then (1 : ℝ) else 0) ^ 2 = m := by
    rw [← s1]
    exact Finset.sum_congr rfl fun t _ => by split_ifs <;> norm_num
  have s3 : (∑ t ∈ range n, (-1) ^ t * (if (p : ℝ) < (t : ℝ) then (1 : ℝ) else 0)) ^ 2 = if m % 2 = 1 then 1 else 0 := by
    rw [hsum (fun t => (-1) ^ t)]
    simp only [pow_add _ (p + 1)]
    rw [← Finset.mul_sum, neg_one_geom_sum, mul_pow, ← pow_mul, mul_comm (p + 1), pow_mul]
    by_cases hme : m % 2 = 1
    · rw [if_pos hme, if_neg (by rw [Nat.even_iff]; omega)]; norm_num
    · rw [if_neg hme, if_pos (by rw [Nat.even_iff]; omega)]; norm_num
  rw [s1, s2, s3]
  by_cases h2 : n % 2 = 0 <;> by_cases h3 : m % 2 = 1 <;> simp [h2, h3]

/-- **The frequency marginal of the Wigner-Ville distribution of an analytic signal** of even length, with as many bins: the even rows sum to
`2 |X[m]|²`, `X` the spectrum of the real part; nothing is folded but row 0. -/
theorem C118_marginal {τ : Type} (x : Vec ℝ) (z : Vec ℂ) (hz : IsAnalytic x z) (ts : Vec τ) (hn : 2 ≤ x.len) (h2 : x.len % 2 = 0) (M : Mat ℝ)
    (hM : WvdReturns z ts x.len M) (m : ℕ) (h0 : 0 < m) (hm : 2 * m < x.len) :
    ∑ t ∈ range x.len, M.get (2 * m) t = 2 * ‖dft ⟨x.len, fun t => (x.get t : ℂ)⟩ m‖ ^ 2 := by
  have hnR : (x.len : ℝ) ≠ 0 := by exact_mod_cast (by omega : x.len ≠ 0)
  have e1 : ((2 * m : ℕ) : ℝ) / (2 * (x.len : ℝ)) = (m : ℝ) / z.len := by
    rw [hz.len]; push_cast; field_simp
  have e2 : ((2 * m : ℕ) : ℝ) / (2 * (x.len : ℝ)) + 1 / 2 = ((m + x.len / 2 : ℕ) : ℝ) / z.len := by
    have : (x.len : ℝ) = 2 * (x.len / 2 : ℕ) := by exact_mod_cast (by omega : x.len = 2 * (x.len / 2))
    rw [hz.len, eq_div_iff hnR]
    push_cast
    field_simp
    linarith
  have h := C84_freq_marginal z ts x.len hn M hM (2 * m) hm
  rw [e2, e1] at h
  change _ = (‖dft z m‖ ^ 2 + ‖dft z (m + x.len / 2)‖ ^ 2) / 2 at h
  rw [hz.neg (m + x.len / 2) (by omega) (by omega)] at h
  rw [hz.len] at h
  have hb := analytic_bin hz h0 (by omega)
  unfold hilbertMask at hb
  rw [if_neg (by omega), if_pos hm] at hb
  rw [h, dft_eq_dftC, dft_eq_dftC, hz.len, hb, norm_mul, Complex.norm_real]
  norm_num
  ring

/-- Row 0 of the same distribution adds the mean and the alternating sum, both squared, and halves. -/
theorem C118_marginal_zero {τ : Type} (x : Vec ℝ) (z : Vec ℂ) (hz : IsAnalytic x z) (ts : Vec τ) (hn : 2 ≤ x.len) (h2 : x.len % 2 = 0) (M : Mat ℝ)
    (hM : WvdReturns z ts x.len M) :
    ∑ t ∈ range x.len, M.get 0 t = ((∑ t ∈ range x.len, x.get t) ^ 2 + (∑ t ∈ range x.len, (-1) ^ t * x.get t) ^ 2) / 2 := by
  have hnR : (x.len : ℝ) ≠ 0 := by exact_mod_cast (by omega : x.len ≠ 0)
  have e1 : ((0 : ℕ) : ℝ) / (2 * (x.len : ℝ)) = ((0 : ℕ) : ℝ) / z.len := by simp
  have e2 : ((0 : ℕ) : ℝ) / (2 * (x.len : ℝ)) + 1 / 2 = ((x.len / 2 : ℕ) : ℝ) / z.len := by
    have : (x.len : ℝ) = 2 * (x.len / 2 : ℕ) := by exact_mod_cast (by omega : x.len = 2 * (x.len / 2))
    rw [hz.len, eq_div_iff hnR, Nat.cast_zero, zero_div, zero_add]
    linarith
  have h := C84_freq_marginal z ts x.len hn M hM 0 (by omega)
  rw [e2, e1] at h
  change _ = (‖dft z 0‖ ^ 2 + ‖dft z (x.len / 2)‖ ^ 2) / 2 at h
  have hb := analytic_bin hz (k := x.len / 2) (by omega) (by omega)
  unfold hilbertMask at hb
  rw [if_neg (by omega), if_neg (by omega), if_pos (by omega), Complex.ofReal_one, one_mul, dftC_half (by omega) h2] at hb
  rw [hz.len] at h
  rw [h, dft_eq_dftC, dft_eq_dftC, hz.len, hb, Nat.cast_zero, dftC_zero_bin, analytic_dc hz, Complex.norm_real, Complex.norm_real, Real.norm_eq_abs,
    Real.norm_eq_abs, sq_abs, sq_abs]

/-- **Tones.**  A tone of three samples or more is the analytic projection of its real part exactly when a whole number of periods fits. -/
theorem C118_tone (n k : ℕ) (f : ℝ) (hn : 3 ≤ n) (hk : k < n) (h0 : 0 < f) (h1 : f < 1 / 2) : ∃ y law, fmconst n f (some k) = .ok (y, law) ∧
    (IsAnalytic ⟨n, fun t => (y.get t).re⟩ y ↔ ∃ m : ℕ, f * n = m) := by
  have hnR : (0 : ℝ) < n := by exact_mod_cast (by omega : 0 < n)
  refine ⟨_, _, fmconst_ok n k f hk (by rw [abs_le]; constructor <;> linarith), ?_⟩
  set y : Vec ℂ := ⟨n, fun i => expi (2 * Real.pi * f * ((i : ℝ) - k))⟩ with hy
  have hgeo : ∀ j : ℕ, ∃ r : ℂ, r = expi (2 * Real.pi * (f - (j : ℝ) / n)) ∧ dft y j = expi (-(2 * Real.pi * f * k)) * ∑ i ∈ range n, r ^ i ∧
      (r - 1) * ∑ i ∈ range n, r ^ i = expi (2 * Real.pi * (f * n - j)) - 1 := by
    intro j
    refine ⟨_, rfl, ?_, ?_⟩
    · unfold dft dtft
      rw [Finset.mul_sum]
      refine Finset.sum_congr rfl fun i _ => ?_
      rw [hy]
      dsimp only
      rw [← expi_add]
      unfold expi
      rw [← Complex.exp_nat_mul, ← Complex.exp_add]
      congr 1
      push_cast
      ring
    · rw [mul_comm, geom_sum_mul]
      congr 1
      unfold expi
      rw [← Complex.exp_nat_mul]
      congr 1
      have : (n : ℂ) ≠ 0 := by exact_mod_cast hnR.ne'
      push_cast
      field_simp
  constructor
  · intro ha
    obtain ⟨r, hr, hd, hg⟩ := hgeo (n - 1)
    have hz := ha.neg (n - 1) (by show n - 1 < n; omega) (by show n < 2 * (n - 1); omega)
    rw [hd] at hz
    rcases mul_eq_zero.1 hz with h | h
    · exact absurd h (expi_ne_zero _)
    · rw [h, mul_zero] at hg
      obtain ⟨m, hm⟩ := (expi_eq_one_iff _).1 (sub_eq_zero.1 hg.symm)
      have hm' : f * n = ((m + (n - 1 : ℕ) : ℤ) : ℝ) := by push_cast; push_cast at hm; linarith
      have hpos : 0 ≤ m + (n - 1 : ℕ) := by
        have : (0 : ℝ) < ((m + (n - 1 : ℕ) : ℤ) : ℝ) := by rw [← hm']; positivity
        exact_mod_cast this.le
      exact ⟨(m + (n - 1 : ℕ)).toNat, by rw [hm']; exact_mod_cast (Int.toNat_of_nonneg hpos).symm⟩
  · rintro ⟨m, hm⟩
    have hmR : (m : ℝ) < n / 2 := by rw [← hm]; nlinarith
    have hm2 : 2 * m < n := by
      have : (2 * m : ℝ) < n := by linarith
      exact_mod_cast this
    have hm0 : 0 < m := by
      have : (0 : ℝ) < m := by rw [← hm]; positivity
      exact_mod_cast this
    have hzero : ∀ j < n, j ≠ m → dft y j = 0 := by
      intro j hj hjm
      obtain ⟨r, hr, hd, hg⟩ := hgeo j
      have hone : expi (2 * Real.pi * (f * n - j)) = 1 := (expi_eq_one_iff _).2 ⟨(m : ℤ) - j, by rw [hm]; push_cast; ring⟩
      rw [hone, sub_self] at hg
      rcases mul_eq_zero.1 hg with h | h
      · exfalso
        rw [hr] at h
        obtain ⟨q, hq⟩ := (expi_eq_one_iff _).1 (sub_eq_zero.1 h)
        have : (m : ℝ) - j = q * n := by
          have : (f - (j : ℝ) / n) * n = q * n := by rw [hq]
          rw [sub_mul, hm, div_mul_cancel₀ _ hnR.ne'] at this
          exact this
        have hq' : (m : ℤ) - j = q * n := by exact_mod_cast this
        rcases lt_trichotomy q 0 with h | h | h
        · nlinarith
        · rw [h] at hq'; omega
        · nlinarith
      · rw [hd, h, mul_zero]
    refine ⟨rfl, fun t _ => rfl, fun j hj h2 => hzero j hj (by have : n < 2 * j := h2; omega), ?_, fun j hj => ?_⟩
    · rw [hzero 0 (by omega) (by omega)]; rfl
    · have hj' : 2 * j = n := hj
      rw [hzero j (by omega) (by omega)]; rfl

/-- **Mixtures.**  Sums with real weights of analytic projections are the analytic projections of the sums. -/
theorem C118_sum (x y : Vec ℝ) (z w : Vec ℂ) (hl : x.len = y.len) (hz : IsAnalytic x z) (hw : IsAnalytic y w) (a b : ℝ) :
    IsAnalytic ⟨x.len, fun t => a * x.get t + b * y.get t⟩ ⟨x.len, fun t => (a : ℂ) * z.get t + (b : ℂ) * w.get t⟩ := by
  have hd : ∀ k : ℕ, dft ⟨x.len, fun t => (a : ℂ) * z.get t + (b : ℂ) * w.get t⟩ k = a * dft z k + b * dft w k := fun k => by
    rw [dft_eq_dftC, dft_eq_dftC, dft_eq_dftC, hz.len, hw.len, ← hl, ← dftC_smul, ← dftC_smul, ← dftC_add]
  refine ⟨rfl, fun t ht => ?_, fun k hk h2 => ?_, ?_, fun k hk => ?_⟩
  · have ht' : t < x.len := ht
    simp only [Complex.add_re, Complex.re_ofReal_mul]
    rw [hz.re t ht', hw.re t (by omega)]
  · have hk' : k < x.len := hk
    have h2' : x.len < 2 * k := h2
    rw [hd, hz.neg k hk' h2', hw.neg k (by omega) (by omega)]; simp
  · rw [hd, Complex.add_im, Complex.im_ofReal_mul, Complex.im_ofReal_mul, hz.zero, hw.zero]; simp
  · have hk' : 2 * k = x.len := hk
    rw [hd, Complex.add_im, Complex.im_ofReal_mul, Complex.im_ofReal_mul, hz.nyquist k hk', hw.nyquist k (by omega)]; simp

/-! ## Examples -/

/-- One period in four samples is analytic, half a period is not. -/
example : (∃ y law, fmconst 4 (1 / 4) (some 0) = .ok (y, law) ∧ IsAnalytic ⟨4, fun t => (y.get t).re⟩ y) ∧
    ∃ y law, fmconst 4 (1 / 8) (some 0) = .ok (y, law) ∧ ¬ IsAnalytic ⟨4, fun t => (y.get t).re⟩ y := by
  obtain ⟨y, law, e, h⟩ := C118_tone 4 0 (1 / 4) (by norm_num) (by norm_num) (by norm_num) (by norm_num)
  obtain ⟨y', law', e', h'⟩ := C118_tone 4 0 (1 / 8) (by norm_num) (by norm_num) (by norm_num) (by norm_num)
  refine ⟨⟨y, law, by simpa using e, h.2 ⟨1, by norm_num⟩⟩, ⟨y', law', by simpa using e', fun ha => ?_⟩⟩
  obtain ⟨m, hm⟩ := h'.1 ha
  have : (2 * m : ℝ) = 1 := by rw [← hm]; norm_num
  have : 2 * m = 1 := by exact_mod_cast this
  omega

/-- The step after sample 1 of four: energy 3, the real part has 2. -/
example : ∃ s, anastep 4 (some 1) = .ok s ∧ energy s = 3 := by
  obtain ⟨s, e, h⟩ := C118_step_energy 4 1 2 (by norm_num)
  exact ⟨s, by simpa using e, by rw [h]; norm_num⟩

/-- The impulse at sample 2 of four: its squares sum to 1/2, row 2 of its Wigner-Ville distribution to 2, row 0 to 1. -/
example : ∃ z M, anapulse 4 (some 2) = .ok z ∧ WvdReturns z (arange 0 (4 : ℕ)) 4 M ∧ ∑ t ∈ range 4, z.get t ^ 2 = 1 / 2 ∧
    ∑ t ∈ range 4, M.get 2 t = 2 ∧ ∑ t ∈ range 4, M.get 0 t = 1 := by
  obtain ⟨z, e, hz⟩ := C20_anapulse 4 2 (by norm_num)
  have h := C118_square _ _ (by norm_num) hz
  obtain ⟨M, hM'⟩ := (C32_returns_iff z (arange 0 (4 : ℕ)) 4 (by norm_num)).2 ⟨by rw [hz.len, arange_len]; simp, .inl (by
    rw [hz.len, show ((4 : ℕ) : ℝ) / 2 = ((2 : ℤ) : ℝ) by norm_num, roundEven_intCast]; norm_num)⟩
  have h1 := C118_marginal _ z hz (arange 0 (4 : ℕ)) (by norm_num) (by norm_num) M hM' 1 (by norm_num) (by norm_num)
  have h2 := C118_marginal_zero _ z hz (arange 0 (4 : ℕ)) (by norm_num) (by norm_num) M hM'
  have hsum : ∑ t ∈ range 4, (if ((t : ℕ) : ℝ) = 2 then (1 : ℝ) else 0) = 1 := by
    rw [Finset.sum_range_succ, Finset.sum_range_succ, Finset.sum_range_succ, Finset.sum_range_succ]; norm_num
  have hs2 : ∑ t ∈ range 4, (-1) ^ t * (if ((t : ℕ) : ℝ) = 2 then (1 : ℝ) else 0) = 1 := by norm_num [Finset.sum_range_succ]
  refine ⟨z, M, by simpa using e, hM', ?_, ?_, ?_⟩
  · simp only [hsum, hs2] at h
    rw [h]; norm_num
  · have hd : dft ⟨4, fun t => (((if ((t : ℕ) : ℝ) = 2 then (1 : ℝ) else 0) : ℝ) : ℂ)⟩ 1 = expi (-(2 * Real.pi * ((1 : ℕ) / (4 : ℕ)) * (2 : ℕ))) := by
      unfold dft dtft
      rw [Finset.sum_eq_single_of_mem 2 (Finset.mem_range.2 (by norm_num))]
      · norm_num
      · intro j _ hj
        dsimp only
        rw [if_neg (by exact_mod_cast hj)]; simp
    rw [hd, norm_expi] at h1
    rw [h1]; norm_num
  · simp only [hsum, hs2] at h2
    rw [h2]; norm_num

/-- A draw that is not constant. -/
example : ∃ zu, noisecu ((2 ^ 2 : ℕ) : ℤ) (fun i => (i : ℝ) / 4) = .ok (.one zu) ∧ ∑ t ∈ range (2 ^ 2), (zu.get t).re * (zu.get t).im = 0 := by
  obtain ⟨zu, zg, eu, -, h⟩ := C118_noise 2 (fun i => (i : ℝ) / 4) le_rfl ⟨0, by norm_num, 1, by norm_num, by norm_num⟩
  exact ⟨zu, eu, (h zu (.inl rfl)).1⟩

end Tftb.Props
