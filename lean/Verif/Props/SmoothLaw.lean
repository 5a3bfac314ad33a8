import Verif.Props.InstFreq
import Verif.Props.FM
import Verif.Props.Misc
import Mathlib.Analysis.Calculus.Deriv.MeanValue
import Mathlib.Analysis.SpecialFunctions.Trigonometric.Bounds

/-! # Instantaneous frequencies of smooth laws (C110) -/

namespace Tftb.Props

open Tftb Tftb.Spec Tftb.FM Tftb.TF Tftb.Misc Finset

/-- The estimate on samples of a smooth phase is the value of the law at some instant between the two samples used. -/
theorem instFreq_between (n : ℕ) (s : ℝ) (Φ F : ℝ → ℝ) (hd : ∀ t, s ≤ t → t ≤ s + n → HasDerivAt Φ (F t) t)
    (hb : ∀ t, s ≤ t → t ≤ s + (n - 1 : ℝ) → 0 < F t ∧ F t ≤ 1 / 2) (a : ℕ → ℝ) (ha : ∀ i < n, 0 < a i) (x : Vec ℂ) (hx : x.len = n)
    (hxv : ∀ i < n, x.get i = expi (2 * Real.pi * Φ (s + i))) :
    ∃ (f : Vec ℝ) (t : Vec ℤ), instFreq (modulated a x) none = .ok (f, t) ∧ f.len = n - 2 ∧ t.len = n - 2 ∧
      ∀ j < n - 2, t.get j = (j : ℤ) + 2 ∧ ∃ ξ : ℝ, s + j < ξ ∧ ξ < s + j + 2 ∧ f.get j = F ξ := by
  have key : ∀ j, j + 2 < n → ∃ ξ : ℝ, s + j < ξ ∧ ξ < s + j + 2 ∧ (Φ (s + (j + 2 : ℕ)) - Φ (s + j)) / 2 = F ξ := by
    intro j hj
    have hj' : (j : ℝ) + 3 ≤ n := by exact_mod_cast hj
    have hj0 : (0 : ℝ) ≤ j := Nat.cast_nonneg j
    obtain ⟨ξ, hξ, h⟩ := exists_hasDerivAt_eq_slope Φ F (show s + j < s + j + 2 by linarith)
      (fun t ht => (hd t (by linarith [ht.1]) (by linarith [ht.2])).continuousAt.continuousWithinAt)
      (fun t ht => hd t (by linarith [ht.1]) (by linarith [ht.2]))
    refine ⟨ξ, hξ.1, hξ.2, ?_⟩
    rw [h, show s + (j : ℝ) + 2 - (s + j) = 2 by ring, show s + ((j + 2 : ℕ) : ℝ) = s + j + 2 by push_cast; ring]
  obtain ⟨f, t, h1, h2, h3, h4⟩ := instFreq_phase n a (fun i => Φ (s + i)) ha (fun i hi => by
    obtain ⟨ξ, q1, q2, q3⟩ := key i hi
    have hi' : (i : ℝ) + 3 ≤ n := by exact_mod_cast hi
    have hi0 : (0 : ℝ) ≤ i := Nat.cast_nonneg i
    rw [q3]
    exact hb ξ (by linarith) (by linarith)) (modulated a x) hx (fun i hi => by
    show (a i : ℂ) * x.get i = _
    rw [hxv i hi])
  refine ⟨f, t, h1, h2, h3, fun j hj => ⟨(h4 j hj).1, ?_⟩⟩
  obtain ⟨ξ, q1, q2, q3⟩ := key j (by omega)
  exact ⟨ξ, q1, q2, by rw [(h4 j hj).2, ← q3]⟩

/-- **Hyperbolic law.**  With a law in `(0, 1/2]`, `inst_freq` of what `fmhyp` returns (times any positive amplitude) is between the values of the law at the two samples it uses. -/
theorem C110_fmhyp (n : ℕ) (p1 p2 : ℝ × ℝ) (r : WarnResult) (h : fmhyp n p1 p2 = .ok r) (hl : ∀ i < n, 0 < r.iflaw.get i ∧ r.iflaw.get i ≤ 1 / 2)
    (a : ℕ → ℝ) (ha : ∀ i < n, 0 < a i) :
    ∃ (g : Vec ℝ) (t : Vec ℤ), instFreq (modulated a r.signal) none = .ok (g, t) ∧ g.len = n - 2 ∧ t.len = n - 2 ∧
      ∀ j < n - 2, t.get j = (j : ℤ) + 2 ∧ min (r.iflaw.get j) (r.iflaw.get (j + 2)) ≤ g.get j ∧ g.get j ≤ max (r.iflaw.get j) (r.iflaw.get (j + 2)) := by
  obtain ⟨c, f0, hlen, hsig, hlaw⟩ : ∃ c f0 : ℝ, r.signal.len = n ∧
      (∀ i < n, r.signal.get i = expi (2 * Real.pi * (f0 * (1 + (i : ℝ)) + c * Real.log (1 + (i : ℝ))))) ∧ ∀ i : ℕ, r.iflaw.get i = f0 + c / (1 + (i : ℝ)) := by
    unfold fmhyp at h
    split_ifs at h
    simp only [Except.ok.injEq] at h
    subst h
    refine ⟨(p2.2 - p1.2) / (1.0 / p2.1 - 1 / p1.1), p1.2 - (p2.2 - p1.2) / (1.0 / p2.1 - 1 / p1.1) / p1.1, ?_, fun i _ => ?_, fun i => ?_⟩
    · simp only [Vec.map_len, arange_len]; omega
    · have e : (((1 + (i : ℤ) : ℤ)) : ℝ) = 1 + (i : ℝ) := by push_cast; ring
      have hp : (0 : ℝ) < 1 + (i : ℝ) := by positivity
      simp only [Vec.map_get, arange, e, abs_of_pos hp, exp_I]
    · have e : (((1 + (i : ℤ) : ℤ)) : ℝ) = 1 + (i : ℝ) := by push_cast; ring
      have hp : (0 : ℝ) < 1 + (i : ℝ) := by positivity
      simp only [Vec.map_get, arange, e, abs_of_pos hp]
  simp only [hlaw] at hl ⊢
  have hmono : ∀ u v w : ℝ, 0 < u → u ≤ v → v ≤ w → min (f0 + c / u) (f0 + c / w) ≤ f0 + c / v ∧ f0 + c / v ≤ max (f0 + c / u) (f0 + c / w) := by
    intro u v w hu huv hvw
    have hv : 0 < v := by linarith
    have hw : 0 < w := by linarith
    rcases le_total 0 c with h | h
    · have h1 : c / v ≤ c / u := div_le_div_of_nonneg_left h hu huv
      have h2 : c / w ≤ c / v := div_le_div_of_nonneg_left h hv hvw
      exact ⟨(min_le_right _ _).trans (by linarith), le_trans (by linarith) (le_max_left _ _)⟩
    · have h1 : c / u ≤ c / v := by
        have := div_le_div_of_nonneg_left (neg_nonneg.2 h) hu huv
        rw [neg_div, neg_div] at this
        linarith
      have h2 : c / v ≤ c / w := by
        have := div_le_div_of_nonneg_left (neg_nonneg.2 h) hv hvw
        rw [neg_div, neg_div] at this
        linarith
      exact ⟨(min_le_left _ _).trans (by linarith), le_trans (by linarith) (le_max_right _ _)⟩
  obtain ⟨g, t, h1, h2, h3, h4⟩ := instFreq_between n 1 (fun t => f0 * t + c * Real.log t) (fun t => f0 + c / t)
    (fun t ht _ => by
      have ht0 : t ≠ 0 := by linarith
      have h := ((hasDerivAt_id t).const_mul f0).add ((Real.hasDerivAt_log ht0).const_mul c)
      exact h.congr_deriv (by ring))
    (fun t ht ht' => by
      have hn1 : 1 ≤ n := by
        by_contra hcon
        have : n = 0 := by omega
        subst this
        norm_num at ht'
        linarith
      have hm := hmono 1 t (1 + (n - 1 : ℝ)) one_pos ht ht'
      have b0 := hl 0 (by omega)
      have b1 := hl (n - 1) (by omega)
      rw [Nat.cast_zero, add_zero] at b0
      rw [Nat.cast_sub hn1, Nat.cast_one] at b1
      exact ⟨lt_of_lt_of_le (lt_min b0.1 b1.1) hm.1, hm.2.trans (max_le b0.2 b1.2)⟩) a ha r.signal hlen hsig
  refine ⟨g, t, h1, h2, h3, fun j hj => ⟨(h4 j hj).1, ?_⟩⟩
  obtain ⟨ξ, q1, q2, q3⟩ := (h4 j hj).2
  rw [q3]
  have := hmono (1 + j) ξ (1 + (j + 2 : ℕ)) (by positivity) q1.le (by push_cast; linarith)
  exact this

/-- The hyperbola `1 / (2 t)` through `(1, 1/2)` and `(4, 1/8)`: the first of the two estimates is between `1/6` and `1/2`. -/
example : ∃ r, fmhyp 4 (1, 1 / 2) (4, 1 / 8) = .ok r ∧
    ∃ (g : Vec ℝ) (t : Vec ℤ), instFreq (modulated (fun _ => 3) r.signal) none = .ok (g, t) ∧ g.len = 2 ∧ 1 / 6 ≤ g.get 0 ∧ g.get 0 ≤ 1 / 2 := by
  have hlaw : ∃ r, fmhyp ((4 : ℕ) : ℤ) (1, 1 / 2) (4, 1 / 8) = .ok r ∧ ∀ i : ℕ, r.iflaw.get i = 1 / (2 * (1 + (i : ℝ))) := by
    unfold fmhyp
    rw [if_neg (by norm_num), if_neg (by norm_num)]
    refine ⟨_, rfl, fun i => ?_⟩
    have e : (((1 + (i : ℤ) : ℤ)) : ℝ) = 1 + (i : ℝ) := by push_cast; ring
    have hp : (0 : ℝ) < 1 + (i : ℝ) := by positivity
    simp only [Vec.map_get, arange, e, abs_of_pos hp]
    norm_num
    ring
  obtain ⟨r, hr, hl⟩ := hlaw
  refine ⟨r, hr, ?_⟩
  obtain ⟨g, t, h1, h2, -, h4⟩ := C110_fmhyp 4 _ _ r hr (fun i _ => by
    have h0 : (0 : ℝ) ≤ i := Nat.cast_nonneg i
    rw [hl]
    refine ⟨by positivity, ?_⟩
    rw [div_le_div_iff₀ (by positivity) (by norm_num)]
    linarith) (fun _ => 3) (fun _ _ => by norm_num)
  obtain ⟨-, h5, h6⟩ := h4 0 (by norm_num)
  rw [hl, hl] at h5 h6
  norm_num at h5 h6
  exact ⟨g, t, h1, h2, h5, h6⟩

/-- **Sinusoidal law.**  `inst_freq` of what `fmsin` returns (times any positive amplitude) stays in the band, and differs from the law at the middle sample by at most
`π (fmax - fmin) / T`. -/
theorem C110_fmsin (n : ℕ) (fmin fmax T pm1 : ℝ) (t0 f0 : Option ℝ) (h0 : 0 < fmin) (h1 : fmin < fmax) (h2 : fmax ≤ 1 / 2) (hT : 0 < T)
    (y : Vec ℂ) (law : Vec ℝ) (h : fmsin n fmin fmax (some T) t0 f0 pm1 = .ok (y, law)) (a : ℕ → ℝ) (ha : ∀ i < n, 0 < a i) :
    ∃ (g : Vec ℝ) (t : Vec ℤ), instFreq (modulated a y) none = .ok (g, t) ∧ g.len = n - 2 ∧ t.len = n - 2 ∧
      ∀ j < n - 2, t.get j = (j : ℤ) + 2 ∧ fmin ≤ g.get j ∧ g.get j ≤ fmax ∧ |g.get j - law.get (j + 1)| ≤ Real.pi * (fmax - fmin) / T := by
  obtain ⟨φ, u, hlen, hsig, hlaw⟩ : ∃ φ u : ℝ, y.len = n ∧
      (∀ i : ℕ, y.get i = expi (2 * Real.pi * ((fmax + fmin) / 2) * ((i : ℝ) - u) + (fmax - fmin) / 2 * T * Real.sin (2 * Real.pi * ((i : ℝ) - u) / T + φ) - Real.sin φ)) ∧
      ∀ i : ℕ, law.get i = (fmax + fmin) / 2 + (fmax - fmin) / 2 * Real.cos (2 * Real.pi * ((i : ℝ) - u) / T + φ) := by
    have hδ : (0.5 * (fmax - fmin) : ℝ) = (fmax - fmin) / 2 := by norm_num; ring
    have hm : (0.5 * (fmax + fmin) : ℝ) = (fmax + fmin) / 2 := by norm_num; ring
    simp only [fmsin, Option.getD_some, hδ, hm] at h
    split_ifs at h
    simp only [Except.ok.injEq, Prod.mk.injEq] at h
    obtain ⟨rfl, rfl⟩ := h
    refine ⟨-pm1 * Real.arccos ((f0.getD (0.5 * (fmin + fmax)) - (fmax + fmin) / 2) / ((fmax - fmin) / 2)),
      t0.getD (((n : ℤ) : ℝ) / 2.0), ?_, fun i => ?_, fun i => ?_⟩
    · simp only [Vec.map_len, arange_len]; omega
    · have e : (((0 + (i : ℤ) : ℤ)) : ℝ) = i := by push_cast; ring
      simp only [Vec.map_get, arange, e, exp_I]
    · have e : (((0 + (i : ℤ) : ℤ)) : ℝ) = i := by push_cast; ring
      simp only [Vec.map_get, arange, e]
  have hpi := Real.pi_pos
  set F : ℝ → ℝ := fun t => (fmax + fmin) / 2 + (fmax - fmin) / 2 * Real.cos (2 * Real.pi * (t - u) / T + φ) with hF
  have hband : ∀ t, fmin ≤ F t ∧ F t ≤ fmax := fun t => by
    have c1 := Real.neg_one_le_cos (2 * Real.pi * (t - u) / T + φ)
    have c2 := Real.cos_le_one (2 * Real.pi * (t - u) / T + φ)
    simp only [hF]
    constructor <;> nlinarith
  obtain ⟨g, t, g1, g2, g3, g4⟩ := instFreq_between n 0
    (fun t => (fmax + fmin) / 2 * (t - u) + ((fmax - fmin) / 2 * T * Real.sin (2 * Real.pi * (t - u) / T + φ) - Real.sin φ) / (2 * Real.pi)) F
    (fun t _ _ => by
      have hin : HasDerivAt (fun t : ℝ => 2 * Real.pi * (t - u) / T + φ) (2 * Real.pi / T) t := by
        have h := (((hasDerivAt_id t).sub_const u).const_mul (2 * Real.pi)).div_const T
        have h := h.add_const φ
        simpa using h
      have q1 := (hin.sin).const_mul ((fmax - fmin) / 2 * T)
      have q2 := ((hasDerivAt_id t).sub_const u).const_mul ((fmax + fmin) / 2)
      have q3 := q2.add ((q1.sub_const (Real.sin φ)).div_const (2 * Real.pi))
      exact q3.congr_deriv (by simp only [hF]; field_simp))
    (fun t _ _ => ⟨lt_of_lt_of_le h0 (hband t).1, (hband t).2.trans h2⟩) a ha y hlen
    (fun i _ => by
      rw [hsig, zero_add]
      congr 1
      field_simp
      ring)
  refine ⟨g, t, g1, g2, g3, fun j hj => ⟨(g4 j hj).1, ?_⟩⟩
  obtain ⟨ξ, q1, q2, q3⟩ := (g4 j hj).2
  have e : ((j + 1 : ℕ) : ℝ) = (j : ℝ) + 1 := by push_cast; ring
  refine ⟨by rw [q3]; exact (hband ξ).1, by rw [q3]; exact (hband ξ).2, ?_⟩
  rw [q3, hlaw, e]
  simp only [hF]
  rw [add_sub_add_left_eq_sub, ← mul_sub, abs_mul, abs_of_pos (show 0 < (fmax - fmin) / 2 by linarith)]
  have hc := Real.abs_cos_sub_cos_le (2 * Real.pi * (ξ - u) / T + φ) (2 * Real.pi * ((j : ℝ) + 1 - u) / T + φ)
  have e2 : |2 * Real.pi * (ξ - u) / T + φ - (2 * Real.pi * ((j : ℝ) + 1 - u) / T + φ)| ≤ 2 * Real.pi / T := by
    rw [show 2 * Real.pi * (ξ - u) / T + φ - (2 * Real.pi * ((j : ℝ) + 1 - u) / T + φ) = 2 * Real.pi / T * (ξ - (j + 1)) by ring, abs_mul,
      abs_of_pos (show 0 < 2 * Real.pi / T by positivity)]
    have : |ξ - ((j : ℝ) + 1)| ≤ 1 := by rw [abs_le]; constructor <;> linarith
    exact mul_le_of_le_one_right (by positivity) this
  calc _ ≤ (fmax - fmin) / 2 * (2 * Real.pi / T) := mul_le_mul_of_nonneg_left (hc.trans e2) (by linarith)
    _ = _ := by ring

/-- The frequency law of a passing source, at any real time. -/
noncomputable def passLaw (s f0 d v t0 c t : ℝ) : ℝ :=
  (1 - v ^ 2 * ((t - t0) / s) / Real.sqrt (d ^ 2 + (v * ((t - t0) / s)) ^ 2) / c) * f0 / s

theorem dopplerPhase_deriv (s f0 d v t0 c : ℝ) (hs : 0 < s) (hd : 0 < d) (hc : 0 < c) (t : ℝ) :
    HasDerivAt (dopplerPhase s f0 d v t0 c) (passLaw s f0 d v t0 c t) t := by
  have hD : ∀ τ : ℝ, 0 < d ^ 2 + (v * τ) ^ 2 := fun τ => by positivity
  unfold passLaw
  set τ : ℝ := (t - t0) / s with hτ
  have h1 : HasDerivAt (fun t : ℝ => (t - t0) / s) (1 / s) t := ((hasDerivAt_id _).sub_const t0).div_const s
  have h2 : HasDerivAt (fun t : ℝ => d ^ 2 + (v * ((t - t0) / s)) ^ 2) (2 * (v * τ) * (v * (1 / s))) t := by
    have := ((h1.const_mul v).pow 2).const_add (d ^ 2)
    refine HasDerivAt.congr_deriv this ?_
    rw [hτ]
    norm_num
  have h3 := h2.sqrt (hD τ).ne'
  have h4 := (h1.sub (h3.div_const c)).const_mul f0
  refine HasDerivAt.congr_deriv h4 ?_
  rw [← hτ]
  have := (Real.sqrt_pos.2 (hD τ)).ne'
  field_simp

theorem div_sqrt_mono (d : ℝ) (hd : 0 < d) (p q : ℝ) (hpq : p ≤ q) : p / Real.sqrt (d ^ 2 + p ^ 2) ≤ q / Real.sqrt (d ^ 2 + q ^ 2) := by
  have hp : 0 < Real.sqrt (d ^ 2 + p ^ 2) := Real.sqrt_pos.2 (by positivity)
  have hq : 0 < Real.sqrt (d ^ 2 + q ^ 2) := Real.sqrt_pos.2 (by positivity)
  rw [div_le_div_iff₀ hp hq]
  by_cases h1 : p ≤ 0
  · by_cases h2 : 0 ≤ q
    · have := mul_nonpos_of_nonpos_of_nonneg h1 hq.le
      have := mul_nonneg h2 hp.le
      linarith
    · push Not at h2
      have : -(q * Real.sqrt (d ^ 2 + p ^ 2)) ≤ -(p * Real.sqrt (d ^ 2 + q ^ 2)) := by
        rw [← neg_mul, ← neg_mul]
        apply abs_le_of_sq_le_sq' _ (by nlinarith) |>.2
        rw [mul_pow, mul_pow, Real.sq_sqrt (by positivity), Real.sq_sqrt (by positivity)]
        nlinarith [sq_nonneg d, mul_nonneg (sq_nonneg d) (show 0 ≤ (q - p) * (-(p + q)) by nlinarith)]
      linarith
  · push Not at h1
    apply abs_le_of_sq_le_sq' _ (by nlinarith) |>.2
    rw [mul_pow, mul_pow, Real.sq_sqrt (by positivity), Real.sq_sqrt (by positivity)]
    nlinarith [mul_nonneg (sq_nonneg d) (show 0 ≤ (q - p) * (p + q) by nlinarith)]

theorem passLaw_anti (s f0 d v t0 c : ℝ) (hs : 0 < s) (hd : 0 < d) (hf0 : 0 ≤ f0) (hv : 0 ≤ v) (hc : 0 < c) (t t' : ℝ) (h : t ≤ t') :
    passLaw s f0 d v t0 c t' ≤ passLaw s f0 d v t0 c t := by
  unfold passLaw
  have hτ : (t - t0) / s ≤ (t' - t0) / s := div_le_div_of_nonneg_right (by linarith) hs.le
  generalize (t - t0) / s = a at hτ ⊢
  generalize (t' - t0) / s = b at hτ ⊢
  have h1 := div_sqrt_mono d hd _ _ (mul_le_mul_of_nonneg_left hτ hv)
  have e : ∀ x : ℝ, v ^ 2 * x / Real.sqrt (d ^ 2 + (v * x) ^ 2) = v * (v * x / Real.sqrt (d ^ 2 + (v * x) ^ 2)) := fun x => by ring
  have h2 : v ^ 2 * a / Real.sqrt (d ^ 2 + (v * a) ^ 2) / c ≤ v ^ 2 * b / Real.sqrt (d ^ 2 + (v * b) ^ 2) / c := by
    apply div_le_div_of_nonneg_right _ hc.le
    rw [e, e]
    exact mul_le_mul_of_nonneg_left h1 hv
  apply div_le_div_of_nonneg_right _ hs.le
  apply mul_le_mul_of_nonneg_right _ hf0
  linarith

/-- **Doppler.**  The estimate on what `doppler` returns (times its amplitude, or any other positive one) is between the values of its law at the two samples used. -/
theorem C110_doppler (n : ℕ) (s f0 d v t0 c : ℝ) (hs : 0 < s) (hd : 0 < d) (ht1 : 1 ≤ t0) (htn : t0 ≤ n) (hf0 : 0 ≤ f0) (hf1 : f0 ≤ s / 2)
    (hv : 0 ≤ v) (hc : 0 < c) (a : ℕ → ℝ) (ha : ∀ i < n, 0 < a i) :
    ∃ r, doppler n s f0 d v (some t0) c = .ok r ∧ ((∀ i < n, 0 < r.iflaw.get i ∧ r.iflaw.get i ≤ 1 / 2) →
      ∃ (g : Vec ℝ) (t : Vec ℤ), instFreq (modulated a r.fm) none = .ok (g, t) ∧ g.len = n - 2 ∧ t.len = n - 2 ∧
        ∀ j < n - 2, t.get j = (j : ℤ) + 2 ∧ r.iflaw.get (j + 2) ≤ g.get j ∧ g.get j ≤ r.iflaw.get j) := by
  obtain ⟨r, hr, hlen, -, hsig, hder, -⟩ := C23_doppler n s f0 d v t0 c hs hd ht1 htn hf0 hf1 hv hc
  refine ⟨r, hr, fun hl => ?_⟩
  have hlaw : ∀ i < n, r.iflaw.get i = passLaw s f0 d v t0 c (1 + i) := fun i hi => by
    rw [add_comm]
    exact (hder i hi).unique (dopplerPhase_deriv s f0 d v t0 c hs hd hc _)
  have hanti := passLaw_anti s f0 d v t0 c hs hd hf0 hv hc
  obtain ⟨g, t, h1, h2, h3, h4⟩ := instFreq_between n 1 (dopplerPhase s f0 d v t0 c) (passLaw s f0 d v t0 c)
    (fun t _ _ => dopplerPhase_deriv s f0 d v t0 c hs hd hc t)
    (fun t ht ht' => by
      have hn1 : 1 ≤ n := by
        have : (1 : ℝ) ≤ n := by linarith
        exact_mod_cast this
      have b0 := hl 0 (by omega)
      have b1 := hl (n - 1) (by omega)
      rw [hlaw 0 (by omega), Nat.cast_zero, add_zero] at b0
      rw [hlaw (n - 1) (by omega), Nat.cast_sub hn1, Nat.cast_one] at b1
      exact ⟨lt_of_lt_of_le b1.1 (hanti _ _ ht'), (hanti _ _ ht).trans b0.2⟩) a ha r.fm hlen
    (fun i hi => by rw [hsig i hi, add_comm (i : ℝ)])
  refine ⟨g, t, h1, h2, h3, fun j hj => ⟨(h4 j hj).1, ?_⟩⟩
  obtain ⟨ξ, q1, q2, q3⟩ := (h4 j hj).2
  rw [q3, hlaw j (by omega), hlaw (j + 2) (by omega)]
  exact ⟨hanti _ _ (by push_cast; linarith), hanti _ _ q1.le⟩

/-- A band from 0.1 to 0.4 swept in 100 samples: the estimates follow the law within `0.3 π / 100`. -/
example : ∃ y law, fmsin 100 0.1 0.4 (some 100) none none 1 = .ok (y, law) ∧
    ∃ (g : Vec ℝ) (t : Vec ℤ), instFreq y none = .ok (g, t) ∧ g.len = 98 ∧ ∀ j < 98, |g.get j - law.get (j + 1)| ≤ 0.003 * Real.pi := by
  have hok : ∃ p, fmsin ((100 : ℕ) : ℤ) 0.1 0.4 (some 100) none none 1 = .ok p := by
    unfold fmsin
    dsimp only [Option.getD]
    rw [if_neg (by norm_num), if_neg (by norm_num)]
    exact ⟨_, rfl⟩
  obtain ⟨⟨y, law⟩, h⟩ := hok
  refine ⟨y, law, h, ?_⟩
  obtain ⟨g, t, h1, h2, -, h4⟩ := C110_fmsin 100 0.1 0.4 100 1 none none (by norm_num) (by norm_num) (by norm_num) (by norm_num) y law h
    (fun _ => 1) (fun _ _ => one_pos)
  have e : modulated (fun _ => 1) y = y := by
    unfold modulated
    simp
  rw [e] at h1
  refine ⟨g, t, h1, h2, fun j hj => ((h4 j hj).2.2.2).trans (le_of_eq ?_)⟩
  ring

/-- A source passing in the middle of 64 samples: the estimates decrease along the law. -/
example : ∃ r, doppler 64 200 65 10 50 (some 32) 340 = .ok r ∧
    ∃ (g : Vec ℝ) (t : Vec ℤ), instFreq (modulated (fun _ => 2) r.fm) none = .ok (g, t) ∧ ∀ j < 62, r.iflaw.get (j + 2) ≤ g.get j ∧ g.get j ≤ r.iflaw.get j := by
  obtain ⟨r, h, h'⟩ := C110_doppler 64 200 65 10 50 32 340 (by norm_num) (by norm_num) (by norm_num) (by norm_num) (by norm_num)
    (by norm_num) (by norm_num) (by norm_num) (fun _ => 2) (fun _ _ => by norm_num)
  obtain ⟨r', k, -, -, -, -, -, hb, -⟩ := C23_doppler 64 200 65 10 50 32 340 (by norm_num) (by norm_num) (by norm_num) (by norm_num) (by norm_num)
    (by norm_num) (by norm_num) (by norm_num)
  obtain rfl : r = r' := Except.ok.inj (h.symm.trans k)
  obtain ⟨g, t, h1, -, -, h4⟩ := h' (fun i hi => by
    have := abs_le.1 (hb i hi)
    constructor <;> norm_num at this ⊢ <;> linarith [this.1, this.2])
  exact ⟨r, by exact_mod_cast h, g, t, h1, fun j hj => (h4 j hj).2⟩

end Tftb.Props
