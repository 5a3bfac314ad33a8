import Verif.Props.Conj
import Verif.Props.InstFreq
import Verif.Props.GenUtils
import Verif.Props.FM
import Verif.Props.Keying
import Mathlib.Analysis.SpecialFunctions.Trigonometric.Bounds

/-! # C129 — `inst_freq` of disturbed signals: the stronger component is the one that is measured -/

namespace Tftb.Props

open Tftb Tftb.Spec Tftb.TF Tftb.GenUtils Finset ComplexConjugate

theorem instFreq_none_eq {x : Vec ℂ} {f : Vec ℝ} {t : Vec ℤ} (h : instFreq x none = .ok (f, t)) :
    t = arange 2 x.len ∧ f.len = x.len - 2 ∧
      ∀ j < x.len - 2, f.get j = (Complex.arg (-(x.get (j + 2) * conj (x.get j))) + Real.pi) / (4 * Real.pi) := by
  obtain ⟨h1, h2, h3⟩ := C16_default x
  obtain ⟨f', e1, e2, e3⟩ := inst_freq_eq x (arange 2 x.len) (fun j hj => (h3 j hj).2)
  rw [h1, e1] at h
  injection h with h
  injection h with ha hb
  subst ha
  refine ⟨hb.symm, by rw [e2, h2], fun j hj => ?_⟩
  rw [e3 j (by omega), (h3 j (by omega)).1, wrapIdx_of_nonneg (by omega), wrapIdx_of_nonneg (by omega)]
  rw [show ((j : ℤ) + 2).toNat = j + 2 by omega, show ((j : ℤ) + 2 - 2).toNat = j by omega]

theorem instFreq_none_range {x : Vec ℂ} {f : Vec ℝ} {t : Vec ℤ} (h : instFreq x none = .ok (f, t)) (j : ℕ) (hj : j < x.len - 2) :
    0 < f.get j ∧ f.get j ≤ 1 / 2 := by
  obtain ⟨_, _, h3⟩ := instFreq_none_eq h
  have hpi := Real.pi_pos
  have a1 := Complex.neg_pi_lt_arg (-(x.get (j + 2) * conj (x.get j)))
  have a2 := Complex.arg_le_pi (-(x.get (j + 2) * conj (x.get j)))
  rw [h3 j hj]
  constructor
  · exact div_pos (by linarith) (by linarith)
  · rw [div_le_iff₀ (by linarith)]; linarith

/-- The argument of a number within `ε` of one. -/
theorem abs_arg_le_arcsin {w : ℂ} {ε : ℝ} (h0 : 0 ≤ ε) (h1 : ε < 1) (hw : ‖w - 1‖ ≤ ε) : |Complex.arg w| ≤ Real.arcsin ε := by
  have hre : 1 - ε ≤ w.re := by
    have := (abs_le.1 ((Complex.abs_re_le_norm (w - 1)).trans hw)).1
    simp at this; linarith
  have hne : w ≠ 0 := by rintro rfl; simp at hre; linarith
  have hpos : 0 < ‖w‖ := norm_pos_iff.2 hne
  rw [Complex.arg_of_re_nonneg (by linarith)]
  have hsq : (w.re - 1) ^ 2 + w.im ^ 2 ≤ ε ^ 2 := by
    have h2 : ‖w - 1‖ ^ 2 ≤ ε ^ 2 := by gcongr
    rw [← Complex.normSq_eq_norm_sq, Complex.normSq_apply] at h2
    simp at h2
    nlinarith
  have hn : ‖w‖ ^ 2 = w.re ^ 2 + w.im ^ 2 := by
    rw [← Complex.normSq_eq_norm_sq, Complex.normSq_apply]; ring
  have key : w.im ^ 2 ≤ (ε * ‖w‖) ^ 2 := by
    rw [mul_pow, hn]
    have e2 : 0 ≤ 1 - ε ^ 2 := by nlinarith
    have h3 : w.im ^ 2 * (1 - ε ^ 2) ≤ (ε ^ 2 - (w.re - 1) ^ 2) * (1 - ε ^ 2) := mul_le_mul_of_nonneg_right (by linarith) e2
    nlinarith [sq_nonneg (ε ^ 2 + (w.re - 1))]
  have habs : |w.im| ≤ ε * ‖w‖ := abs_le_of_sq_le_sq key (by positivity)
  have hq := abs_le.1 habs
  rw [abs_le]
  constructor
  · rw [← Real.arcsin_neg]
    refine Real.arcsin_le_arcsin ?_
    rw [le_div_iff₀ hpos]; linarith
  · refine Real.arcsin_le_arcsin ?_
    rw [div_le_iff₀ hpos]; linarith

theorem arcsin_le_half_pi_mul {ε : ℝ} (h0 : 0 ≤ ε) (h1 : ε ≤ 1) : Real.arcsin ε ≤ Real.pi / 2 * ε := by
  have hpi := Real.pi_pos
  have h := Real.mul_le_sin (Real.arcsin_nonneg.2 h0) (Real.arcsin_le_pi_div_two ε)
  rw [Real.sin_arcsin (by linarith) h1] at h
  rw [div_mul_eq_mul_div, div_le_iff₀ hpi] at h
  linarith

/-- **One instant.**  If the two samples an estimate is made of are disturbed by at most the fraction `ε < 1` of their amplitude, the estimate moves by at most
`arcsin ε / 2π ≤ ε / 4`, up to the period 1/2 of the estimate; away from the ends 0 and 1/2 it does not wrap. -/
theorem C129_instant (x y : Vec ℂ) (hl : y.len = x.len) (f g : Vec ℝ) (t t' : Vec ℤ) (hf : instFreq x none = .ok (f, t)) (hg : instFreq y none = .ok (g, t'))
    (ε : ℝ) (h0 : 0 ≤ ε) (h1 : ε < 1) (j : ℕ) (hj : j < x.len - 2) (hx : x.get j ≠ 0) (hx2 : x.get (j + 2) ≠ 0)
    (hy : ‖y.get j - x.get j‖ ≤ ε * ‖x.get j‖) (hy2 : ‖y.get (j + 2) - x.get (j + 2)‖ ≤ ε * ‖x.get (j + 2)‖) :
    Real.arcsin ε / (2 * Real.pi) ≤ ε / 4 ∧
    (∃ m : ℤ, |g.get j - f.get j - m / 2| ≤ Real.arcsin ε / (2 * Real.pi)) ∧
    (Real.arcsin ε / (2 * Real.pi) < f.get j → f.get j < 1 / 2 - Real.arcsin ε / (2 * Real.pi) → |g.get j - f.get j| ≤ Real.arcsin ε / (2 * Real.pi)) := by
  have hpi := Real.pi_pos
  have hq : ∀ i, x.get i ≠ 0 → ‖y.get i - x.get i‖ ≤ ε * ‖x.get i‖ → y.get i / x.get i ≠ 0 ∧ |Complex.arg (y.get i / x.get i)| ≤ Real.arcsin ε := by
    intro i hi h
    have hp : 0 < ‖x.get i‖ := norm_pos_iff.2 hi
    have hw : ‖y.get i / x.get i - 1‖ ≤ ε := by
      rw [show y.get i / x.get i - 1 = (y.get i - x.get i) / x.get i by field_simp, norm_div, div_le_iff₀ hp]
      exact h
    refine ⟨?_, abs_arg_le_arcsin h0 h1 hw⟩
    intro h2
    rw [h2] at hw
    norm_num at hw
    linarith
  obtain ⟨u0, ua⟩ := hq j hx hy
  obtain ⟨v0, va⟩ := hq (j + 2) hx2 hy2
  have main : ∃ m : ℤ, |g.get j - f.get j - m / 2| ≤ Real.arcsin ε / (2 * Real.pi) := by
    obtain ⟨_, _, ef⟩ := instFreq_none_eq hf
    obtain ⟨_, _, eg⟩ := instFreq_none_eq hg
    rw [ef j hj, eg j (by omega)]
    have hprod : -(y.get (j + 2) * conj (y.get j)) = -(x.get (j + 2) * conj (x.get j)) * (y.get (j + 2) / x.get (j + 2) * conj (y.get j / x.get j)) := by
      have : conj (x.get j) ≠ 0 := (map_ne_zero (starRingEnd ℂ)).2 hx
      rw [map_div₀]
      field_simp
    have hz : -(x.get (j + 2) * conj (x.get j)) ≠ 0 := neg_ne_zero.2 (mul_ne_zero hx2 ((map_ne_zero (starRingEnd ℂ)).2 hx))
    have hang : (Complex.arg (-(y.get (j + 2) * conj (y.get j))) : Real.Angle)
        = ((Complex.arg (-(x.get (j + 2) * conj (x.get j))) + (Complex.arg (y.get (j + 2) / x.get (j + 2)) - Complex.arg (y.get j / x.get j)) : ℝ) : Real.Angle) := by
      rw [hprod, Complex.arg_mul_coe_angle hz (mul_ne_zero v0 ((map_ne_zero (starRingEnd ℂ)).2 u0)),
        Complex.arg_mul_coe_angle v0 ((map_ne_zero (starRingEnd ℂ)).2 u0), Complex.arg_conj_coe_angle]
      rw [Real.Angle.coe_add, Real.Angle.coe_sub, sub_eq_add_neg]
    obtain ⟨m, hm⟩ := Real.Angle.angle_eq_iff_two_pi_dvd_sub.1 hang
    refine ⟨m, ?_⟩
    have e : (Complex.arg (-(y.get (j + 2) * conj (y.get j))) + Real.pi) / (4 * Real.pi) - (Complex.arg (-(x.get (j + 2) * conj (x.get j))) + Real.pi) / (4 * Real.pi)
        - m / 2 = (Complex.arg (y.get (j + 2) / x.get (j + 2)) - Complex.arg (y.get j / x.get j)) / (4 * Real.pi) := by
      field_simp
      linarith
    rw [e, abs_div, abs_of_pos (show 0 < 4 * Real.pi by linarith), div_le_div_iff₀ (by linarith) (by linarith)]
    have := abs_sub (Complex.arg (y.get (j + 2) / x.get (j + 2))) (Complex.arg (y.get j / x.get j))
    nlinarith
  refine ⟨?_, main, fun l1 l2 => ?_⟩
  · rw [div_le_div_iff₀ (by linarith) (by norm_num)]
    have := arcsin_le_half_pi_mul h0 h1.le
    linarith
  · obtain ⟨m, hm⟩ := main
    have r1 := instFreq_none_range hg j (by omega)
    have hb := abs_le.1 hm
    have m0 : m = 0 := by
      have c1 : (m : ℝ) < 1 := by linarith
      have c2 : (-1 : ℝ) < m := by linarith
      have d1 : m < 1 := by exact_mod_cast c1
      have d2 : -1 < m := by exact_mod_cast c2
      omega
    rw [m0] at hm
    simpa using hm

theorem energy_unit {x : Vec ℂ} (hx : ∀ i < x.len, ‖x.get i‖ = 1) : energy x = x.len := by
  unfold energy
  rw [Finset.sum_congr rfl (fun i hi => by rw [hx i (Finset.mem_range.1 hi), one_pow])]
  simp

/-- **Capture.**  Two signals of constant unit amplitude are merged `r > 0` decibels apart: every estimate is that of the first signal alone, up to
`arcsin ε / 2π ≤ ε / 4` with `ε = 10 ^ (-r / 20)` — whatever the second one is. -/
theorem C129_capture (u v : Vec ℂ) (hl : v.len = u.len) (hN : u.len ≠ 0) (hu : ∀ i < u.len, ‖u.get i‖ = 1) (hv : ∀ i < v.len, ‖v.get i‖ = 1)
    (r : ℝ) (hr : 0 < r) (y : Vec ℂ) (hy : sigmerge u v r = .ok y) (f g : Vec ℝ) (t t' : Vec ℤ) (hf : instFreq u none = .ok (f, t))
    (hg : instFreq y none = .ok (g, t')) (ε : ℝ) (hε : ε = (10 : ℝ) ^ (-r / 20)) (j : ℕ) (hj : j < u.len - 2) :
    Real.arcsin ε / (2 * Real.pi) ≤ ε / 4 ∧ (∃ m : ℤ, |g.get j - f.get j - m / 2| ≤ Real.arcsin ε / (2 * Real.pi)) ∧
    (Real.arcsin ε / (2 * Real.pi) < f.get j → f.get j < 1 / 2 - Real.arcsin ε / (2 * Real.pi) → |g.get j - f.get j| ≤ Real.arcsin ε / (2 * Real.pi)) := by
  have ev : energy v = u.len := by rw [energy_unit hv, hl]
  have hN' : (u.len : ℝ) ≠ 0 := Nat.cast_ne_zero.2 hN
  obtain ⟨y', h, e1, e2, e3, _, e5, e6⟩ := C17_sigmerge u v r hl.symm (by rw [ev]; exact hN')
  rw [hy] at e1
  injection e1 with e1
  subst e1
  have hh : h = ε := by
    rw [energy_unit hu, energy_smul, ev] at e6
    have h2 : h ^ 2 * (10 : ℝ) ^ (r / 10) = 1 := by
      have : (u.len : ℝ) * (h ^ 2 * (10 : ℝ) ^ (r / 10)) = u.len * 1 := by linarith
      exact mul_left_cancel₀ hN' this
    have h3 : ε ^ 2 * (10 : ℝ) ^ (r / 10) = 1 := by
      rw [hε, ← Real.rpow_natCast, ← Real.rpow_mul (by norm_num), ← Real.rpow_add (by norm_num)]
      rw [show -r / 20 * ((2 : ℕ) : ℝ) + r / 10 = 0 by push_cast; ring, Real.rpow_zero]
    have hp : (0 : ℝ) < (10 : ℝ) ^ (r / 10) := Real.rpow_pos_of_pos (by norm_num) _
    have h4 : h ^ 2 = ε ^ 2 := mul_right_cancel₀ hp.ne' (h2.trans h3.symm)
    have hε0 : 0 ≤ ε := by rw [hε]; positivity
    exact (sq_eq_sq₀ e3 hε0).1 h4
  have hε1 : ε < 1 := by rw [hε]; exact Real.rpow_lt_one_of_one_lt_of_neg (by norm_num) (by linarith)
  have hd : ∀ i < u.len, ‖y.get i - u.get i‖ ≤ ε * ‖u.get i‖ := by
    intro i hi
    rw [e5 i hi, add_sub_cancel_left, norm_mul, hv i (by omega), hu i hi, Complex.norm_real, Real.norm_eq_abs, abs_of_nonneg e3, hh]
  refine C129_instant u y e2 f g t t' hf hg ε (hh ▸ e3) hε1 j hj ?_ ?_ (hd j (by omega)) (hd (j + 2) (by omega))
  · rw [← norm_pos_iff, hu j (by omega)]; norm_num
  · rw [← norm_pos_iff, hu (j + 2) (by omega)]; norm_num

/-- **Capture by the second signal.**  With `r < 0` the second signal is the stronger one, and the estimates follow it. -/
theorem C129_capture_second (u v : Vec ℂ) (hl : v.len = u.len) (hN : u.len ≠ 0) (hu : ∀ i < u.len, ‖u.get i‖ = 1) (hv : ∀ i < v.len, ‖v.get i‖ = 1)
    (r : ℝ) (hr : r < 0) (y : Vec ℂ) (hy : sigmerge u v r = .ok y) (f g : Vec ℝ) (t t' : Vec ℤ) (hf : instFreq v none = .ok (f, t))
    (hg : instFreq y none = .ok (g, t')) (ε : ℝ) (hε : ε = (10 : ℝ) ^ (r / 20)) (j : ℕ) (hj : j < u.len - 2) :
    Real.arcsin ε / (2 * Real.pi) ≤ ε / 4 ∧ (∃ m : ℤ, |g.get j - f.get j - m / 2| ≤ Real.arcsin ε / (2 * Real.pi)) ∧
    (Real.arcsin ε / (2 * Real.pi) < f.get j → f.get j < 1 / 2 - Real.arcsin ε / (2 * Real.pi) → |g.get j - f.get j| ≤ Real.arcsin ε / (2 * Real.pi)) := by
  have ev : energy v = u.len := by rw [energy_unit hv, hl]
  have hN' : (u.len : ℝ) ≠ 0 := Nat.cast_ne_zero.2 hN
  obtain ⟨y', h, e1, e2, e3, e4, e5, e6⟩ := C17_sigmerge u v r hl.symm (by rw [ev]; exact hN')
  rw [hy] at e1
  injection e1 with e1
  subst e1
  have hε0 : 0 < ε := by rw [hε]; exact Real.rpow_pos_of_pos (by norm_num) _
  have hpos : 0 < h := e4 (by rw [energy_unit hu]; exact hN')
  have hh : ε * h = 1 := by
    rw [energy_unit hu, energy_smul, ev] at e6
    have h2 : h ^ 2 * (10 : ℝ) ^ (r / 10) = 1 := by
      have : (u.len : ℝ) * (h ^ 2 * (10 : ℝ) ^ (r / 10)) = u.len * 1 := by linarith
      exact mul_left_cancel₀ hN' this
    have h3 : ε ^ 2 = (10 : ℝ) ^ (r / 10) := by
      rw [hε, ← Real.rpow_natCast, ← Real.rpow_mul (by norm_num)]
      congr 1
      push_cast; ring
    have h4 : (ε * h) ^ 2 = 1 ^ 2 := by rw [mul_pow, h3, mul_comm, h2, one_pow]
    exact (sq_eq_sq₀ (by positivity) (by norm_num)).1 h4
  have hε1 : ε < 1 := by rw [hε]; exact Real.rpow_lt_one_of_one_lt_of_neg (by norm_num) (by linarith)
  have hf' : ∃ f' : Vec ℝ, instFreq (v.map (fun z => (h : ℂ) * z)) none = .ok (f', arange 2 v.len) ∧ f'.get j = f.get j := by
    obtain ⟨h1, h2, h3⟩ := C16_default (v.map (fun z => (h : ℂ) * z))
    obtain ⟨f', a1, a2, a3⟩ := inst_freq_eq (v.map (fun z => (h : ℂ) * z)) (arange 2 v.len) (fun j hj => (h3 j hj).2)
    refine ⟨f', a1, ?_⟩
    obtain ⟨_, _, b3⟩ := instFreq_none_eq (h1.trans a1)
    obtain ⟨_, _, c3⟩ := instFreq_none_eq hf
    rw [b3 j (by rw [Vec.map_len]; omega), c3 j (by omega), Vec.map_get, Vec.map_get]
    rw [show -((h : ℂ) * v.get (j + 2) * conj ((h : ℂ) * v.get j)) = ((h * h : ℝ) : ℂ) * -(v.get (j + 2) * conj (v.get j)) by
      rw [map_mul, Complex.conj_ofReal]; push_cast; ring, Complex.arg_real_mul _ (mul_pos hpos hpos)]
  obtain ⟨f', hf1, hf2⟩ := hf'
  have hnv : ∀ i < u.len, ‖(h : ℂ) * v.get i‖ = h := by
    intro i hi
    rw [norm_mul, hv i (by omega), mul_one, Complex.norm_real, Real.norm_eq_abs, abs_of_pos hpos]
  have hd : ∀ i < u.len, ‖y.get i - (h : ℂ) * v.get i‖ ≤ ε * ‖(h : ℂ) * v.get i‖ := by
    intro i hi
    rw [e5 i hi, add_sub_cancel_right, hu i hi, hnv i hi, hh]
  have := C129_instant (v.map (fun z => (h : ℂ) * z)) y (by rw [Vec.map_len]; omega) f' g _ t' hf1 hg ε hε0.le hε1 j (by rw [Vec.map_len]; omega)
    (by rw [Vec.map_get, ← norm_pos_iff, hnv j (by omega)]; exact hpos) (by rw [Vec.map_get, ← norm_pos_iff, hnv (j + 2) (by omega)]; exact hpos)
    (by rw [Vec.map_get]; exact hd j (by omega)) (by rw [Vec.map_get]; exact hd (j + 2) (by omega))
  rwa [hf2] at this

/-- **Noise.**  When anything at all is added to a signal of unit amplitude at a signal-to-noise ratio of `r` decibels, at most `2 N 10^(-r/10) / ε²` of
the estimates move by more than `arcsin ε / 2π` (up to the period 1/2): the bound is for every draw of the noise. -/
theorem C129_noise (u e : Vec ℂ) (hl : e.len = u.len) (hu : ∀ i < u.len, ‖u.get i‖ = 1) (he : energy e ≠ 0) (r : ℝ) (y : Vec ℂ)
    (hy : sigmerge u e r = .ok y) (f g : Vec ℝ) (t t' : Vec ℤ) (hf : instFreq u none = .ok (f, t)) (hg : instFreq y none = .ok (g, t'))
    (ε : ℝ) (h0 : 0 < ε) (h1 : ε < 1) :
    ∃ bad : Finset ℕ, (bad.card : ℝ) ≤ 2 * (u.len * (10 : ℝ) ^ (-r / 10) / ε ^ 2) ∧
      ∀ j < u.len - 2, j ∉ bad → ∃ m : ℤ, |g.get j - f.get j - m / 2| ≤ Real.arcsin ε / (2 * Real.pi) := by
  classical
  obtain ⟨y', h, e1, e2, e3, _, e5, e6⟩ := C17_sigmerge u e r hl.symm he
  rw [hy] at e1
  injection e1 with e1
  subst e1
  have hE : energy (e.map (fun z => (h : ℂ) * z)) = u.len * (10 : ℝ) ^ (-r / 10) := by
    have hp : (10 : ℝ) ^ (-r / 10) * (10 : ℝ) ^ (r / 10) = 1 := by
      rw [← Real.rpow_add (by norm_num), show -r / 10 + r / 10 = 0 by ring, Real.rpow_zero]
    rw [energy_unit hu] at e6
    calc _ = ((10 : ℝ) ^ (-r / 10) * (10 : ℝ) ^ (r / 10)) * energy (e.map (fun z => (h : ℂ) * z)) := by rw [hp, one_mul]
      _ = _ := by rw [mul_assoc, ← e6]; ring
  set B := (range u.len).filter (fun i => ε < ‖(h : ℂ) * e.get i‖) with hB
  have hcard : (B.card : ℝ) * ε ^ 2 ≤ u.len * (10 : ℝ) ^ (-r / 10) := by
    rw [← hE]
    calc (B.card : ℝ) * ε ^ 2 = ∑ i ∈ B, ε ^ 2 := by rw [Finset.sum_const, nsmul_eq_mul]
      _ ≤ ∑ i ∈ B, ‖(h : ℂ) * e.get i‖ ^ 2 := Finset.sum_le_sum fun i hi => by
          have := (Finset.mem_filter.1 hi).2
          gcongr
      _ ≤ ∑ i ∈ range u.len, ‖(h : ℂ) * e.get i‖ ^ 2 := Finset.sum_le_sum_of_subset_of_nonneg (Finset.filter_subset _ _) (fun _ _ _ => by positivity)
      _ = energy (e.map (fun z => (h : ℂ) * z)) := by unfold energy; rw [Vec.map_len, hl]; rfl
  have hB' : (B.card : ℝ) ≤ u.len * (10 : ℝ) ^ (-r / 10) / ε ^ 2 := by rwa [le_div_iff₀ (by positivity)]
  refine ⟨B ∪ B.image (fun i => i - 2), ?_, fun j hj hb => ?_⟩
  · have c1 : (B ∪ B.image (fun i => i - 2)).card ≤ B.card + B.card := (Finset.card_union_le _ _).trans (Nat.add_le_add_left Finset.card_image_le _)
    have c2 : ((B ∪ B.image (fun i => i - 2)).card : ℝ) ≤ B.card + B.card := by exact_mod_cast c1
    linarith
  · rw [Finset.mem_union, not_or] at hb
    have hd : ∀ i < u.len, i ∉ B → ‖y.get i - u.get i‖ ≤ ε * ‖u.get i‖ := by
      intro i hi hn
      rw [e5 i hi, add_sub_cancel_left, hu i hi, mul_one]
      by_contra hc
      exact hn (Finset.mem_filter.2 ⟨Finset.mem_range.2 hi, not_le.1 hc⟩)
    have hj2 : j + 2 ∉ B := fun hc => hb.2 (Finset.mem_image.2 ⟨j + 2, hc, by omega⟩)
    refine (C129_instant u y e2 f g t t' hf hg ε h0.le h1 j hj ?_ ?_ (hd j (by omega) hb.1) (hd (j + 2) (by omega) hj2)).2.1
    · rw [← norm_pos_iff, hu j (by omega)]; norm_num
    · rw [← norm_pos_iff, hu (j + 2) (by omega)]; norm_num

/-- **Two equally strong tones.**  Neither wins: where the beat `cos(π (f₁ - f₂) i)` has the same sign at the two samples the estimate is the mean frequency,
and where the sign changes it is the mean frequency plus 1/4, both up to the period 1/2. -/
theorem C129_beat (N : ℕ) (hN : N ≠ 0) (f1 f2 : ℝ) (y : Vec ℂ)
    (hy : sigmerge ⟨N, fun i => expi (2 * Real.pi * (f1 * i))⟩ ⟨N, fun i => expi (2 * Real.pi * (f2 * i))⟩ 0 = .ok y) (g : Vec ℝ) (t : Vec ℤ)
    (hg : instFreq y none = .ok (g, t)) (j : ℕ) (hj : j < N - 2) (q : ℝ) (m : ℤ) (q0 : 0 < q) (q1 : q ≤ 1 / 2) :
    (0 < Real.cos (Real.pi * ((f1 - f2) * (j + 2))) * Real.cos (Real.pi * ((f1 - f2) * j)) → (f1 + f2) / 2 = q + m / 2 → g.get j = q) ∧
    (Real.cos (Real.pi * ((f1 - f2) * (j + 2))) * Real.cos (Real.pi * ((f1 - f2) * j)) < 0 → (f1 + f2) / 2 + 1 / 4 = q + m / 2 → g.get j = q) := by
  have hpi := Real.pi_pos
  have hN' : (N : ℝ) ≠ 0 := Nat.cast_ne_zero.2 hN
  have eu : ∀ f : ℝ, energy ⟨N, fun i => expi (2 * Real.pi * (f * i))⟩ = N := fun f => energy_unit (fun i _ => norm_expi _)
  obtain ⟨y', h, e1, e2, e3, _, e5, e6⟩ := C17_sigmerge ⟨N, fun i => expi (2 * Real.pi * (f1 * i))⟩ ⟨N, fun i => expi (2 * Real.pi * (f2 * i))⟩ 0 rfl
    (by rw [eu]; exact hN')
  rw [hy] at e1
  injection e1 with e1
  subst e1
  have h1 : h = 1 := by
    rw [energy_smul, eu, eu, zero_div, Real.rpow_zero, one_mul] at e6
    have : h ^ 2 = 1 ^ 2 := by
      refine mul_right_cancel₀ hN' ?_
      rw [one_pow, one_mul, ← e6]
    exact (sq_eq_sq₀ e3 (by norm_num)).1 this
  have hv : ∀ i < N, y.get i = ((2 * Real.cos (Real.pi * ((f1 - f2) * i)) : ℝ) : ℂ) * expi (2 * Real.pi * ((f1 + f2) / 2 * i)) := by
    intro i hi
    rw [e5 i hi, h1, Complex.ofReal_one, one_mul]
    have a1 : expi (2 * Real.pi * (f1 * i)) = expi (Real.pi * ((f1 - f2) * i)) * expi (2 * Real.pi * ((f1 + f2) / 2 * i)) := by
      rw [← expi_add]; congr 1; ring
    have a2 : expi (2 * Real.pi * (f2 * i)) = expi (-(Real.pi * ((f1 - f2) * i))) * expi (2 * Real.pi * ((f1 + f2) / 2 * i)) := by
      rw [← expi_add]; congr 1; ring
    have a3 : expi (Real.pi * ((f1 - f2) * i)) + expi (-(Real.pi * ((f1 - f2) * i))) = ((2 * Real.cos (Real.pi * ((f1 - f2) * i)) : ℝ) : ℂ) := by
      rw [← conj_expi, Complex.add_conj, show (expi (Real.pi * ((f1 - f2) * i))).re = Real.cos (Real.pi * ((f1 - f2) * i)) from Complex.exp_ofReal_mul_I_re _]
    simp only
    rw [a1, a2, ← add_mul, a3]
  have hl : y.len = N := e2
  obtain ⟨_, _, hgv⟩ := instFreq_none_eq hg
  rw [hgv j (by omega), hv j (by omega), hv (j + 2) (by omega)]
  push_cast
  set P := Real.cos (Real.pi * ((f1 - f2) * (j + 2))) * Real.cos (Real.pi * ((f1 - f2) * j)) with hP
  have hform : -(2 * (Real.cos (Real.pi * ((f1 - f2) * ((j : ℝ) + 2))) : ℂ) * expi (2 * Real.pi * ((f1 + f2) / 2 * ((j : ℝ) + 2))) *
      conj (2 * (Real.cos (Real.pi * ((f1 - f2) * (j : ℝ))) : ℂ) * expi (2 * Real.pi * ((f1 + f2) / 2 * (j : ℝ)))))
      = -(((4 * P : ℝ) : ℂ) * expi (2 * Real.pi * (2 * ((f1 + f2) / 2)))) := by
    rw [map_mul, map_mul, conj_expi, Complex.conj_ofReal, hP]
    have : expi (2 * Real.pi * (2 * ((f1 + f2) / 2))) = expi (2 * Real.pi * ((f1 + f2) / 2 * ((j : ℝ) + 2))) * expi (-(2 * Real.pi * ((f1 + f2) / 2 * (j : ℝ)))) := by
      rw [← expi_add]; congr 1; ring
    rw [this]
    push_cast
    simp only [map_ofNat]
    ring
  have hval : ∀ (a : ℝ) (ha : 0 < a), (Complex.arg (-((a : ℂ) * expi (2 * Real.pi * (2 * q)))) + Real.pi) / (4 * Real.pi) = q := by
    intro a ha
    have := instFreq_value a 1 (2 * q) 0 ha one_pos (by linarith) (by linarith)
    rw [mul_zero, expi_zero, Complex.ofReal_one, mul_one, map_one, mul_one, show (2 * q - 0) / 2 = q by ring] at this
    refine Eq.trans ?_ this
    rw [div_eq_div_iff (by positivity) (by positivity)]
    ring
  push_cast at hform
  rw [hform]
  constructor
  · intro hpos hm
    have e : expi (2 * Real.pi * (2 * ((f1 + f2) / 2))) = expi (2 * Real.pi * (2 * q)) := expi_eq_of_sub _ _ m (by rw [hm]; ring)
    rw [e]
    have := hval (4 * P) (by linarith)
    push_cast at this
    exact this
  · intro hneg hm
    have e : ((4 * P : ℝ) : ℂ) * expi (2 * Real.pi * (2 * ((f1 + f2) / 2))) = ((4 * -P : ℝ) : ℂ) * expi (2 * Real.pi * (2 * q)) := by
      have e' : expi (2 * Real.pi * (2 * ((f1 + f2) / 2)) + Real.pi) = expi (2 * Real.pi * (2 * q)) :=
        expi_eq_of_sub _ _ m (by rw [show (f1 + f2) / 2 = q + m / 2 - 1 / 4 by linarith]; ring)
      rw [← e', expi_add, show expi Real.pi = -1 from Complex.exp_pi_mul_I]
      push_cast
      ring
    push_cast at e
    rw [e]
    have := hval (4 * -P) (by linarith)
    push_cast at this
    exact this

/-- A tone at 0.3 with one at 0.1 merged 20 dB below it: every estimate is within 0.025 of 0.3. -/
example (N : ℕ) (hN : N ≠ 0) : ∃ (y : Vec ℂ) (g : Vec ℝ) (t : Vec ℤ),
    sigmerge ⟨N, fun i => expi (2 * Real.pi * (0.3 * i))⟩ ⟨N, fun i => expi (2 * Real.pi * (0.1 * i))⟩ 20 = .ok y ∧ instFreq y none = .ok (g, t) ∧
      ∀ j < N - 2, |g.get j - 0.3| ≤ 0.025 := by
  obtain ⟨y, h, e1, e2, _⟩ := C17_sigmerge ⟨N, fun i => expi (2 * Real.pi * (0.3 * i))⟩ ⟨N, fun i => expi (2 * Real.pi * (0.1 * i))⟩ 20 rfl
    (by rw [energy_unit (fun i _ => norm_expi _)]; exact Nat.cast_ne_zero.2 hN)
  obtain ⟨f, t, hf, _, _, hfv⟩ := instFreq_wrap N (fun _ => 1) (fun i => 0.3 * i) (by intros; norm_num) ⟨N, fun i => expi (2 * Real.pi * (0.3 * i))⟩ rfl
    (by intros; simp)
  obtain ⟨h1, h2, h3⟩ := C16_default y
  obtain ⟨g, a1, _, _⟩ := inst_freq_eq y (arange 2 y.len) (fun j hj => (h3 j hj).2)
  refine ⟨y, g, _, e1, h1.trans a1, fun j hj => ?_⟩
  have hfj : f.get j = 0.3 := (hfv j hj).2 0.3 0 (by norm_num) (by norm_num) (by push_cast; ring)
  obtain ⟨c1, _, c3⟩ := C129_capture ⟨N, fun i => expi (2 * Real.pi * (0.3 * i))⟩ ⟨N, fun i => expi (2 * Real.pi * (0.1 * i))⟩ rfl hN (fun i _ => norm_expi _) (fun i _ => norm_expi _) 20 (by norm_num) y e1 f g t _ hf (h1.trans a1) 0.1
    (by rw [show (-20 / 20 : ℝ) = -1 by norm_num, Real.rpow_neg_one]; norm_num) j hj
  rw [hfj] at c3
  exact (c3 (by norm_num at c1 ⊢; linarith) (by norm_num at c1 ⊢; linarith)).trans (by norm_num at c1 ⊢; linarith)

end Tftb.Props
