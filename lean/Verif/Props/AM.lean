import Verif.Model.AM
import Verif.Spec
import Verif.Lemmas.Array

/-! # Properties of `tftb/generators/amplitude_modulated.py` (C07, C08) -/

namespace Tftb.Props

open Tftb Tftb.AM

/-- The default time centre is `round(n/2)`. -/
theorem C07_default_centre (n : ℕ) :
    defaultT0 n none = (((if n % 4 = 3 then ((n : ℤ) + 1) / 2 else (n : ℤ) / 2 : ℤ)) : ℝ) := by
  unfold defaultT0
  rw [← roundEven_half]; simp

/-- The default spread is `2·√n`, positive for `n ≥ 1`. -/
theorem C07_default_spread (n : ℕ) (hn : 1 ≤ n) :
    ∃ s : ℝ, defaultSpread n none = .ok s ∧ s = 2 * Real.sqrt n ∧ 0 < s := by
  refine ⟨2 * Real.sqrt n, ?_, rfl, ?_⟩
  · unfold defaultSpread; simp
  · have : (0 : ℝ) < n := by exact_mod_cast hn
    positivity

/-- With default arguments each generator behaves as with the explicit default centre and spread. -/
theorem C07_defaults_explicit (n : ℕ) (kind : Kind) :
    amgauss n none none = amgauss n (some (roundEven ((n : ℝ) / 2))) (some (2 * Real.sqrt n)) ∧
    amexpos n none none kind
      = amexpos n (some (roundEven ((n : ℝ) / 2))) (some (2 * Real.sqrt n)) kind ∧
    amrect n none none = amrect n (some (roundEven ((n : ℝ) / 2))) (some (2 * Real.sqrt n)) ∧
    amtriang n none none = amtriang n (some (roundEven ((n : ℝ) / 2))) (some (2 * Real.sqrt n)) := by
  have hn : ¬ (n : ℤ) < 0 := by omega
  have hc : (((n : ℤ)) : ℝ) = (n : ℝ) := by push_cast; rfl
  refine ⟨?_, ?_, ?_, ?_⟩ <;>
    simp only [amgauss, amexpos, amrect, amtriang, defaultT0, defaultSpread, if_neg hn, hc, ok_bind] <;> rfl

/-- `amgauss` is the Gaussian envelope `exp(-π(d/spread)²)`, sample times 1, …, n. -/
theorem C07_amgauss (n : ℕ) (hn : 1 ≤ n) (t0 s : ℝ) (hs : 0 < s) :
    ∃ y : Vec ℝ, amgauss n (some t0) (some s) = .ok y ∧ y.len = n ∧
      (∀ i < n, y.get i = Real.exp (-Real.pi * (((i : ℝ) + 1 - t0) / s) ^ 2)) ∧
      Spec.IsEnvelope y (fun i => (i : ℝ) + 1) t0 := by
  have hn' : ¬ (n : ℤ) ≤ 0 := by omega
  refine ⟨⟨n, fun i => Real.exp (-Real.pi * (((i : ℝ) + 1 - t0) / s) ^ 2)⟩, ?_, rfl, fun _ _ => rfl, ?_⟩
  · simp only [amgauss, defaultSpread, defaultT0, ok_bind, if_neg hn', if_neg hs.ne', Vec.map, arange]
    congr 2
    · omega
    · funext i; congr 1; push_cast; ring
  · refine ⟨fun i _ => ⟨(Real.exp_pos _).le, ?_⟩, fun i _ h => ?_, fun i _ j _ h => ?_⟩
    · apply Real.exp_le_one_iff.2
      nlinarith [Real.pi_pos, sq_nonneg (((i : ℝ) + 1 - t0) / s)]
    · simp only at h; simp [h]
    · apply Real.exp_le_exp.2
      have h2 : (((i : ℝ) + 1 - t0) / s) ^ 2 ≤ (((j : ℝ) + 1 - t0) / s) ^ 2 := by
        rw [div_pow, div_pow]
        apply div_le_div_of_nonneg_right _ (by positivity)
        exact sq_le_sq.2 h
      nlinarith [Real.pi_pos]

/-- Bilateral `amexpos` is the envelope `exp(-√(2π)·d/spread)`, sample times 0, …, n-1. -/
theorem C07_amexpos_bilateral (n : ℕ) (hn : 1 ≤ n) (t0 s : ℝ) (hs : 0 < s) :
    ∃ y : Vec ℝ, amexpos n (some t0) (some s) .bilateral = .ok y ∧ y.len = n ∧
      (∀ i < n, y.get i = Real.exp (-(Real.sqrt (2 * Real.pi) * |(i : ℝ) - t0| / s))) ∧
      Spec.IsEnvelope y (fun i => (i : ℝ)) t0 := by
  have hn' : ¬ (n : ℤ) ≤ 0 := by omega
  refine ⟨⟨n, fun i => Real.exp (-(Real.sqrt (2 * Real.pi) * |(i : ℝ) - t0| / s))⟩, ?_, rfl,
    fun _ _ => rfl, ?_⟩
  · simp only [amexpos, defaultSpread, defaultT0, ok_bind, if_neg hn', if_neg hs.ne', Vec.map, arange]
    congr 2
    funext i; congr 1; push_cast; rw [zero_add]; ring
  · have hq := Real.sqrt_nonneg (2 * Real.pi)
    refine ⟨fun i _ => ⟨(Real.exp_pos _).le, ?_⟩, fun i _ h => ?_, fun i _ j _ h => ?_⟩
    · apply Real.exp_le_one_iff.2
      rw [neg_nonpos]; positivity
    · simp only at h; simp [h]
    · apply Real.exp_le_exp.2
      rw [neg_le_neg_iff]
      exact div_le_div_of_nonneg_right (mul_le_mul_of_nonneg_left h hq) hs.le

/-- Unilateral `amexpos`: 0 before the centre, 1 at the centre, strictly decreasing after it. -/
theorem C07_amexpos_unilateral (n : ℕ) (hn : 1 ≤ n) (t0 s : ℝ) (hs : 0 < s) :
    ∃ y : Vec ℝ, amexpos n (some t0) (some s) .unilateral = .ok y ∧ y.len = n ∧
      (∀ i < n, (i : ℝ) < t0 → y.get i = 0) ∧
      (∀ i < n, t0 ≤ (i : ℝ) → y.get i = Real.exp (-(Real.sqrt Real.pi * ((i : ℝ) - t0) / s))) ∧
      (∀ i < n, (i : ℝ) = t0 → y.get i = 1) ∧
      (∀ i < n, ∀ j < n, t0 ≤ (i : ℝ) → i < j → y.get j < y.get i) := by
  have hn' : ¬ (n : ℤ) ≤ 0 := by omega
  refine ⟨⟨n, fun i => Real.exp (-(Real.sqrt Real.pi * ((i : ℝ) - t0) / s))
    * (if 0 ≤ (i : ℝ) - t0 then 1 else 0)⟩, ?_, rfl, ?_, ?_, ?_, ?_⟩
  · simp only [amexpos, defaultSpread, defaultT0, ok_bind, if_neg hn', if_neg hs.ne']
    congr 1
    unfold Vec.map arange
    congr 1
    funext i
    have e : (((0 + (i : ℤ) : ℤ)) : ℝ) = i := by push_cast; ring
    simp only [e]
    congr 2; ring
  · intro i _ h; simp only; rw [if_neg (by linarith), mul_zero]
  · intro i _ h; simp only; rw [if_pos (by linarith), mul_one]
  · intro i _ h; simp [h]
  · intro i _ j _ h hij
    have hij' : (i : ℝ) < j := by exact_mod_cast hij
    simp only
    rw [if_pos (by linarith), if_pos (by linarith), mul_one, mul_one]
    apply Real.exp_lt_exp.2
    rw [neg_lt_neg_iff]
    apply div_lt_div_of_pos_right _ hs
    have := Real.sqrt_pos.2 Real.pi_pos
    nlinarith

/-- `amrect` is the indicator of `d ≤ spread·√(3/π)/2`. -/
theorem C07_amrect (n : ℕ) (hn : 1 ≤ n) (t0 s : ℝ) (hs : 0 < s) :
    ∃ y : Vec ℝ, amrect n (some t0) (some s) = .ok y ∧ y.len = n ∧
      (∀ i < n, y.get i = 1 ∨ y.get i = 0) ∧
      (∀ i < n, y.get i = 1 ↔ |(i : ℝ) - t0| ≤ s / 2 * Real.sqrt (3 / Real.pi)) ∧
      Spec.IsEnvelope y (fun i => (i : ℝ)) t0 := by
  have hn' : ¬ (n : ℤ) ≤ 0 := by omega
  have hW : 0 ≤ s / 2 * Real.sqrt (3 / Real.pi) := by positivity
  refine ⟨⟨n, fun i => if |(i : ℝ) - t0| ≤ s / 2 * Real.sqrt (3 / Real.pi) then 1 else 0⟩, ?_, rfl,
    ?_, ?_, ?_⟩
  · simp only [amrect, defaultSpread, defaultT0, ok_bind, if_neg hn']
    congr 1
    unfold Vec.map arange
    congr 1
    funext i
    have e : (((0 + (i : ℤ) : ℤ)) : ℝ) = i := by push_cast; ring
    have e2 : (0.5 : ℝ) * s * Real.sqrt (3.0 / Real.pi) = s / 2 * Real.sqrt (3 / Real.pi) := by
      have h3 : (3.0 : ℝ) = 3 := by norm_num
      have h5 : (0.5 : ℝ) = 1 / 2 := by norm_num
      rw [h3, h5]; ring
    simp only [e, e2]
  · intro i _; simp only; split_ifs <;> simp
  · intro i _; simp only; split_ifs with h
    · exact ⟨fun _ => h, fun _ => rfl⟩
    · exact ⟨fun h' => absurd h' (by norm_num), fun h' => absurd h' h⟩
  · refine ⟨fun i _ => ?_, fun i _ h => ?_, fun i _ j _ h => ?_⟩
    · simp only; split_ifs <;> norm_num
    · simp only at h ⊢; rw [h, sub_self, abs_zero, if_pos hW]
    · simp only at h ⊢
      split_ifs with h1 h2 h2
      · exact le_rfl
      · exact absurd (h.trans h1) h2
      · norm_num
      · exact le_rfl

/-- `amtriang` is the triangle `max(1 - d/L, 0)` with `L = spread·√(10/π)/2`. -/
theorem C07_amtriang (n : ℕ) (hn : 1 ≤ n) (t0 s : ℝ) (hs : 0 < s) :
    ∃ y : Vec ℝ, amtriang n (some t0) (some s) = .ok y ∧ y.len = n ∧
      (∀ i < n, y.get i = max (1 - |(i : ℝ) - t0| / (Real.sqrt (10 / Real.pi) * s / 2)) 0) ∧
      Spec.IsEnvelope y (fun i => (i : ℝ)) t0 := by
  have hn' : ¬ (n : ℤ) ≤ 0 := by omega
  have hL : 0 < Real.sqrt (10 / Real.pi) * s / 2 := by
    have : 0 < Real.sqrt (10 / Real.pi) := Real.sqrt_pos.2 (by positivity)
    positivity
  refine ⟨⟨n, fun i => max (1 - |(i : ℝ) - t0| / (Real.sqrt (10 / Real.pi) * s / 2)) 0⟩, ?_, rfl,
    fun _ _ => rfl, ?_⟩
  · have e2 : Real.sqrt (10.0 / Real.pi) * s / 2.0 = Real.sqrt (10 / Real.pi) * s / 2 := by norm_num
    simp only [amtriang, defaultSpread, defaultT0, ok_bind, if_neg hn', e2, if_neg hL.ne']
    congr 1
    unfold Vec.map arange
    congr 1
    funext i
    have e : (((0 + (i : ℤ) : ℤ)) : ℝ) = i := by push_cast; ring
    simp only [e]
    generalize Real.sqrt (10 / Real.pi) * s / 2 = L at *
    have h1 : min (L + ((i : ℝ) - t0)) (L - ((i : ℝ) - t0)) = L - |(i : ℝ) - t0| := by
      rcases le_total 0 ((i : ℝ) - t0) with h | h
      · rw [abs_of_nonneg h, min_eq_right (by linarith)]
      · rw [abs_of_nonpos h, min_eq_left (by linarith)]; ring
    rw [h1]
    have h2 : 1 - |(i : ℝ) - t0| / L = (L - |(i : ℝ) - t0|) / L := by field_simp
    rw [h2]
    rw [max_div_div_right hL.le (L - |(i : ℝ) - t0|) 0 |>.symm, zero_div]
  · generalize Real.sqrt (10 / Real.pi) * s / 2 = L at *
    refine ⟨fun i _ => ⟨le_max_right _ _, ?_⟩, fun i _ h => ?_, fun i _ j _ h => ?_⟩
    · apply max_le _ zero_le_one
      have : 0 ≤ |(i : ℝ) - t0| / L := by positivity
      linarith
    · simp only at h; simp [h]
    · simp only at h ⊢
      apply max_le_max _ le_rfl
      have : |(i : ℝ) - t0| / L ≤ |(j : ℝ) - t0| / L := div_le_div_of_nonneg_right h hL.le
      linarith

example : (1 : ℕ) ≤ 160 ∧ (0 : ℝ) < 40 := by norm_num

/-! ## C08 -/

/-- No amplitude modulation returns for `n_points ≤ 0`: `TypeError` when `n_points = 0` or a spread
is given, `ValueError` for a negative length with the default spread. -/
theorem C08_reject_empty (n : ℤ) (hn : n ≤ 0) (t0 spread : Option ℝ) (kind : Kind) :
    let e := if n < 0 ∧ spread = none then PyErr.valueError else PyErr.typeError
    amgauss n t0 spread = .error e ∧ amexpos n t0 spread kind = .error e ∧
    amrect n t0 spread = .error e ∧ amtriang n t0 spread = .error e := by
  cases spread with
  | some s => simp [amgauss, amexpos, amrect, amtriang, defaultSpread, hn]
  | none =>
    by_cases h : n < 0
    · simp [amgauss, amexpos, amrect, amtriang, defaultSpread, h]
    · simp [amgauss, amexpos, amrect, amtriang, defaultSpread, h, hn]

example : (-3 : ℤ) ≤ 0 := by norm_num

/-- Zero spread.  `amtriang` gives NaN; `amrect` keeps the sample at the centre (if there is one) only; `amgauss` and the two-sided `amexpos` give NaN when a
sample is on the centre and zeros otherwise; the one-sided `amexpos` gives NaN when a sample is on or before the centre and zeros otherwise.  (`amgauss` counts
samples from 1, the others from 0.) -/
theorem C08_zero_spread (n : ℕ) (hn : 1 ≤ n) (t : ℝ) :
    amtriang n (some t) (some 0) = .error .nonFinite ∧
    (∃ y, amrect n (some t) (some 0) = .ok y ∧ y.len = n ∧ ∀ i < n, y.get i = if (i : ℝ) = t then 1 else 0) ∧
    ((∃ i < n, (i : ℝ) + 1 = t) → amgauss n (some t) (some 0) = .error .nonFinite) ∧
    ((∀ i < n, (i : ℝ) + 1 ≠ t) → ∃ y, amgauss n (some t) (some 0) = .ok y ∧ y.len = n ∧ ∀ i < n, y.get i = 0) ∧
    ((∃ i < n, (i : ℝ) = t) → amexpos n (some t) (some 0) .bilateral = .error .nonFinite) ∧
    ((∀ i < n, (i : ℝ) ≠ t) → ∃ y, amexpos n (some t) (some 0) .bilateral = .ok y ∧ y.len = n ∧ ∀ i < n, y.get i = 0) ∧
    (0 ≤ t → amexpos n (some t) (some 0) .unilateral = .error .nonFinite) ∧
    (t < 0 → ∃ y, amexpos n (some t) (some 0) .unilateral = .ok y ∧ y.len = n ∧ ∀ i < n, y.get i = 0) := by
  have hn' : ¬ ((n : ℤ) ≤ 0) := by omega
  have l0 : ((arange 0 (n : ℤ)).map (fun t' : ℤ => (t' : ℝ) - t)).len = n := by rw [Vec.map_len, arange_len]; simp
  have l1 : ((arange 1 ((n : ℤ) + 1)).map (fun t' : ℤ => (t' : ℝ) - t)).len = n := by rw [Vec.map_len, arange_len]; simp
  have g0 : ∀ i, ((arange 0 (n : ℤ)).map (fun t' : ℤ => (t' : ℝ) - t)).get i = (i : ℝ) - t := by
    intro i; rw [Vec.map_get, arange_get]; push_cast; ring
  have g1 : ∀ i, ((arange 1 ((n : ℤ) + 1)).map (fun t' : ℤ => (t' : ℝ) - t)).get i = (i : ℝ) + 1 - t := by
    intro i; rw [Vec.map_get, arange_get]; push_cast; ring
  refine ⟨?_, ⟨⟨n, fun i => if (i : ℝ) = t then 1 else 0⟩, ?_, rfl, fun _ _ => rfl⟩, ?_, ?_, ?_, ?_, ?_, ?_⟩
  · simp only [amtriang, defaultSpread, ok_bind, if_neg hn', mul_zero, zero_div, if_true]
  · simp only [amrect, defaultSpread, defaultT0, ok_bind, if_neg hn']
    congr 1
    unfold Vec.map arange
    congr 1
    funext i
    have e : (((0 + (i : ℤ) : ℤ)) : ℝ) = i := by push_cast; ring
    simp only [e, mul_zero, zero_mul, abs_nonpos_iff, sub_eq_zero]
  · rintro ⟨i, hi, e⟩
    simp only [amgauss, defaultSpread, defaultT0, ok_bind, if_neg hn', if_true, l1, g1]
    exact if_pos ⟨i, hi, by rw [e, sub_self]⟩
  · intro h
    simp only [amgauss, defaultSpread, defaultT0, ok_bind, if_neg hn', if_true, l1, g1]
    exact ⟨_, if_neg (fun ⟨i, hi, e⟩ => h i hi (sub_eq_zero.1 e)), l1, fun _ _ => rfl⟩
  · rintro ⟨i, hi, e⟩
    simp only [amexpos, defaultSpread, defaultT0, ok_bind, if_neg hn', if_true, l0, g0]
    exact if_pos ⟨i, hi, by rw [e, sub_self]⟩
  · intro h
    simp only [amexpos, defaultSpread, defaultT0, ok_bind, if_neg hn', if_true, l0, g0]
    exact ⟨_, if_neg (fun ⟨i, hi, e⟩ => h i hi (sub_eq_zero.1 e)), l0, fun _ _ => rfl⟩
  · intro h
    simp only [amexpos, defaultSpread, defaultT0, ok_bind, if_neg hn', if_true, l0, g0]
    exact if_pos ⟨0, by omega, by push_cast; linarith⟩
  · intro h
    simp only [amexpos, defaultSpread, defaultT0, ok_bind, if_neg hn', if_true, l0, g0]
    refine ⟨_, if_neg (fun ⟨i, hi, e⟩ => ?_), l0, fun _ _ => rfl⟩
    have : (0 : ℝ) ≤ i := Nat.cast_nonneg i
    linarith

/-- Between two samples: zeros, not NaN. -/
example : ∃ y, amgauss 4 (some (5 / 2)) (some 0) = .ok y ∧ y.len = 4 ∧ ∀ i < 4, y.get i = 0 :=
  (C08_zero_spread 4 (by norm_num) (5 / 2)).2.2.2.1 (fun i _ e => by
    have h : ((2 * (i + 1) : ℕ) : ℝ) = (5 : ℕ) := by push_cast; linarith
    have := Nat.cast_injective h
    omega)

end Tftb.Props
