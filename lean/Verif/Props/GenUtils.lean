import Verif.Model.GenUtils
import Verif.Lemmas.Hilbert

/-! # C17: `sigmerge` (and C55: `scale`) -/

namespace Tftb.Props

open Finset Spec GenUtils

theorem mean_power {x : Vec ℂ} (h : x.len ≠ 0) : (x.map (fun z => ‖z‖ ^ 2)).mean = .ok (energy x / x.len) := by
  unfold Vec.mean
  rw [if_neg (by exact h)]
  rfl

theorem sigmerge_shape (x1 x2 : Vec ℂ) (hb : x1.len = x2.len ∨ x1.len = 1 ∨ x2.len = 1) :
    ∃ s : Vec ℂ, Vec.bcast (fun a b => a + b) x1 x2 = .ok s ∧ s.len = if x1.len = 1 then x2.len else x1.len := by
  unfold Vec.bcast
  by_cases h0 : x1.len = x2.len
  · rw [if_pos h0]
    exact ⟨_, rfl, by dsimp only; split <;> omega⟩
  · rw [if_neg h0]
    by_cases h1 : x1.len = 1
    · rw [if_pos h1, if_pos h1]; exact ⟨_, rfl, rfl⟩
    · rw [if_neg h1, if_neg h1, if_pos (by tauto)]; exact ⟨_, rfl, rfl⟩

theorem sigmerge_eq {x1 x2 : Vec ℂ} {r : ℝ} (h1 : x1.len ≠ 0) (h2 : x2.len ≠ 0) (he : energy x2 ≠ 0) :
    sigmerge x1 x2 r = Vec.bcast (fun a b => a + ((Real.sqrt (energy x1 / x1.len / (energy x2 / x2.len * (10 : ℝ) ^ (r / 10))) : ℝ) : ℂ) * b)
      x1 x2 := by
  have hn : (x2.len : ℝ) ≠ 0 := Nat.cast_ne_zero.2 h2
  unfold sigmerge
  by_cases hb : x1.len = x2.len ∨ x1.len = 1 ∨ x2.len = 1
  · obtain ⟨s, hs, hl⟩ := sigmerge_shape x1 x2 hb
    rw [hs, ok_bind, if_neg (by rw [hl]; split <;> omega), mean_power h1, ok_bind, mean_power h2, ok_bind, if_neg (div_ne_zero he hn)]
    norm_num
  · push Not at hb
    unfold Vec.bcast
    rw [if_neg hb.1, if_neg hb.2.1, if_neg hb.2.2, if_neg hb.1, if_neg hb.2.1, if_neg hb.2.2]; rfl

theorem energy_nonneg (x : Vec ℂ) : 0 ≤ energy x := Finset.sum_nonneg (fun _ _ => sq_nonneg _)

theorem energy_smul (x : Vec ℂ) (h : ℝ) : energy (x.map (fun z => (h : ℂ) * z)) = h ^ 2 * energy x := by
  unfold energy Vec.map
  rw [Finset.mul_sum]
  refine Finset.sum_congr rfl (fun i _ => ?_)
  rw [norm_mul, mul_pow, Complex.norm_real, Real.norm_eq_abs, sq_abs]

/-- Two signals of the same length, the second one not zero: the result is `x1 + h x2` with a gain `h ≥ 0` that makes the energy ratio of
the two parts exactly the requested number of decibels; the gain is positive unless `x1` is zero. -/
theorem C17_sigmerge (x1 x2 : Vec ℂ) (r : ℝ) (hlen : x1.len = x2.len) (he : energy x2 ≠ 0) :
    ∃ (y : Vec ℂ) (h : ℝ), sigmerge x1 x2 r = .ok y ∧ y.len = x1.len ∧ 0 ≤ h ∧ (energy x1 ≠ 0 → 0 < h) ∧
      (∀ i < x1.len, y.get i = x1.get i + (h : ℂ) * x2.get i) ∧
      energy x1 = (10 : ℝ) ^ (r / 10) * energy (x2.map (fun z => (h : ℂ) * z)) := by
  have hn : x2.len ≠ 0 := fun h0 => he (by unfold energy; rw [h0]; simp)
  have hn' : (x2.len : ℝ) ≠ 0 := Nat.cast_ne_zero.2 hn
  have h10 : (0 : ℝ) < (10 : ℝ) ^ (r / 10) := Real.rpow_pos_of_pos (by norm_num) _
  have he2 : 0 < energy x2 := lt_of_le_of_ne (energy_nonneg x2) (Ne.symm he)
  set h := Real.sqrt (energy x1 / x1.len / (energy x2 / x2.len * (10 : ℝ) ^ (r / 10))) with hh
  have hnn : (0 : ℝ) < x2.len := by exact_mod_cast Nat.pos_of_ne_zero hn
  have harg : energy x1 / x1.len / (energy x2 / x2.len * (10 : ℝ) ^ (r / 10)) = energy x1 / (energy x2 * (10 : ℝ) ^ (r / 10)) := by
    rw [hlen]
    field_simp
  have hh2 : h ^ 2 = energy x1 / (energy x2 * (10 : ℝ) ^ (r / 10)) := by
    rw [hh, harg, Real.sq_sqrt]
    exact div_nonneg (energy_nonneg x1) (by positivity)
  refine ⟨⟨x1.len, fun i => x1.get i + (h : ℂ) * x2.get i⟩, h, ?_, rfl, Real.sqrt_nonneg _, fun h1 => ?_, fun _ _ => rfl, ?_⟩
  · rw [sigmerge_eq (by omega) hn he, Vec.bcast_ok hlen]
  · have : 0 < energy x1 := lt_of_le_of_ne (energy_nonneg x1) (Ne.symm h1)
    rw [hh, harg]
    exact Real.sqrt_pos.2 (by positivity)
  · rw [energy_smul, hh2]
    field_simp

/-- Other lengths and silent signals.  Lengths that differ raise `ValueError` unless one of them is 1; of the rest, a sum of no samples is empty, a silent
second signal or an empty first one gives NaN, and a single sample is added to (or, with its gain, onto) every sample of the other signal. -/
theorem C17_sigmerge_other (x1 x2 : Vec ℂ) (r : ℝ) :
    (x1.len ≠ x2.len → x1.len ≠ 1 → x2.len ≠ 1 → sigmerge x1 x2 r = .error .valueError) ∧
    ((x1.len = 0 ∧ x2.len ≤ 1) ∨ (x2.len = 0 ∧ x1.len ≤ 1) → ∃ y, sigmerge x1 x2 r = .ok y ∧ y.len = 0) ∧
    (x1.len = x2.len ∨ x1.len = 1 ∨ x2.len = 1 → x1.len ≠ 0 → x2.len ≠ 0 → energy x2 = 0 → sigmerge x1 x2 r = .error .nonFinite) ∧
    (x1.len = 1 → energy x2 ≠ 0 → ∃ (y : Vec ℂ) (h : ℝ), sigmerge x1 x2 r = .ok y ∧ y.len = x2.len ∧ 0 ≤ h ∧
      (∀ i < x2.len, y.get i = x1.get 0 + (h : ℂ) * x2.get i) ∧
      energy x1 = (10 : ℝ) ^ (r / 10) * (energy (x2.map (fun z => (h : ℂ) * z)) / x2.len)) ∧
    (x2.len = 1 → x1.len ≠ 0 → energy x2 ≠ 0 → ∃ (y : Vec ℂ) (h : ℝ), sigmerge x1 x2 r = .ok y ∧ y.len = x1.len ∧ 0 ≤ h ∧
      (∀ i < x1.len, y.get i = x1.get i + (h : ℂ) * x2.get 0) ∧
      energy x1 / x1.len = (10 : ℝ) ^ (r / 10) * energy (x2.map (fun z => (h : ℂ) * z))) := by
  have h10 : (0 : ℝ) < (10 : ℝ) ^ (r / 10) := Real.rpow_pos_of_pos (by norm_num) _
  refine ⟨?_, ?_, ?_, ?_, ?_⟩
  · intro h2 h3 h4
    unfold sigmerge Vec.bcast
    rw [if_neg h2, if_neg h3, if_neg h4]; rfl
  · intro h
    obtain ⟨s, hs, hl⟩ := sigmerge_shape x1 x2 (by omega)
    have h0 : s.len = 0 := by rw [hl]; split <;> omega
    unfold sigmerge
    rw [hs, ok_bind, if_pos h0]
    exact ⟨s, rfl, h0⟩
  · intro h h1 h2 he
    obtain ⟨s, hs, hl⟩ := sigmerge_shape x1 x2 h
    unfold sigmerge
    rw [hs, ok_bind, if_neg (by rw [hl]; split <;> omega), mean_power h1, ok_bind, mean_power h2, ok_bind, if_pos (by rw [he, zero_div])]
  · intro h1 he
    have hn : x2.len ≠ 0 := fun h0 => he (by unfold energy; rw [h0]; simp)
    have hn' : (0 : ℝ) < x2.len := by exact_mod_cast Nat.pos_of_ne_zero hn
    have he2 : 0 < energy x2 := lt_of_le_of_ne (energy_nonneg x2) (Ne.symm he)
    set h := Real.sqrt (energy x1 / x1.len / (energy x2 / x2.len * (10 : ℝ) ^ (r / 10))) with hh
    have hh2 : h ^ 2 = energy x1 / x1.len / (energy x2 / x2.len * (10 : ℝ) ^ (r / 10)) :=
      Real.sq_sqrt (div_nonneg (div_nonneg (energy_nonneg x1) (Nat.cast_nonneg _)) (by positivity))
    have key : energy x1 = (10 : ℝ) ^ (r / 10) * (energy (x2.map (fun z => (h : ℂ) * z)) / x2.len) := by
      rw [energy_smul, hh2, h1]
      field_simp
      norm_num
    have hs := sigmerge_eq (x1 := x1) (x2 := x2) (r := r) (by omega) hn he
    rw [← hh] at hs
    unfold Vec.bcast at hs
    by_cases h3 : x1.len = x2.len
    · rw [if_pos h3] at hs
      refine ⟨_, h, hs, h3, Real.sqrt_nonneg _, fun i hi => ?_, key⟩
      obtain rfl : i = 0 := by omega
      rfl
    · rw [if_neg h3, if_pos h1] at hs
      exact ⟨_, h, hs, rfl, Real.sqrt_nonneg _, fun _ _ => rfl, key⟩
  · intro h2 h1 he
    have hn1 : (0 : ℝ) < x1.len := by exact_mod_cast Nat.pos_of_ne_zero h1
    have he2 : 0 < energy x2 := lt_of_le_of_ne (energy_nonneg x2) (Ne.symm he)
    set h := Real.sqrt (energy x1 / x1.len / (energy x2 / x2.len * (10 : ℝ) ^ (r / 10))) with hh
    have hh2 : h ^ 2 = energy x1 / x1.len / (energy x2 / x2.len * (10 : ℝ) ^ (r / 10)) :=
      Real.sq_sqrt (div_nonneg (div_nonneg (energy_nonneg x1) (Nat.cast_nonneg _)) (by positivity))
    have key : energy x1 / x1.len = (10 : ℝ) ^ (r / 10) * energy (x2.map (fun z => (h : ℂ) * z)) := by
      rw [energy_smul, hh2, h2]
      field_simp
      norm_num
    have hs := sigmerge_eq (x1 := x1) (x2 := x2) (r := r) h1 (by omega) he
    rw [← hh] at hs
    unfold Vec.bcast at hs
    by_cases h3 : x1.len = x2.len
    · rw [if_pos h3] at hs
      refine ⟨_, h, hs, rfl, Real.sqrt_nonneg _, fun i hi => ?_, key⟩
      obtain rfl : i = 0 := by omega
      rfl
    · rw [if_neg h3, if_neg (by omega), if_pos h2] at hs
      exact ⟨_, h, hs, rfl, Real.sqrt_nonneg _, fun _ _ => rfl, key⟩

/-- The result depends on the second signal only up to a positive factor, and scales with the first one. -/
theorem C17_scale_invariance (x1 x2 : Vec ℂ) (r a b : ℝ) (ha : 0 < a) (hb : 0 < b) (hlen : x1.len = x2.len) (he : energy x2 ≠ 0) :
    ∃ y y' : Vec ℂ, sigmerge x1 x2 r = .ok y ∧
      sigmerge (x1.map (fun z => (a : ℂ) * z)) (x2.map (fun z => (b : ℂ) * z)) r = .ok y' ∧
      y'.len = y.len ∧ ∀ i < y.len, y'.get i = (a : ℂ) * y.get i := by
  have hn : x2.len ≠ 0 := fun h0 => he (by unfold energy; rw [h0]; simp)
  have hb2 : energy (x2.map (fun z => (b : ℂ) * z)) ≠ 0 := by rw [energy_smul]; positivity
  have e1 := (sigmerge_eq (x1 := x1) (r := r) (by omega) hn he).trans (Vec.bcast_ok hlen)
  have e2 := (sigmerge_eq (x1 := x1.map (fun z => (a : ℂ) * z)) (x2 := x2.map (fun z => (b : ℂ) * z)) (r := r)
    (by exact (by omega : x1.len ≠ 0)) (by exact hn) hb2).trans (Vec.bcast_ok (by exact hlen))
  refine ⟨_, _, e1, e2, rfl, fun i _ => ?_⟩
  simp only [energy_smul]
  simp only [Vec.map]
  have hroot : Real.sqrt (a ^ 2 * energy x1 / x1.len / (b ^ 2 * energy x2 / x2.len * (10 : ℝ) ^ (r / 10)))
      = a / b * Real.sqrt (energy x1 / x1.len / (energy x2 / x2.len * (10 : ℝ) ^ (r / 10))) := by
    have : a ^ 2 * energy x1 / x1.len / (b ^ 2 * energy x2 / x2.len * (10 : ℝ) ^ (r / 10))
        = (a / b) ^ 2 * (energy x1 / x1.len / (energy x2 / x2.len * (10 : ℝ) ^ (r / 10))) := by
      field_simp
    rw [this, Real.sqrt_mul (sq_nonneg _), Real.sqrt_sq (by positivity)]
  rw [hroot]
  have hb' : (b : ℂ) ≠ 0 := by exact_mod_cast hb.ne'
  push_cast
  field_simp

/-- Two samples against two samples, ratio 0 dB: gain 1/2 for a second signal twice as strong. -/
example : ∃ (y : Vec ℂ) (h : ℝ), sigmerge ⟨2, fun i => if i = 0 then 1 else Complex.I⟩ ⟨2, fun _ => 2⟩ 0 = .ok y ∧
    y.get 0 = 1 + (h : ℂ) * 2 ∧ h = 1 / 2 := by
  have he : energy ⟨2, fun _ => (2 : ℂ)⟩ = 8 := by norm_num [energy, Finset.sum_range_succ]
  obtain ⟨y, h, e, -, h0, -, h1, h2⟩ := C17_sigmerge ⟨2, fun i => if i = 0 then 1 else Complex.I⟩ ⟨2, fun _ => 2⟩ 0 rfl (by rw [he]; norm_num)
  refine ⟨y, h, e, h1 0 (by norm_num), ?_⟩
  rw [energy_smul, he] at h2
  have h3 : energy ⟨2, fun i => if i = 0 then (1 : ℂ) else Complex.I⟩ = 2 := by norm_num [energy, Finset.sum_range_succ]
  rw [h3] at h2
  norm_num at h2
  nlinarith

/-- `scale` never returns, whatever its unreachable remainder does. -/
theorem C55_scale (X : Vec ℂ) (a fmin fmax : ℝ) (N : ℤ) (rest : Vec ℂ → Vec ℂ → Py (Vec ℂ)) :
    scale X a fmin fmax N rest = .error
      (if X.len = 0 then .valueError
       else if fmin = 0 ∨ N = 1 ∨ (fmax = 0 ∧ N < 1) then .zeroDivisionError
       else if X.len = 128 ∧ N = 128 then .typeError else .valueError) := by
  unfold scale
  by_cases h0 : X.len = 0
  · rw [hilbert_empty (by exact h0), if_pos h0]; rfl
  · obtain ⟨z, hz, -⟩ := hilbert_spec (x := X.map Complex.re) (by exact h0)
    rw [hz, ok_bind, if_neg h0]
    by_cases h1 : fmin = 0 ∨ N = 1 ∨ (fmax = 0 ∧ N < 1)
    · rw [if_pos h1, if_pos h1]
    · rw [if_neg h1, if_neg h1]
      by_cases h2 : X.len = 128
      · rw [if_neg (not_not.2 h2)]
        by_cases h3 : N = 128
        · rw [if_neg (by omega), if_pos ⟨h2, h3⟩]; rfl
        · rw [if_pos (by omega), if_neg (fun h => h3 h.2)]
      · rw [if_pos h2, if_neg (fun h => h2 h.1)]

/-- Even the sizes hard-wired into the function fail. -/
example : scale ⟨128, fun i => (i : ℂ)⟩ 2 0.1 0.4 128 (fun _ S => .ok S) = .error .typeError := by
  rw [C55_scale]; norm_num

end Tftb.Props
