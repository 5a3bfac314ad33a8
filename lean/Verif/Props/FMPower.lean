import Verif.Model.FMPower
import Verif.Props.FM
import Mathlib.Analysis.SpecialFunctions.Integrals.Basic

/-! # `fmpower` with an integer degree (C80) -/

namespace Tftb.Props

open Tftb Tftb.Spec Tftb.FM

/-- Every integer degree above one: no samples are ever returned, whatever the coefficients. -/
theorem C80_positive_degree (n k : ℤ) (hn : 1 ≤ n) (hk : 1 ≤ k) (coefs : List ℝ) : ∃ e, fmpowerInt n k coefs = .error e ∧
    (∀ f0 c, coefs = [f0, c] → e = if k = 1 then .zeroDivisionError else .valueError) := by
  unfold fmpowerInt
  cases hc : powerCoefsInt k coefs with
  | error e =>
    refine ⟨e, rfl, fun f0 c h => ?_⟩
    rw [h] at hc; cases hc
  | ok fc =>
    rw [ok_bind]
    by_cases h1 : k = 1
    · refine ⟨.zeroDivisionError, if_pos (by omega), fun _ _ _ => (if_pos h1).symm⟩
    · refine ⟨.valueError, ?_, fun _ _ _ => (if_neg h1).symm⟩
      dsimp only
      rw [if_neg (by omega), if_pos ⟨by omega, by omega⟩]

/-- Degrees zero and below: times 0, …, n-1, law `f0 + c t^(-k)`, samples of modulus one whose phase is the primitive of the law vanishing at 0,
and a warning exactly when the law leaves `[0, 1/2]`. -/
theorem C80_law (n k : ℕ) (f0 c : ℝ) : ∃ r : WarnResult, fmpowerInt n (-k) [f0, c] = .ok r ∧ r.signal.len = n ∧ r.iflaw.len = n ∧
    (∀ i < n, r.iflaw.get i = f0 + c * (i : ℝ) ^ k ∧
      r.signal.get i = expi (2 * Real.pi * (∫ t in (0 : ℝ)..i, (f0 + c * t ^ k)))) ∧
    (r.warned ↔ ∃ i < n, f0 + c * (i : ℝ) ^ k ∉ Set.Icc (0 : ℝ) (1 / 2)) := by
  have hp : ∀ i : ℕ, (((|(0 + (i : ℤ))| ^ (1 - -(k : ℤ)).toNat : ℤ)) : ℝ) = (i : ℝ) ^ (k + 1) := by
    intro i
    rw [show (1 - -(k : ℤ)).toNat = k + 1 by omega, zero_add, Nat.abs_cast]; push_cast; rfl
  have hq : ∀ i : ℕ, (((|(0 + (i : ℤ))| ^ (- -(k : ℤ)).toNat : ℤ)) : ℝ) = (i : ℝ) ^ k := by
    intro i
    rw [show (- -(k : ℤ)).toNat = k by omega, zero_add, Nat.abs_cast]; push_cast; rfl
  have hlaw : ∀ i : ℕ, f0 + c * (((|(0 + (i : ℤ))| ^ (- -(k : ℤ)).toNat : ℤ)) : ℝ) = f0 + c * (i : ℝ) ^ k := fun i => by rw [hq]
  have hA : ¬ (1 - -(k : ℤ) = 0) := by omega
  have hB : ¬ (0 < (n : ℤ) ∧ 1 - -(k : ℤ) < 0) := by omega
  simp only [fmpowerInt, powerCoefsInt, ok_bind, if_neg hA, if_neg hB]
  refine ⟨_, rfl, by simp [Vec.map, arange], by simp [Vec.map, arange], fun i _ => ⟨hlaw i, ?_⟩, ?_⟩
  · show Complex.exp (Complex.I * ((2 * Real.pi * (f0 * ((0 + (i : ℤ) : ℤ) : ℝ) + c / ((1 - -(k : ℤ) : ℤ) : ℝ) *
      (((|(0 + (i : ℤ))| ^ (1 - -(k : ℤ)).toNat : ℤ)) : ℝ)) : ℝ) : ℂ)) = _
    rw [exp_I, hp, intervalIntegral.integral_add (by simp) (by apply Continuous.intervalIntegrable; fun_prop),
      intervalIntegral.integral_const, intervalIntegral.integral_const_mul, integral_pow]
    congr 2
    push_cast
    simp
    field_simp
    try ring
  · show (∃ i < ((n : ℤ) - 0).toNat, _) ↔ _
    have hn : ((n : ℤ) - 0).toNat = n := by omega
    rw [hn]
    refine exists_congr (fun i => and_congr_right (fun _ => ?_))
    show (f0 + c * (((|(0 + (i : ℤ))| ^ (- -(k : ℤ)).toNat : ℤ)) : ℝ) < 0 ∨
      f0 + c * (((|(0 + (i : ℤ))| ^ (- -(k : ℤ)).toNat : ℤ)) : ℝ) > 0.5) ↔ _
    rw [hlaw i, Set.mem_Icc, not_and_or, not_le, not_le]
    norm_num

/-- For a degree zero or below the float degree of the same value gives the same law, the same samples and the same warning. -/
theorem C80_float_degree (n k : ℕ) (f0 c : ℝ) : ∃ (r : WarnResult) (r' : PowerResult), fmpowerInt n (-k) [f0, c] = .ok r ∧
    fmpower n (-(k : ℝ)) [f0, c] = .ok (.real r') ∧ r'.signal.len = r.signal.len ∧ r'.iflaw.len = r.iflaw.len ∧
    (∀ i < n, r'.iflaw.get i = .fin (r.iflaw.get i) ∧ r'.signal.get i = some (r.signal.get i)) ∧ (r'.warned ↔ r.warned) := by
  have hk : (0 : ℝ) ≤ k := Nat.cast_nonneg k
  have hp : ∀ i : ℕ, (((|(0 + (i : ℤ))| ^ (1 - -(k : ℤ)).toNat : ℤ)) : ℝ) = (i : ℝ) ^ (k + 1) := by
    intro i
    rw [show (1 - -(k : ℤ)).toNat = k + 1 by omega, zero_add, Nat.abs_cast]; push_cast; rfl
  have hq : ∀ i : ℕ, (((|(0 + (i : ℤ))| ^ (- -(k : ℤ)).toNat : ℤ)) : ℝ) = (i : ℝ) ^ k := by
    intro i
    rw [show (- -(k : ℤ)).toNat = k by omega, zero_add, Nat.abs_cast]; push_cast; rfl
  have hA : ¬ (1 - -(k : ℤ) = 0) := by omega
  have hB : ¬ (0 < (n : ℤ) ∧ 1 - -(k : ℤ) < 0) := by omega
  have hC : ¬ (1 - -(k : ℝ) = 0) := by linarith
  have e : ∀ i : ℕ, (((0 + (i : ℤ) : ℤ)) : ℝ) = i := fun i => by push_cast; ring
  have r1 : ∀ x : ℝ, x ^ (1 - -(k : ℝ)) = x ^ (k + 1) := fun x => by
    rw [← Real.rpow_natCast]; congr 1; push_cast; ring
  have r2 : ∀ x : ℝ, x ^ (- -(k : ℝ)) = x ^ k := fun x => by rw [neg_neg, Real.rpow_natCast]
  have hl : ∀ i : ℕ, (if (((0 + (i : ℤ) : ℤ)) : ℝ) = 0 then addMulZeroPow f0 c (- -(k : ℝ))
      else .fin (f0 + c * |(((0 + (i : ℤ) : ℤ)) : ℝ)| ^ (- -(k : ℝ)))) =
      XFloat.fin (f0 + c * (((|(0 + (i : ℤ))| ^ (- -(k : ℤ)).toNat : ℤ)) : ℝ)) := by
    intro i
    rw [e, hq, abs_of_nonneg (Nat.cast_nonneg i), r2]
    split
    · rename_i h0
      unfold addMulZeroPow
      rw [if_pos (by linarith), r2, h0]
    · rfl
  simp only [fmpowerInt, powerCoefsInt, fmpower, powerCoefs, ok_bind, if_neg hA, if_neg hB, if_neg hC]
  refine ⟨_, _, rfl, rfl, rfl, rfl, fun i _ => ⟨hl i, ?_⟩, ?_⟩
  · show Option.map (fun p : ℝ => Complex.exp (Complex.I * p)) (if (((0 + (i : ℤ) : ℤ)) : ℝ) = 0 then
        match addMulZeroPow (f0 * (((0 + (i : ℤ) : ℤ)) : ℝ)) (c / (1 - -(k : ℝ))) (1 - -(k : ℝ)) with
        | .fin a => some (2 * Real.pi * a)
        | _ => none
      else some (2 * Real.pi * (f0 * (((0 + (i : ℤ) : ℤ)) : ℝ) + c / (1 - -(k : ℝ)) * |(((0 + (i : ℤ) : ℤ)) : ℝ)| ^ (1 - -(k : ℝ))))) =
      some (Complex.exp (Complex.I * ((2 * Real.pi * (f0 * ((0 + (i : ℤ) : ℤ) : ℝ) + c / ((1 - -(k : ℤ) : ℤ) : ℝ) *
        (((|(0 + (i : ℤ))| ^ (1 - -(k : ℤ)).toNat : ℤ)) : ℝ)) : ℝ) : ℂ)))
    have e1 : ((1 - -(k : ℤ) : ℤ) : ℝ) = 1 - -(k : ℝ) := by push_cast; ring
    rw [hp, e, abs_of_nonneg (Nat.cast_nonneg i), r1, e1]
    split
    · rename_i h0
      have : addMulZeroPow (f0 * (i : ℝ)) (c / (1 - -(k : ℝ))) (1 - -(k : ℝ)) = .fin (f0 * i + c / (1 - -(k : ℝ)) * (i : ℝ) ^ (k + 1)) := by
        unfold addMulZeroPow
        rw [if_pos (by linarith), r1, h0]
      rw [this]
      rfl
    · rfl
  · show (∃ i < ((n : ℤ) - 0).toNat, _) ↔ (∃ i < ((n : ℤ) - 0).toNat, _)
    refine exists_congr (fun i => and_congr_right (fun _ => ?_))
    have h := hl i
    show (XFloat.ltZero (if (((0 + (i : ℤ) : ℤ)) : ℝ) = 0 then addMulZeroPow f0 c (- -(k : ℝ))
      else .fin (f0 + c * |(((0 + (i : ℤ) : ℤ)) : ℝ)| ^ (- -(k : ℝ)))) ∨ XFloat.gtHalf (if (((0 + (i : ℤ) : ℤ)) : ℝ) = 0 then addMulZeroPow f0 c (- -(k : ℝ))
      else .fin (f0 + c * |(((0 + (i : ℤ) : ℤ)) : ℝ)| ^ (- -(k : ℝ))))) ↔ _
    rw [h]
    exact Iff.rfl

/-- With four coefficients the law passes through both reference points, negative times included; further coefficients are ignored. -/
theorem C80_through_points (n k : ℕ) (t1 f1 t2 f2 : ℝ) (rest : List ℝ) (h1 : t1 ≠ 0) (h2 : t2 ≠ 0) (hne : t1 ^ k ≠ t2 ^ k) :
    ∃ f0 c : ℝ, fmpowerInt n (-k) (t1 :: f1 :: t2 :: f2 :: rest) = fmpowerInt n (-k) [f0, c] ∧
      f0 + c * t1 ^ k = f1 ∧ f0 + c * t2 ^ k = f2 := by
  have hz : ∀ t : ℝ, 1.0 / t ^ (-(k : ℤ)) = t ^ k := fun t => by
    rw [zpow_neg, zpow_natCast]; norm_num
  have hz' : ∀ t : ℝ, t ^ (-(k : ℤ)) = (t ^ k)⁻¹ := fun t => by rw [zpow_neg, zpow_natCast]
  have hd : t2 ^ k - t1 ^ k ≠ 0 := sub_ne_zero.2 hne.symm
  have hco : powerCoefsInt (-k) (t1 :: f1 :: t2 :: f2 :: rest)
      = .ok (f1 - (f2 - f1) / (t2 ^ k - t1 ^ k) * t1 ^ k, (f2 - f1) / (t2 ^ k - t1 ^ k)) := by
    unfold powerCoefsInt
    dsimp only
    rw [if_neg (by tauto), hz, hz, if_neg hd, hz', div_inv_eq_mul]
  refine ⟨f1 - (f2 - f1) / (t2 ^ k - t1 ^ k) * t1 ^ k, (f2 - f1) / (t2 ^ k - t1 ^ k), ?_, by ring, ?_⟩
  · unfold fmpowerInt
    rw [hco]
    rfl
  · field_simp
    ring

/-- The other coefficient lists. -/
theorem C80_coefficients (n k : ℤ) (a b d : ℝ) : fmpowerInt n k [] = .error .unboundLocalError ∧ fmpowerInt n k [a] = .error .unboundLocalError ∧
    fmpowerInt n k [a, b, d] = .error .indexError ∧
    (∀ t1 f1 t2 f2 rest, ((t1 = 0 ∨ t2 = 0) ∧ k ≠ 0) ∨ t1 ^ k = t2 ^ k →
      fmpowerInt n k (t1 :: f1 :: t2 :: f2 :: rest) = .error .zeroDivisionError) := by
  refine ⟨rfl, rfl, rfl, fun t1 f1 t2 f2 rest h => ?_⟩
  have : powerCoefsInt k (t1 :: f1 :: t2 :: f2 :: rest) = .error .zeroDivisionError := by
    unfold powerCoefsInt
    dsimp only
    rcases h with h | h
    · rw [if_pos ⟨h.1.symm, h.2⟩]
    · split
      · rfl
      · rw [if_pos (by rw [h, sub_self])]
  unfold fmpowerInt
  rw [this]
  rfl

/-- Degree 2 from 0.1 to 0.4, the documented kind of call: `ValueError`. -/
example : fmpowerInt 128 2 [1, 0.4, 100, 0.1] = .error .valueError := by
  unfold fmpowerInt powerCoefsInt
  norm_num

/-- Degree -1 (a linear law) through (-1, 0) and (2, 0.3), five coefficients. -/
example : ∃ f0 c : ℝ, fmpowerInt 3 (-1) [-1, 0, 2, 0.3, 7] = fmpowerInt 3 (-1) [f0, c] ∧ f0 + c * (-1) = 0 ∧ f0 + c * 2 = 0.3 := by
  obtain ⟨f0, c, h, h1, h2⟩ := C80_through_points 3 1 (-1) 0 2 0.3 [7] (by norm_num) (by norm_num) (by norm_num)
  exact ⟨f0, c, by exact_mod_cast h, by linarith, by linarith⟩

end Tftb.Props
