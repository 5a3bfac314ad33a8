import Verif.Model.Analytic
import Verif.Lemmas.Hilbert
import Verif.Lemmas.FM

namespace Tftb

open Finset Spec Analytic FM

/-- Number of blocks of `b` samples needed to cover `n` samples. -/
theorem ceil_div_eq (n b : ℕ) (hb : 1 ≤ b) : ⌈((n : ℤ) : ℝ) / ((b : ℤ) : ℝ)⌉ = (((n + b - 1) / b : ℕ) : ℤ) := by
  have hb' : (0 : ℝ) < ((b : ℤ) : ℝ) := by exact_mod_cast hb
  rw [Int.ceil_eq_iff]
  have h1 := Nat.div_add_mod (n + b - 1) b
  have h2 := Nat.mod_lt (n + b - 1) (show 0 < b by omega)
  set q := (n + b - 1) / b
  set r := (n + b - 1) % b
  have h3 : b * q + r + 1 = n + b := by omega
  have h3' : (b : ℝ) * q + r + 1 = n + b := by exact_mod_cast h3
  have h2' : (r : ℝ) + 1 ≤ b := by exact_mod_cast h2
  have hr0 : (0 : ℝ) ≤ r := Nat.cast_nonneg _
  push_cast at hb' ⊢
  constructor
  · rw [lt_div_iff₀ hb']; nlinarith
  · rw [div_le_iff₀ hb']; nlinarith

theorem draws_ok (n b : ℕ) (hb : 1 ≤ b) (draw : ℕ → ℝ) : draws n b draw = .ok ⟨(n + b - 1) / b, draw⟩ := by
  unfold draws
  rw [if_neg (by omega), ceil_div_eq n b hb]
  show (if (((n + b - 1) / b : ℕ) : ℤ) < 0 then _ else _) = _
  rw [if_neg (not_lt.2 (Int.natCast_nonneg _))]
  rfl

theorem repeatPy_ok (v : Vec ℝ) (b : ℕ) : repeatPy v b = .ok ⟨v.len * b, fun i => v.get (i / b)⟩ := by
  unfold repeatPy Vec.repeatEach
  rw [if_neg (not_lt.2 (by positivity))]
  rfl

/-- A negative block length: at most zero draws. -/
theorem draws_neg (n nc : ℤ) (hn : 1 ≤ n) (hc : nc < 0) (draw : ℕ → ℝ) :
    draws n nc draw = if n < -nc then .ok ⟨0, draw⟩ else .error .valueError := by
  have hn' : (1 : ℝ) ≤ n := by exact_mod_cast hn
  have hc' : (nc : ℝ) < 0 := by exact_mod_cast hc
  unfold draws
  rw [if_neg (by omega)]
  by_cases h : n < -nc
  · have h' : (n : ℝ) < -nc := by exact_mod_cast h
    have e : ⌈(n : ℝ) / (nc : ℝ)⌉ = 0 := by
      rw [Int.ceil_eq_iff]
      refine ⟨?_, by push_cast; exact div_nonpos_of_nonneg_of_nonpos (by linarith) hc'.le⟩
      rw [lt_div_iff_of_neg hc']
      push_cast
      linarith
    simp [e, h]
  · have h' : -(nc : ℝ) ≤ n := by exact_mod_cast not_lt.1 h
    have e : ⌈(n : ℝ) / (nc : ℝ)⌉ ≤ -1 := by
      rw [Int.ceil_le, div_le_iff_of_neg hc']
      push_cast
      linarith
    rw [if_neg h]
    exact if_pos (by omega)

/-- Both lengths negative: some draws, which cannot be repeated. -/
theorem draws_neg_neg (n nc : ℤ) (hn : n < 0) (hc : nc < 0) (draw : ℕ → ℝ) : ∃ m : ℕ, draws n nc draw = .ok ⟨m + 1, draw⟩ := by
  have hn' : (n : ℝ) < 0 := by exact_mod_cast hn
  have hc' : (nc : ℝ) < 0 := by exact_mod_cast hc
  have h : 0 < ⌈(n : ℝ) / (nc : ℝ)⌉ := Int.ceil_pos.2 (div_pos_of_neg_of_neg hn' hc')
  refine ⟨(⌈(n : ℝ) / (nc : ℝ)⌉ - 1).toNat, ?_⟩
  unfold draws
  rw [if_neg (by omega)]
  dsimp only
  rw [if_neg (by omega)]
  congr 2
  omega

theorem repeatPy_neg (m : ℕ) (g : ℕ → ℝ) (k : ℤ) (hk : k < 0) : repeatPy ⟨m + 1, g⟩ k = .error .valueError := by
  unfold repeatPy
  refine if_pos ?_
  push_cast
  nlinarith

theorem repeatPy_empty (g : ℕ → ℝ) (k : ℤ) (hk : k < 0) : repeatPy ⟨0, g⟩ k = .ok ⟨0, fun i => g (i / 0)⟩ := by
  unfold repeatPy Vec.repeatEach
  rw [if_neg (by simp), Int.toNat_of_nonpos hk.le]
  rfl

theorem blocks_ge (n b : ℕ) (hb : 1 ≤ b) : n ≤ (n + b - 1) / b * b := by
  have h1 := Nat.div_add_mod (n + b - 1) b
  have h2 := Nat.mod_lt (n + b - 1) (show 0 < b by omega)
  rw [mul_comm] at h1
  omega

theorem blocks_eq_iff (n b : ℕ) (hb : 1 ≤ b) : (n + b - 1) / b * b = n ↔ b ∣ n := by
  constructor
  · intro h; exact ⟨_, by rw [mul_comm]; exact h.symm⟩
  · rintro ⟨c, rfl⟩
    have : (b * c + b - 1) / b = c := by
      rw [show b * c + b - 1 = (b - 1) + b * c by omega, Nat.add_mul_div_left _ _ (by omega), Nat.div_eq_of_lt (by omega), zero_add]
    rw [this, mul_comm]

theorem slice_zero_nat {α : Type} {v : Vec α} {n : ℕ} (h : n ≤ v.len) : v.slice 0 n = ⟨n, v.get⟩ := by
  unfold Vec.slice Vec.clampIdx
  simp only [lt_irrefl, if_false, Int.toNat_zero, Nat.min_zero]
  rw [if_neg (by omega), Int.toNat_natCast, Nat.min_eq_right h]
  simp

end Tftb
