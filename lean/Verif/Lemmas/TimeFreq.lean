import Verif.Spec
import Verif.Lemmas.Dft
import Verif.Lemmas.Utils
import Mathlib.Algebra.BigOperators.Field

/-! # Helper lemmas: weighted means and the DFT of rotated, scaled and pure-tone signals -/

namespace Tftb

open Finset Spec

namespace Spec

theorem wmean_mem {n : ℕ} {p w : ℕ → ℝ} {lo hi : ℝ} (hw : ∀ i < n, 0 ≤ w i)
    (hS : 0 < ∑ i ∈ range n, w i) (hp : ∀ i < n, lo ≤ p i ∧ p i ≤ hi) :
    lo ≤ wmean n p w ∧ wmean n p w ≤ hi := by
  unfold wmean
  constructor
  · rw [le_div_iff₀ hS, Finset.mul_sum]
    exact Finset.sum_le_sum (fun i hi' => by
      have := Finset.mem_range.1 hi'
      exact mul_le_mul_of_nonneg_right (hp i this).1 (hw i this))
  · rw [div_le_iff₀ hS, Finset.mul_sum]
    exact Finset.sum_le_sum (fun i hi' => by
      have := Finset.mem_range.1 hi'
      exact mul_le_mul_of_nonneg_right (hp i this).2 (hw i this))

theorem wmean_congr {n : ℕ} {p w p' w' : ℕ → ℝ} (hp : ∀ i < n, p i = p' i)
    (hw : ∀ i < n, w i = w' i) : wmean n p w = wmean n p' w' := by
  unfold wmean
  congr 1
  · exact Finset.sum_congr rfl (fun i hi => by
      rw [hp i (Finset.mem_range.1 hi), hw i (Finset.mem_range.1 hi)])
  · exact Finset.sum_congr rfl (fun i hi => hw i (Finset.mem_range.1 hi))

theorem wvar_congr {n : ℕ} {p w p' w' : ℕ → ℝ} (hp : ∀ i < n, p i = p' i)
    (hw : ∀ i < n, w i = w' i) : wvar n p w = wvar n p' w' := by
  unfold wvar
  rw [wmean_congr hp hw]
  exact wmean_congr (fun i hi => by rw [hp i hi]) hw

theorem wmean_scale {n : ℕ} {p w : ℕ → ℝ} {c : ℝ} (hc : c ≠ 0) :
    wmean n p (fun i => c * w i) = wmean n p w := by
  unfold wmean
  have : ∀ i, p i * (c * w i) = c * (p i * w i) := fun i => by ring
  simp only [this, ← Finset.mul_sum]
  exact mul_div_mul_left _ _ hc

theorem wvar_scale {n : ℕ} {p w : ℕ → ℝ} {c : ℝ} (hc : c ≠ 0) :
    wvar n p (fun i => c * w i) = wvar n p w := by
  unfold wvar; rw [wmean_scale hc, wmean_scale hc]

theorem wmean_point {n k : ℕ} {p w : ℕ → ℝ} (hk : k < n) (hwk : w k ≠ 0)
    (hw : ∀ i < n, i ≠ k → w i = 0) : wmean n p w = p k := by
  unfold wmean
  rw [Finset.sum_eq_single_of_mem k (Finset.mem_range.2 hk),
    Finset.sum_eq_single_of_mem k (Finset.mem_range.2 hk)]
  · exact mul_div_cancel_right₀ _ hwk
  · intro i hi hne; exact hw i (Finset.mem_range.1 hi) hne
  · intro i hi hne; rw [hw i (Finset.mem_range.1 hi) hne, mul_zero]

theorem wvar_point {n k : ℕ} {p w : ℕ → ℝ} (hk : k < n) (hwk : w k ≠ 0)
    (hw : ∀ i < n, i ≠ k → w i = 0) : wvar n p w = 0 := by
  unfold wvar; rw [wmean_point hk hwk hw, wmean_point hk hwk hw]; simp

theorem wmean_nonneg {n : ℕ} {p w : ℕ → ℝ} (hw : ∀ i < n, 0 ≤ w i) (hp : ∀ i < n, 0 ≤ p i) :
    0 ≤ wmean n p w := by
  unfold wmean
  apply div_nonneg <;> apply Finset.sum_nonneg <;> intro i hi
  · exact mul_nonneg (hp i (Finset.mem_range.1 hi)) (hw i (Finset.mem_range.1 hi))
  · exact hw i (Finset.mem_range.1 hi)

theorem wvar_nonneg {n : ℕ} {p w : ℕ → ℝ} (hw : ∀ i < n, 0 ≤ w i) : 0 ≤ wvar n p w :=
  wmean_nonneg hw (fun _ _ => sq_nonneg _)

/-- Translating all positions translates the mean. -/
theorem wmean_shift {n : ℕ} {p w : ℕ → ℝ} (c : ℝ) (hS : ∑ i ∈ range n, w i ≠ 0) :
    wmean n (fun i => p i + c) w = wmean n p w + c := by
  unfold wmean
  simp only [add_mul, Finset.sum_add_distrib, ← Finset.mul_sum]
  field_simp

theorem wvar_shift {n : ℕ} {p w : ℕ → ℝ} (c : ℝ) (hS : ∑ i ∈ range n, w i ≠ 0) :
    wvar n (fun i => p i + c) w = wvar n p w := by
  unfold wvar
  rw [wmean_shift c hS]
  exact wmean_congr (fun i _ => by ring) (fun _ _ => rfl)

/-- Prepending `d` zero weights. -/
theorem wmean_prepend {n d : ℕ} {p w w' : ℕ → ℝ} (h0 : ∀ i < d, w' i = 0)
    (h1 : ∀ i, w' (d + i) = w i) : wmean (d + n) p w' = wmean n (fun i => p (d + i)) w := by
  unfold wmean
  rw [Finset.sum_range_add, Finset.sum_range_add]
  have e1 : ∑ x ∈ range d, p x * w' x = 0 :=
    Finset.sum_eq_zero (fun i hi => by rw [h0 i (Finset.mem_range.1 hi), mul_zero])
  have e2 : ∑ x ∈ range d, w' x = 0 :=
    Finset.sum_eq_zero (fun i hi => h0 i (Finset.mem_range.1 hi))
  rw [e1, e2, zero_add, zero_add]
  simp only [h1]

/-- The normalise-then-average computation of `loctime` and `locfreq`. -/
theorem mean_normalised {n : ℕ} {p a : ℕ → ℝ} (hn : n ≠ 0) :
    (∑ i ∈ range n, p i * (a i / ((∑ j ∈ range n, a j) / n))) / n = wmean n p a := by
  have hn' : (n : ℝ) ≠ 0 := Nat.cast_ne_zero.2 hn
  unfold wmean
  by_cases hS : ∑ j ∈ range n, a j = 0
  · rw [hS]; simp
  · have : ∀ i, p i * (a i / ((∑ j ∈ range n, a j) / n)) = (p i * a i) * (n / ∑ j ∈ range n, a j) := by
      intro i; field_simp
    simp only [this, ← Finset.sum_mul]
    field_simp

theorem dft_eq_dftC (x : Vec ℂ) (k : ℕ) : dft x k = dftC x.len x.get k := by
  unfold dft dtft dftC
  apply Finset.sum_congr rfl
  intro j _
  rw [rootPow_eq_expi]
  congr 2
  push_cast; ring

end Spec

/-- A rotation permutes a finite sum. -/
theorem sum_rotate {M : Type} [AddCommMonoid M] {n : ℕ} (d : ℕ) (f : ℕ → M) :
    ∑ j ∈ range n, f ((j + d) % n) = ∑ j ∈ range n, f j := by
  rcases Nat.eq_zero_or_pos n with h0 | h0
  · subst h0; simp
  apply Finset.sum_nbij (fun j => (j + d) % n)
  · intro j _; exact Finset.mem_range.2 (Nat.mod_lt _ h0)
  · intro i hi j hj h
    have hi := Finset.mem_range.1 (Finset.mem_coe.1 hi)
    have hj := Finset.mem_range.1 (Finset.mem_coe.1 hj)
    have h' : (i + d) ≡ (j + d) [MOD n] := h
    have := Nat.ModEq.add_right_cancel' d h'
    rwa [Nat.ModEq, Nat.mod_eq_of_lt hi, Nat.mod_eq_of_lt hj] at this
  · intro t ht
    have ht := Finset.mem_range.1 (Finset.mem_coe.1 ht)
    refine ⟨(t + (n - d % n)) % n, Finset.mem_coe.2 (Finset.mem_range.2 (Nat.mod_lt _ h0)), ?_⟩
    show ((t + (n - d % n)) % n + d) % n = t
    have hd := Nat.mod_lt d h0
    rw [Nat.mod_add_mod]
    have : t + (n - d % n) + d = t + n * (1 + d / n) := by
      have := Nat.mod_add_div d n
      rw [mul_add]; omega
    rw [this, Nat.add_mul_mod_self_left, Nat.mod_eq_of_lt ht]
  · intro j _; rfl

/-- DFT of a circular shift. -/
theorem dftC_rotate {n : ℕ} (hn : n ≠ 0) (x : ℕ → ℂ) (d : ℕ) (k : ℤ) :
    dftC n (fun j => x ((j + d) % n)) k = rootPow n (-((d : ℤ) * k)) * dftC n x k := by
  unfold dftC
  rw [← sum_rotate d (fun j => x j * rootPow n ((j : ℤ) * k)), Finset.mul_sum]
  apply Finset.sum_congr rfl
  intro j _
  have : rootPow n ((((j + d) % n : ℕ) : ℤ) * k) = rootPow n (((j : ℤ) + d) * k) := by
    apply rootPow_congr hn
    rw [← sub_mul]
    apply Dvd.dvd.mul_right
    push_cast
    exact (Int.mod_modEq ((j : ℤ) + d) (n : ℤ)).symm.dvd
  rw [this, add_mul, rootPow_add, rootPow_neg]
  field_simp [rootPow_ne_zero]

/-- DFT of a pure tone on bin `m`. -/
theorem dftC_tone {n : ℕ} (hn : n ≠ 0) (a : ℂ) {m k : ℕ} (hm : m < n) (hk : k < n) :
    dftC n (fun j => a * rootPow n (-((j : ℤ) * m))) k = if k = m then a * n else 0 := by
  unfold dftC
  have : ∀ j ∈ range n, a * rootPow n (-((j : ℤ) * m)) * rootPow n ((j : ℤ) * k)
      = a * rootPow n ((j : ℤ) * ((k : ℤ) - m)) := by
    intro j _
    rw [mul_assoc, ← rootPow_add]; congr 2; ring
  rw [Finset.sum_congr rfl this, ← Finset.mul_sum, sum_rootPow' hn]
  by_cases h : k = m
  · subst h; simp
  · rw [if_neg h, if_neg, mul_zero]
    rw [natCast_dvd_sub_iff hk hm]; exact h

end Tftb
