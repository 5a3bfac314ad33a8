import Verif.Lemmas.Wvd

/-! # Helper lemmas: inversion of lag sums and sums over pairs of samples -/

namespace Tftb

open Finset ComplexConjugate Spec

theorem not_dvd_small {n : ℕ} {R τ σ : ℤ} (hRn : 2 * R + 1 ≤ n) (h1 : -R ≤ τ) (h2 : τ ≤ R) (h3 : -R ≤ σ) (h4 : σ ≤ R) (h : τ ≠ σ) :
    ¬ (n : ℤ) ∣ τ - σ := by
  intro hd
  have := Int.le_of_dvd (show 0 < |τ - σ| from abs_pos.2 (sub_ne_zero.2 h)) ((dvd_abs _ _).2 hd)
  have h5 : |τ - σ| ≤ 2 * R := abs_le.2 ⟨by omega, by omega⟩
  omega

/-- The bins give back every lag. -/
theorem lagSum_inv {R : ℤ} {n : ℕ} (hn : n ≠ 0) (hRn : 2 * R + 1 ≤ n) (v : ℤ → ℂ) {σ : ℤ} (h1 : -R ≤ σ) (h2 : σ ≤ R) :
    ∑ k ∈ range n, lagSum R n v k * rootPow n (-(σ * k)) = n * v σ := by
  simp only [lagSum_eq, Finset.sum_mul]
  rw [Finset.sum_comm]
  have key : ∀ τ ∈ Finset.Icc (-R) R, ∑ k ∈ range n, v τ * rootPow n (τ * (k : ℤ)) * rootPow n (-(σ * (k : ℤ)))
      = if τ = σ then (n : ℂ) * v σ else 0 := by
    intro τ hτ
    rw [Finset.mem_Icc] at hτ
    have : ∀ k ∈ range n, v τ * rootPow n (τ * (k : ℤ)) * rootPow n (-(σ * (k : ℤ))) = v τ * rootPow n ((τ - σ) * (k : ℤ)) := by
      intro k _
      rw [mul_assoc, ← rootPow_add]
      congr 2; ring
    rw [Finset.sum_congr rfl this, ← Finset.mul_sum, sum_rootPow hn]
    by_cases h0 : τ = σ
    · subst h0; simp; ring
    · rw [if_neg h0, if_neg (not_dvd_small hRn hτ.1 hτ.2 h1 h2 h0), mul_zero]
  rw [Finset.sum_congr rfl key, Finset.sum_ite_eq' (Finset.Icc (-R) R) σ, if_pos]
  rw [Finset.mem_Icc]; omega

/-- Parseval for lag sums. -/
theorem lagSum_inner {R : ℤ} {n : ℕ} (hn : n ≠ 0) (hRn : 2 * R + 1 ≤ n) (v w : ℤ → ℂ) :
    ∑ k ∈ range n, lagSum R n v k * conj (lagSum R n w k) = n * ∑ τ ∈ Finset.Icc (-R) R, v τ * conj (w τ) := by
  have h : ∀ k ∈ range n, lagSum R n v k * conj (lagSum R n w k)
      = ∑ σ ∈ Finset.Icc (-R) R, lagSum R n v k * rootPow n (-(σ * (k : ℤ))) * conj (w σ) := by
    intro k _
    rw [lagSum_eq R n w, map_sum, Finset.mul_sum]
    apply Finset.sum_congr rfl
    intro σ _
    rw [map_mul, conj_rootPow]
    ring
  rw [Finset.sum_congr rfl h, Finset.sum_comm, Finset.mul_sum]
  apply Finset.sum_congr rfl
  intro σ hσ
  rw [Finset.mem_Icc] at hσ
  rw [← Finset.sum_mul, lagSum_inv hn hRn v hσ.1 hσ.2]
  ring

/-- The pairs `(t + τ, t - τ)` run through the pairs of indices of equal parity. -/
theorem sum_pairs {N : ℕ} {R : ℤ} (hR : (N : ℤ) ≤ 2 * R + 2) (f : ℤ → ℤ → ℂ) (hf : ∀ a b : ℤ, ¬ ((0 ≤ a ∧ a < N) ∧ 0 ≤ b ∧ b < N) → f a b = 0) :
    ∑ t ∈ range N, ∑ τ ∈ Finset.Icc (-R) R, f (t + τ) (t - τ)
      = ∑ a ∈ range N, ∑ b ∈ range N, if a % 2 = b % 2 then f a b else 0 := by
  rw [Finset.sum_sigma', Finset.sum_sigma']
  refine Finset.sum_bij_ne_zero (fun p _ _ => ⟨((p.1 : ℤ) + p.2).toNat, ((p.1 : ℤ) - p.2).toNat⟩) ?_ ?_ ?_ ?_
  · rintro ⟨t, τ⟩ hp h0
    have hin : (0 ≤ (t : ℤ) + τ ∧ (t : ℤ) + τ < N) ∧ 0 ≤ (t : ℤ) - τ ∧ (t : ℤ) - τ < N := by
      by_contra hc
      exact h0 (hf _ _ hc)
    simp only [Finset.mem_sigma, Finset.mem_range]
    omega
  · rintro ⟨t, τ⟩ hp h0 ⟨s, σ⟩ hq h1 he
    have hin : (0 ≤ (t : ℤ) + τ ∧ (t : ℤ) + τ < N) ∧ 0 ≤ (t : ℤ) - τ ∧ (t : ℤ) - τ < N := by
      by_contra hc
      exact h0 (hf _ _ hc)
    have hin' : (0 ≤ (s : ℤ) + σ ∧ (s : ℤ) + σ < N) ∧ 0 ≤ (s : ℤ) - σ ∧ (s : ℤ) - σ < N := by
      by_contra hc
      exact h1 (hf _ _ hc)
    simp only [Sigma.mk.injEq, heq_eq_eq] at he
    obtain ⟨e1, e2⟩ := he
    have h2 : t = s := by omega
    have h3 : τ = σ := by omega
    subst h2 h3
    rfl
  · rintro ⟨a, b⟩ hp h0
    simp only [Finset.mem_sigma, Finset.mem_range] at hp
    have hpar : a % 2 = b % 2 := by
      by_contra hc
      exact h0 (if_neg hc)
    simp only [if_pos hpar] at h0
    have e1 : (((a + b) / 2 : ℕ) : ℤ) + ((a : ℤ) - b) / 2 = a := by omega
    have e2 : (((a + b) / 2 : ℕ) : ℤ) - ((a : ℤ) - b) / 2 = b := by omega
    refine ⟨⟨(a + b) / 2, ((a : ℤ) - b) / 2⟩, ?_, ?_, ?_⟩
    · simp only [Finset.mem_sigma, Finset.mem_range, Finset.mem_Icc]
      omega
    · simp only [e1, e2]
      exact h0
    · simp only [e1, e2, Int.toNat_natCast]
  · rintro ⟨t, τ⟩ hp h0
    have hin : (0 ≤ (t : ℤ) + τ ∧ (t : ℤ) + τ < N) ∧ 0 ≤ (t : ℤ) - τ ∧ (t : ℤ) - τ < N := by
      by_contra hc
      exact h0 (hf _ _ hc)
    simp only
    rw [if_pos (by omega), Int.toNat_of_nonneg hin.1.1, Int.toNat_of_nonneg hin.2.1]

theorem sum_parity_sq (N : ℕ) (u : ℕ → ℂ) :
    ∑ a ∈ range N, ∑ b ∈ range N, (if a % 2 = b % 2 then u a * conj (u b) else 0)
      = ((‖∑ i ∈ range N, if i % 2 = 0 then u i else 0‖ ^ 2 + ‖∑ i ∈ range N, if i % 2 = 1 then u i else 0‖ ^ 2 : ℝ) : ℂ) := by
  have hsq : ∀ z : ℂ, ((‖z‖ ^ 2 : ℝ) : ℂ) = z * conj z := by
    intro z
    rw [Complex.mul_conj, Complex.normSq_eq_norm_sq]
  rw [Complex.ofReal_add, hsq, hsq, map_sum, map_sum, Finset.sum_mul_sum, Finset.sum_mul_sum, ← Finset.sum_add_distrib]
  refine Finset.sum_congr rfl fun a _ => ?_
  rw [← Finset.sum_add_distrib]
  refine Finset.sum_congr rfl fun b _ => ?_
  rcases Nat.mod_two_eq_zero_or_one a with ha | ha <;> rcases Nat.mod_two_eq_zero_or_one b with hb | hb <;> simp [ha, hb]

end Tftb
