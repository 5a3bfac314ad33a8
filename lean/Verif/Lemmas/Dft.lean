import Verif.Lemmas.Array
import Mathlib.Algebra.Field.GeomSum
import Mathlib.Algebra.BigOperators.Field

/-! # Helper lemmas on the DFT root of unity and the discrete Fourier transform -/

namespace Tftb

open Finset ComplexConjugate

@[simp] theorem rootPow_zero (n : ℕ) : rootPow n 0 = 1 := by
  unfold rootPow; simp

theorem rootPow_add (n : ℕ) (a b : ℤ) : rootPow n (a + b) = rootPow n a * rootPow n b := by
  unfold rootPow; rw [← Complex.exp_add]; congr 1; push_cast; ring

theorem rootPow_neg (n : ℕ) (a : ℤ) : rootPow n (-a) = (rootPow n a)⁻¹ := by
  unfold rootPow; rw [← Complex.exp_neg]; congr 1; push_cast; ring

theorem rootPow_eq_exp (n : ℕ) (a : ℤ) :
    rootPow n a = Complex.exp (((-(2 * Real.pi * a / n) : ℝ) : ℂ) * Complex.I) := by
  unfold rootPow; congr 1; push_cast; ring

@[simp] theorem norm_rootPow (n : ℕ) (a : ℤ) : ‖rootPow n a‖ = 1 := by
  rw [rootPow_eq_exp, Complex.norm_exp_ofReal_mul_I]

theorem rootPow_ne_zero (n : ℕ) (a : ℤ) : rootPow n a ≠ 0 := Complex.exp_ne_zero _

theorem conj_rootPow (n : ℕ) (a : ℤ) : conj (rootPow n a) = rootPow n (-a) := by
  rw [rootPow_neg, Complex.inv_def, Complex.normSq_eq_norm_sq]; simp

theorem rootPow_mul_conj (n : ℕ) (a : ℤ) : rootPow n a * conj (rootPow n a) = 1 := by
  rw [conj_rootPow, ← rootPow_add]; simp

theorem rootPow_self_mul {n : ℕ} (hn : n ≠ 0) (q : ℤ) : rootPow n ((n : ℤ) * q) = 1 := by
  have hn' : (n : ℂ) ≠ 0 := Nat.cast_ne_zero.2 hn
  unfold rootPow
  have : -(2 * (Real.pi : ℂ) * Complex.I * (((n : ℤ) * q : ℤ) : ℂ) / (n : ℂ))
      = ((-q : ℤ) : ℂ) * (2 * Real.pi * Complex.I) := by
    push_cast; field_simp
  rw [this, Complex.exp_int_mul_two_pi_mul_I]

theorem rootPow_congr {n : ℕ} (hn : n ≠ 0) {a b : ℤ} (h : (n : ℤ) ∣ a - b) :
    rootPow n a = rootPow n b := by
  obtain ⟨q, hq⟩ := h
  have : a = b + n * q := by omega
  rw [this, rootPow_add, rootPow_self_mul hn, mul_one]

theorem rootPow_emod {n : ℕ} (hn : n ≠ 0) (a : ℤ) : rootPow n (a % n) = rootPow n a := by
  apply rootPow_congr hn
  have := Int.emod_add_mul_ediv a n
  exact ⟨-(a / n), by linarith⟩

theorem rootPow_nat_mul (n : ℕ) (a : ℤ) (k : ℕ) : rootPow n (a * k) = rootPow n a ^ k := by
  unfold rootPow
  rw [← Complex.exp_nat_mul]; congr 1; push_cast; ring

theorem rootPow_eq_one_iff {n : ℕ} (hn : n ≠ 0) (a : ℤ) : rootPow n a = 1 ↔ (n : ℤ) ∣ a := by
  have hn' : (n : ℂ) ≠ 0 := Nat.cast_ne_zero.2 hn
  constructor
  · intro h
    unfold rootPow at h
    rw [Complex.exp_eq_one_iff] at h
    obtain ⟨q, hq⟩ := h
    have hpi : (2 * (Real.pi : ℂ) * Complex.I) ≠ 0 := by
      simp [Real.pi_ne_zero]
    have h2 : (2 * (Real.pi : ℂ) * Complex.I) * (-(a : ℂ)) = (2 * Real.pi * Complex.I) * (q * n) := by
      have := congrArg (fun z => z * (n : ℂ)) hq
      field_simp at this
      linear_combination (2 * (Real.pi : ℂ) * Complex.I) * this
    have h3 := mul_left_cancel₀ hpi h2
    have h4 : -a = q * n := by exact_mod_cast h3
    exact ⟨-q, by linarith⟩
  · rintro ⟨q, rfl⟩
    exact rootPow_self_mul hn q

/-- Orthogonality of the DFT characters. -/
theorem sum_rootPow {n : ℕ} (hn : n ≠ 0) (m : ℤ) :
    ∑ k ∈ range n, rootPow n (m * (k : ℤ)) = if (n : ℤ) ∣ m then (n : ℂ) else 0 := by
  by_cases h : (n : ℤ) ∣ m
  · rw [if_pos h]
    have : ∀ k ∈ range n, rootPow n (m * (k : ℤ)) = 1 := fun k _ => by
      rw [rootPow_eq_one_iff hn]; exact Dvd.dvd.mul_right h _
    rw [Finset.sum_congr rfl this]; simp
  · rw [if_neg h]
    have h1 : rootPow n m ≠ 1 := fun h' => h ((rootPow_eq_one_iff hn m).1 h')
    simp only [rootPow_nat_mul]
    rw [geom_sum_eq h1, ← rootPow_nat_mul, mul_comm m, rootPow_self_mul hn]
    simp

theorem sum_rootPow' {n : ℕ} (hn : n ≠ 0) (m : ℤ) :
    ∑ k ∈ range n, rootPow n ((k : ℤ) * m) = if (n : ℤ) ∣ m then (n : ℂ) else 0 := by
  rw [← sum_rootPow hn m]; exact Finset.sum_congr rfl (fun k _ => by rw [mul_comm])

/-- The DFT coefficient of index `k` of `n` samples. -/
noncomputable def dftC (n : ℕ) (x : ℕ → ℂ) (k : ℤ) : ℂ :=
  ∑ j ∈ range n, x j * rootPow n ((j : ℤ) * k)

theorem fft_ok {v : Vec ℂ} (h : v.len ≠ 0) :
    fft v = .ok ⟨v.len, fun k => dftC v.len v.get k⟩ := by
  unfold fft; rw [if_neg h]; rfl

theorem fft0_ok {M : Mat ℂ} (h : M.rows ≠ 0) :
    M.fft0 = .ok ⟨M.rows, M.cols, fun k c => dftC M.rows (fun r => M.get r c) k⟩ := by
  unfold Mat.fft0; rw [if_neg h]; rfl

theorem dftC_congr {n : ℕ} {x y : ℕ → ℂ} (h : ∀ j < n, x j = y j) (k : ℤ) :
    dftC n x k = dftC n y k :=
  Finset.sum_congr rfl (fun j hj => by rw [h j (Finset.mem_range.1 hj)])

theorem dftC_add (n : ℕ) (x y : ℕ → ℂ) (k : ℤ) :
    dftC n (fun j => x j + y j) k = dftC n x k + dftC n y k := by
  unfold dftC; rw [← Finset.sum_add_distrib]; exact Finset.sum_congr rfl (fun j _ => by ring)

theorem dftC_smul (n : ℕ) (a : ℂ) (x : ℕ → ℂ) (k : ℤ) :
    dftC n (fun j => a * x j) k = a * dftC n x k := by
  unfold dftC; rw [Finset.mul_sum]; exact Finset.sum_congr rfl (fun j _ => by ring)

/-- Periodicity of the spectrum. -/
theorem dftC_periodic {n : ℕ} (hn : n ≠ 0) (x : ℕ → ℂ) {k l : ℤ} (h : (n : ℤ) ∣ k - l) :
    dftC n x k = dftC n x l := by
  unfold dftC
  apply Finset.sum_congr rfl
  intro j _
  congr 1
  apply rootPow_congr hn
  rw [← mul_sub]; exact Dvd.dvd.mul_left h _

theorem conj_dftC (n : ℕ) (x : ℕ → ℂ) (k : ℤ) :
    conj (dftC n x k) = dftC n (fun j => conj (x j)) (-k) := by
  unfold dftC
  rw [map_sum]
  apply Finset.sum_congr rfl
  intro j _
  rw [map_mul, conj_rootPow, mul_neg]

/-- Summing the spectrum gives `n` times the sample at the origin. -/
theorem sum_dftC {n : ℕ} (hn : n ≠ 0) (x : ℕ → ℂ) :
    ∑ k ∈ range n, dftC n x k = n * x 0 := by
  unfold dftC
  rw [Finset.sum_comm]
  have : ∀ j ∈ range n, ∑ k ∈ range n, x j * rootPow n ((j : ℤ) * (k : ℤ))
      = if j = 0 then (n : ℂ) * x 0 else 0 := by
    intro j hj
    rw [← Finset.mul_sum, sum_rootPow hn]
    by_cases h0 : j = 0
    · subst h0; simp [mul_comm]
    · have : ¬ (n : ℤ) ∣ (j : ℤ) := by
        rw [Int.natCast_dvd_natCast]
        exact Nat.not_dvd_of_pos_of_lt (Nat.pos_of_ne_zero h0) (Finset.mem_range.1 hj)
      rw [if_neg this, if_neg h0, mul_zero]
  rw [Finset.sum_congr rfl this, Finset.sum_ite_eq' (range n) 0 (fun _ => (n : ℂ) * x 0)]
  rw [if_pos (Finset.mem_range.2 (Nat.pos_of_ne_zero hn))]

theorem natCast_dvd_sub_iff {n i j : ℕ} (hi : i < n) (hj : j < n) :
    (n : ℤ) ∣ (i : ℤ) - (j : ℤ) ↔ i = j := by
  constructor
  · rintro ⟨q, hq⟩
    have hq0 : q = 0 := by
      rcases lt_trichotomy q 0 with h | h | h
      · have : (n : ℤ) * q ≤ -(n : ℤ) := by nlinarith
        omega
      · exact h
      · have : (n : ℤ) ≤ (n : ℤ) * q := by nlinarith
        omega
    subst hq0; omega
  · rintro rfl; simp

/-- DFT inversion. -/
theorem idft_dftC {n : ℕ} (hn : n ≠ 0) (x : ℕ → ℂ) {t : ℕ} (ht : t < n) :
    ∑ k ∈ range n, dftC n x k * rootPow n (-((k : ℤ) * (t : ℤ))) = n * x t := by
  unfold dftC
  simp only [Finset.sum_mul]
  rw [Finset.sum_comm]
  have : ∀ j ∈ range n, ∑ k ∈ range n,
      x j * rootPow n ((j : ℤ) * (k : ℤ)) * rootPow n (-((k : ℤ) * (t : ℤ)))
      = if j = t then (n : ℂ) * x t else 0 := by
    intro j hj
    have h1 : ∀ k ∈ range n,
        x j * rootPow n ((j : ℤ) * (k : ℤ)) * rootPow n (-((k : ℤ) * (t : ℤ)))
        = x j * rootPow n (((j : ℤ) - t) * (k : ℤ)) := by
      intro k _
      rw [mul_assoc, ← rootPow_add]; congr 2; ring
    rw [Finset.sum_congr rfl h1, ← Finset.mul_sum, sum_rootPow hn]
    by_cases h0 : j = t
    · subst h0; simp [mul_comm]
    · rw [if_neg (fun h => h0 ((natCast_dvd_sub_iff (Finset.mem_range.1 hj) ht).1 h)), if_neg h0,
        mul_zero]
  rw [Finset.sum_congr rfl this, Finset.sum_ite_eq' (range n) t (fun _ => (n : ℂ) * x t)]
  rw [if_pos (Finset.mem_range.2 ht)]

/-- The inverse transform as used by `ifft`. -/
noncomputable def idftC (n : ℕ) (X : ℕ → ℂ) (t : ℤ) : ℂ :=
  (∑ j ∈ range n, X j * rootPow n (-((j : ℤ) * t))) / n

theorem ifft_ok {v : Vec ℂ} (h : v.len ≠ 0) :
    ifft v = .ok ⟨v.len, fun k => idftC v.len v.get k⟩ := by
  unfold ifft; rw [if_neg h]; rfl

theorem idftC_dftC {n : ℕ} (hn : n ≠ 0) (x : ℕ → ℂ) {t : ℕ} (ht : t < n) :
    idftC n (fun k => dftC n x k) t = x t := by
  have hn' : (n : ℂ) ≠ 0 := Nat.cast_ne_zero.2 hn
  unfold idftC
  rw [idft_dftC hn x ht]; field_simp

theorem dftC_idftC {n : ℕ} (hn : n ≠ 0) (X : ℕ → ℂ) {k : ℕ} (hk : k < n) :
    dftC n (fun t => idftC n X t) k = X k := by
  have hn' : (n : ℂ) ≠ 0 := Nat.cast_ne_zero.2 hn
  unfold dftC idftC
  have h1 : ∀ t ∈ range n, (∑ j ∈ range n, X j * rootPow n (-((j : ℤ) * (t : ℤ)))) / n
      * rootPow n ((t : ℤ) * (k : ℤ))
      = ∑ j ∈ range n, X j / n * rootPow n (((k : ℤ) - j) * (t : ℤ)) := by
    intro t _
    rw [Finset.sum_div, Finset.sum_mul]
    apply Finset.sum_congr rfl
    intro j _
    have : ((k : ℤ) - j) * (t : ℤ) = -((j : ℤ) * t) + (t : ℤ) * k := by ring
    rw [this, rootPow_add]; ring
  rw [Finset.sum_congr rfl h1, Finset.sum_comm]
  have : ∀ j ∈ range n, ∑ t ∈ range n, X j / n * rootPow n (((k : ℤ) - j) * (t : ℤ))
      = if j = k then X k else 0 := by
    intro j hj
    rw [← Finset.mul_sum, sum_rootPow hn]
    by_cases h0 : j = k
    · subst h0; simp; field_simp
    · rw [if_neg (fun h => h0 ((natCast_dvd_sub_iff hk (Finset.mem_range.1 hj)).1 h).symm), if_neg h0,
        mul_zero]
  rw [Finset.sum_congr rfl this, Finset.sum_ite_eq' (range n) k (fun _ => X k)]
  rw [if_pos (Finset.mem_range.2 hk)]

/-- Parseval/Plancherel for the DFT. -/
theorem sum_dftC_mul_conj {n : ℕ} (hn : n ≠ 0) (x y : ℕ → ℂ) :
    ∑ k ∈ range n, dftC n x k * conj (dftC n y k) = n * ∑ j ∈ range n, x j * conj (y j) := by
  have h1 : ∀ k ∈ range n, dftC n x k * conj (dftC n y k)
      = ∑ j ∈ range n, conj (y j) * (dftC n x k * rootPow n (-((k : ℤ) * (j : ℤ)))) := by
    intro k _
    unfold dftC
    rw [map_sum, Finset.mul_sum]
    apply Finset.sum_congr rfl
    intro j _
    rw [map_mul, conj_rootPow]
    have : -((j : ℤ) * (k : ℤ)) = -((k : ℤ) * j) := by ring
    rw [this]; ring
  rw [Finset.sum_congr rfl h1, Finset.sum_comm]
  rw [Finset.mul_sum]
  apply Finset.sum_congr rfl
  intro j hj
  rw [← Finset.mul_sum, idft_dftC hn x (Finset.mem_range.1 hj)]
  ring

theorem mul_conj_eq_norm_sq (z : ℂ) : z * conj z = ((‖z‖ ^ 2 : ℝ) : ℂ) := by
  rw [Complex.mul_conj, Complex.normSq_eq_norm_sq]

theorem parseval {n : ℕ} (hn : n ≠ 0) (x : ℕ → ℂ) :
    ∑ k ∈ range n, ‖dftC n x k‖ ^ 2 = n * ∑ j ∈ range n, ‖x j‖ ^ 2 := by
  have := sum_dftC_mul_conj hn x x
  simp only [mul_conj_eq_norm_sq] at this
  exact_mod_cast this

/-! ## Scatter-then-transform -/

/-- Transform of a zero vector into which values were stored at the residues of pairwise
incongruent positions `τ j`. -/
theorem dftC_scatter {n L : ℕ} (hn : n ≠ 0) {pos : ℕ → ℕ} {τ : ℕ → ℤ} {val : ℕ → ℂ}
    (hpos : ∀ j < L, (pos j : ℤ) = τ j % n)
    (hinj : ∀ i < L, ∀ j < L, (n : ℤ) ∣ τ i - τ j → i = j) (k : ℤ) :
    dftC n (Vec.scatter (fun _ => (0 : ℂ)) pos val L) k
      = ∑ j ∈ range L, val j * rootPow n (τ j * k) := by
  have hnz : (n : ℤ) ≠ 0 := by exact_mod_cast hn
  unfold dftC
  rw [Vec.sum_scatter_zero (n := n) (F := fun z p => z * rootPow n ((p : ℤ) * k))]
  · apply Finset.sum_congr rfl
    intro j hj
    rw [hpos j (Finset.mem_range.1 hj)]
    congr 1
    apply rootPow_congr hn
    rw [← sub_mul]
    apply Dvd.dvd.mul_right
    exact (Int.mod_modEq (τ j) n).symm.dvd
  · intro j hj
    have := hpos j hj
    have h2 := Int.emod_lt_of_pos (τ j) (by omega : (0 : ℤ) < n)
    omega
  · intro i hi j hj h
    apply hinj i hi j hj
    have h1 := hpos i hi
    have h2 := hpos j hj
    rw [h] at h1
    apply Int.ModEq.dvd
    show τ j % n = τ i % n
    rw [← h1, ← h2]
  · intro p; simp

theorem norm_sq_scatter {n L : ℕ} (hn : n ≠ 0) {pos : ℕ → ℕ} {τ : ℕ → ℤ} {val : ℕ → ℂ}
    (hpos : ∀ j < L, (pos j : ℤ) = τ j % n)
    (hinj : ∀ i < L, ∀ j < L, (n : ℤ) ∣ τ i - τ j → i = j) :
    ∑ p ∈ range n, ‖Vec.scatter (fun _ => (0 : ℂ)) pos val L p‖ ^ 2
      = ∑ j ∈ range L, ‖val j‖ ^ 2 := by
  rw [Vec.sum_scatter_zero (n := n) (F := fun z _ => ‖z‖ ^ 2)]
  · intro j hj
    have := hpos j hj
    have h2 := Int.emod_lt_of_pos (τ j) (by omega : (0 : ℤ) < n)
    omega
  · intro i hi j hj h
    apply hinj i hi j hj
    have h1 := hpos i hi
    have h2 := hpos j hj
    rw [h] at h1
    apply Int.ModEq.dvd
    show τ j % n = τ i % n
    rw [← h1, ← h2]
  · intro p; simp

/-- Positions `a, a+1, …` are pairwise incongruent when there are at most `n` of them. -/
theorem arange_incongr {n : ℕ} {a : ℤ} {L : ℕ} (hL : L ≤ n) :
    ∀ i < L, ∀ j < L, (n : ℤ) ∣ (a + (i : ℤ)) - (a + (j : ℤ)) → i = j := by
  intro i hi j hj h
  have : (n : ℤ) ∣ (i : ℤ) - (j : ℤ) := by simpa using h
  exact (natCast_dvd_sub_iff (by omega) (by omega)).1 this

end Tftb
