import Verif.Props.Hough
import Verif.Props.IdealPeak
import Mathlib.Analysis.SpecialFunctions.Trigonometric.Bounds

/-! # Hough transforms of tones and impulses (C116) -/

namespace Tftb.Props

open Tftb Finset Tftb.Spec Tftb.ProcUtils Tftb.Post Tftb.FM

/-- Pixel `p` of an `N × N` image is at a non-negative distance that rounds to `r` steps, at angle `2 π k / N`. -/
def HoughVote (N r k : ℕ) (p : ℕ × ℕ) : Prop :=
  0 ≤ lineDist N N p.1 p.2 (2 * Real.pi * k / N) ∧
    (r : ℤ) = roundEven (lineDist N N p.1 p.2 (2 * Real.pi * k / N) * ((N : ℝ) - 1) / (Real.sqrt ((N : ℝ) ^ 2 + (N : ℝ) ^ 2) / 2))

open Classical in
/-- The Hough transform of an image with two values 0 and `A` counts the pixels. -/
theorem hough_binary (image : Mat ℝ) (N : ℕ) (hN : 1 ≤ N) (hR : image.rows = N) (hC : image.cols = N) (A : ℝ) (hA : 0 < A) (S : Finset (ℕ × ℕ)) (hne : S.Nonempty)
    (hS : S ⊆ range N ×ˢ range N) (him : ∀ i < N, ∀ j < N, image.get i j = if (i, j) ∈ S then A else 0) :
    ∃ (ht : Mat ℝ) (rho theta : Vec ℝ), houghTransform image none none = .ok (ht, rho, theta) ∧ ht.rows = N ∧ ht.cols = N ∧ rho.len = N ∧
      (∀ r < N, 2 ≤ N → rho.get r = r * (Real.sqrt ((N : ℝ) ^ 2 + (N : ℝ) ^ 2) / 2) / ((N : ℝ) - 1)) ∧
      ∀ r < N, ∀ k < N, ht.get r k = A * ((S.filter (HoughVote N r k)).card : ℝ) := by
  obtain ⟨ht, rho, theta, mx, e, h1, h2, h3, h4, -, -, h5⟩ := C53_votes image N N (by omega) (by omega) hN hN
  obtain ⟨ht', rho', theta', e', -, h6, h7⟩ := C53_rho_axis image N N (by omega) (by omega) hN hN
  have hee : (ht, rho, theta) = (ht', rho', theta') := by rw [e] at e'; injection e'
  obtain ⟨rfl, rfl, rfl⟩ : ht = ht' ∧ rho = rho' ∧ theta = theta' := by
    simpa using hee
  have hmx : mx = A := by
    obtain ⟨i, hi, j, hj, hm⟩ := h2
    obtain ⟨⟨a, b⟩, hab⟩ := hne
    have hab' := Finset.mem_product.1 (hS hab)
    simp only [Finset.mem_range] at hab'
    have h8 := h1 a (by omega) b (by omega)
    rw [him a hab'.1 b hab'.2, if_pos hab] at h8
    rw [him i (by omega) j (by omega)] at hm
    split at hm
    · exact hm.symm
    · linarith
  refine ⟨ht, rho, theta, ?_, h3, h4, h6, fun r hr h2 => ?_, fun r hr k hk => ?_⟩
  · rw [C53_default, hR, hC, e]
  · rw [h7 h2 r hr, hR, hC]
  · rw [h5 r hr k hk, hR, hC, hmx]
    rw [← Finset.sum_product' (range N) (range N) (fun i j => if A / 20 < |image.get i j| ∧ 0 ≤ lineDist N N i j (2 * Real.pi * k / N) ∧
          (r : ℤ) = roundEven (lineDist N N i j (2 * Real.pi * k / N) * ((N : ℝ) - 1) / (Real.sqrt ((N : ℝ) ^ 2 + (N : ℝ) ^ 2) / 2))
        then image.get i j else 0)]
    rw [← Finset.sum_subset hS]
    · have : ∀ p ∈ S, (if A / 20 < |image.get p.1 p.2| ∧ 0 ≤ lineDist N N p.1 p.2 (2 * Real.pi * k / N) ∧
          (r : ℤ) = roundEven (lineDist N N p.1 p.2 (2 * Real.pi * k / N) * ((N : ℝ) - 1) / (Real.sqrt ((N : ℝ) ^ 2 + (N : ℝ) ^ 2) / 2))
        then image.get p.1 p.2 else 0) = if HoughVote N r k p then A else 0 := by
        intro p hp
        have hp' := Finset.mem_product.1 (hS hp)
        simp only [Finset.mem_range] at hp'
        rw [him p.1 hp'.1 p.2 hp'.2, if_pos hp, abs_of_pos hA]
        have : A / 20 < A := by linarith
        simp only [this, true_and]
        unfold HoughVote
        congr
      rw [Finset.sum_congr rfl this, ← Finset.sum_filter, Finset.sum_const, nsmul_eq_mul, mul_comm]
    · rintro ⟨i, j⟩ hij hnot
      have := Finset.mem_product.1 hij
      simp only [Finset.mem_range] at this
      simp only [him i this.1 j this.2, if_neg hnot]
      split <;> rfl

/-- Off the multiples of `π` the sine of a multiple of `π / D` is at least `2 / D`. -/
theorem two_div_le_abs_sin {D : ℕ} (hD : 1 ≤ D) {a : ℤ} (ha : ¬ (D : ℤ) ∣ a) : 2 / (D : ℝ) ≤ |Real.sin (Real.pi * a / D)| := by
  have hpi := Real.pi_pos
  have hD0 : (0 : ℝ) < D := by exact_mod_cast hD
  set b := a % D with hb
  have hb0 : 0 ≤ b := Int.emod_nonneg _ (by omega)
  have hb1 : b < D := Int.emod_lt_of_pos _ (by omega)
  have hb2 : b ≠ 0 := fun h => ha (Int.dvd_of_emod_eq_zero h)
  have e : Real.pi * a / D = Real.pi * b / D + (a / D : ℤ) * Real.pi := by
    have : (a : ℝ) = b + D * (a / D : ℤ) := by
      have := Int.emod_add_mul_ediv a D
      rw [← hb] at this
      exact_mod_cast this.symm
    rw [this]
    field_simp
  rw [e, Real.sin_add_int_mul_pi, abs_mul, abs_zpow, abs_neg, abs_one, one_zpow, one_mul]
  have hb1' : (1 : ℝ) ≤ b := by exact_mod_cast (by omega : 1 ≤ b)
  have hb3 : (b : ℝ) + 1 ≤ D := by exact_mod_cast (by omega : b + 1 ≤ D)
  refine le_trans ?_ (le_abs_self _)
  by_cases h : 2 * b ≤ D
  · have h' : 2 * (b : ℝ) ≤ D := by exact_mod_cast h
    have := Real.mul_le_sin (x := Real.pi * b / D) (by positivity) (by rw [div_le_div_iff₀ hD0 two_pos]; nlinarith)
    refine le_trans ?_ this
    rw [show 2 / Real.pi * (Real.pi * b / D) = 2 * b / D by field_simp]
    rw [div_le_div_iff_of_pos_right hD0]; linarith
  · have h' : (D : ℝ) < 2 * b := by exact_mod_cast (by omega : (D : ℤ) < 2 * b)
    have hle : Real.pi * b / D ≤ Real.pi := by rw [div_le_iff₀ hD0]; nlinarith
    have h2 : Real.pi - Real.pi * b / D = Real.pi * (D - b) / D := by field_simp
    have := Real.mul_le_sin (x := Real.pi - Real.pi * b / D) (by linarith) (by
      rw [h2, div_le_div_iff₀ hD0 two_pos]; nlinarith)
    rw [Real.sin_pi_sub] at this
    refine le_trans ?_ this
    rw [h2, show 2 / Real.pi * (Real.pi * (D - b) / D) = 2 * (D - b) / D by field_simp]
    rw [div_le_div_iff_of_pos_right hD0]; linarith

theorem sqrt_double_bounds {N : ℕ} (hN : 1 ≤ N) : 0 < Real.sqrt ((N : ℝ) ^ 2 + (N : ℝ) ^ 2) / 2 ∧ Real.sqrt ((N : ℝ) ^ 2 + (N : ℝ) ^ 2) / 2 ≤ N * (5 / 7) := by
  have hN0 : (0 : ℝ) < N := by exact_mod_cast hN
  constructor
  · have := Real.sqrt_pos.2 (show (0 : ℝ) < (N : ℝ) ^ 2 + (N : ℝ) ^ 2 by positivity)
    positivity
  · have : Real.sqrt ((N : ℝ) ^ 2 + (N : ℝ) ^ 2) ≤ N * (10 / 7) := by
      rw [Real.sqrt_le_left (by positivity)]
      nlinarith
    linarith

/-- Two numbers that round to the same integer differ by at most one. -/
theorem roundEven_eq_close {a b : ℝ} {r : ℤ} (ha : r = roundEven a) (hb : r = roundEven b) : |a - b| ≤ 1 := by
  have h1 := abs_le.1 (abs_sub_roundEven_le a)
  have h2 := abs_le.1 (abs_sub_roundEven_le b)
  rw [← ha] at h1
  rw [← hb] at h2
  rw [abs_le]
  constructor <;> linarith

theorem step_bound {N : ℕ} (hN : 1 ≤ N) {d d' s : ℝ} {r : ℤ} (hd : |d - d'| = ((N : ℝ) - 1) * s)
    (h1 : r = roundEven (d * ((N : ℝ) - 1) / (Real.sqrt ((N : ℝ) ^ 2 + (N : ℝ) ^ 2) / 2)))
    (h2 : r = roundEven (d' * ((N : ℝ) - 1) / (Real.sqrt ((N : ℝ) ^ 2 + (N : ℝ) ^ 2) / 2))) : ((N : ℝ) - 1) ^ 2 * s ≤ N * (5 / 7) := by
  obtain ⟨h3, h4⟩ := sqrt_double_bounds hN
  have hN1 : (0 : ℝ) ≤ (N : ℝ) - 1 := by
    have : (1 : ℝ) ≤ N := by exact_mod_cast hN
    linarith
  have h5 := roundEven_eq_close h1 h2
  rw [← sub_div, ← sub_mul, abs_div, abs_mul, hd, abs_of_pos h3, abs_of_nonneg hN1, div_le_iff₀ h3] at h5
  nlinarith

theorem last_sub_first {N : ℕ} (hN : 1 ≤ N) : ((centred N (N - 1) : ℤ) : ℝ) - ((centred N 0 : ℤ) : ℝ) = (N : ℝ) - 1 := by
  unfold centred
  push_cast [Nat.cast_sub hN]
  ring

/-- When all pixels of a row vote for one cell, the angle is 0 or `π`. -/
theorem row_votes {N : ℕ} (hN : 3 ≤ N) (p r k : ℕ) (hk : k < N) (hX : centred N p ≠ 0) :
    (∀ j < N, HoughVote N r k (p, j)) ↔
      ((k = 0 ∧ 0 < centred N p) ∨ (2 * k = N ∧ centred N p < 0)) ∧
        (r : ℤ) = roundEven (|(centred N p : ℝ)| * ((N : ℝ) - 1) / (Real.sqrt ((N : ℝ) ^ 2 + (N : ℝ) ^ 2) / 2)) := by
  have hN3 : (3 : ℝ) ≤ N := by exact_mod_cast hN
  have hpi := Real.pi_pos
  have h0 : ∀ j, lineDist N N p j (2 * Real.pi * (0 : ℕ) / N) = (centred N p : ℝ) := by
    intro j; unfold lineDist; simp
  have hhalf : 2 * k = N → ∀ j, lineDist N N p j (2 * Real.pi * k / N) = -(centred N p : ℝ) := by
    intro h j
    have : (2 * Real.pi * k / N : ℝ) = Real.pi := by
      have : (N : ℝ) = 2 * k := by exact_mod_cast h.symm
      have hk0 : (k : ℝ) ≠ 0 := by intro hk0; rw [hk0] at this; linarith
      rw [this]; field_simp
    unfold lineDist; rw [this]; simp
  constructor
  · intro hv
    have v0 := hv 0 (by omega)
    have v1 := hv (N - 1) (by omega)
    have hs : (N : ℤ) ∣ 2 * (k : ℤ) := by
      by_contra hnd
      have hsin := two_div_le_abs_sin (D := N) (by omega) hnd
      rw [show Real.pi * ((2 * (k : ℤ) : ℤ) : ℝ) / N = 2 * Real.pi * k / N by push_cast; ring] at hsin
      have hd : |lineDist N N p 0 (2 * Real.pi * k / N) - lineDist N N p (N - 1) (2 * Real.pi * k / N)|
          = ((N : ℝ) - 1) * |Real.sin (2 * Real.pi * k / N)| := by
        rw [show lineDist N N p 0 (2 * Real.pi * k / N) - lineDist N N p (N - 1) (2 * Real.pi * k / N)
          = (((centred N (N - 1) : ℤ) : ℝ) - ((centred N 0 : ℤ) : ℝ)) * Real.sin (2 * Real.pi * k / N) by unfold lineDist; ring,
          last_sub_first (by omega), abs_mul, abs_of_nonneg (by linarith)]
      have hb := step_bound (by omega) hd v0.2 v1.2
      rw [div_le_iff₀ (by linarith)] at hsin
      have h2 : ((N : ℝ) - 1) ^ 2 * 2 ≤ N * (5 / 7) * N := by
        refine le_trans ?_ (mul_le_mul_of_nonneg_right hb (by linarith))
        rw [mul_assoc]
        exact mul_le_mul_of_nonneg_left hsin (by positivity)
      nlinarith
    have hk2 : k = 0 ∨ 2 * k = N := by
      obtain ⟨c, hc⟩ := hs
      have hc0 : 0 ≤ c := by by_contra h; nlinarith
      have hc2 : c < 2 := by by_contra h; nlinarith
      rcases (by omega : c = 0 ∨ c = 1) with rfl | rfl
      · left; omega
      · right; omega
    rcases hk2 with rfl | h2k
    · have hd := h0 0
      unfold HoughVote at v0
      rw [hd] at v0
      have h1 : 0 ≤ centred N p := by exact_mod_cast v0.1
      exact ⟨.inl ⟨rfl, by omega⟩, by rw [abs_of_nonneg v0.1]; exact v0.2⟩
    · have hd := hhalf h2k 0
      unfold HoughVote at v0
      rw [hd] at v0
      have h1 : centred N p ≤ 0 := by
        have : (centred N p : ℝ) ≤ 0 := by linarith [v0.1]
        exact_mod_cast this
      exact ⟨.inr ⟨h2k, by omega⟩, by rw [abs_of_nonpos (by linarith [v0.1])]; exact v0.2⟩
  · rintro ⟨h, hr⟩ j hj
    unfold HoughVote
    rcases h with ⟨rfl, hp⟩ | ⟨h2k, hp⟩
    · have hp' : (0 : ℝ) < centred N p := by exact_mod_cast hp
      rw [abs_of_pos hp'] at hr
      rw [h0 j]
      exact ⟨hp'.le, hr⟩
    · have hp' : (centred N p : ℝ) < 0 := by exact_mod_cast hp
      rw [abs_of_neg hp'] at hr
      rw [hhalf h2k j]
      exact ⟨by linarith, hr⟩

/-- When all pixels of a column vote for one cell, the angle is `π / 2` or `3 π / 2`. -/
theorem col_votes {N : ℕ} (hN : 7 ≤ N) (p r k : ℕ) (hk : k < N) (hY : centred N p ≠ 0) :
    (∀ i < N, HoughVote N r k (i, p)) ↔
      ((4 * k = 3 * N ∧ 0 < centred N p) ∨ (4 * k = N ∧ centred N p < 0)) ∧
        (r : ℤ) = roundEven (|(centred N p : ℝ)| * ((N : ℝ) - 1) / (Real.sqrt ((N : ℝ) ^ 2 + (N : ℝ) ^ 2) / 2)) := by
  have hN3 : (7 : ℝ) ≤ N := by exact_mod_cast hN
  have hpi := Real.pi_pos
  have h3 : 4 * k = 3 * N → ∀ i, lineDist N N i p (2 * Real.pi * k / N) = (centred N p : ℝ) := by
    intro h i
    have : (2 * Real.pi * k / N : ℝ) = Real.pi + Real.pi / 2 := by
      have : (4 : ℝ) * k = 3 * N := by exact_mod_cast h
      rw [show (k : ℝ) = 3 * N / 4 by linarith]; field_simp; ring
    unfold lineDist; rw [this, add_comm, Real.cos_add_pi, Real.sin_add_pi]; simp
  have h1 : 4 * k = N → ∀ i, lineDist N N i p (2 * Real.pi * k / N) = -(centred N p : ℝ) := by
    intro h i
    have : (2 * Real.pi * k / N : ℝ) = Real.pi / 2 := by
      have : (4 : ℝ) * k = N := by exact_mod_cast h
      rw [show (k : ℝ) = N / 4 by linarith]; field_simp; ring
    unfold lineDist; rw [this]; simp
  constructor
  · intro hv
    have v0 := hv 0 (by omega)
    have v1 := hv (N - 1) (by omega)
    have hs : ((2 * N : ℕ) : ℤ) ∣ (N : ℤ) - 4 * k := by
      by_contra hnd
      have hsin := two_div_le_abs_sin (D := 2 * N) (by omega) hnd
      rw [show Real.pi * (((N : ℤ) - 4 * (k : ℤ) : ℤ) : ℝ) / ((2 * N : ℕ) : ℝ) = Real.pi / 2 - 2 * Real.pi * k / N by
        push_cast; field_simp; ring, Real.sin_pi_div_two_sub] at hsin
      have hd : |lineDist N N 0 p (2 * Real.pi * k / N) - lineDist N N (N - 1) p (2 * Real.pi * k / N)|
          = ((N : ℝ) - 1) * |Real.cos (2 * Real.pi * k / N)| := by
        rw [show lineDist N N 0 p (2 * Real.pi * k / N) - lineDist N N (N - 1) p (2 * Real.pi * k / N)
          = -((((centred N (N - 1) : ℤ) : ℝ) - ((centred N 0 : ℤ) : ℝ)) * Real.cos (2 * Real.pi * k / N)) by unfold lineDist; ring,
          last_sub_first (by omega), abs_neg, abs_mul, abs_of_nonneg (by linarith)]
      have hb := step_bound (by omega) hd v0.2 v1.2
      push_cast at hsin
      rw [show (2 : ℝ) / (2 * N) = 1 / N by field_simp, div_le_iff₀ (by linarith)] at hsin
      have h2 : ((N : ℝ) - 1) ^ 2 * 1 ≤ N * (5 / 7) * N := by
        refine le_trans ?_ (mul_le_mul_of_nonneg_right hb (by linarith))
        rw [mul_assoc]
        exact mul_le_mul_of_nonneg_left hsin (by positivity)
      nlinarith
    have hk2 : 4 * k = N ∨ 4 * k = 3 * N := by
      obtain ⟨c, hc⟩ := hs
      push_cast at hc
      have hc0 : -2 < c := by by_contra h; nlinarith
      have hc2 : c < 1 := by by_contra h; nlinarith
      rcases (by omega : c = 0 ∨ c = -1) with rfl | rfl
      · left; omega
      · right; omega
    rcases hk2 with h4k | h4k
    · have hd := h1 h4k 0
      unfold HoughVote at v0
      rw [hd] at v0
      have hle : centred N p ≤ 0 := by
        have : (centred N p : ℝ) ≤ 0 := by linarith [v0.1]
        exact_mod_cast this
      exact ⟨.inr ⟨h4k, by omega⟩, by rw [abs_of_nonpos (by linarith [v0.1])]; exact v0.2⟩
    · have hd := h3 h4k 0
      unfold HoughVote at v0
      rw [hd] at v0
      have hle : 0 ≤ centred N p := by exact_mod_cast v0.1
      exact ⟨.inl ⟨h4k, by omega⟩, by rw [abs_of_nonneg v0.1]; exact v0.2⟩
  · rintro ⟨h, hr⟩ i hi
    unfold HoughVote
    rcases h with ⟨h4k, hp⟩ | ⟨h4k, hp⟩
    · have hp' : (0 : ℝ) < centred N p := by exact_mod_cast hp
      rw [abs_of_pos hp'] at hr
      dsimp only
      rw [h3 h4k i]
      exact ⟨hp'.le, hr⟩
    · have hp' : (centred N p : ℝ) < 0 := by exact_mod_cast hp
      rw [abs_of_neg hp'] at hr
      dsimp only
      rw [h1 h4k i]
      exact ⟨by linarith, hr⟩

/-- The cell in which a line at distance `|X| ≤ N / 2` is found, and what the returned distances say there. -/
theorem hough_readout {N : ℕ} (hN : 4 ≤ N) {X : ℝ} (h0 : 0 ≤ X) (hX : X ≤ (N : ℝ) / 2) :
    ∃ r0 < N, (r0 : ℤ) = roundEven (X * ((N : ℝ) - 1) / (Real.sqrt ((N : ℝ) ^ 2 + (N : ℝ) ^ 2) / 2)) ∧
      |(r0 : ℝ) * (Real.sqrt ((N : ℝ) ^ 2 + (N : ℝ) ^ 2) / 2) / ((N : ℝ) - 1) - X| < 1 / 2 := by
  have hN4 : (4 : ℝ) ≤ N := by exact_mod_cast hN
  obtain ⟨hp, hle⟩ := sqrt_double_bounds (N := N) (by omega)
  have hge : (N : ℝ) / 2 ≤ Real.sqrt ((N : ℝ) ^ 2 + (N : ℝ) ^ 2) / 2 := by
    have : (N : ℝ) ≤ Real.sqrt ((N : ℝ) ^ 2 + (N : ℝ) ^ 2) := Real.le_sqrt_of_sq_le (by nlinarith)
    linarith
  set R := Real.sqrt ((N : ℝ) ^ 2 + (N : ℝ) ^ 2) / 2
  have hb := rhoIndex_bounds (m := N) (by omega) hp h0 (by linarith)
  rw [rhoIndex_eq hp] at hb
  set z := roundEven (X * ((N : ℝ) - 1) / R) with hz
  refine ⟨z.toNat, by omega, Int.toNat_of_nonneg hb.1, ?_⟩
  have hc : ((z.toNat : ℕ) : ℝ) = z := by exact_mod_cast congrArg (Int.cast : ℤ → ℝ) (Int.toNat_of_nonneg hb.1)
  have hr := abs_sub_roundEven_le (X * ((N : ℝ) - 1) / R)
  rw [← hz] at hr
  have hN1 : (0 : ℝ) < (N : ℝ) - 1 := by linarith
  rw [hc, show (z : ℝ) * R / ((N : ℝ) - 1) - X = -((X * ((N : ℝ) - 1) / R - z) * (R / ((N : ℝ) - 1))) by field_simp; ring, abs_neg, abs_mul,
    abs_of_pos (div_pos hp hN1)]
  have h1 : R / ((N : ℝ) - 1) < 1 := by rw [div_lt_one hN1]; linarith
  have h2 : 0 < R / ((N : ℝ) - 1) := div_pos hp hN1
  nlinarith [abs_nonneg (X * ((N : ℝ) - 1) / R - z)]

open Classical in
/-- A set of `N` pixels seen by the transform: the largest possible count is reached exactly where all vote. -/
theorem hough_full (image : Mat ℝ) (N : ℕ) (hN : 4 ≤ N) (hR : image.rows = N) (hC : image.cols = N) (A : ℝ) (hA : 0 < A) (pix : ℕ → ℕ × ℕ)
    (hpix : ∀ j < N, (pix j).1 < N ∧ (pix j).2 < N) (hinj : ∀ i < N, ∀ j < N, pix i = pix j → i = j)
    (him : ∀ i < N, ∀ j < N, image.get i j = if ∃ l < N, pix l = (i, j) then A else 0) :
    ∃ (ht : Mat ℝ) (rho theta : Vec ℝ), houghTransform image none none = .ok (ht, rho, theta) ∧ ht.rows = N ∧ ht.cols = N ∧ rho.len = N ∧
      (∀ r < N, rho.get r = r * (Real.sqrt ((N : ℝ) ^ 2 + (N : ℝ) ^ 2) / 2) / ((N : ℝ) - 1)) ∧
      ∀ r < N, ∀ k < N, ht.get r k ≤ N * A ∧ (ht.get r k = N * A ↔ ∀ j < N, HoughVote N r k (pix j)) := by
  have hmem : ∀ q, q ∈ (range N).image pix ↔ ∃ l < N, pix l = q := by
    intro q; simp
  obtain ⟨ht, rho, theta, e, h1, h2, h3, h4, h5⟩ := hough_binary image N (by omega) hR hC A hA ((range N).image pix) ⟨pix 0, (hmem _).2 ⟨0, by omega, rfl⟩⟩ (by
      intro q hq
      obtain ⟨l, hl, rfl⟩ := (hmem q).1 hq
      exact Finset.mem_product.2 ⟨Finset.mem_range.2 (hpix l hl).1, Finset.mem_range.2 (hpix l hl).2⟩) (by
      intro i hi j hj
      rw [him i hi j hj]
      simp only [hmem])
  have hcard : ((range N).image pix).card = N := by
    rw [Finset.card_image_of_injOn, Finset.card_range]
    intro i hi j hj hij
    exact hinj i (by simpa using hi) j (by simpa using hj) hij
  refine ⟨ht, rho, theta, e, h1, h2, h3, fun r hr => h4 r hr (by omega), fun r hr k hk => ?_⟩
  rw [h5 r hr k hk]
  have hle := Finset.card_filter_le ((range N).image pix) (HoughVote N r k)
  rw [hcard] at hle
  refine ⟨?_, ?_⟩
  · rw [mul_comm]
    exact mul_le_mul_of_nonneg_right (by exact_mod_cast hle) hA.le
  · rw [mul_comm (N : ℝ) A, mul_right_inj' hA.ne', Nat.cast_inj]
    constructor
    · intro h j hj
      have := Finset.card_filter_eq_iff.1 (h.trans hcard.symm)
      exact this _ ((hmem _).2 ⟨j, hj, rfl⟩)
    · intro h
      refine Eq.trans (Finset.card_filter_eq_iff.2 fun q hq => ?_) hcard
      obtain ⟨l, hl, rfl⟩ := (hmem q).1 hq
      exact h l hl

/-- **A row.**  The Hough transform (default arguments) of an `N × N` image with one constant row `p`, not the middle one, is largest, with value `N A`, at angle 0 if the row is
beyond the middle, at angle `π` if it is before the middle and `N` is even, at a distance which the returned axis gives to within half a row, and nowhere else;
for odd `N` and a row before the middle the value `N A` is not reached anywhere. -/
theorem C116_row (image : Mat ℝ) (N : ℕ) (hN : 4 ≤ N) (hR : image.rows = N) (hC : image.cols = N) (A : ℝ) (hA : 0 < A) (p : ℕ) (hp : p < N)
    (him : ∀ i < N, ∀ j < N, image.get i j = if i = p then A else 0) (hX : centred N p ≠ 0) :
    ∃ (ht : Mat ℝ) (rho theta : Vec ℝ), houghTransform image none none = .ok (ht, rho, theta) ∧ ht.rows = N ∧ ht.cols = N ∧ rho.len = N ∧
      ∃ r0 < N, abs (rho.get r0 - abs (centred N p : ℝ)) < 1 / 2 ∧ ∀ r < N, ∀ k < N, ht.get r k ≤ N * A ∧
        (ht.get r k = N * A ↔ r = r0 ∧ ((k = 0 ∧ 0 < centred N p) ∨ (2 * k = N ∧ centred N p < 0))) := by
  classical
  obtain ⟨ht, rho, theta, e, h1, h2, h3, h4, h5⟩ := hough_full image N hN hR hC A hA (fun j => (p, j)) (fun j hj => ⟨hp, hj⟩) (fun i _ j _ h => by simpa using h) (by
    intro i hi j hj
    rw [him i hi j hj]
    congr 1
    simp only [Prod.mk.injEq, eq_iff_iff]
    exact ⟨fun h => ⟨j, hj, h.symm, rfl⟩, fun ⟨l, _, h, _⟩ => h.symm⟩)
  obtain ⟨r0, hr0, hz, hd⟩ := hough_readout hN (abs_nonneg (centred N p : ℝ)) (centred_abs_le hp)
  refine ⟨ht, rho, theta, e, h1, h2, h3, r0, hr0, by rw [h4 r0 hr0]; exact hd, fun r hr k hk => ⟨(h5 r hr k hk).1, ?_⟩⟩
  rw [(h5 r hr k hk).2, row_votes (by omega) p r k hk hX, ← hz, Nat.cast_inj]
  exact and_comm

/-- **A column.**  For `N ≥ 7` and one constant column `p`, not the middle one, the largest value `N A` is reached at angle `3 π / 2` if the column is beyond the middle, `π / 2` if before,
provided `N` is a multiple of four, and nowhere else. -/
theorem C116_column (image : Mat ℝ) (N : ℕ) (hN : 7 ≤ N) (hR : image.rows = N) (hC : image.cols = N) (A : ℝ) (hA : 0 < A) (p : ℕ) (hp : p < N)
    (him : ∀ i < N, ∀ j < N, image.get i j = if j = p then A else 0) (hY : centred N p ≠ 0) :
    ∃ (ht : Mat ℝ) (rho theta : Vec ℝ), houghTransform image none none = .ok (ht, rho, theta) ∧ ht.rows = N ∧ ht.cols = N ∧ rho.len = N ∧
      ∃ r0 < N, abs (rho.get r0 - abs (centred N p : ℝ)) < 1 / 2 ∧ ∀ r < N, ∀ k < N, ht.get r k ≤ N * A ∧
        (ht.get r k = N * A ↔ r = r0 ∧ ((4 * k = 3 * N ∧ 0 < centred N p) ∨ (4 * k = N ∧ centred N p < 0))) := by
  classical
  obtain ⟨ht, rho, theta, e, h1, h2, h3, h4, h5⟩ := hough_full image N (by omega) hR hC A hA (fun j => (j, p)) (fun j hj => ⟨hj, hp⟩) (fun i _ j _ h => by simpa using h) (by
    intro i hi j hj
    rw [him i hi j hj]
    congr 1
    simp only [Prod.mk.injEq, eq_iff_iff]
    exact ⟨fun h => ⟨i, hi, rfl, h.symm⟩, fun ⟨l, _, _, h⟩ => h.symm⟩)
  obtain ⟨r0, hr0, hz, hd⟩ := hough_readout (N := N) (by omega) (abs_nonneg (centred N p : ℝ)) (centred_abs_le hp)
  refine ⟨ht, rho, theta, e, h1, h2, h3, r0, hr0, by rw [h4 r0 hr0]; exact hd, fun r hr k hk => ⟨(h5 r hr k hk).1, ?_⟩⟩
  rw [(h5 r hr k hk).2, col_votes hN p r k hk hY, ← hz, Nat.cast_inj]
  exact and_comm

/-- **A tone.**  `fmconst`, `ideal_tfr` and `hough_transform` in a row: the ideal representation of a tone of frequency `f` is the row nearest to `2 (N - 1) f`, and the
transform finds it as stated in `C116_row`. -/
theorem C116_tone (N c : ℕ) (hN : 4 ≤ N) (hc : c < N) (f : ℝ) (h0 : 0 ≤ f) (h1 : f ≤ 1 / 2) :
    ∃ (y : Vec ℂ) (law : Vec ℝ) (tfr : Mat (Option ℝ)) (freqs : Vec ℝ), fmconst N f (some c) = .ok (y, law) ∧
      idealTfr ⟨1, N, fun _ t => some (law.get t)⟩ none none = .ok (tfr, arange 0 N, freqs) ∧
      ∃ p < N, |(p : ℝ) - 2 * ((N : ℝ) - 1) * f| ≤ 1 / 2 ∧ (∀ i < N, ∀ j < N, tfr.get i j = some (if i = p then 1 else 0)) ∧
      (centred N p ≠ 0 → ∃ (ht : Mat ℝ) (rho theta : Vec ℝ), houghTransform (tfr.map (fun o => o.getD 0)) none none = .ok (ht, rho, theta) ∧
        ∃ r0 < N, abs (rho.get r0 - abs (centred N p : ℝ)) < 1 / 2 ∧ ∀ r < N, ∀ k < N, ht.get r k ≤ N ∧
          (ht.get r k = N ↔ r = r0 ∧ ((k = 0 ∧ 0 < centred N p) ∨ (2 * k = N ∧ centred N p < 0)))) := by
  obtain ⟨y, law, e, -, hll, -, -, -, hlaw⟩ := C09_fmconst N c f hc (by rw [abs_of_nonneg h0]; exact h1)
  obtain ⟨hl, hg⟩ := arange_default N
  obtain ⟨tfr, fr, e2, hr, hcol, -, -, hM⟩ := C51_marks ⟨1, N, fun _ t => some (law.get t)⟩ (fun _ t => law.get t) (arange 0 N) N (by omega) (fun _ _ _ _ => rfl)
    (fun _ _ t ht => by
      have ht' : t < N := ht
      simp only [hlaw t ht']; exact ⟨h0, h1⟩) (fun c hc => by rw [hl] at hc; rw [hg]; exact ⟨by omega, by simpa using hc⟩)
  obtain ⟨b0, b1⟩ := ideal_row (n := N) (by omega) h0 h1
  set z := roundEven (f * 2 * ((N : ℝ) - 1)) with hz
  have hcast : ((z.toNat : ℕ) : ℝ) = z := by exact_mod_cast congrArg (Int.cast : ℤ → ℝ) (Int.toNat_of_nonneg b0)
  have hent : ∀ i < N, ∀ j < N, tfr.get i j = some (if i = z.toNat then 1 else 0) := by
    intro i hi j hj
    have hmk := hM i hi j (by rw [hl]; exact hj)
    have htn : ((arange 0 (N : ℤ)).get j).toNat = j := by rw [hg]; simp
    rw [htn] at hmk
    by_cases h : i = z.toNat
    · rw [if_pos h, hmk.1 ⟨0, Nat.one_pos, by rw [hlaw j hj, ← hz]; omega⟩]
    · rw [if_neg h, hmk.2]
      rintro ⟨_, _, h2⟩
      rw [hlaw j hj, ← hz] at h2
      omega
  refine ⟨y, law, tfr, fr, e, ?_, z.toNat, by omega, ?_, hent, fun hX => ?_⟩
  · rw [C51_default _ (le_refl 1)]
    exact e2
  · have := abs_sub_roundEven_le (f * 2 * ((N : ℝ) - 1))
    rw [← hz, abs_sub_comm] at this
    rw [hcast, show 2 * ((N : ℝ) - 1) * f = f * 2 * ((N : ℝ) - 1) by ring]
    exact this
  · obtain ⟨ht, rho, theta, e3, -, -, -, r0, hr0, hd, h5⟩ := C116_row (tfr.map (fun o => o.getD 0)) N hN hr (by exact hcol.trans hl) 1 one_pos z.toNat (by omega)
      (fun i hi j hj => by show (tfr.get i j).getD 0 = _; rw [hent i hi j hj]; rfl) hX
    refine ⟨ht, rho, theta, e3, r0, hr0, hd, ?_⟩
    simpa only [mul_one] using h5

/-- Eight samples at frequency 5/14: row 5, two rows beyond the middle one (3); found at angle 0 and nowhere else. -/
example : ∃ (y : Vec ℂ) (law : Vec ℝ) (tfr : Mat (Option ℝ)) (freqs : Vec ℝ) (ht : Mat ℝ) (rho theta : Vec ℝ), fmconst 8 (5 / 14) (some (0 : ℕ)) = .ok (y, law) ∧
    idealTfr ⟨1, 8, fun _ t => some (law.get t)⟩ none none = .ok (tfr, arange 0 (8 : ℕ), freqs) ∧
    houghTransform (tfr.map (fun o => o.getD 0)) none none = .ok (ht, rho, theta) ∧
    ∃ r0 < 8, |rho.get r0 - 2| < 1 / 2 ∧ ht.get r0 0 = 8 ∧ ∀ r < 8, ∀ k < 8, k ≠ 0 → ht.get r k < 8 := by
  obtain ⟨y, law, tfr, fr, e1, e2, p, hp, hd, -, h⟩ := C116_tone 8 0 (by norm_num) (by norm_num) (5 / 14) (by norm_num) (by norm_num)
  have hp5 : p = 5 := by
    have h2 := abs_le.1 hd
    have h3 : (p : ℝ) < 6 := by have := h2.2; push_cast at this; linarith
    have h4 : (4 : ℝ) < p := by have := h2.1; push_cast at this; linarith
    have h3' : p < 6 := by exact_mod_cast h3
    have h4' : 4 < p := by exact_mod_cast h4
    omega
  subst hp5
  have hc : centred 8 5 = 2 := by unfold centred; norm_num
  rw [hc] at h
  obtain ⟨ht, rho, theta, e3, r0, hr0, h4, h5⟩ := h (by norm_num)
  refine ⟨y, law, tfr, fr, ht, rho, theta, e1, e2, e3, r0, hr0, by simpa using h4, ?_, fun r hr k hk hk0 => ?_⟩
  · exact (h5 r0 hr0 0 (by norm_num)).2.2 ⟨rfl, .inl ⟨rfl, by norm_num⟩⟩
  · obtain ⟨hle, hiff⟩ := h5 r hr k hk
    refine lt_of_le_of_ne hle fun heq => ?_
    rcases (hiff.1 heq).2 with ⟨h, _⟩ | ⟨_, h⟩
    · exact hk0 h
    · norm_num at h

/-- An impulse in column 5 of eight: found at angle `3 π / 2` (cell 6). -/
example : ∃ (ht : Mat ℝ) (rho theta : Vec ℝ), houghTransform ⟨8, 8, fun _ j => if j = 5 then 3 else 0⟩ none none = .ok (ht, rho, theta) ∧
    ∃ r0 < 8, |rho.get r0 - 2| < 1 / 2 ∧ ht.get r0 6 = 24 := by
  have hc : centred 8 5 = 2 := by unfold centred; norm_num
  obtain ⟨ht, rho, theta, e, -, -, -, r0, hr0, h4, h5⟩ := C116_column ⟨8, 8, fun _ j => if j = 5 then 3 else 0⟩ 8 (by norm_num) rfl rfl 3 (by norm_num) 5 (by norm_num)
    (fun _ _ _ _ => rfl) (by rw [hc]; norm_num)
  rw [hc] at h4 h5
  refine ⟨ht, rho, theta, e, r0, hr0, by simpa using h4, ?_⟩
  rw [(h5 r0 hr0 6 (by norm_num)).2.2 ⟨rfl, .inl ⟨by norm_num, by norm_num⟩⟩]
  norm_num

end Tftb.Props
