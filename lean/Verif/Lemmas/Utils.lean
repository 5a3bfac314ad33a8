import Verif.Model.Utils
import Verif.Lemmas.Dft
import Verif.Spec
import Mathlib.Algebra.Order.Round
import Mathlib.Analysis.Real.Sqrt

/-! # Helper lemmas for `tftb/utils.py` -/

namespace Tftb

open Finset

theorem rootPow_eq_expi (n : ℕ) (m : ℤ) : rootPow n m = Spec.expi (-(2 * Real.pi * (m / n))) := by
  rw [rootPow_eq_exp]; unfold Spec.expi; congr 2; push_cast; ring

namespace Utils

theorem dividerLoop_spec (N : ℤ) (s : ℕ) (hs : 1 ≤ s) :
    ∃ a : ℤ, dividerLoop N s = .ok (a, N / a) ∧ 1 ≤ a ∧ a ≤ s ∧ a ∣ N ∧
      ∀ c : ℤ, 1 ≤ c → c ≤ s → c ∣ N → c ≤ a := by
  induction s with
  | zero => omega
  | succ i ih =>
    unfold dividerLoop
    by_cases h : N % ((i : ℤ) + 1) = 0
    · rw [if_pos h]
      refine ⟨(i : ℤ) + 1, rfl, by omega, by push_cast; omega, Int.dvd_of_emod_eq_zero h, ?_⟩
      intro c _ hc _; push_cast at hc; exact hc
    · rw [if_neg h]
      have hi : i ≠ 0 := by rintro rfl; simp at h
      rw [if_neg hi]
      obtain ⟨a, h1, h2, h3, h4, h5⟩ := ih (by omega)
      refine ⟨a, h1, h2, by push_cast; omega, h4, ?_⟩
      intro c hc1 hc2 hc3
      rcases eq_or_ne c ((i : ℤ) + 1) with rfl | hne
      · exact absurd (Int.emod_eq_zero_of_dvd hc3) h
      · exact h5 c hc1 (by push_cast at hc2; omega) hc3

theorem truncInt_intCast (z : ℤ) : truncInt (z : ℝ) = z := by
  unfold truncInt; split <;> simp

theorem pyMod_two_intCast (z : ℤ) : pyMod (z : ℝ) 2 = ((z % 2 : ℤ) : ℝ) := by
  unfold pyMod
  have : ⌊(z : ℝ) / 2⌋ = z / 2 := by
    have := Int.floor_div_natCast (z : ℝ) 2
    simp at this; exact this
  rw [this]
  have h := Int.emod_add_mul_ediv z 2
  have h' : ((z % 2 : ℤ) : ℝ) + 2 * ((z / 2 : ℤ) : ℝ) = z := by exact_mod_cast h
  linarith

theorem pyMod_two_eq_zero_iff (x : ℝ) : pyMod x 2 = 0 ↔ ∃ z : ℤ, x = 2 * z := by
  unfold pyMod
  constructor
  · intro h; exact ⟨⌊x / 2⌋, by linarith⟩
  · rintro ⟨z, rfl⟩
    have : (2 * (z : ℝ)) / 2 = z := by ring
    rw [this, Int.floor_intCast]; ring

/-- Closed form of the scalar branch. -/
theorem nearestOdd_eq (N : ℝ) :
    nearestOdd N = (((if ⌊N⌋ % 2 = 0 then ⌊N⌋ + 1 else ⌊N⌋ : ℤ)) : ℝ) := by
  unfold nearestOdd
  by_cases h : pyMod N 2 = 0
  · rw [if_pos h]
    obtain ⟨z, rfl⟩ := (pyMod_two_eq_zero_iff N).1 h
    have hf : ⌊(2 : ℝ) * z⌋ = 2 * z := by
      have : (2 : ℝ) * z = ((2 * z : ℤ) : ℝ) := by push_cast; ring
      rw [this, Int.floor_intCast]
    rw [hf, if_pos (by omega)]; push_cast; ring
  · rw [if_neg h]
    by_cases h2 : ⌊N⌋ % 2 = 0
    · rw [if_pos h2, if_pos h2]
      congr 1
      rw [Int.ceil_eq_iff]
      constructor
      · push_cast
        have h3 := Int.floor_le N
        rcases lt_or_eq_of_le h3 with h4 | h4
        · linarith
        · exfalso; apply h
          rw [pyMod_two_eq_zero_iff]
          exact ⟨⌊N⌋ / 2, by rw [← h4]; norm_cast; simp only [Int.floor_intCast] at *; omega⟩
      · push_cast; exact (Int.lt_floor_add_one N).le
    · rw [if_neg h2, if_pos h2, if_neg h2]

theorem pyMod_pos_lt {x N : ℝ} (hN : 0 < N) : 0 ≤ pyMod x N ∧ pyMod x N < N := by
  unfold pyMod
  have h1 := Int.floor_le (x / N)
  have h2 := Int.lt_floor_add_one (x / N)
  rw [le_div_iff₀ hN] at h1
  rw [div_lt_iff₀ hN] at h2
  constructor <;> nlinarith

/-! ## izak -/

/-- Contents of the work array after `M` iterations of the loop of `izak`. -/
theorem izak_loop (x : Mat ℂ) (hn : x.rows ≠ 0) (M : ℕ) (hM : M ≤ x.cols) :
    ∃ g : ℕ → ℂ,
    (List.range M).foldlM (fun (sig : Vec ℂ) im => do
      let y ← ifft (x.col im)
      sig.put ((arange 0 x.rows).map (fun j => (im : ℤ) + j * (x.cols : ℤ)))
        (y.map (fun z => (Real.sqrt x.rows : ℂ) * z)))
      (⟨x.rows * x.cols, fun _ => 0⟩ : Vec ℂ) = .ok ⟨x.rows * x.cols, g⟩ ∧
    (∀ im < M, ∀ j < x.rows, g (im + j * x.cols)
      = (Real.sqrt x.rows : ℂ) * idftC x.rows (fun r => x.get r im) j) := by
  induction M with
  | zero => exact ⟨fun _ => 0, rfl, by intro im h; omega⟩
  | succ M ih =>
    obtain ⟨g, hg, hv⟩ := ih (by omega)
    rw [foldlM_range_succ, hg]
    have hcol : ifft (x.col M) = .ok ⟨x.rows, fun k => idftC x.rows (fun r => x.get r M) k⟩ :=
      ifft_ok (v := x.col M) hn
    have hidx : ∀ j < ((arange 0 (x.rows : ℤ)).map (fun j => (M : ℤ) + j * (x.cols : ℤ))).len,
        0 ≤ ((arange 0 (x.rows : ℤ)).map (fun j => (M : ℤ) + j * (x.cols : ℤ))).get j ∧
        ((arange 0 (x.rows : ℤ)).map (fun j => (M : ℤ) + j * (x.cols : ℤ))).get j
          < ((x.rows * x.cols : ℕ) : ℤ) := by
      intro j hj
      have hj' : j < x.rows := by simpa [Vec.map, arange] using hj
      simp only [Vec.map, arange, zero_add]
      constructor
      · positivity
      · have h1 : j + 1 ≤ x.rows := hj'
        have h2 : (j + 1) * x.cols ≤ x.rows * x.cols := Nat.mul_le_mul_right _ h1
        have h3 : M + j * x.cols < x.rows * x.cols := by nlinarith
        exact_mod_cast h3
    have hlen : (Vec.map (fun z => (Real.sqrt x.rows : ℂ) * z)
          (⟨x.rows, fun k => idftC x.rows (fun r => x.get r M) k⟩ : Vec ℂ)).len
        = ((arange 0 (x.rows : ℤ)).map (fun j => (M : ℤ) + j * (x.cols : ℤ))).len := by
      simp [Vec.map, arange]
    have hput := Vec.put_ok (v := (⟨x.rows * x.cols, g⟩ : Vec ℂ)) hidx hlen
    refine ⟨_, by
      rw [ok_bind, hcol]
      exact hput, ?_⟩
    have hpos : ∀ j, wrapIdx (x.rows * x.cols)
        (((arange 0 (x.rows : ℤ)).map (fun j => (M : ℤ) + j * (x.cols : ℤ))).get j)
        = M + j * x.cols := by
      intro j
      simp only [Vec.map, arange, zero_add]
      have : (M : ℤ) + (j : ℤ) * (x.cols : ℤ) = ((M + j * x.cols : ℕ) : ℤ) := by push_cast; ring
      rw [this, wrapIdx_natCast]
    have hl2 : ((arange 0 (x.rows : ℤ)).map (fun j => (M : ℤ) + j * (x.cols : ℤ))).len = x.rows := by
      simp [Vec.map, arange]
    simp only [hl2, hpos]
    have hc : 0 < x.cols := by omega
    intro im him j hj
    by_cases e : im = M
    · subst e
      rw [Vec.scatter_mem (pos := fun j => im + j * x.cols) hj]
      · rfl
      · intro i _ i' _ h
        have : i * x.cols = i' * x.cols := by omega
        exact Nat.eq_of_mul_eq_mul_right hc this
    · rw [Vec.scatter_not_mem]
      · exact hv im (by omega) j hj
      · intro i _ h
        have h1 : (M + i * x.cols) % x.cols = (im + j * x.cols) % x.cols := by rw [h]
        rw [Nat.add_mul_mod_self_right, Nat.add_mul_mod_self_right, Nat.mod_eq_of_lt (by omega),
          Nat.mod_eq_of_lt (by omega)] at h1
        omega

theorem izak2_ok (x : Mat ℂ) (hn : x.rows ≠ 0) :
    ∃ g : ℕ → ℂ, izak2 x = .ok ⟨x.rows * x.cols, g⟩ ∧
    (∀ im < x.cols, ∀ j < x.rows, g (im + j * x.cols)
      = (Real.sqrt x.rows : ℂ) * idftC x.rows (fun r => x.get r im) j) :=
  izak_loop x hn x.cols le_rfl

/-- Sum over `n*m` positions, by residue and quotient modulo `m`. -/
theorem sum_range_mul {M : Type} [AddCommMonoid M] (n m : ℕ) (f : ℕ → M) :
    ∑ i ∈ range (n * m), f i = ∑ r ∈ range m, ∑ c ∈ range n, f (r + c * m) := by
  induction n with
  | zero => simp
  | succ n ih =>
    rw [Nat.succ_mul, Finset.sum_range_add, ih]
    rw [← Finset.sum_add_distrib]
    apply Finset.sum_congr rfl
    intro r _
    rw [Finset.sum_range_succ]
    congr 2; ring

end Utils
end Tftb
