import Verif.Lemmas.Spwv
import Verif.Model.ProcUtils

/-! # Helper lemmas: trapezoidal rule and window derivative -/

namespace Tftb

open Finset Spec ProcUtils

theorem trapz_add (n : ℕ) (x f g : ℕ → ℝ) : trapz n x (fun i => f i + g i) = trapz n x f + trapz n x g := by
  unfold trapz
  rw [← Finset.sum_add_distrib]
  exact Finset.sum_congr rfl (fun i _ => by ring)

theorem trapz_smul (n : ℕ) (x f : ℕ → ℝ) (a : ℝ) : trapz n x (fun i => a * f i) = a * trapz n x f := by
  unfold trapz
  rw [Finset.mul_sum]
  exact Finset.sum_congr rfl (fun i _ => by ring)

theorem trapz_congr {n : ℕ} {x x' f f' : ℕ → ℝ} (hx : ∀ i < n, x i = x' i) (hf : ∀ i < n, f i = f' i) :
    trapz n x f = trapz n x' f' := by
  unfold trapz
  apply Finset.sum_congr rfl
  intro i hi
  rw [Finset.mem_range] at hi
  rw [hx i (by omega), hx (i + 1) (by omega), hf i (by omega), hf (i + 1) (by omega)]

theorem trapz_nonneg {n : ℕ} {x f : ℕ → ℝ} (hx : ∀ i, i + 1 < n → x i ≤ x (i + 1)) (hf : ∀ i < n, 0 ≤ f i) :
    0 ≤ trapz n x f := by
  unfold trapz
  apply Finset.sum_nonneg
  intro i hi
  rw [Finset.mem_range] at hi
  have h1 := hx i (by omega)
  have h2 := hf i (by omega)
  have h3 := hf (i + 1) (by omega)
  have : 0 ≤ (x (i + 1) - x i) * (f i + f (i + 1)) := mul_nonneg (by linarith) (by linarith)
  linarith

theorem trapz_shift (n : ℕ) (x f : ℕ → ℝ) (a : ℝ) : trapz n (fun i => x i + a) f = trapz n x f := by
  unfold trapz
  exact Finset.sum_congr rfl (fun i _ => by ring)

/-- Trapezoidal rule on a uniform grid. -/
theorem trapz_uniform {n : ℕ} (hn : 1 ≤ n) {x : ℕ → ℝ} {d : ℝ} (hx : ∀ i, i + 1 < n → x (i + 1) - x i = d) (f : ℕ → ℝ) :
    trapz n x f = ((∑ i ∈ range n, f i) - f 0 / 2 - f (n - 1) / 2) * d := by
  obtain ⟨m, rfl⟩ : ∃ m, n = m + 1 := ⟨n - 1, by omega⟩
  unfold trapz
  have e : ∑ i ∈ range (m + 1 - 1), (x (i + 1) - x i) * (f i + f (i + 1)) / 2
      = ∑ i ∈ range m, d * (f i + f (i + 1)) / 2 := by
    apply Finset.sum_congr rfl
    intro i hi
    rw [Finset.mem_range] at hi
    rw [hx i (by omega)]
  rw [e]
  clear e hx
  simp only [Nat.add_sub_cancel]
  induction m with
  | zero => simp only [zero_add, Finset.range_one, Finset.sum_singleton, Finset.range_zero, Finset.sum_empty]; ring
  | succ k ih =>
    rw [Finset.sum_range_succ, ih (by omega), Finset.sum_range_succ _ (k + 1), Finset.sum_range_succ _ k]
    ring

/-- Trapezoidal rule of an affine function: exact. -/
theorem trapz_affine {n : ℕ} (hn : 1 ≤ n) (x : ℕ → ℝ) (a b : ℝ) :
    trapz n x (fun i => a + b * x i) = (x (n - 1) - x 0) * (a + b * ((x 0 + x (n - 1)) / 2)) := by
  obtain ⟨m, rfl⟩ : ∃ m, n = m + 1 := ⟨n - 1, by omega⟩
  unfold trapz
  simp only [Nat.add_sub_cancel]
  induction m with
  | zero => simp
  | succ k ih =>
    rw [Finset.sum_range_succ, ih (by omega)]
    ring

/-- `integrate_2d` when the row grid has as many nodes as there are rows. -/
theorem integrate2d_eq (M : Mat ℝ) (x y : Vec ℝ) (hn : M.cols ≠ 0) (hx : 2 ≤ x.len) (hy : y.len = M.rows) :
    integrate2d M (some x) (some y) = .ok (trapz M.rows y.get (fun j =>
      ((∑ i ∈ range M.cols, M.get j i) - M.get j 0 / 2 - M.get j (M.cols - 1) / 2) * (x.get 1 - x.get 0))) := by
  unfold integrate2d
  simp only [Option.getD_some]
  rw [if_neg hn, Vec.item_ok (by norm_num) (by exact_mod_cast (by omega : 1 < x.len)), ok_bind,
    Vec.item_ok (by norm_num) (by exact_mod_cast (by omega : 0 < x.len)), ok_bind]
  have k1 : ∀ n : ℕ, Vec.clampIdx n 0 = 0 := by intro n; unfold Vec.clampIdx; simp
  have k2 : ∀ n : ℕ, Vec.clampIdx n ((n : ℤ) - 1) = n - 1 := by
    intro n; unfold Vec.clampIdx; split <;> omega
  have k3 : ∀ n : ℕ, Vec.clampIdx n 1 = min n 1 := by intro n; unfold Vec.clampIdx; simp
  have k4 : ∀ n : ℕ, Vec.clampIdx n n = n := by intro n; unfold Vec.clampIdx; split <;> omega
  rw [Vec.bcast_ok (by simp only [Vec.slice, k1, k2, k3, k4]; omega), ok_bind,
    Vec.bcast_ok (by simp only [Vec.slice, hy, k1, k2, k3, k4]; omega), ok_bind,
    Vec.bcast_ok (by simp only [Vec.slice, Vec.map_len, hy, k1, k2, k3, k4]; omega), ok_bind]
  congr 1
  unfold Vec.sum trapz
  simp only [Vec.slice, Vec.map_get, hy, k1, k2, k3, k4, Nat.sub_zero]
  apply Finset.sum_congr rfl
  intro j hj
  rw [Finset.mem_range] at hj
  have e : min M.rows 1 + j = j + 1 := by omega
  rw [e]
  norm_num
  ring

end Tftb
