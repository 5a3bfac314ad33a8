import Verif.Lemmas.Renyi

/-! # Helper lemmas: loops of the post-processing functions -/

namespace Tftb

open Finset Spec ProcUtils Post

/-- A loop whose every step succeeds and keeps an indexed invariant. -/
theorem foldlM_range_ok {σ : Type} {f : σ → ℕ → Py σ} {N : ℕ} (P : ℕ → σ → Prop) {s : σ} (h0 : P 0 s)
    (h : ∀ k < N, ∀ s, P k s → ∃ s', f s k = .ok s' ∧ P (k + 1) s') :
    ∃ s', (List.range N).foldlM f s = .ok s' ∧ P N s' := by
  induction N with
  | zero => exact ⟨s, rfl, h0⟩
  | succ N ih =>
    obtain ⟨s1, e1, p1⟩ := ih (fun k hk => h k (by omega))
    obtain ⟨s2, e2, p2⟩ := h N (by omega) s1 p1
    refine ⟨s2, ?_, p2⟩
    rw [foldlM_range_succ, e1, ok_bind, e2]

/-- Inversion: a loop that returns has kept any invariant its successful steps keep. -/
theorem foldlM_range_inv {σ : Type} {f : σ → ℕ → Py σ} {N : ℕ} (P : ℕ → σ → Prop) {s s' : σ} (h0 : P 0 s)
    (hs : (List.range N).foldlM f s = .ok s') (h : ∀ k < N, ∀ a b, P k a → f a k = .ok b → P (k + 1) b) : P N s' := by
  induction N generalizing s' with
  | zero =>
    injection hs with hs
    exact hs ▸ h0
  | succ N ih =>
    rw [foldlM_range_succ] at hs
    obtain ⟨a, e1, e2⟩ := bind_eq_ok.1 hs
    exact h N (by omega) a s' (ih e1 (fun k hk => h k (by omega))) e2

/-- The Python range `a, …, b-1` as a loop over a counter. -/
theorem foldlM_pyRange {σ : Type} (f : σ → ℤ → Py σ) (a b : ℤ) (s : σ) :
    (pyRange a b).foldlM f s = (List.range (b - a).toNat).foldlM (fun s (i : ℕ) => f s (a + i)) s := by
  unfold pyRange
  generalize List.range (b - a).toNat = l
  induction l generalizing s with
  | nil => rfl
  | cons i l ih =>
    rw [List.map_cons, List.foldlM_cons, List.foldlM_cons]
    congr 1
    funext s'
    exact ih s'

theorem Mat.setItem_ok {α : Type} {M : Mat α} {i j : ℤ} {a : α} (hi : IdxOk M.rows i) (hj : IdxOk M.cols j) :
    M.setItem i j a = .ok ⟨M.rows, M.cols, fun r c => if r = wrapIdx M.rows i ∧ c = wrapIdx M.cols j then a else M.get r c⟩ := by
  unfold Mat.setItem; rw [if_pos ⟨hi, hj⟩]

theorem Mat.item_ok {α : Type} {M : Mat α} {i j : ℤ} (hi : IdxOk M.rows i) (hj : IdxOk M.cols j) :
    M.item i j = .ok (M.get (wrapIdx M.rows i) (wrapIdx M.cols j)) := by
  unfold Mat.item; rw [if_pos ⟨hi, hj⟩]

theorem Mat.addItem_ok {M : Mat ℝ} {i j : ℤ} {a : ℝ} (hi : IdxOk M.rows i) (hj : IdxOk M.cols j) :
    M.addItem i j a = .ok ⟨M.rows, M.cols, fun r c => M.get r c + if r = wrapIdx M.rows i ∧ c = wrapIdx M.cols j then a else 0⟩ := by
  unfold Mat.addItem
  rw [Mat.item_ok hi hj, ok_bind, Mat.setItem_ok hi hj]
  congr 2
  funext r c
  split_ifs with h
  · rw [h.1, h.2]
  · rw [add_zero]

end Tftb
