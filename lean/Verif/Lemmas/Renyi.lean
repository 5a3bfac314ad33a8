import Verif.Lemmas.ProcUtils
import Verif.Model.Post

/-! # Helper lemmas: Renyi information -/

namespace Tftb

open Finset Spec ProcUtils Post

theorem Vec.bcast_map_map {α α' β β' γ : Type} (f : α' → β' → γ) (g : α → α') (h : β → β') (a : Vec α) (b : Vec β) :
    Vec.bcast f (a.map g) (b.map h) = Vec.bcast (fun p q => f (g p) (h q)) a b := rfl

theorem Vec.bcast_post {α β γ δ : Type} (h : γ → δ) (f : α → β → γ) (a : Vec α) (b : Vec β) :
    Vec.bcast (fun p q => h (f p q)) a b = Vec.bcast f a b >>= fun v => .ok (v.map h) := by
  unfold Vec.bcast
  split_ifs <;> rfl

theorem Vec.bcast_returns {α β γ : Type} (f : α → β → γ) {a : Vec α} {b : Vec β} (h : a.len = b.len ∨ a.len = 1 ∨ b.len = 1) :
    ∃ v, Vec.bcast f a b = .ok v := by
  unfold Vec.bcast
  by_cases h1 : a.len = b.len
  · rw [if_pos h1]; exact ⟨_, rfl⟩
  · rw [if_neg h1]
    by_cases h2 : a.len = 1
    · rw [if_pos h2]; exact ⟨_, rfl⟩
    · rw [if_neg h2, if_pos ((h.resolve_left h1).resolve_left h2)]; exact ⟨_, rfl⟩

theorem Vec.bcast_error {α β γ : Type} (f : α → β → γ) {a : Vec α} {b : Vec β} (h : ¬ (a.len = b.len ∨ a.len = 1 ∨ b.len = 1)) :
    Vec.bcast f a b = .error .valueError := by
  unfold Vec.bcast
  rw [if_neg (fun h1 => h (Or.inl h1)), if_neg (fun h1 => h (Or.inr (Or.inl h1))), if_neg (fun h1 => h (Or.inr (Or.inr h1)))]

/-- The part of `integrate_2d` after the row sums. -/
noncomputable def rowRule (v : Vec ℝ) (m : ℕ) (y : Vec ℝ) : Py ℝ := do
  let dmat ← Vec.bcast (· + ·) (v.slice 0 ((m : ℤ) - 1)) (v.slice 1 v.len)
  let dy ← Vec.bcast (· - ·) (y.slice 1 y.len) (y.slice 0 ((m : ℤ) - 1))
  let p ← Vec.bcast (· * ·) dmat (dy.map (fun a => a / 2.0))
  .ok p.sum

theorem rowRule_smul (v : Vec ℝ) (m : ℕ) (y : Vec ℝ) (c : ℝ) :
    rowRule (v.map (c * ·)) m y = rowRule v m y >>= fun i => .ok (c * i) := by
  unfold rowRule
  have e1 : Vec.bcast (· + ·) ((v.map (c * ·)).slice 0 ((m : ℤ) - 1)) ((v.map (c * ·)).slice 1 (v.map (c * ·)).len)
      = Vec.bcast (· + ·) (v.slice 0 ((m : ℤ) - 1)) (v.slice 1 v.len) >>= fun d => .ok (d.map (c * ·)) := by
    rw [← Vec.bcast_post]
    have : (fun p q : ℝ => c * (p + q)) = fun p q => c * p + c * q := by funext p q; ring
    rw [this]
    rfl
  rw [e1]
  cases h1 : Vec.bcast (· + ·) (v.slice 0 ((m : ℤ) - 1)) (v.slice 1 v.len) with
  | error e => rfl
  | ok d =>
    simp only [ok_bind]
    cases h2 : Vec.bcast (· - ·) (y.slice 1 y.len) (y.slice 0 ((m : ℤ) - 1)) with
    | error e => rfl
    | ok dy =>
      simp only [ok_bind]
      have e2 : Vec.bcast (· * ·) (d.map (c * ·)) (dy.map (fun a => a / 2.0))
          = Vec.bcast (· * ·) d (dy.map (fun a => a / 2.0)) >>= fun p => .ok (p.map (c * ·)) := by
        rw [← Vec.bcast_post]
        have : (fun p q : ℝ => c * (p * q)) = fun p q => c * p * q := by funext p q; ring
        rw [this]
        rfl
      rw [e2]
      cases h3 : Vec.bcast (· * ·) d (dy.map (fun a => a / 2.0)) with
      | error e => rfl
      | ok p =>
        simp only [ok_bind]
        congr 1
        unfold Vec.sum
        simp only [Vec.map_len, Vec.map_get]
        rw [Finset.mul_sum]

theorem integrate2d_rowRule (M : Mat ℝ) (x y : Vec ℝ) : integrate2d M (some x) (some y)
    = if M.cols = 0 then .error .indexError else x.item 1 >>= fun x1 => x.item 0 >>= fun x0 =>
      rowRule ⟨M.rows, fun j => ((∑ i ∈ range M.cols, M.get j i) - M.get j 0 / 2.0 - M.get j (M.cols - 1) / 2.0) * (x1 - x0)⟩
        M.rows y := rfl

/-- `integrate_2d` is homogeneous, exceptions included. -/
theorem integrate2d_smul (M : Mat ℝ) (x y : Vec ℝ) (c : ℝ) : integrate2d (M.map (c * ·)) (some x) (some y)
    = integrate2d M (some x) (some y) >>= fun i => .ok (c * i) := by
  rw [integrate2d_rowRule, integrate2d_rowRule]
  by_cases h : M.cols = 0
  · rw [if_pos h, if_pos (by exact h)]; rfl
  · rw [if_neg h, if_neg (by exact h)]
    cases h1 : x.item 1 with
    | error e => rfl
    | ok x1 =>
      simp only [ok_bind]
      cases h0 : x.item 0 with
      | error e => rfl
      | ok x0 =>
        simp only [ok_bind]
        rw [← rowRule_smul]
        congr 1
        unfold Vec.map Mat.map
        simp only
        congr 1
        funext j
        rw [← Finset.mul_sum, mul_div_assoc, mul_div_assoc, ← mul_sub, ← mul_sub, mul_assoc]

/-- `integrate_2d` does not see a translation of the time grid, exceptions included. -/
theorem integrate2d_shift (M : Mat ℝ) (x y : Vec ℝ) (a : ℝ) :
    integrate2d M (some (x.map (· + a))) (some y) = integrate2d M (some x) (some y) := by
  rw [integrate2d_rowRule, integrate2d_rowRule]
  have h : ∀ i : ℤ, (x.map (· + a)).item i = x.item i >>= fun b => .ok (b + a) := by
    intro i
    unfold Vec.item
    simp only [Vec.map_len, Vec.map_get]
    split_ifs <;> rfl
  rw [h, h]
  cases h1 : x.item 1 with
  | error e => rfl
  | ok x1 =>
    simp only [ok_bind]
    cases h0 : x.item 0 with
    | error e => rfl
    | ok x0 =>
      simp only [ok_bind, add_sub_add_right_eq_sub]

theorem toList_length {α : Type} (v : Vec α) : v.toList.length = v.len := by
  unfold Vec.toList; simp

theorem toList_ofEntries (l : List ℝ) : (Vec.ofEntries l).toList = l := by
  unfold Vec.toList Vec.ofEntries
  apply List.ext_getElem
  · simp
  · intro i h1 h2
    simp only [List.getElem_map, List.getElem_range]
    rw [List.getD_eq_getElem?_getD, List.getElem?_eq_getElem h2, Option.getD_some]

theorem sort_len (v : Vec ℝ) : v.sort.len = v.len := by
  unfold Vec.sort Vec.ofEntries
  rw [← toList_length v]
  exact List.length_insertionSort _ _

open Classical in
theorem toList_sort (v : Vec ℝ) : v.sort.toList = v.toList.insertionSort (· ≤ ·) := toList_ofEntries _

open Classical in
/-- The sorted array only depends on the multiset of the entries. -/
theorem sort_perm {v w : Vec ℝ} (h : v.toList.Perm w.toList) : v.sort = w.sort := by
  have : v.toList.insertionSort (· ≤ ·) = w.toList.insertionSort (· ≤ ·) := by
    apply List.Perm.eq_of_pairwise
    · intro a b _ _ h1 h2
      exact le_antisymm h1 h2
    · exact List.pairwise_insertionSort _ _
    · exact List.pairwise_insertionSort _ _
    · exact ((List.perm_insertionSort _ _).trans h).trans (List.perm_insertionSort _ _).symm
  unfold Vec.sort
  rw [this]

open Classical in
theorem sort_sort (v : Vec ℝ) : v.sort.sort = v.sort := by
  apply sort_perm
  rw [toList_sort]
  exact List.perm_insertionSort _ _

open Classical in
/-- Sorting yields a sorted permutation. -/
theorem sort_spec (v : Vec ℝ) : v.sort.toList.Perm v.toList ∧ v.sort.toList.Pairwise (· ≤ ·) := by
  rw [toList_sort]
  exact ⟨List.perm_insertionSort _ _, List.pairwise_insertionSort _ _⟩

end Tftb
