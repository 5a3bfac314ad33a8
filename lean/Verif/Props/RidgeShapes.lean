import Verif.Props.Ridges
import Verif.Props.Scalogram

/-! # Property C62: too few columns or timestamps for `ridges` -/

namespace Tftb

open Finset Spec Post

/-- A reassignment matrix, or timestamps, with fewer columns than the distribution: `IndexError`, whatever the values and the method. -/
theorem C62_too_few (method : RidgeMethod) (hne : method ≠ .other) (tfr : Mat ℝ) (reMat : Mat (Option ℂ)) (ts : Vec ℝ)
    (hr : reMat.rows = tfr.rows) (h : reMat.cols < tfr.cols ∨ ts.len < tfr.cols) :
    ridges tfr reMat (some ts) method = .error .indexError := by
  have e : (List.range tfr.cols).foldlM (fun (pts : Option (Vec ℝ × Vec ℝ)) (icol : ℕ) => do
      let ti ← ts.item icol
      let mask ← ridgeMask method tfr reMat icol
      let idx := Vec.positions mask.len mask.get
      if idx = [] then .ok pts
      else .ok (some (⟨idx.length, fun _ => ti⟩, Vec.ofEntries (idx.map (fun i : ℕ => (i : ℝ) / ridgeDen method tfr.rows))))) none
      = .error .indexError := by
    refine Props.foldlM_range_error (K := min reMat.cols ts.len) (fun _ _ => True) trivial ?_ (by omega) ?_
    · intro k hk pts _
      obtain ⟨v, ev, -, -⟩ := ridgeMask_ok (method := method) hne (tfr := tfr) (c := k) hr (by omega)
      rw [Vec.item_ok (by omega) (by omega), ok_bind, ev, ok_bind]
      simp only []
      split_ifs
      · exact ⟨_, rfl, trivial⟩
      · exact ⟨_, rfl, trivial⟩
    · intro pts _
      by_cases ht : ts.len ≤ reMat.cols
      · rw [min_eq_right ht, Vec.item_error (le_refl _)]
        rfl
      · rw [min_eq_left (by omega), Vec.item_ok (by omega) (by omega), ok_bind]
        have : ridgeMask method tfr reMat reMat.cols = .error .indexError := by
          unfold ridgeMask
          simp only [le_refl, if_true]
        rw [this]
        rfl
  unfold ridges
  rw [if_neg hne]
  simp only [Option.getD_some]
  rw [e]
  rfl

/-- Three columns, two of them reassigned. -/
example : ridges ⟨2, 3, fun _ _ => 1⟩ ⟨2, 2, fun i c => some ((i : ℂ) + Complex.I * (c : ℂ))⟩ (some ⟨3, fun c => (c : ℝ)⟩) .rsp = .error .indexError :=
  C62_too_few .rsp (by decide) _ _ _ rfl (Or.inl (by norm_num))

end Tftb
