import Verif.Props.TimeFreq

/-! # C45: every outcome of `locfreq` and `loctime` -/

namespace Tftb.Props

open Tftb Tftb.Spec Tftb.TF Finset

/-- A silent signal of a length that `locfreq` accepts: zero divided by zero. -/
theorem C45_silent (x : Vec ℂ) (hn : x.len ≠ 0) (hN : x.len % 4 ≠ 1) (hx : energy x = 0) : locfreq x = .error .nonFinite := by
  have hm : (∑ k ∈ range x.len, ‖dftC x.len x.get k‖ ^ 2) / (x.len : ℝ) = 0 := by
    rw [parseval hn]
    unfold energy at hx
    rw [hx]
    simp
  simp only [locfreq, fft_ok hn, ok_bind, Vec.mean, Vec.map_len, if_neg hn, Vec.sum, Vec.map_get, if_pos hm, Vec.bcast, freqs_len _ hN, if_true]

/-- **All outcomes.**  `locfreq` raises `ValueError` for exactly the lengths 0, 5, 9, 13, … (whatever the samples), computes a NaN for exactly one sample and for silence of
the other lengths, and returns otherwise. -/
theorem C45_outcomes (x : Vec ℂ) :
    (locfreq x = .error .valueError ↔ x.len = 0 ∨ x.len % 4 = 1 ∧ 5 ≤ x.len) ∧
    (locfreq x = .error .nonFinite ↔ x.len = 1 ∨ x.len ≠ 0 ∧ x.len % 4 ≠ 1 ∧ energy x = 0) ∧
    ((∃ r, locfreq x = .ok r) ↔ x.len % 4 ≠ 1 ∧ energy x ≠ 0) := by
  by_cases h0 : x.len = 0
  · have h : locfreq x = .error .valueError := by
      unfold locfreq fft
      rw [if_pos h0]
      rfl
    have he : energy x = 0 := by unfold energy; rw [h0]; simp
    rw [h]
    refine ⟨by simp [h0], by simp [h0], by simp [he]⟩
  by_cases h1 : x.len % 4 = 1
  · by_cases h5 : 5 ≤ x.len
    · rw [C45_bad_length x h1 h5]
      refine ⟨by simp [h1, h5], ?_, by simp [h1]⟩
      simp [h1]
      omega
    · have hl : x.len = 1 := by omega
      rw [C45_one_sample x hl]
      refine ⟨by simp [hl], by simp [hl], by simp [hl]⟩
  by_cases he : energy x = 0
  · rw [C45_silent x h0 h1 he]
    refine ⟨?_, by simp [h0, h1, he], by simp [he]⟩
    simp [h0, h1]
  · rw [C45_locfreq x h1 he]
    refine ⟨by simp [h0, h1], ?_, by simp [h1, he]⟩
    simp [he]
    omega

/-- Six silent samples; six samples that are not silent. -/
example : locfreq ⟨6, fun _ => 0⟩ = .error .nonFinite ∧ ∃ r, locfreq ⟨6, fun i => if i = 2 then 1 else 0⟩ = .ok r := by
  refine ⟨((C45_outcomes _).2.1).2 (Or.inr ⟨by norm_num, by norm_num, by simp [energy]⟩), ((C45_outcomes _).2.2).2 ⟨by norm_num, ?_⟩⟩
  simp [energy, Finset.sum_range_succ]

end Tftb.Props
