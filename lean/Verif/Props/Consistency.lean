import Verif.Props.Stft
import Verif.Props.Cohen
import Verif.Props.Reassigned
import Verif.Props.ReassignedPwv

/-! # C87 The same representation computed by two parts of the library -/

namespace Tftb.Props

open Tftb Tftb.Spec Tftb.Linear Tftb.Cohen Finset ComplexConjugate

theorem seg_sum (x h : Vec ℂ) (n L : ℕ) (hL : (L : ℤ) ≤ roundEven ((n : ℝ) / 2) - 1) (c : ℤ) (k : ℕ) :
    ∑ τ ∈ segLags (min (roundEven ((n : ℝ) / 2) - 1) L) x.len c,
      zext x (c + τ) * conj (h.get ((L : ℤ) + τ).toNat) * expi (-(2 * Real.pi * (k * τ / n))) = windowedDft x h L n c k := by
  rw [min_eq_right hL]
  unfold windowedDft
  refine Finset.sum_subset (Finset.filter_subset _ _) (fun τ h1 h2 => ?_)
  unfold segLags at h2
  rw [Finset.mem_filter] at h2
  have : zext x (c + τ) = 0 := by
    unfold zext
    rw [if_neg]
    exact fun h3 => h2 ⟨h1, h3⟩
  rw [this, zero_mul, zero_mul]

/-- The spectrogram at instant `t` is the squared modulus of column number `t` of the short-time Fourier transform with the same window,
divided by the energy of the part of the window that meets the signal. -/
theorem C87_spectrogram_stft {τ : Type} (x : Vec ℂ) (ts : Vec ℤ) (ts' : Vec τ) (n L : ℕ) (h : Vec ℂ)
    (hh : h.len = 2 * L + 1 ∨ h.len = 2 * L + 2) (hL : (L : ℤ) ≤ roundEven ((n : ℝ) / 2) - 1) (hw : WindowOk h n L x.len ts) :
    ∃ S F, SpectroReturns x ts n h S ∧ stftOf x ts' n (some h) = .ok F ∧
      ∀ k < n, ∀ m < ts.len, 0 ≤ ts.get m → ts.get m < ts'.len →
        S.get k m = ‖F.get k (ts.get m).toNat‖ ^ 2 / windowEnergy h n L x.len (ts.get m - 1) := by
  have h2L : 2 * L < n := by
    rw [roundEven_half] at hL
    split at hL <;> omega
  obtain ⟨S, s1, -, -, s4⟩ := C31_closed_form x ts n L h hh (by omega) hw
  obtain ⟨F, f1, -, -, f4⟩ := C27_stft x ts' n L h hh h2L
  refine ⟨S, F, s1, f1, fun k hk m hm h0 h1 => ?_⟩
  obtain ⟨s5, s6⟩ := s4 k hk m hm
  rw [seg_sum x h n L hL] at s6
  rw [f4 k hk _ (by omega), Int.toNat_of_nonneg h0]
  rcases hw m hm with hW | hW
  · rw [eq_div_iff hW, s6]
  · have : windowEnergy h n L x.len (ts.get m - 1) = 0 := by
      unfold windowEnergy
      rw [hW, Finset.sum_empty]
    rw [s5 hW, this, div_zero]

/-- The first result of the reassigned spectrogram is the spectrogram, in the columns whose window stays inside the signal on the left (all
instants from `L + 1` on). -/
theorem C87_reassigned_spectrogram (x : Vec ℂ) (ts : Vec ℤ) (n L : ℕ) (w : Vec ℝ) (hn : 2 ≤ n) (hx : 1 ≤ x.len)
    (hw : w.len = 2 * L + 1) (hL : 1 ≤ L) (hmid : w.get L ≠ 0) (hreg : Regular ts) (a b : ℤ)
    (hab : IsRange ts a b) (h0 : 0 ≤ a) (h1 : b ≤ x.len)
    (hW : WindowOk (w.map (fun r : ℝ => (r : ℂ))) n L x.len ts) :
    ∃ tfr rtfr v S, Reassigned.spectrogram x (some ts) (some n) (some w) = .ok (tfr, rtfr, v) ∧
      SpectroReturns x ts n (w.map (fun r : ℝ => (r : ℂ))) S ∧
      ∀ k < n, ∀ c < ts.len, (L : ℤ) < ts.get c → tfr.get k c = S.get k c := by
  obtain ⟨dw, hdw, -, -⟩ := deriveWindow_eq w (by omega)
  obtain ⟨tfr, rtfr, v, e, -, -, -, -, r5, -⟩ := C63_spectrogram_closed x ts n L w dw hn hx hw hL hmid hdw hreg a b hab h0 h1
  obtain ⟨S, s1, -, -, s4⟩ := C31_closed_form x ts n L (w.map (fun r : ℝ => (r : ℂ))) (Or.inl hw) (by omega) hW
  refine ⟨tfr, rtfr, v, S, e, s1, fun k hk c hc hlt => ?_⟩
  obtain ⟨s5, s6⟩ := s4 k hk c hc
  have hseg : reassignLags n L x.len (ts.get c) = segLags (min (roundEven ((n : ℝ) / 2) - 1) L) x.len (ts.get c - 1) := by
    ext τ
    unfold reassignLags segLags
    rw [Finset.mem_filter, Finset.mem_filter, Finset.mem_Icc]
    omega
  have hmass : reassignMass w.get n L x.len (ts.get c) = windowEnergy (w.map (fun r : ℝ => (r : ℂ))) n L x.len (ts.get c - 1) := by
    unfold reassignMass windowEnergy
    rw [hseg]
    refine Finset.sum_congr rfl (fun τ _ => ?_)
    rw [Vec.map_get, Complex.norm_real, Real.norm_eq_abs, sq_abs]
  have hsum : reassignSum x w.get n L (ts.get c) k = ∑ τ ∈ segLags (min (roundEven ((n : ℝ) / 2) - 1) L) x.len (ts.get c - 1),
      zext x (ts.get c - 1 + τ) * conj ((w.map (fun r : ℝ => (r : ℂ))).get ((L : ℤ) + τ).toNat) * expi (-(2 * Real.pi * (k * τ / n))) := by
    unfold reassignSum
    rw [hseg]
    refine Finset.sum_congr rfl (fun τ hτ => ?_)
    unfold segLags at hτ
    rw [Finset.mem_filter] at hτ
    rw [Vec.map_get, Complex.conj_ofReal]
    congr 2
    unfold cyc zext
    rw [if_pos hτ.2, Int.emod_eq_of_lt (by omega) (by omega)]
    congr 2
    ring
  rw [r5 k hk c hc, hsum, ← s6, hmass]
  rcases hW c hc with h | h
  · rw [mul_div_assoc, div_self h, mul_one]
  · have : windowEnergy (w.map (fun r : ℝ => (r : ℂ))) n L x.len (ts.get c - 1) = 0 := by
      unfold windowEnergy
      rw [h, Finset.sum_empty]
    rw [this, mul_zero, div_zero, s5 h]

/-- In the columns before, the last sample of the signal is counted as the sample before the first one: the sum whose square is taken has one
more term. -/
theorem C87_reassigned_wraps (x : Vec ℂ) (ts : Vec ℤ) (n L : ℕ) (w : Vec ℝ) (hn : 2 ≤ n) (hx : 1 ≤ x.len)
    (hw : w.len = 2 * L + 1) (hL : 1 ≤ L) (hLn : (L : ℤ) ≤ roundEven ((n : ℝ) / 2) - 1) (hmid : w.get L ≠ 0) (hreg : Regular ts) (a b : ℤ)
    (hab : IsRange ts a b) (h0 : 0 ≤ a) (h1 : b ≤ x.len) :
    ∃ tfr rtfr v, Reassigned.spectrogram x (some ts) (some n) (some w) = .ok (tfr, rtfr, v) ∧
      ∀ k < n, ∀ c < ts.len, ts.get c ≤ L → tfr.get k c * reassignMass w.get n L x.len (ts.get c)
        = ‖windowedDft x (w.map (fun r : ℝ => (r : ℂ))) L n (ts.get c - 1) k
            + x.get (x.len - 1) * w.get ((L : ℤ) - ts.get c).toNat * expi (2 * Real.pi * (k * ts.get c / n))‖ ^ 2 := by
  obtain ⟨dw, hdw, -, -⟩ := deriveWindow_eq w (by omega)
  obtain ⟨tfr, rtfr, v, e, -, -, -, -, r5, -⟩ := C63_spectrogram_closed x ts n L w dw hn hx hw hL hmid hdw hreg a b hab h0 h1
  refine ⟨tfr, rtfr, v, e, fun k hk c hc hle => ?_⟩
  have hc0 := (hab.2.2 c hc)
  have hm := reassignMass_ne_zero (w := w.get) (L := L) (N := x.len) (t := ts.get c) hn hmid (by omega) (by omega)
  rw [r5 k hk c hc, div_mul_cancel₀ _ hm]
  congr 2
  rw [← seg_sum x _ n L hLn]
  have hseg : reassignLags n L x.len (ts.get c)
      = insert (-ts.get c) (segLags (min (roundEven ((n : ℝ) / 2) - 1) L) x.len (ts.get c - 1)) := by
    ext τ
    unfold reassignLags segLags
    rw [Finset.mem_insert, Finset.mem_filter, Finset.mem_filter, Finset.mem_Icc]
    omega
  unfold reassignSum
  rw [hseg, Finset.sum_insert (by unfold segLags; rw [Finset.mem_filter]; omega), add_comm]
  congr 1
  · refine Finset.sum_congr rfl (fun τ hτ => ?_)
    unfold segLags at hτ
    rw [Finset.mem_filter] at hτ
    rw [Vec.map_get, Complex.conj_ofReal]
    congr 2
    unfold cyc zext
    rw [if_pos hτ.2, Int.emod_eq_of_lt (by omega) (by omega)]
    congr 2
    ring
  · have h3 : cyc x (ts.get c + -ts.get c - 1) = x.get (x.len - 1) := by
      unfold cyc
      congr 1
      rw [show ts.get c + -ts.get c - 1 = -1 by ring, ← Int.add_emod_right, Int.emod_eq_of_lt (by omega) (by omega)]
      omega
    rw [h3, ← sub_eq_add_neg]
    congr 2
    push_cast; ring

/-- The first result of the reassigned pseudo Wigner-Ville distribution at instant `t` is column number `t - 1` of the pseudo Wigner-Ville
distribution with the window divided by its middle sample. -/
theorem C87_reassigned_pwv {τ : Type} (x : Vec ℂ) (ts : Vec ℤ) (ts' : Vec τ) (n L : ℕ) (w : Vec ℝ) (hw : w.len = 2 * L + 1) (hL : 1 ≤ L)
    (hmid : w.get L ≠ 0) (a b : ℤ) (hab : IsRange ts a b) (h0 : 0 ≤ a) (h1 : a < x.len) (hr : (L : ℤ) < roundEven ((n : ℝ) / 2) - 1) :
    ∃ tfr rtfr v P, Reassigned.pseudoWignerVille x (some ts) (some n) (some w) = .ok (tfr, rtfr, v) ∧
      PwvdReturns x ts' n (some (w.map (fun r : ℝ => ((r / w.get L : ℝ) : ℂ)))) P ∧
      ∀ k < n, ∀ c < ts.len, 1 ≤ ts.get c → ts.get c ≤ ts'.len → tfr.get k c = P.get k (ts.get c - 1).toNat := by
  have hn : n ≠ 0 := by
    rintro rfl
    rw [roundEven_half] at hr
    simp at hr
    omega
  obtain ⟨dw, -, -, -, tfr, rtfr, v, e, -, -, -, -, -, -, r7, -, -⟩ := C71_closed x ts n L w hn hw hL hmid a b hab h0 h1
    (fun c _ => .inr (.inr hr))
  obtain ⟨P, p1, -, -, p4⟩ := C36_pwvd x ts' n (w.map (fun r : ℝ => ((r / w.get L : ℝ) : ℂ))) L hw (by omega)
  refine ⟨tfr, rtfr, v, P, e, p1, fun k hk c hc h2 h3 => ?_⟩
  rw [r7 k hk c hc, p4 k hk _ (by omega), Int.toNat_of_nonneg (by omega)]
  rfl

/-- An impulse at the last of six samples, 8 bins: it shows in the column of instant 1, around the first sample. -/
example : ∃ tfr rtfr v, Reassigned.spectrogram ⟨6, fun i => if i = 5 then (3 : ℂ) else 0⟩ (some (arange 0 (6 : ℕ))) (some 8) (some hann3)
      = .ok (tfr, rtfr, v) ∧ tfr.get 0 1 ≠ 0 := by
  obtain ⟨tfr, rtfr, v, h, h1⟩ := C87_reassigned_wraps ⟨6, fun i => if i = 5 then (3 : ℂ) else 0⟩ (arange 0 (6 : ℕ)) 8 1 hann3 (by norm_num)
    (by norm_num) rfl (le_refl 1) (by rw [roundEven_half]; norm_num) (by norm_num [hann3]) (arange_regular 6) 0 5 (arange_range (by norm_num))
    (le_refl 0) (by norm_num)
  refine ⟨tfr, rtfr, v, h, fun h0 => ?_⟩
  have := h1 0 (by norm_num) 1 (by simp [arange]) (by simp [arange])
  rw [h0, zero_mul] at this
  have hd : windowedDft ⟨6, fun i => if i = 5 then (3 : ℂ) else 0⟩ (hann3.map (fun r : ℝ => (r : ℂ))) 1 8 ((arange 0 (6 : ℕ)).get 1 - 1) 0 = 0 := by
    unfold windowedDft
    refine Finset.sum_eq_zero (fun τ hτ => ?_)
    have hz : zext ⟨6, fun i => if i = 5 then (3 : ℂ) else 0⟩ ((arange 0 (6 : ℕ)).get 1 - 1 + τ) = 0 := by
      unfold zext
      rw [Finset.mem_Icc] at hτ
      simp only [arange]
      push_cast
      split_ifs with h2 h3
      · omega
      · rfl
      · rfl
    rw [hz, zero_mul, zero_mul]
  rw [hd] at this
  norm_num [hann3, arange, expi] at this

end Tftb.Props
