import Verif.Props.RenyiOrder
import Verif.Props.Stft

/-! # C138 — the information of a spectrogram -/

namespace Tftb.Props

open Tftb Tftb.Spec Tftb.Post Tftb.ProcUtils Tftb.Cohen Tftb.Linear Finset

/-- Distinct values, sorted, increase strictly. -/
theorem sort_strict (f : Vec ℝ) (hd : ∀ i < f.len, ∀ j < f.len, f.get i = f.get j → i = j) :
    ∀ i, i + 1 < f.len → f.sort.get i < f.sort.get (i + 1) := by
  intro i hi
  have hnd : f.toList.Nodup := by
    unfold Vec.toList
    refine List.Nodup.map_on (fun a ha b hb h => ?_) List.nodup_range
    exact hd a (List.mem_range.1 ha) b (List.mem_range.1 hb) h
  have hs := (sort_spec f).1.nodup_iff.2 hnd
  refine lt_of_le_of_ne (sort_mono f i hi) fun h => ?_
  have hl : f.sort.toList.length = f.len := by rw [← sort_len f]; simp [Vec.toList]
  have h2 := (List.Nodup.getElem_inj_iff hs (i := i) (j := i + 1) (hi := by omega) (hj := by omega)).1 (by simpa [Vec.toList] using h)
  omega

/-- The trapezoidal rule gives every node a positive weight. -/
theorem trapz_pos {n : ℕ} (hn : 2 ≤ n) {x f : ℕ → ℝ} (hx : ∀ i, i + 1 < n → x i < x (i + 1)) (hf : ∀ i < n, 0 ≤ f i) (c : ℕ) (hc : c < n) (hp : 0 < f c) :
    0 < trapz n x f := by
  unfold trapz
  have h0 : ∀ i ∈ range (n - 1), 0 ≤ (x (i + 1) - x i) * (f i + f (i + 1)) / 2 := by
    intro i hi
    have hi' : i + 1 < n := by have := Finset.mem_range.1 hi; omega
    have := hx i hi'
    have h1 := hf i (by omega)
    have h2 := hf (i + 1) hi'
    have : 0 ≤ x (i + 1) - x i := by linarith
    positivity
  rcases Nat.lt_or_ge (c + 1) n with h | h
  · refine Finset.sum_pos' h0 ⟨c, Finset.mem_range.2 (by omega), ?_⟩
    have := hx c h
    have h2 := hf (c + 1) h
    have : 0 < x (c + 1) - x c := by linarith
    positivity
  · refine Finset.sum_pos' h0 ⟨c - 1, Finset.mem_range.2 (by omega), ?_⟩
    have e : c - 1 + 1 = c := by omega
    have := hx (c - 1) (by omega)
    rw [e] at this ⊢
    have h2 := hf (c - 1) (by omega)
    have : 0 < x c - x (c - 1) := by linarith
    positivity

theorem trapz2_pos {M : Mat ℝ} {x y : ℕ → ℝ} (hr : 2 ≤ M.rows) (hc : 2 ≤ M.cols) (hx : ∀ i, i + 1 < M.cols → x i < x (i + 1))
    (hy : ∀ i, i + 1 < M.rows → y i < y (i + 1)) (hM : ∀ r < M.rows, ∀ c < M.cols, 0 ≤ M.get r c) (r c : ℕ) (h1 : r < M.rows) (h2 : c < M.cols)
    (hp : 0 < M.get r c) : 0 < trapz2 M x y := by
  unfold trapz2
  refine trapz_pos hr hy (fun j hj => ?_) r h1 (trapz_pos hc hx (fun i hi => hM r h1 i hi) c h2 hp)
  exact trapz_nonneg (fun i hi => (hx i hi).le) fun i hi => hM j hj i hi

/-- The spectrogram at all the instants of a signal that is not silent, on distinct frequencies, is a density. -/
theorem spectrogram_density (x : Vec ℂ) (hN : 2 ≤ x.len) (hx : energy x ≠ 0) (n L : ℕ) (hn : 2 ≤ n) (h : Vec ℂ)
    (hh : h.len = 2 * L + 1 ∨ h.len = 2 * L + 2) (hL : h.get L ≠ 0) (f : Vec ℝ) (hf : f.len = n)
    (hd : ∀ i < n, ∀ j < n, f.get i = f.get j → i = j) :
    ∃ M : Mat ℝ, SpectroReturns x ⟨x.len, fun m => (m : ℤ) + 1⟩ n h M ∧ M.rows = n ∧ M.cols = x.len ∧
      Density M ⟨x.len, fun m => (m : ℝ) + 1⟩ f := by
  have hR : (0 : ℤ) ≤ min (roundEven ((n : ℝ) / 2) - 1) L := by
    rw [roundEven_half]; split <;> omega
  have hmem : ∀ m < x.len, (0 : ℤ) ∈ segLags (min (roundEven ((n : ℝ) / 2) - 1) L) x.len ((m : ℤ) + 1 - 1) := by
    intro m hm
    unfold segLags
    rw [Finset.mem_filter, Finset.mem_Icc]
    refine ⟨⟨by omega, hR⟩, by omega, by omega⟩
  have hE : ∀ m < x.len, 0 < windowEnergy h n L x.len ((m : ℤ) + 1 - 1) := by
    intro m hm
    refine Finset.sum_pos' (fun _ _ => by positivity) ⟨0, hmem m hm, ?_⟩
    simp only [add_zero, Int.toNat_natCast]
    positivity
  have hw : WindowOk h n L x.len ⟨x.len, fun m => (m : ℤ) + 1⟩ := fun m hm => Or.inl (hE m hm).ne'
  obtain ⟨M, h1, h2, h3, h4⟩ := C30_spectrogram_mean x ⟨x.len, fun m => (m : ℤ) + 1⟩ n L h hh (by omega) hw
  refine ⟨M, h1, h2, h3, ?_⟩
  have h0 : ∀ k m, 0 ≤ M.get k m := by
    obtain ⟨o, e1, e2⟩ := h1
    obtain ⟨M', e3, e4⟩ := C31_nonneg _ _ e1
    rw [e2] at e3
    injection e3 with e3
    rw [e3]
    exact e4
  obtain ⟨i, hi, hxi⟩ : ∃ i < x.len, x.get i ≠ 0 := by
    by_contra hc
    push Not at hc
    refine hx (Finset.sum_eq_zero fun i hi => ?_)
    rw [hc i (Finset.mem_range.1 hi)]
    simp
  have hs := h4 i hi (hE i hi).ne'
  have hpos : 0 < (∑ k ∈ range n, M.get k i) / n := by
    rw [hs]
    refine div_pos (Finset.sum_pos' (fun _ _ => by positivity) ⟨0, hmem i hi, ?_⟩) (hE i hi)
    simp only [add_zero, add_sub_cancel_right, Int.toNat_natCast]
    positivity
  obtain ⟨k, hk, hkp⟩ : ∃ k < n, 0 < M.get k i := by
    by_contra hc
    push Not at hc
    have : (∑ k ∈ range n, M.get k i) ≤ 0 := Finset.sum_nonpos fun k hk => hc k (Finset.mem_range.1 hk)
    have h5 : (∑ k ∈ range n, M.get k i) / n ≤ 0 := div_nonpos_of_nonpos_of_nonneg this (Nat.cast_nonneg n)
    linarith
  have h3' : M.cols = x.len := h3
  refine ⟨by omega, by omega, h3'.symm, by omega, ⟨1, one_pos, fun i _ => by push_cast; ring⟩, fun r _ c _ => h0 r c, ?_⟩
  refine trapz2_pos (by omega) (by omega) (fun i _ => by push_cast; linarith) ?_ (fun r _ c _ => h0 r c) k i (by omega) (by omega) hkp
  intro j hj
  exact sort_strict f (by rw [hf]; exact hd) j (by omega)

/-- The spectrogram of silence is zero. -/
theorem spectrogram_silent (x : Vec ℂ) (hx : energy x = 0) (ts : Vec ℤ) (n L : ℕ) (hn : n ≠ 0) (h : Vec ℂ)
    (hh : h.len = 2 * L + 1 ∨ h.len = 2 * L + 2) (hw : WindowOk h n L x.len ts) (hE : ∀ m < ts.len, windowEnergy h n L x.len (ts.get m - 1) ≠ 0) (M : Mat ℝ)
    (hM : SpectroReturns x ts n h M) : M.rows = n ∧ M.cols = ts.len ∧ ∀ k < n, ∀ m < ts.len, M.get k m = 0 := by
  obtain ⟨M', h1, h2, h3, h4⟩ := C30_spectrogram_mean x ts n L h hh hn hw
  have e : M = M' := by
    obtain ⟨o, a1, a2⟩ := hM
    obtain ⟨o', b1, b2⟩ := h1
    rw [a1] at b1
    injection b1 with b1
    rw [← b1, a2] at b2
    injection b2
  have h0 : ∀ k m, 0 ≤ M.get k m := by
    obtain ⟨o, e1, e2⟩ := hM
    obtain ⟨M', e3, e4⟩ := C31_nonneg _ _ e1
    rw [e2] at e3
    injection e3 with e3
    rw [e3]
    exact e4
  subst e
  refine ⟨h2, h3, fun k hk m hm => ?_⟩
  have hz : ∀ i < x.len, x.get i = 0 := by
    intro i hi
    have := (Finset.sum_eq_zero_iff_of_nonneg (fun i _ => sq_nonneg ‖x.get i‖)).1 hx i (Finset.mem_range.2 hi)
    simpa using this
  have hs := h4 m hm (hE m hm)
  rw [Finset.sum_eq_zero (s := segLags _ _ _) (fun τ hτ => ?_), zero_div, div_eq_zero_iff] at hs
  · rcases hs with hs | hs
    · exact (Finset.sum_eq_zero_iff_of_nonneg (fun k _ => h0 k m)).1 hs k (Finset.mem_range.2 hk)
    · exact absurd (Nat.cast_eq_zero.1 hs) hn
  · unfold segLags at hτ
    rw [Finset.mem_filter] at hτ
    rw [hz _ (by omega)]
    simp

/-- **Which spectrograms have an information.**  The spectrogram of at least two samples at all their instants, `n ≥ 2` bins, a window that is not zero at its centre, any
distinct frequencies: the information of every order `α > 0` is a number exactly when the signal is not silent (else a NaN); for `α ≥ 1` it is at most `log2` of the number of time
steps times the width of the frequency axis. -/
theorem C138_returns (x : Vec ℂ) (hN : 2 ≤ x.len) (n L : ℕ) (hn : 2 ≤ n) (h : Vec ℂ) (hh : h.len = 2 * L + 1 ∨ h.len = 2 * L + 2) (hL : h.get L ≠ 0)
    (f : Vec ℝ) (hf : f.len = n) (hd : ∀ i < n, ∀ j < n, f.get i = f.get j → i = j) (α : ℝ) (hα : 0 < α) :
    ∃ M : Mat ℝ, SpectroReturns x ⟨x.len, fun m => (m : ℤ) + 1⟩ n h M ∧
      (energy x ≠ 0 → ∃ v, InfoIs M ⟨x.len, fun m => (m : ℝ) + 1⟩ f α v ∧
        (1 ≤ α → v ≤ Real.logb 2 (((x.len : ℝ) - 1) * (f.sort.get (n - 1) - f.sort.get 0)))) ∧
      (energy x = 0 → Prod.fst <$> renyiInformation M (some ⟨x.len, fun m => (m : ℝ) + 1⟩) (some f) α = .error .nonFinite) := by
  by_cases hx : energy x = 0
  · have hR : (0 : ℤ) ≤ min (roundEven ((n : ℝ) / 2) - 1) L := by
      rw [roundEven_half]; split <;> omega
    have hE : ∀ m < x.len, windowEnergy h n L x.len ((m : ℤ) + 1 - 1) ≠ 0 := by
      intro m hm
      refine ne_of_gt (Finset.sum_pos' (fun _ _ => by positivity) ⟨0, ?_, ?_⟩)
      · unfold segLags
        rw [Finset.mem_filter, Finset.mem_Icc]
        refine ⟨⟨by omega, hR⟩, by omega, by omega⟩
      · simp only [add_zero, Int.toNat_natCast]
        positivity
    have hw : WindowOk h n L x.len ⟨x.len, fun m => (m : ℤ) + 1⟩ := fun m hm => Or.inl (hE m hm)
    obtain ⟨M, h1, _⟩ := C30_spectrogram_mean x ⟨x.len, fun m => (m : ℤ) + 1⟩ n L h hh (by omega) hw
    refine ⟨M, h1, fun h => absurd hx h, fun _ => ?_⟩
    obtain ⟨h2, h3, h4⟩ := spectrogram_silent x hx _ n L (by omega) h hh hw hE M h1
    have h3' : M.cols = x.len := h3
    have hI : trapz2 M (fun m : ℕ => (m : ℝ) + 1) f.sort.get = 0 := by
      have := trapz2_congr (A := M) (B := ⟨M.rows, M.cols, fun _ _ => 0⟩) rfl rfl (fun r hr c hc => h4 r (by simpa [h2] using hr) c (by simpa [h3'] using hc))
        (fun m : ℕ => (m : ℝ) + 1) f.sort.get
      rw [this]
      simp [trapz2, trapz]
    by_cases h1' : α = 1
    · subst h1'
      rw [C49_shannon M _ f (by omega) h3'.symm (by omega) (by omega) 1 (fun i _ => by push_cast; ring) (fun r hr c hc => by rw [h4 r (by omega) c (by simpa [h3'] using hc)]),
        if_pos (Or.inl hI)]
    · rw [C49_cases M _ f α h1' (by omega) h3'.symm (by omega) (by omega) 1 (fun i _ => by push_cast; ring), if_pos (Or.inl hI)]
  · obtain ⟨M, h1, h2, h3, D⟩ := spectrogram_density x hN hx n L hn h hh hL f hf hd
    refine ⟨M, h1, fun _ => ?_, fun h => absurd h hx⟩
    obtain ⟨v, hv⟩ := C105_returns M _ f D α hα
    refine ⟨v, hv, fun h1 => ?_⟩
    have := (C105_upper M _ f D α v hα hv).1 h1
    unfold area at this
    rw [h2, h3] at this
    refine this.trans_eq ?_
    congr 2
    dsimp only
    rw [Nat.cast_sub (by omega)]
    push_cast
    ring

/-- Four samples, four bins at the frequencies `k / 4`: at most `log2(3 · 3/4)` bits. -/
example : ∃ M v, SpectroReturns ⟨4, fun i => if i = 2 then 1 else 0⟩ ⟨4, fun m => (m : ℤ) + 1⟩ 4 ⟨3, fun _ => 1⟩ M ∧
    InfoIs M ⟨4, fun m => (m : ℝ) + 1⟩ ⟨4, fun k => (k : ℝ) / 4⟩ 3 v := by
  obtain ⟨M, h1, h2, _⟩ := C138_returns ⟨4, fun i => if i = 2 then 1 else 0⟩ (by norm_num) 4 1 (by norm_num) ⟨3, fun _ => 1⟩ (Or.inl rfl) one_ne_zero
    ⟨4, fun k => (k : ℝ) / 4⟩ rfl (fun i _ j _ h => by
      dsimp only at h
      have : (i : ℝ) = j := by linarith
      exact_mod_cast this) 3 (by norm_num)
  obtain ⟨v, hv, _⟩ := h2 (by simp [energy, Finset.sum_range_succ])
  exact ⟨M, v, h1, hv⟩

end Tftb.Props
