import Verif.Model.Affine
import Verif.Lemmas.Hilbert
import Verif.Lemmas.TimeFreq
import Verif.Lemmas.Post
import Verif.Lemmas.ProcUtils
import Verif.Lemmas.Analytic

/-! # Lemmas on the affine class -/

namespace Tftb

open Finset Spec Aff

theorem zmin_arange {n : ℕ} (hn : 1 ≤ n) : zmin (arange 0 n) = .ok 0 := by
  unfold zmin
  rw [dif_neg (by rw [arange_len]; omega)]
  congr 1
  apply le_antisymm
  · exact (Finset.inf'_le (arange 0 n).get (b := 0) (by rw [mem_range, arange_len]; omega)).trans (by simp [arange_get])
  · refine Finset.le_inf' _ _ (fun i _ => ?_)
    rw [arange_get]; omega

theorem zmax_arange {n : ℕ} (hn : 1 ≤ n) : zmax (arange 0 n) = .ok ((n : ℤ) - 1) := by
  unfold zmax
  rw [dif_neg (by rw [arange_len]; omega)]
  congr 1
  apply le_antisymm
  · refine Finset.sup'_le _ _ (fun i hi => ?_)
    rw [mem_range, arange_len] at hi
    rw [arange_get]; omega
  · refine le_trans ?_ (Finset.le_sup' (arange 0 n).get (b := n - 1) (by rw [mem_range, arange_len]; omega))
    rw [arange_get]; omega

theorem mem_positions {n : ℕ} {mask : ℕ → Prop} {i : ℕ} : i ∈ Vec.positions n mask ↔ i < n ∧ mask i := by
  unfold Vec.positions; simp

theorem listMin_ok {l : List ℕ} {i : ℕ} (h : i ∈ l) (hl : ∀ k ∈ l, i ≤ k) : listMin l = .ok i := by
  unfold listMin
  rw [List.min?_eq_some_iff.2 ⟨h, hl⟩]

theorem listMax_ok {l : List ℕ} {i : ℕ} (h : i ∈ l) (hl : ∀ k ∈ l, k ≤ i) : listMax l = .ok i := by
  unfold listMax
  rw [List.max?_eq_some_iff.2 ⟨h, hl⟩]

theorem halfBins_cast (n : ℕ) : roundEven ((n : ℝ) / 2) = (halfBins n : ℤ) := by
  rw [roundEven_half]; unfold halfBins; split <;> omega

theorem norm_dftC_fftshift (s : Vec ℝ) (hn : s.len ≠ 0) (k : ℕ) :
    ‖dftC s.len ((fftshift s).map (fun a : ℝ => (a : ℂ))).get k‖ = ‖dft (s.map Complex.ofReal) k‖ := by
  rw [dft_eq_dftC]
  show ‖dftC s.len (fun j => (s.get ((j + (s.len - s.len / 2)) % s.len) : ℂ)) k‖ = ‖dftC s.len (fun j => (s.get j : ℂ)) k‖
  rw [dftC_rotate hn (fun j => (s.get j : ℂ)), norm_mul]
  rw [norm_rootPow, one_mul]

theorem slice_full {α : Type} (v : Vec α) : v.slice 0 ((v.len : ℤ) - 1 + 1) = v := by
  have := slice_zero_nat (v := v) (n := v.len) le_rfl
  rw [sub_add_cancel, this]

theorem band_prefix (s : Vec ℝ) (hn : 2 ≤ s.len) (fmin fmax : Option ℝ) (hnone : fmin = none ∨ fmax = none) :
    ∃ mx, (∀ k, (k < halfBins s.len ∧ mx / 100 < ‖dft (s.map Complex.ofReal) k‖ ^ 2) ↔ Strong s k) ∧
      band s (arange 0 s.len) fmin fmax = (do
    let idx := Vec.positions (halfBins s.len) (fun i => mx / 100 < ‖dft (s.map Complex.ofReal) i‖ ^ 2)
    let lo ← match fmin with
      | some a => (.ok a : Py ℝ)
      | none => do
        let indmin ← listMin idx
        let v ← (linspace 0 0.5 (halfBins s.len + 1)).item indmin
        .ok (max 0.01 (0.05 * (⌊v / 0.05⌋ : ℝ)))
    let hi ← match fmax with
      | some b => (.ok b : Py ℝ)
      | none => do
        let indmax ← listMax idx
        let v ← (linspace 0 0.5 (halfBins s.len + 1)).item indmax
        .ok (0.05 * (⌈v / 0.05⌉ : ℝ))
    .ok (lo, hi)) := by
  have hh : halfBins s.len ≤ s.len := by unfold halfBins; split <;> omega
  have hh1 : 1 ≤ halfBins s.len := by unfold halfBins; split <;> omega
  set P : ℕ → ℝ := fun k => ‖dft (s.map Complex.ofReal) k‖ ^ 2 with hP
  have hsp : ∀ F : ℕ → ℂ, (∀ k, ‖F k‖ ^ 2 = P k) →
      ((⟨s.len, F⟩ : Vec ℂ).slice 0 (halfBins s.len : ℕ)).map (fun z => ‖z‖ ^ 2) = ⟨halfBins s.len, P⟩ := by
    intro F hF
    rw [slice_zero_nat (v := ⟨s.len, F⟩) (by exact hh)]
    exact congrArg (Vec.mk _) (funext hF)
  obtain ⟨mx, hmx, hle, i0, hi0, e0⟩ := Vec.amax_spec (v := ⟨halfBins s.len, P⟩) (by show halfBins s.len ≠ 0; omega)
  refine ⟨mx, fun k => ?_, ?_⟩
  · unfold Strong
    refine and_congr_right (fun _ => ⟨fun h j hj => ?_, fun h => ?_⟩)
    · have := hle j hj
      simp only at this
      linarith
    · have := h i0 hi0
      simp only [hP] at e0
      rw [← e0]
      linarith
  · have hb : ∀ fmin fmax : Option ℝ, (fmin = none ∨ fmax = none) → band s (arange 0 s.len) fmin fmax = (do
        let lo ← zmin (arange 0 s.len)
        let hi ← zmax (arange 0 s.len)
        let stf ← fft ((fftshift (s.slice lo (hi + 1))).map (fun a : ℝ => (a : ℂ)))
        let h := roundEven ((stf.len : ℝ) / 2)
        let sp := (stf.slice 0 h).map (fun z => ‖z‖ ^ 2)
        let maxsp ← sp.amax
        let f := linspace 0 0.5 (h + 1).toNat
        let idx := Vec.positions sp.len (fun i => maxsp / 100 < sp.get i)
        let lo ← match fmin with
          | some a => (.ok a : Py ℝ)
          | none => do
            let indmin ← listMin idx
            let v ← f.item indmin
            .ok (max 0.01 (0.05 * (⌊v / 0.05⌋ : ℝ)))
        let hi ← match fmax with
          | some b => (.ok b : Py ℝ)
          | none => do
            let indmax ← listMax idx
            let v ← f.item indmax
            .ok (0.05 * (⌈v / 0.05⌉ : ℝ))
        .ok (lo, hi)) := by
      intro fmin fmax h
      rcases fmin with _ | a <;> rcases fmax with _ | b
      · rfl
      · rfl
      · rfl
      · simp at h
    rw [hb fmin fmax hnone, zmin_arange (by omega), ok_bind, zmax_arange (by omega), ok_bind, slice_full,
      fft_ok (by show s.len ≠ 0; omega), ok_bind]
    simp only
    have hl : ((fftshift s).map (fun a : ℝ => (a : ℂ))).len = s.len := rfl
    rw [hl, halfBins_cast, hsp _ (fun k => by rw [norm_dftC_fftshift s (by omega)]), hmx, ok_bind]
    rfl

theorem linspace_half_item {h k : ℕ} (hk : k < h) : (linspace 0 0.5 (h + 1)).item (k : ℤ) = .ok ((k : ℝ) / (2 * h)) := by
  rw [Vec.item_ok (by omega) (by show (k : ℤ) < ((h + 1 : ℕ) : ℤ); omega)]
  congr 1
  show (if h + 1 = 1 then (0 : ℝ) else 0 + (((k : ℤ).toNat : ℕ) : ℝ) * ((0.5 - 0) / (((h + 1 : ℕ) : ℝ) - 1))) = _
  rw [if_neg (by omega), Int.toNat_natCast]
  have : (h : ℝ) ≠ 0 := by exact_mod_cast (by omega : h ≠ 0)
  push_cast
  rw [add_sub_cancel_right]
  field_simp
  norm_num
  ring

theorem band_strong (s : Vec ℝ) (hn : 2 ≤ s.len) (fmin fmax : Option ℝ) {lo hi : ℕ} (h : StrongRange s lo hi) :
    band s (arange 0 s.len) fmin fmax = .ok
      (fmin.getD (max 0.01 (0.05 * (⌊(lo : ℝ) / (2 * halfBins s.len) / 0.05⌋ : ℝ))),
       fmax.getD (0.05 * (⌈(hi : ℝ) / (2 * halfBins s.len) / 0.05⌉ : ℝ))) := by
  by_cases hnone : fmin = none ∨ fmax = none
  · obtain ⟨mx, hmx, e⟩ := band_prefix s hn fmin fmax hnone
    rw [e]
    simp only
    have h1 : listMin (Vec.positions (halfBins s.len) (fun i => mx / 100 < ‖dft (s.map Complex.ofReal) i‖ ^ 2)) = .ok lo :=
      listMin_ok (mem_positions.2 ((hmx lo).2 h.lo_strong)) (fun k hk => (h.bounds k ((hmx k).1 (mem_positions.1 hk))).1)
    have h2 : listMax (Vec.positions (halfBins s.len) (fun i => mx / 100 < ‖dft (s.map Complex.ofReal) i‖ ^ 2)) = .ok hi :=
      listMax_ok (mem_positions.2 ((hmx hi).2 h.hi_strong)) (fun k hk => (h.bounds k ((hmx k).1 (mem_positions.1 hk))).2)
    rw [h1, h2]
    simp only [ok_bind]
    rw [linspace_half_item h.lo_strong.1, linspace_half_item h.hi_strong.1]
    rcases fmin with _ | a <;> rcases fmax with _ | b <;> rfl
  · rcases fmin with _ | a <;> rcases fmax with _ | b
    · simp at hnone
    · simp at hnone
    · simp at hnone
    · rfl

theorem strongRange_exists {s : Vec ℝ} (h : ∃ k < halfBins s.len, dft (s.map Complex.ofReal) k ≠ 0) :
    ∃ lo hi, StrongRange s lo hi := by
  obtain ⟨k, hk, hne⟩ := h
  set P : ℕ → ℝ := fun k => ‖dft (s.map Complex.ofReal) k‖ ^ 2 with hP
  obtain ⟨m, hm, hmax⟩ := Finset.exists_max_image (range (halfBins s.len)) P ⟨k, mem_range.2 hk⟩
  have hpos : 0 < P m := lt_of_lt_of_le (by simp only [hP]; positivity) (hmax k (mem_range.2 hk))
  have hs : Strong s m := ⟨mem_range.1 hm, fun j hj => by have := hmax j (mem_range.2 hj); simp only [hP] at this hpos; linarith⟩
  classical
  set S : Finset ℕ := (range (halfBins s.len)).filter (fun k => Strong s k) with hS
  have hmem : ∀ k, k ∈ S ↔ Strong s k := fun k => by
    rw [hS, mem_filter, mem_range]; exact ⟨fun h => h.2, fun h => ⟨h.1, h⟩⟩
  have hne' : S.Nonempty := ⟨m, (hmem m).2 hs⟩
  exact ⟨S.min' hne', S.max' hne', ⟨(hmem _).1 (S.min'_mem hne'), (hmem _).1 (S.max'_mem hne'),
    fun k hk => ⟨S.min'_le k ((hmem k).2 hk), S.le_max' k ((hmem k).2 hk)⟩⟩⟩

theorem band_silent (s : Vec ℝ) (hn : 2 ≤ s.len) (fmin fmax : Option ℝ) (hnone : fmin = none ∨ fmax = none)
    (h : ∀ k < halfBins s.len, dft (s.map Complex.ofReal) k = 0) : band s (arange 0 s.len) fmin fmax = .error .valueError := by
  obtain ⟨mx, hmx, e⟩ := band_prefix s hn fmin fmax hnone
  have hz : Vec.positions (halfBins s.len) (fun i => mx / 100 < ‖dft (s.map Complex.ofReal) i‖ ^ 2) = [] := by
    refine List.eq_nil_iff_forall_not_mem.2 (fun k hk => ?_)
    have hs := (hmx k).1 (mem_positions.1 hk)
    have := hs.2 k hs.1
    rw [h k hs.1] at this
    norm_num at this
  rw [e, hz]
  rcases fmin with _ | a <;> rcases fmax with _ | b
  · rfl
  · rfl
  · rfl
  · simp at hnone

theorem band_short (s : Vec ℝ) (hn : s.len < 2) (fmin fmax : Option ℝ) (hnone : fmin = none ∨ fmax = none) :
    band s (arange 0 s.len) fmin fmax = .error .valueError := by
  have key : (do
      let lo ← zmin (arange 0 s.len)
      let hi ← zmax (arange 0 s.len)
      let stf ← fft ((fftshift (s.slice lo (hi + 1))).map (fun a : ℝ => (a : ℂ)))
      let h := roundEven ((stf.len : ℝ) / 2)
      let sp := (stf.slice 0 h).map (fun z => ‖z‖ ^ 2)
      sp.amax) = .error .valueError := by
    rcases Nat.lt_or_ge s.len 1 with h0 | h1
    · have : s.len = 0 := by omega
      rw [this]
      rfl
    · have h1' : s.len = 1 := by omega
      rw [zmin_arange h1, ok_bind, zmax_arange h1, ok_bind, slice_full, fft_ok (by show s.len ≠ 0; omega), ok_bind]
      simp only
      have hl : ((fftshift s).map (fun a : ℝ => (a : ℂ))).len = s.len := rfl
      rw [hl, halfBins_cast, h1']
      rfl
  have hb : ∀ {β γ : Type} (A : Py ℤ) (B : Py ℤ) (C : ℤ → ℤ → Py (Vec ℂ)) (D : Vec ℂ → Py β) (K : Vec ℂ → β → Py γ),
      (do let lo ← A; let hi ← B; let stf ← C lo hi; D stf) = .error .valueError →
      (do let lo ← A; let hi ← B; let stf ← C lo hi; let m ← D stf; K stf m) = .error .valueError := by
    intro β γ A B C D K h
    rcases A with e | a
    · simpa using h
    rcases B with e | b
    · simpa using h
    simp only [ok_bind] at h ⊢
    generalize C a b = c at h ⊢
    rcases c with e | c
    · simpa using h
    simp only [ok_bind] at h ⊢
    rw [h]
    rfl
  rcases fmin with _ | a <;> rcases fmax with _ | b
  · exact hb _ _ _ _ _ key
  · exact hb _ _ _ _ _ key
  · exact hb _ _ _ _ _ key
  · simp at hnone

end Tftb
