import Verif.Lemmas.WvdInverse
import Verif.Props.Spwv

/-! # What the short-time Fourier transform keeps of the signal (C74) -/

namespace Tftb.Props

open Tftb Tftb.Spec Tftb.Linear Finset ComplexConjugate

theorem windowedDft_lagSum (x h : Vec ℂ) (L n : ℕ) (c : ℤ) (k : ℕ) :
    windowedDft x h L n c k = lagSum L n (fun τ => zext x (c + τ) * conj (h.get ((L : ℤ) + τ).toNat)) k := by
  unfold windowedDft lagSum
  exact Finset.sum_congr rfl fun τ _ => by push_cast; rfl

/-- Inversion: every column gives back the samples under its window, weighted by the window (column `m` is centred on sample `m - 1`). -/
theorem C74_inverse {τ : Type} (x : Vec ℂ) (ts : Vec τ) (n L : ℕ) (h : Vec ℂ) (hh : h.len = 2 * L + 1 ∨ h.len = 2 * L + 2) (hL : 2 * L < n) (M : Mat ℂ)
    (hM : stftOf x ts n (some h) = .ok M) (m : ℕ) (hm : m < ts.len) (σ : ℤ) (h1 : -(L : ℤ) ≤ σ) (h2 : σ ≤ L) :
    zext x (m - 1 + σ) * conj (h.get (L + σ).toNat) = 1 / n * ∑ k ∈ range n, M.get k m * expi (2 * Real.pi * (k * σ / n)) := by
  have hn0 : (n : ℂ) ≠ 0 := by exact_mod_cast (by omega : n ≠ 0)
  obtain ⟨M', e1, -, -, e4⟩ := C27_stft x ts n L h hh hL
  rw [hM] at e1
  injection e1 with e1
  subst e1
  have hinv := lagSum_inv (R := L) (n := n) (by omega) (by omega) (fun τ => zext x ((m : ℤ) - 1 + τ) * conj (h.get ((L : ℤ) + τ).toNat)) h1 h2
  have hsum : ∑ k ∈ range n, M.get k m * expi (2 * Real.pi * (k * σ / n))
      = ∑ k ∈ range n, lagSum L n (fun τ => zext x ((m : ℤ) - 1 + τ) * conj (h.get ((L : ℤ) + τ).toNat)) k * rootPow n (-(σ * (k : ℤ))) := by
    refine Finset.sum_congr rfl fun k hk => ?_
    rw [e4 k (Finset.mem_range.1 hk) m hm, windowedDft_lagSum, rootPow_eq_expi]
    congr 2
    push_cast
    ring
  rw [hsum, hinv, ← mul_assoc, one_div, inv_mul_cancel₀ hn0, one_mul]

/-- Two signals of the same length have the same transform exactly when they agree on every sample which some column sees with a non-zero window value. -/
theorem C74_determines {τ : Type} (x y : Vec ℂ) (hlen : y.len = x.len) (ts : Vec τ) (n L : ℕ) (h : Vec ℂ) (hh : h.len = 2 * L + 1 ∨ h.len = 2 * L + 2)
    (hL : 2 * L < n) (M M' : Mat ℂ) (hM : stftOf x ts n (some h) = .ok M) (hM' : stftOf y ts n (some h) = .ok M') :
    (∀ k < n, ∀ m < ts.len, M.get k m = M'.get k m) ↔
      ∀ i < x.len, (∃ m < ts.len, m ≤ i + 1 + L ∧ i + 1 ≤ m + L ∧ h.get (L + i + 1 - m) ≠ 0) → x.get i = y.get i := by
  constructor
  · rintro he i hi ⟨m, hm, h1, h2, h3⟩
    have ex := C74_inverse x ts n L h hh hL M hM m hm ((i : ℤ) + 1 - m) (by omega) (by omega)
    have ey := C74_inverse y ts n L h hh hL M' hM' m hm ((i : ℤ) + 1 - m) (by omega) (by omega)
    have : ∑ k ∈ range n, M.get k m * expi (2 * Real.pi * (k * (((i : ℤ) + 1 - m : ℤ) : ℝ) / n))
        = ∑ k ∈ range n, M'.get k m * expi (2 * Real.pi * (k * (((i : ℤ) + 1 - m : ℤ) : ℝ) / n)) :=
      Finset.sum_congr rfl fun k hk => by rw [he k (Finset.mem_range.1 hk) m hm]
    rw [this, ← ey, show (m : ℤ) - 1 + ((i : ℤ) + 1 - m) = i by ring, show ((L : ℤ) + ((i : ℤ) + 1 - m)).toNat = L + i + 1 - m by omega,
      zext_of_mem (by omega) (by omega), zext_of_mem (by omega) (by omega)] at ex
    exact mul_right_cancel₀ (by simpa using h3) ex
  · intro he k hk m hm
    obtain ⟨A, a1, -, -, a4⟩ := C27_stft x ts n L h hh hL
    obtain ⟨B, b1, -, -, b4⟩ := C27_stft y ts n L h hh hL
    rw [hM] at a1
    rw [hM'] at b1
    injection a1 with a1
    injection b1 with b1
    subst a1 b1
    rw [a4 k hk m hm, b4 k hk m hm]
    unfold windowedDft
    refine Finset.sum_congr rfl fun σ hσ => ?_
    rw [Finset.mem_Icc] at hσ
    congr 1
    by_cases hi : 0 ≤ (m : ℤ) - 1 + σ ∧ (m : ℤ) - 1 + σ < x.len
    · by_cases h0 : h.get ((L : ℤ) + σ).toNat = 0
      · rw [h0]; simp
      · rw [zext_of_mem hi.1 hi.2, zext_of_mem hi.1 (by omega), he _ (by omega) ⟨m, hm, by omega, by omega, by
          rwa [show L + ((m : ℤ) - 1 + σ).toNat + 1 - m = ((L : ℤ) + σ).toNat by omega]⟩]
    · rw [zext_of_not_mem hi, zext_of_not_mem (by omega)]

/-- Default arguments: from eight samples on the transform determines the signal; with fewer the default window has a single sample, and since the columns are one sample
late the last sample of the signal has no influence whatever on the result (all the others have). -/
theorem C74_default (x y : Vec ℂ) (hx : 1 ≤ x.len) (hlen : y.len = x.len) (M M' : Mat ℂ) (hM : stftOf x (arange 0 x.len) x.len none = .ok M)
    (hM' : stftOf y (arange 0 x.len) x.len none = .ok M') :
    (8 ≤ x.len → ((∀ k < x.len, ∀ m < x.len, M.get k m = M'.get k m) ↔ ∀ i < x.len, x.get i = y.get i)) ∧
    (x.len < 8 → ((∀ k < x.len, ∀ m < x.len, M.get k m = M'.get k m) ↔ ∀ i < x.len - 1, x.get i = y.get i)) := by
  obtain ⟨L, w1, w2, w3, -⟩ := C27_default_window x (arange 0 x.len) x.len (by omega)
  have hlw : (makeWindow x.len).len = x.len / 4 + (1 - x.len / 4 % 2) := rfl
  have hts : (arange 0 (x.len : ℤ)).len = x.len := by rw [arange_len]; simp
  have key := C74_determines x y hlen (arange 0 x.len) x.len L (makeWindow x.len) (.inl w1) w2 M M' hM hM'
  rw [hts] at key
  have hne : ∀ i < 2 * L + 1, (makeWindow x.len).get i ≠ 0 := by
    intro i hi
    rw [w3 i hi]
    exact_mod_cast (hamming_pos _ _).ne'
  constructor
  · intro h8
    rw [key]
    refine ⟨fun h i hi => h i hi ?_, fun h i hi _ => h i hi⟩
    by_cases h0 : i = 0
    · exact ⟨0, by omega, by omega, by omega, hne _ (by omega)⟩
    · exact ⟨i, by omega, by omega, by omega, hne _ (by omega)⟩
  · intro h8
    have hL0 : L = 0 := by omega
    subst hL0
    rw [key]
    refine ⟨fun h i hi => h i (by omega) ⟨i + 1, by omega, by omega, by omega, hne _ (by omega)⟩, fun h i hi ⟨m, hm, h1, h2, _⟩ => h i (by omega)⟩

/-- Four samples: an impulse on the last one has the transform of silence. -/
example : ∃ M : Mat ℂ, stftOf ⟨4, fun i => if i = 3 then 1 else 0⟩ (arange 0 4) 4 none = .ok M ∧ ∀ k < 4, ∀ m < 4, M.get k m = 0 := by
  obtain ⟨M, h1, -, -⟩ := C27_never_raises ⟨4, fun i => if i = 3 then 1 else 0⟩ (arange 0 4) 4 none (by norm_num)
  obtain ⟨Z, z1, -, -⟩ := C27_never_raises ⟨4, fun _ => 0⟩ (arange 0 4) 4 none (by norm_num)
  refine ⟨M, h1, fun k hk m hm => ?_⟩
  have e := ((C74_default ⟨4, fun i => if i = 3 then 1 else 0⟩ ⟨4, fun _ => 0⟩ (by norm_num) rfl M Z h1 z1).2 (by norm_num)).2
    (fun i hi => if_neg (by simp only at hi; omega)) k hk m hm
  rw [e]
  obtain ⟨L, -, -, -, Z', f1, -, -, f4⟩ := C27_default_window ⟨4, fun _ => 0⟩ (arange 0 4) 4 (by norm_num)
  rw [z1] at f1
  injection f1 with f1
  rw [f1, f4 k hk m (by rw [arange_len]; exact hm)]
  unfold windowedDft
  refine Finset.sum_eq_zero fun σ _ => ?_
  have : ∀ i : ℤ, zext ⟨4, fun _ => 0⟩ i = 0 := fun i => by unfold zext; simp
  rw [this]
  simp

end Tftb.Props
