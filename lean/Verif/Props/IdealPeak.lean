import Verif.Props.Ideal
import Verif.Props.Chirp

/-! # The ideal representation and the peaks of the Wigner-Ville distribution (C111) -/

namespace Tftb.Props

open Tftb Tftb.Spec Tftb.FM Tftb.Post Finset

/-- The row of `n` in which `ideal_tfr` marks a law equal to the label `k / (2 n)` of row `k`. -/
def idealRow (n k : ℕ) : ℕ := if 2 * k < n ∨ (2 * k = n ∧ Even k) then k else k - 1

theorem roundEven_idealRow (n k : ℕ) (hk : k < n) : roundEven ((k : ℝ) / (2 * n) * 2 * ((n : ℝ) - 1)) = (idealRow n k : ℤ) := by
  have hn0 : (0 : ℝ) < n := by exact_mod_cast (by omega : 0 < n)
  have hk2 : (k : ℝ) < n := by exact_mod_cast hk
  have hk0 : (0 : ℝ) ≤ k := Nat.cast_nonneg k
  have e1 : (k : ℝ) / (2 * n) * 2 * ((n : ℝ) - 1) = k - k / n := by field_simp
  rw [e1]
  have a0 : (0 : ℝ) ≤ k / n := by positivity
  have a2 : (k : ℝ) / n < 1 := by rw [div_lt_one hn0]; exact hk2
  unfold idealRow
  rcases lt_trichotomy (2 * k) n with h1 | h1 | h1
  · rw [if_pos (Or.inl h1)]
    have hk1 : (2 : ℝ) * k < n := by exact_mod_cast h1
    have a1 : (k : ℝ) / n < 1 / 2 := by rw [div_lt_div_iff₀ hn0 (by norm_num)]; linarith
    have h := abs_le.1 (abs_sub_roundEven_le ((k : ℝ) - k / n))
    set z := roundEven ((k : ℝ) - k / n)
    have b1 : (z : ℝ) < ((k + 1 : ℤ) : ℝ) := by push_cast; linarith
    have b2 : (((k : ℤ) - 1 : ℤ) : ℝ) < z := by push_cast; linarith
    have c1 : z < k + 1 := by exact_mod_cast b1
    have c2 : (k : ℤ) - 1 < z := by exact_mod_cast b2
    omega
  · have hk1 : (2 : ℝ) * k = n := by exact_mod_cast h1
    have hkp : 1 ≤ k := by omega
    have a1 : (k : ℝ) / n = 1 / 2 := by rw [div_eq_div_iff hn0.ne' (by norm_num)]; linarith
    rw [a1, show (k : ℝ) - 1 / 2 = (((k : ℤ) - 1 : ℤ) : ℝ) + 1 / 2 by push_cast; ring, roundEven_half_odd]
    by_cases he : Even k
    · have : ¬ Even ((k : ℤ) - 1) := by
        rw [Int.even_sub_one, not_not]
        exact_mod_cast he
      rw [if_neg this, if_pos (Or.inr ⟨h1, he⟩)]
      ring
    · have : Even ((k : ℤ) - 1) := by
        rw [Int.even_sub_one]
        exact_mod_cast he
      rw [if_pos this, if_neg (by rintro (h | ⟨-, h⟩); exacts [by omega, he h])]
      omega
  · rw [if_neg (by omega)]
    have hk1 : (n : ℝ) < 2 * k := by exact_mod_cast h1
    have a1 : (1 : ℝ) / 2 < k / n := by rw [div_lt_div_iff₀ (by norm_num) hn0]; linarith
    have h := abs_le.1 (abs_sub_roundEven_le ((k : ℝ) - k / n))
    set z := roundEven ((k : ℝ) - k / n)
    have b1 : (z : ℝ) < ((k : ℤ) : ℝ) := by push_cast; linarith
    have b2 : (((k : ℤ) - 2 : ℤ) : ℝ) < z := by push_cast; linarith
    have c1 : z < k := by exact_mod_cast b1
    have c2 : (k : ℤ) - 2 < z := by exact_mod_cast b2
    omega

/-- **Labels.**  One law with values in `[0, 1/2]`: each column has exactly one mark, and the label of its row is at most `(1/2 - 2 f) / (2 n)` above and at most
`(1/2 + 2 f) / (2 n)` below the law `f`: the marks are low by the fraction `1/n` of the law, up to rounding. -/
theorem C111_label (N n : ℕ) (hn : 1 ≤ n) (law : Vec ℝ) (hb : ∀ t < N, 0 ≤ law.get t ∧ law.get t ≤ 1 / 2) :
    ∃ (tfr : Mat (Option ℝ)) (freqs : Vec ℝ), idealTfr ⟨1, N, fun _ t => some (law.get t)⟩ (some (arange 0 N)) (some n) = .ok (tfr, arange 0 N, freqs) ∧
      ∀ t < N, ∃ r < n, tfr.get r t = some 1 ∧ (∀ j < n, j ≠ r → tfr.get j t = some 0) ∧
        (-(1 / 2) - 2 * law.get t) / (2 * n) ≤ freqs.get r - law.get t ∧ freqs.get r - law.get t ≤ (1 / 2 - 2 * law.get t) / (2 * n) := by
  obtain ⟨tfr, fr, e, -, -, -, hf, hM⟩ := C51_marks ⟨1, N, fun _ t => some (law.get t)⟩ (fun _ t => law.get t) (arange 0 N) n hn (fun _ _ _ _ => rfl)
    (fun _ _ t ht => hb t ht) (fun c hc => by simp [arange] at hc ⊢; omega)
  refine ⟨tfr, fr, e, fun t ht => ?_⟩
  have hn1 : (1 : ℝ) ≤ n := by exact_mod_cast hn
  have hn0 : (0 : ℝ) < n := by linarith
  obtain ⟨b0, b1⟩ := hb t ht
  have habs := abs_le.1 (abs_sub_roundEven_le (law.get t * 2 * ((n : ℝ) - 1)))
  set z := roundEven (law.get t * 2 * ((n : ℝ) - 1)) with hz
  have hpos : 0 ≤ law.get t * 2 * ((n : ℝ) - 1) := by nlinarith
  have hle : law.get t * 2 * ((n : ℝ) - 1) ≤ n - 1 := by nlinarith
  have z0 : 0 ≤ z := by
    have : ((-1 : ℤ) : ℝ) < z := by push_cast; linarith
    have : -1 < z := by exact_mod_cast this
    omega
  have z1 : z < n := by
    have : (z : ℝ) < ((n : ℤ) : ℝ) := by push_cast; linarith
    exact_mod_cast this
  have hzr : ((z.toNat : ℕ) : ℝ) = z := by
    have : ((z.toNat : ℤ) : ℝ) = z := by rw [Int.toNat_of_nonneg z0]
    exact_mod_cast this
  have htt : ((arange 0 (N : ℤ)).get t).toNat = t := by simp [arange]
  have hlen : t < (arange 0 (N : ℤ)).len := by simpa [arange] using ht
  refine ⟨z.toNat, by omega, (hM z.toNat (by omega) t hlen).1 ⟨0, by simp, ?_⟩, fun j hj hjr => (hM j hj t hlen).2 ?_, ?_, ?_⟩
  · rw [htt, ← hz]; omega
  · rintro ⟨i, -, hi⟩
    rw [htt, ← hz] at hi
    omega
  · rw [hf _ (by omega), hzr, div_sub' (by positivity), div_le_div_iff_of_pos_right (by positivity)]
    linarith [habs.2]
  · rw [hf _ (by omega), hzr, div_sub' (by positivity), div_le_div_iff_of_pos_right (by positivity)]
    linarith [habs.1]

/-- The constant law 1/2 in ten rows: the label of the mark lies between 0.425 and 0.475. -/
example : ∃ tfr fr, idealTfr ⟨1, 5, fun _ _ => some (1 / 2)⟩ (some (arange 0 5)) (some 10) = .ok (tfr, arange 0 5, fr) ∧
    ∀ t < 5, ∃ r < 10, tfr.get r t = some 1 ∧ 17 / 40 ≤ fr.get r ∧ fr.get r ≤ 19 / 40 := by
  obtain ⟨tfr, fr, e, h⟩ := C111_label 5 10 (by norm_num) ⟨5, fun _ => 1 / 2⟩ (fun _ _ => by norm_num)
  refine ⟨tfr, fr, by exact_mod_cast e, fun t ht => ?_⟩
  obtain ⟨r, hr, h1, -, h2, h3⟩ := h t ht
  norm_num at h2 h3
  exact ⟨r, hr, h1, by linarith, by linarith⟩

/-- **Chirps.**  Where the law of an `fmlin` signal is the label of row `k`, the Wigner-Ville distribution has its only maximum over the column in row `k`, while
`ideal_tfr` of that law has its only mark in row `k` for `k < n/2` (frequencies below 1/4) but in row `k - 1` for `k > n/2`. -/
theorem C111_fmlin {τ : Type} (N : ℕ) (fi ff : ℝ) (c : Option ℝ) (y : Vec ℂ) (law : Vec ℝ) (h : fmlin N fi ff c = .ok (y, law))
    (hb : ∀ t < N, 0 ≤ law.get t ∧ law.get t ≤ 1 / 2) (ts : Vec τ) (n : ℕ) (hn : 3 ≤ n) (M : Mat ℝ) (hM : WvdReturns y ts n M) :
    ∃ (tfr : Mat (Option ℝ)) (freqs : Vec ℝ), idealTfr ⟨1, N, fun _ t => some (law.get t)⟩ (some (arange 0 N)) (some n) = .ok (tfr, arange 0 N, freqs) ∧
      ∀ t k, 1 ≤ t → t + 1 < N → k < n → law.get t = k / (2 * n) →
        (∀ j < n, j ≠ k → M.get j t < M.get k t) ∧ ∀ j < n, tfr.get j t = some (if j = idealRow n k then 1 else 0) := by
  obtain ⟨tfr, fr, e, -, -, -, hf, hmk⟩ := C51_marks ⟨1, N, fun _ t => some (law.get t)⟩ (fun _ t => law.get t) (arange 0 N) n (by omega) (fun _ _ _ _ => rfl)
    (fun _ _ t ht => hb t ht) (fun c hc => by simp [arange] at hc ⊢; omega)
  refine ⟨tfr, fr, e, fun t k ht1 htN hk hl => ⟨fun j hj hjk => ?_, fun j hj => ?_⟩⟩
  · obtain ⟨-, hyN, -⟩ := C77_fmlin_chirp N fi ff c y law h
    have hyN' : y.len = N := by exact_mod_cast hyN
    have hT : 1 ≤ min (min (t : ℤ) ((y.len : ℤ) - 1 - t)) (roundEven ((n : ℝ) / 2) - 1) := by
      have := roundEven_half n
      refine le_min (le_min (by omega) (by omega)) ?_
      split_ifs at this <;> omega
    obtain ⟨-, hk2⟩ := C77_wvd_fmlin N fi ff c y law h ts n (by omega) M hM t (by omega) k hk
    obtain ⟨hj1, hj2⟩ := C77_wvd_fmlin N fi ff c y law h ts n (by omega) M hM t (by omega) j hj
    rw [(hk2 hT).2 ⟨0, by rw [hl]; push_cast; ring⟩]
    refine lt_of_le_of_ne hj1 fun heq => ?_
    obtain ⟨m, hm⟩ := (hj2 hT).1 heq
    have hn0 : (n : ℝ) ≠ 0 := by exact_mod_cast (by omega : n ≠ 0)
    rw [hl] at hm
    field_simp at hm
    have hm' : (k : ℤ) = j + n * m := by exact_mod_cast hm
    have hmz : m = 0 := by
      by_contra hne
      rcases lt_or_gt_of_ne hne with h0 | h0
      · nlinarith
      · nlinarith
    rw [hmz] at hm'
    omega
  · have htt : ((arange 0 (N : ℤ)).get t).toNat = t := by simp [arange]
    have hlen : t < (arange 0 (N : ℤ)).len := by simp [arange]; omega
    by_cases hjr : j = idealRow n k
    · rw [if_pos hjr]
      refine (hmk j hj t hlen).1 ⟨0, by simp, ?_⟩
      rw [htt, hl, roundEven_idealRow n k hk, hjr]
    · rw [if_neg hjr]
      refine (hmk j hj t hlen).2 ?_
      rintro ⟨i, -, hi⟩
      rw [htt, hl, roundEven_idealRow n k hk] at hi
      omega

/-- Below and above a quarter. -/
theorem C111_rows (n k : ℕ) : (2 * k < n → idealRow n k = k) ∧ (n < 2 * k → idealRow n k + 1 = k) := by
  unfold idealRow
  constructor
  · intro h; rw [if_pos (Or.inl h)]
  · intro h; rw [if_neg (by omega)]; omega

/-- Eight samples from 0 to 7/16, eight rows: the law at sample `t` is `t / 16`, the label of row `t`.  At sample 2 the distribution and the ideal one agree, at sample 6
the distribution peaks in row 6 and the ideal one has its mark in row 5. -/
example : ∃ y law M tfr fr, fmlin 8 0 (7 / 16) (some 1) = .ok (y, law) ∧ WvdReturns y (arange 0 8) 8 M ∧
    idealTfr ⟨1, 8, fun _ t => some (law.get t)⟩ (some (arange 0 8)) (some 8) = .ok (tfr, arange 0 8, fr) ∧
      tfr.get 2 2 = some 1 ∧ M.get 1 2 < M.get 2 2 ∧ tfr.get 6 6 = some 0 ∧ tfr.get 5 6 = some 1 ∧ M.get 5 6 < M.get 6 6 := by
  obtain ⟨y, law, h, hy, -, -, -, h0, h7, -⟩ := C10_fmlin 8 1 0 (7 / 16) (by norm_num) le_rfl (by norm_num) (by norm_num) (by norm_num [abs_of_pos])
  obtain ⟨-, -, A, a, b, -, -, hl⟩ := C77_fmlin_chirp _ _ _ _ y law h
  have ea : a = 0 := by
    have := hl 0 (by omega)
    rw [h0] at this
    simpa using this.symm
  have eb : b = 1 / 16 := by
    have := hl 7 (by omega)
    rw [h7, ea] at this
    push_cast at this
    linarith
  have hlaw : ∀ t < 8, law.get t = t / 16 := fun t ht => by
    rw [hl t (by omega), ea, eb]
    ring
  obtain ⟨M, hM⟩ := (C32_returns_iff y (arange 0 8) 8 (by norm_num)).2 ⟨by rw [hy]; rfl, Or.inl (by
    have := roundEven_half 8
    norm_num at this
    norm_num [hy, this])⟩
  obtain ⟨tfr, fr, e, hall⟩ := C111_fmlin 8 0 (7 / 16) _ y law h (fun t ht => by
    have : (t : ℝ) ≤ 8 := by exact_mod_cast ht.le
    rw [hlaw t ht]
    exact ⟨by positivity, by linarith⟩) (arange 0 8) 8 (by norm_num) M hM
  obtain ⟨p1, p2⟩ := hall 2 2 (by norm_num) (by norm_num) (by norm_num) (by rw [hlaw 2 (by norm_num)]; norm_num)
  obtain ⟨q1, q2⟩ := hall 6 6 (by norm_num) (by norm_num) (by norm_num) (by rw [hlaw 6 (by norm_num)]; norm_num)
  refine ⟨y, law, M, tfr, fr, by exact_mod_cast h, hM, by exact_mod_cast e, ?_, p1 1 (by norm_num) (by norm_num), ?_, ?_, q1 5 (by norm_num) (by norm_num)⟩
  · rw [p2 2 (by norm_num)]; norm_num [idealRow]
  · rw [q2 6 (by norm_num)]; norm_num [idealRow]
  · rw [q2 5 (by norm_num)]; norm_num [idealRow]

end Tftb.Props
