import Verif.Lemmas.Chirp
import Verif.Lemmas.FM
import Verif.Props.FM
import Verif.Props.Wvd
import Verif.Props.Cohen
import Verif.Props.Stft
import Verif.Props.Spwv
import Verif.Props.Ambiguity

/-! # Localisation of tones and chirps (C77-C79) -/

namespace Tftb.Spec

/-- `x` is a chirp: constant modulus, instantaneous frequency `a + b t` at sample `t`. -/
def IsChirp (x : Vec ℂ) (A : ℂ) (a b : ℝ) : Prop :=
  ∀ i < x.len, x.get i = A * expi (2 * Real.pi * (a * i + b * i ^ 2 / 2))

end Tftb.Spec

namespace Tftb.Props

open Tftb Tftb.Spec Tftb.Linear Tftb.Cohen Tftb.FM Finset ComplexConjugate

/-! ## The generators -/

/-- Whatever the centre, `fmlin` makes a chirp of modulus one whose instantaneous frequency is the law it returns. -/
theorem C77_fmlin_chirp (n : ℤ) (fi ff : ℝ) (t0 : Option ℝ) (y : Vec ℂ) (law : Vec ℝ) (h : fmlin n fi ff t0 = .ok (y, law)) :
    law.len = y.len ∧ (y.len : ℤ) = n ∧ ∃ (A : ℂ) (a b : ℝ), ‖A‖ = 1 ∧ IsChirp y A a b ∧ ∀ t < y.len, law.get t = a + b * t := by
  unfold fmlin at h
  dsimp only at h
  split at h
  · cases h
  split at h
  · cases h
  split at h
  · cases h
  rename_i hn _ hd
  generalize AM.defaultT0 n t0 = c at h
  have hd' : (n : ℝ) - 1 ≠ 0 := fun h0 => hd (by rw [h0]; norm_num)
  cases hr : ((((arange 1 (n + 1)).map (fun t : ℤ => (t : ℝ))).map (fun y => fi * (y - c)
      + ((ff - fi) / (2.0 * ((n : ℝ) - 1))) * ((y - 1) ^ 2 - (c - 1) ^ 2))).map
        (fun y : ℝ => Complex.exp (Complex.I * 2.0 * Real.pi * y))).item (truncInt c - 1) with
  | error e => rw [hr] at h; cases h
  | ok r =>
    rw [hr, ok_bind] at h
    injection h with h
    injection h with h1 h2
    subst h1 h2
    have hrn : ‖r‖ = 1 := by
      unfold Vec.item at hr
      split at hr
      · injection hr with hr
        rw [← hr]
        show ‖Complex.exp (Complex.I * 2.0 * Real.pi * ((_ : ℝ) : ℂ))‖ = 1
        rw [exp_I_two', norm_expi]
      · cases hr
    have hlen : ((n + 1 - 1).toNat : ℕ) = n.toNat := by congr 1; omega
    have hcast : ((n.toNat : ℕ) : ℝ) = (n : ℝ) := by
      have : ((n.toNat : ℤ) : ℝ) = (n : ℝ) := by rw [Int.toNat_of_nonneg (by omega)]
      exact_mod_cast this
    have hn1 : n.toNat ≠ 1 := by
      intro h1
      apply hd'
      rw [← hcast, h1]; norm_num
    refine ⟨hlen.symm, ?_, expi (2 * Real.pi * (-(fi * (c - 1)) - (ff - fi) / (2 * ((n : ℝ) - 1)) * (c - 1) ^ 2)) / r, fi,
      (ff - fi) / ((n : ℝ) - 1), ?_, ?_, ?_⟩
    · show ((n + 1 - 1).toNat : ℤ) = n
      omega
    · rw [norm_div, norm_expi, hrn, div_one]
    · intro i _
      show Complex.exp (Complex.I * 2.0 * Real.pi * ((fi * (((1 + (i : ℤ) : ℤ) : ℝ) - c)
        + ((ff - fi) / (2.0 * ((n : ℝ) - 1))) * ((((1 + (i : ℤ) : ℤ) : ℝ) - 1) ^ 2 - (c - 1) ^ 2) : ℝ) : ℂ)) / r = _
      rw [exp_I_two', div_mul_eq_mul_div (expi _) r, ← expi_add]
      congr 2
      have h2 : (2.0 : ℝ) = 2 := by norm_num
      rw [h2]
      push_cast
      field_simp
      ring
    · intro t _
      show (if n.toNat = 1 then fi else fi + t * ((ff - fi) / ((n.toNat : ℝ) - 1))) = _
      rw [if_neg hn1, hcast]
      ring

/-- Whatever the centre, `fmconst` makes a tone of constant modulus at the frequency asked for. -/
theorem C77_fmconst_tone (n : ℤ) (f : ℝ) (t0 : Option ℝ) (y : Vec ℂ) (law : Vec ℝ) (h : fmconst n f t0 = .ok (y, law)) :
    law.len = y.len ∧ (y.len : ℤ) = n ∧ (∀ t < y.len, law.get t = f) ∧ ∃ A : ℂ, A ≠ 0 ∧ IsChirp y A f 0 := by
  unfold fmconst at h
  dsimp only at h
  split at h
  · cases h
  split at h
  · cases h
  rename_i hn _
  generalize AM.defaultT0 n t0 = c at h
  cases hr : (((arange 0 n).map (fun t : ℤ => (t : ℝ) - c)).map
      (fun t : ℝ => Complex.exp (Complex.I * 2.0 * Real.pi * f * t))).item (truncInt c) with
  | error e => rw [hr] at h; cases h
  | ok r =>
    rw [hr, ok_bind] at h
    split at h
    · cases h
    rename_i hr0
    injection h with h
    injection h with h1 h2
    subst h1 h2
    refine ⟨?_, ?_, fun _ _ => rfl, expi (2 * Real.pi * f * (-c)) / (r.re : ℂ),
      div_ne_zero (expi_ne_zero _) (Complex.ofReal_ne_zero.2 hr0), ?_⟩
    · show n.toNat = (n - 0).toNat
      congr 1; omega
    · show ((n - 0).toNat : ℤ) = n
      omega
    · intro i _
      show Complex.exp (Complex.I * 2.0 * Real.pi * f * ((((0 + (i : ℤ) : ℤ) : ℝ) - c : ℝ) : ℂ)) / (r.re : ℂ) = _
      rw [exp_I_two, div_mul_eq_mul_div, ← expi_add]
      congr 2
      push_cast
      ring

/-! ## C77 Wigner-Ville distributions -/

theorem chirp_kernel {x : Vec ℂ} {A : ℂ} {a b : ℝ} (hx : IsChirp x A a b) (t : ℕ) (τ : ℤ)
    (h1 : 0 ≤ (t : ℤ) + τ ∧ (t : ℤ) + τ < x.len) (h2 : 0 ≤ (t : ℤ) - τ ∧ (t : ℤ) - τ < x.len) :
    wignerKernel x t τ = ((‖A‖ ^ 2 : ℝ) : ℂ) * expi (2 * Real.pi * (τ * (2 * (a + b * t)))) := by
  unfold wignerKernel
  rw [zext_of_mem h1.1 h1.2, zext_of_mem h2.1 h2.2, hx _ (by omega), hx _ (by omega), map_mul, conj_expi]
  have e1 : (((t : ℤ) + τ).toNat : ℝ) = (t : ℝ) + τ := by
    have : ((((t : ℤ) + τ).toNat : ℤ) : ℝ) = (((t : ℤ) + τ : ℤ) : ℝ) := by rw [Int.toNat_of_nonneg h1.1]
    push_cast at this; exact this
  have e2 : (((t : ℤ) - τ).toNat : ℝ) = (t : ℝ) - τ := by
    have : ((((t : ℤ) - τ).toNat : ℤ) : ℝ) = (((t : ℤ) - τ : ℤ) : ℝ) := by rw [Int.toNat_of_nonneg h2.1]
    push_cast at this; exact this
  rw [e1, e2, ← mul_conj_eq_norm_sq]
  have e3 : expi (2 * Real.pi * (a * ((t : ℝ) + τ) + b * ((t : ℝ) + τ) ^ 2 / 2)) * expi (-(2 * Real.pi * (a * ((t : ℝ) - τ) + b * ((t : ℝ) - τ) ^ 2 / 2)))
      = expi (2 * Real.pi * (τ * (2 * (a + b * t)))) := by
    rw [← expi_add]; congr 1; ring
  rw [← e3]; ring

/-- Lags available around sample `t` of `N`, at most `R`. -/
def lagReach (R : ℤ) (N t : ℕ) : ℤ := min (min (t : ℤ) ((N : ℤ) - 1 - t)) R

/-- Real part of the windowed lag sum of a chirp. -/
theorem chirp_lagSum {x : Vec ℂ} {A : ℂ} {a b : ℝ} (hx : IsChirp x A a b) (n : ℕ) (R : ℤ) (w : ℤ → ℝ) (k : ℤ) {t : ℕ} :
    (lagSum R n (fun τ => (w τ : ℂ) * wignerKernel x t τ) k).re
      = ‖A‖ ^ 2 * ∑ τ ∈ Finset.Icc (-(lagReach R x.len t)) (lagReach R x.len t),
          w τ * Real.cos (2 * Real.pi * (τ * (2 * (a + b * t) - k / n))) := by
  rw [← lagSum_extend (T := lagReach R x.len t) (by unfold lagReach; omega)]
  · unfold lagSum
    rw [Complex.re_sum, Finset.mul_sum]
    apply Finset.sum_congr rfl
    intro τ hτ
    rw [Finset.mem_Icc] at hτ
    unfold lagReach at hτ
    simp only
    rw [chirp_kernel hx t τ (by omega) (by omega)]
    have : expi (2 * Real.pi * (τ * (2 * (a + b * t)))) * expi (-(2 * Real.pi * (k * τ / n)))
        = expi (2 * Real.pi * (τ * (2 * (a + b * t) - k / n))) := by
      rw [← expi_add]; congr 1; ring
    rw [mul_assoc, mul_assoc, this, ← mul_assoc, ← Complex.ofReal_mul, Complex.re_ofReal_mul, expi_re]
    ring
  · intro τ _ _ h3
    have : wignerKernel x t τ = 0 := by
      unfold wignerKernel
      unfold lagReach at h3
      by_cases h4 : 0 ≤ (t : ℤ) + τ ∧ (t : ℤ) + τ < x.len
      · rw [zext_of_not_mem (x := x) (i := (t : ℤ) - τ) (by omega)]; simp
      · rw [zext_of_not_mem h4, zero_mul]
    rw [this, mul_zero]

/-- The Wigner-Ville distribution of a chirp: at every instant Dirichlet's kernel around the instantaneous frequency. -/
theorem C77_wvd_chirp {τ : Type} (x : Vec ℂ) (A : ℂ) (a b : ℝ) (hx : IsChirp x A a b) (ts : Vec τ) (n : ℕ) (hn : 2 ≤ n) (M : Mat ℝ)
    (hM : WvdReturns x ts n M) (t : ℕ) (ht : t < x.len) (k : ℕ) (hk : k < n) :
    let T := min (min (t : ℤ) ((x.len : ℤ) - 1 - t)) (roundEven ((n : ℝ) / 2) - 1)
    let δ := 2 * (a + b * t) - k / n
    M.get k t * Real.sin (Real.pi * δ) = ‖A‖ ^ 2 * Real.sin ((2 * T + 1) * (Real.pi * δ)) ∧
    M.get k t ≤ ‖A‖ ^ 2 * (2 * T + 1) ∧
    (1 ≤ T → A ≠ 0 → (M.get k t = ‖A‖ ^ 2 * (2 * T + 1) ↔ ∃ m : ℤ, a + b * t = k / (2 * n) + m / 2)) := by
  intro T δ
  have hn0 : n ≠ 0 := by omega
  obtain ⟨hts, hN⟩ := (C32_returns_iff x ts n hn0).1 ⟨M, hM⟩
  obtain ⟨M', h1, _, _, h4⟩ := C33_wvd x ts n hn0 hts hN
  obtain rfl := wvd_unique hM h1
  have hre : M.get k t = ‖A‖ ^ 2 * ∑ τ ∈ Finset.Icc (-T) T, 1 * Real.cos (2 * Real.pi * (τ * δ)) := by
    have h5 := congrArg Complex.re (h4 k hk t ht)
    rw [Complex.ofReal_re] at h5
    have h6 := chirp_lagSum hx n (roundEven ((n : ℝ) / 2) - 1) (fun _ => 1) k (t := t)
    simp only [Complex.ofReal_one, one_mul, Int.cast_natCast] at h6
    rw [h5]
    refine h6.trans ?_
    simp only [one_mul]
    rfl
  have hT : 0 ≤ T := by
    show 0 ≤ min _ _
    rw [roundEven_half]; split <;> omega
  obtain ⟨T', hT'⟩ := Int.eq_ofNat_of_zero_le hT
  have hcard : ∑ τ ∈ Finset.Icc (-T) T, (1 : ℝ) = 2 * T + 1 := by
    rw [Finset.sum_const, Int.card_Icc, nsmul_eq_mul, mul_one, hT']
    have : (((T' : ℤ) + 1 - -(T' : ℤ)).toNat : ℕ) = 2 * T' + 1 := by omega
    rw [this]; push_cast; ring
  have hA : 0 ≤ ‖A‖ ^ 2 := by positivity
  refine ⟨?_, ?_, ?_⟩
  · rw [hre]
    simp only [one_mul]
    rw [mul_assoc, hT', sum_cos_mul_sin]
    push_cast; rfl
  · rw [hre, ← hcard]
    exact mul_le_mul_of_nonneg_left (sum_weight_cos_le _ _ (fun _ _ => zero_le_one) _) hA
  · intro h1T hA0
    have hA1 : ‖A‖ ^ 2 ≠ 0 := by
      have := norm_ne_zero_iff.2 hA0
      positivity
    rw [hre, ← hcard]
    have hnr : (n : ℝ) ≠ 0 := Nat.cast_ne_zero.2 hn0
    constructor
    · intro h
      obtain ⟨m, hm⟩ := (sum_weight_cos_eq_iff (Finset.Icc (-T) T) (fun _ => 1) (fun _ _ => zero_le_one)
        (by rw [Finset.mem_Icc]; omega) one_pos δ).1 (mul_left_cancel₀ hA1 h)
      refine ⟨m, ?_⟩
      have : 2 * (a + b * t) - k / n = m := hm
      field_simp at this ⊢
      linarith
    · rintro ⟨m, hm⟩
      rw [(sum_weight_cos_eq_iff (Finset.Icc (-T) T) (fun _ => 1) (fun _ _ => zero_le_one)
        (by rw [Finset.mem_Icc]; omega) one_pos δ).2 ⟨m, ?_⟩]
      show 2 * (a + b * t) - k / n = m
      rw [hm]
      field_simp
      ring

/-- The Wigner-Ville distribution of what `fmlin` returns peaks, at every inner instant, at the rows whose label is the returned law (modulo
one half, the period of the labels), and only there. -/
theorem C77_wvd_fmlin {τ : Type} (N : ℤ) (fi ff : ℝ) (t0 : Option ℝ) (y : Vec ℂ) (law : Vec ℝ) (h : fmlin N fi ff t0 = .ok (y, law))
    (ts : Vec τ) (n : ℕ) (hn : 2 ≤ n) (M : Mat ℝ) (hM : WvdReturns y ts n M) (t : ℕ) (ht : t < y.len) (k : ℕ) (hk : k < n) :
    let T := min (min (t : ℤ) ((y.len : ℤ) - 1 - t)) (roundEven ((n : ℝ) / 2) - 1)
    M.get k t ≤ 2 * T + 1 ∧ (1 ≤ T → (M.get k t = 2 * T + 1 ↔ ∃ m : ℤ, law.get t = k / (2 * n) + m / 2)) := by
  intro T
  obtain ⟨_, _, A, a, b, hA, hc, hl⟩ := C77_fmlin_chirp N fi ff t0 y law h
  obtain ⟨_, h2, h3⟩ := C77_wvd_chirp y A a b hc ts n hn M hM t ht k hk
  rw [hA, one_pow, one_mul] at h2 h3
  rw [hl t ht]
  exact ⟨h2, fun h1 => h3 h1 (norm_ne_zero_iff.1 (by rw [hA]; exact one_ne_zero))⟩

/-- The same for `fmconst`, relative to the power of the samples. -/
theorem C77_wvd_fmconst {τ : Type} (N : ℤ) (f : ℝ) (t0 : Option ℝ) (y : Vec ℂ) (law : Vec ℝ) (h : fmconst N f t0 = .ok (y, law))
    (ts : Vec τ) (n : ℕ) (hn : 2 ≤ n) (M : Mat ℝ) (hM : WvdReturns y ts n M) (t : ℕ) (ht : t < y.len) (k : ℕ) (hk : k < n) :
    let T := min (min (t : ℤ) ((y.len : ℤ) - 1 - t)) (roundEven ((n : ℝ) / 2) - 1)
    M.get k t ≤ ‖y.get t‖ ^ 2 * (2 * T + 1) ∧
    (1 ≤ T → (M.get k t = ‖y.get t‖ ^ 2 * (2 * T + 1) ↔ ∃ m : ℤ, law.get t = k / (2 * n) + m / 2)) := by
  intro T
  obtain ⟨_, _, hl, A, hA, hc⟩ := C77_fmconst_tone N f t0 y law h
  obtain ⟨_, h2, h3⟩ := C77_wvd_chirp y A f 0 hc ts n hn M hM t ht k hk
  have hp : ‖y.get t‖ = ‖A‖ := by rw [hc t ht, norm_mul, norm_expi, mul_one]
  rw [hp, hl t ht]
  rw [zero_mul, add_zero] at h3
  exact ⟨h2, fun h1 => h3 h1 hA⟩

/-- Pseudo Wigner-Ville distribution of a chirp with a non-negative window: a weighted sum of cosines, largest at the instantaneous
frequency. -/
theorem C77_pwvd_chirp {τ : Type} (x : Vec ℂ) (A : ℂ) (a b : ℝ) (hx : IsChirp x A a b) (ts : Vec τ) (n : ℕ) (h : Vec ℂ) (w : ℕ → ℝ) (L : ℕ)
    (hh : h.len = 2 * L + 1) (hL : (L : ℤ) < roundEven ((n : ℝ) / 2)) (hw : ∀ i, h.get i = (w i : ℂ)) (hw0 : ∀ i, 0 ≤ w i) (M : Mat ℝ)
    (hM : PwvdReturns x ts n (some h) M) (t : ℕ) (ht : t < ts.len) (k : ℕ) (hk : k < n) :
    let T := min (min (t : ℤ) ((x.len : ℤ) - 1 - t)) (L : ℤ)
    M.get k t = ‖A‖ ^ 2 * ∑ τ ∈ Finset.Icc (-T) T, w ((L : ℤ) + τ).toNat * Real.cos (2 * Real.pi * (τ * (2 * (a + b * t) - k / n))) ∧
    M.get k t ≤ ‖A‖ ^ 2 * ∑ τ ∈ Finset.Icc (-T) T, w ((L : ℤ) + τ).toNat ∧
    (1 ≤ T → A ≠ 0 → 0 < w (L + 1) →
      (M.get k t = ‖A‖ ^ 2 * ∑ τ ∈ Finset.Icc (-T) T, w ((L : ℤ) + τ).toNat ↔ ∃ m : ℤ, a + b * t = k / (2 * n) + m / 2)) := by
  intro T
  have hn0 : n ≠ 0 := by omega
  obtain ⟨M', h1, _, _, h4⟩ := C36_pwvd x ts n h L hh hL
  obtain rfl := pwvd_unique hM h1
  have hre : M.get k t = ‖A‖ ^ 2 * ∑ τ ∈ Finset.Icc (-T) T,
      w ((L : ℤ) + τ).toNat * Real.cos (2 * Real.pi * (τ * (2 * (a + b * t) - k / n))) := by
    rw [h4 k hk t ht, lagSum_congr (w := fun τ => ((w ((L : ℤ) + τ).toNat : ℝ) : ℂ) * wignerKernel x t τ) (fun τ _ _ => by rw [hw])]
    exact (chirp_lagSum hx n L (fun τ => w ((L : ℤ) + τ).toNat) k (t := t)).trans (by rw [Int.cast_natCast]; rfl)
  have hA : 0 ≤ ‖A‖ ^ 2 := by positivity
  refine ⟨hre, ?_, ?_⟩
  · rw [hre]
    exact mul_le_mul_of_nonneg_left (sum_weight_cos_le _ _ (fun _ _ => hw0 _) _) hA
  · intro h1T hA0 hw1
    have hA1 : ‖A‖ ^ 2 ≠ 0 := by
      have := norm_ne_zero_iff.2 hA0
      positivity
    have hnr : (n : ℝ) ≠ 0 := Nat.cast_ne_zero.2 hn0
    have key := sum_weight_cos_eq_iff (Finset.Icc (-T) T) (fun τ => w ((L : ℤ) + τ).toNat) (fun _ _ => hw0 _)
        (by rw [Finset.mem_Icc]; omega) (by rw [show ((L : ℤ) + 1).toNat = L + 1 by omega]; exact hw1) (2 * (a + b * t) - k / n)
    rw [hre, mul_right_inj' hA1, key]
    constructor
    · rintro ⟨m, hm⟩
      refine ⟨m, ?_⟩
      field_simp at hm ⊢
      linarith
    · rintro ⟨m, hm⟩
      refine ⟨m, ?_⟩
      rw [hm]
      field_simp
      ring

/-- The default window is such a window: the pseudo Wigner-Ville distribution of what `fmlin` returns, default window, peaks at the law. -/
theorem C77_pwvd_fmlin {τ : Type} (N : ℤ) (fi ff : ℝ) (t0 : Option ℝ) (y : Vec ℂ) (law : Vec ℝ) (h : fmlin N fi ff t0 = .ok (y, law))
    (ts : Vec τ) (n : ℕ) (hn : 2 ≤ n) (t : ℕ) (ht : t < ts.len) (hty : t < y.len) :
    ∃ (M : Mat ℝ) (peak : ℝ), PwvdReturns y ts n none M ∧ (∀ k < n, M.get k t ≤ peak) ∧
      (8 ≤ n → 1 ≤ t → t + 1 < y.len → ∀ k < n, (M.get k t = peak ↔ ∃ m : ℤ, law.get t = k / (2 * n) + m / 2)) := by
  obtain ⟨_, _, A, a, b, hA, hc, hl⟩ := C77_fmlin_chirp N fi ff t0 y law h
  obtain ⟨L, hlen, hL8⟩ := makeWindow_len n
  have hL : (L : ℤ) < roundEven ((n : ℝ) / 2) := by rw [roundEven_half]; split <;> omega
  obtain ⟨M, h1, _, _, _⟩ := C36_pwvd y ts n (makeWindow n) L hlen hL
  have key := fun k hk => C77_pwvd_chirp y A a b hc ts n (makeWindow n) (hamming (2 * L + 1)).get L hlen hL
    (fun i => by rw [← hlen]; rfl) (fun i => (hamming_pos _ i).le) M h1 t ht k hk
  refine ⟨M, _, h1, fun k hk => (key k hk).2.1, fun h8 ht1 ht2 k hk => ?_⟩
  rw [hl t hty]
  refine (key k hk).2.2 ?_ (norm_ne_zero_iff.1 (by rw [hA]; exact one_ne_zero)) (hamming_pos _ _)
  have : 1 ≤ L := by
    have hl : (makeWindow n).len = n / 4 + (1 - n / 4 % 2) := rfl
    omega
  omega

/-! ## C78 short-time Fourier transform of a tone -/

theorem tone_sum {x : Vec ℂ} {A : ℂ} {f : ℝ} (hx : IsChirp x A f 0) (w : ℤ → ℝ) (S : Finset ℤ) (c : ℤ)
    (hS : ∀ τ ∈ S, 0 ≤ c + τ ∧ c + τ < x.len) (n k : ℕ) :
    ‖∑ τ ∈ S, zext x (c + τ) * (w τ : ℂ) * expi (-(2 * Real.pi * (k * τ / n)))‖
      = ‖A‖ * ‖∑ τ ∈ S, (w τ : ℂ) * expi (2 * Real.pi * (τ * (f - k / n)))‖ := by
  have : ∀ τ ∈ S, zext x (c + τ) * (w τ : ℂ) * expi (-(2 * Real.pi * (k * τ / n)))
      = (A * expi (2 * Real.pi * (f * c))) * ((w τ : ℂ) * expi (2 * Real.pi * (τ * (f - k / n)))) := by
    intro τ hτ
    obtain ⟨h1, h2⟩ := hS τ hτ
    rw [zext_of_mem h1 h2, hx _ (by omega)]
    have e1 : (((c + τ).toNat : ℕ) : ℝ) = (c : ℝ) + τ := by
      have : (((c + τ).toNat : ℤ) : ℝ) = ((c + τ : ℤ) : ℝ) := by rw [Int.toNat_of_nonneg h1]
      push_cast at this; exact this
    rw [e1]
    have e2 : expi (2 * Real.pi * (f * ((c : ℝ) + τ) + 0 * ((c : ℝ) + τ) ^ 2 / 2)) * expi (-(2 * Real.pi * (k * τ / n)))
        = expi (2 * Real.pi * (f * c)) * expi (2 * Real.pi * (τ * (f - k / n))) := by
      rw [← expi_add, ← expi_add]; congr 1; ring
    calc _ = A * (w τ : ℂ) * (expi (2 * Real.pi * (f * ((c : ℝ) + τ) + 0 * ((c : ℝ) + τ) ^ 2 / 2)) * expi (-(2 * Real.pi * (k * τ / n)))) := by ring
      _ = _ := by rw [e2]; ring
  rw [Finset.sum_congr rfl this, ← Finset.mul_sum, norm_mul, norm_mul, norm_expi, mul_one]

/-- STFT of a tone with a non-negative window: the modulus is at most the amplitude times the sum of the window over the available samples,
and reaches it exactly at the bins of the frequency of the tone. -/
theorem C78_stft_tone {τ : Type} (x : Vec ℂ) (A : ℂ) (f : ℝ) (hx : IsChirp x A f 0) (ts : Vec τ) (n L : ℕ) (h : Vec ℂ) (w : ℕ → ℝ)
    (hh : h.len = 2 * L + 1 ∨ h.len = 2 * L + 2) (hL : 2 * L < n) (hw : ∀ i, h.get i = (w i : ℂ)) (hw0 : ∀ i, 0 < w i) :
    ∃ M : Mat ℂ, stftOf x ts n (some h) = .ok M ∧ ∀ k < n, ∀ m < ts.len,
      ‖M.get k m‖ ≤ ‖A‖ * ∑ τ ∈ segLags L x.len ((m : ℤ) - 1), w ((L : ℤ) + τ).toNat ∧
      (A ≠ 0 → 1 ≤ L → 2 ≤ x.len → 1 ≤ m → m ≤ x.len →
        (‖M.get k m‖ = ‖A‖ * ∑ τ ∈ segLags L x.len ((m : ℤ) - 1), w ((L : ℤ) + τ).toNat ↔ ∃ q : ℤ, f = k / n + q)) := by
  obtain ⟨M, h1, _, _, h4⟩ := C27_stft x ts n L h hh hL
  refine ⟨M, h1, fun k hk m hm => ?_⟩
  have hM : ‖M.get k m‖ = ‖A‖ * ‖∑ τ ∈ segLags L x.len ((m : ℤ) - 1), (w ((L : ℤ) + τ).toNat : ℂ) * expi (2 * Real.pi * (τ * (f - k / n)))‖ := by
    rw [h4 k hk m hm, ← tone_sum hx (fun τ => w ((L : ℤ) + τ).toNat) (segLags L x.len ((m : ℤ) - 1)) ((m : ℤ) - 1)
      (fun τ hτ => (Finset.mem_filter.1 hτ).2) n k]
    unfold windowedDft segLags
    rw [Finset.sum_filter]
    congr 1
    apply Finset.sum_congr rfl
    intro τ _
    rw [hw, Complex.conj_ofReal]
    split
    · rfl
    · rename_i hno
      rw [zext_of_not_mem hno, zero_mul, zero_mul]
  rw [hM]
  refine ⟨mul_le_mul_of_nonneg_left (norm_sum_weight_le _ (fun τ => w ((L : ℤ) + τ).toNat) (fun _ _ => (hw0 _).le) _) (norm_nonneg _), ?_⟩
  intro hA hL1 hN hm1 hm2
  rw [mul_right_inj' (norm_ne_zero_iff.2 hA)]
  have hadj : ∃ a : ℤ, a ∈ segLags L x.len ((m : ℤ) - 1) ∧ a + 1 ∈ segLags L x.len ((m : ℤ) - 1) := by
    unfold segLags
    by_cases h5 : m < x.len
    · exact ⟨0, by rw [Finset.mem_filter, Finset.mem_Icc]; omega, by rw [Finset.mem_filter, Finset.mem_Icc]; omega⟩
    · exact ⟨-1, by rw [Finset.mem_filter, Finset.mem_Icc]; omega, by rw [Finset.mem_filter, Finset.mem_Icc]; omega⟩
  obtain ⟨a, ha, hb⟩ := hadj
  rw [norm_sum_weight_eq_iff _ (fun τ => w ((L : ℤ) + τ).toNat) (fun _ _ => (hw0 _).le) ha hb (hw0 _) (hw0 _)]
  constructor
  · rintro ⟨q, hq⟩; exact ⟨q, by linarith⟩
  · rintro ⟨q, hq⟩; exact ⟨q, by linarith⟩

/-- Spectrogram of a tone with a positive window: no bin exceeds `|A|² (Σ w)² / Σ w²` (sums over the available samples), and exactly the bins of
the frequency of the tone reach it. -/
theorem C78_spectrogram_tone (x : Vec ℂ) (A : ℂ) (f : ℝ) (hx : IsChirp x A f 0) (ts : Vec ℤ) (n L : ℕ) (h : Vec ℂ) (w : ℕ → ℝ)
    (hh : h.len = 2 * L + 1 ∨ h.len = 2 * L + 2) (hn : n ≠ 0) (hw : ∀ i, h.get i = (w i : ℂ)) (hw0 : ∀ i, 0 < w i) :
    ∃ M : Mat ℝ, SpectroReturns x ts n h M ∧ ∀ k < n, ∀ m < ts.len,
      let S := segLags (min (roundEven ((n : ℝ) / 2) - 1) L) x.len (ts.get m - 1)
      M.get k m * ∑ τ ∈ S, w ((L : ℤ) + τ).toNat ^ 2 ≤ ‖A‖ ^ 2 * (∑ τ ∈ S, w ((L : ℤ) + τ).toNat) ^ 2 ∧
      (A ≠ 0 → 1 ≤ L → 3 ≤ n → 2 ≤ x.len → 1 ≤ ts.get m → ts.get m ≤ x.len →
        (M.get k m * ∑ τ ∈ S, w ((L : ℤ) + τ).toNat ^ 2 = ‖A‖ ^ 2 * (∑ τ ∈ S, w ((L : ℤ) + τ).toNat) ^ 2 ↔ ∃ q : ℤ, f = k / n + q)) := by
  have hwin : ∀ N c, windowEnergy h n L N c = ∑ τ ∈ segLags (min (roundEven ((n : ℝ) / 2) - 1) L) N c, w ((L : ℤ) + τ).toNat ^ 2 := by
    intro N c
    unfold windowEnergy
    exact Finset.sum_congr rfl (fun τ _ => by rw [hw, Complex.norm_real, Real.norm_of_nonneg (hw0 _).le])
  have hok : WindowOk h n L x.len ts := by
    intro m _
    rcases Finset.eq_empty_or_nonempty (segLags (min (roundEven ((n : ℝ) / 2) - 1) L) x.len (ts.get m - 1)) with h1 | h1
    · right; exact h1
    · left
      rw [hwin]
      exact (Finset.sum_pos (fun τ _ => by have := hw0 ((L : ℤ) + τ).toNat; positivity) h1).ne'
  obtain ⟨M, h1, _, _, h4⟩ := C31_closed_form x ts n L h hh hn hok
  refine ⟨M, h1, fun k hk m hm => ?_⟩
  intro S
  have hM : M.get k m * ∑ τ ∈ S, w ((L : ℤ) + τ).toNat ^ 2
      = (‖A‖ * ‖∑ τ ∈ S, (w ((L : ℤ) + τ).toNat : ℂ) * expi (2 * Real.pi * (τ * (f - k / n)))‖) ^ 2 := by
    rw [← hwin, (h4 k hk m hm).2, ← tone_sum hx (fun τ => w ((L : ℤ) + τ).toNat) S (ts.get m - 1)
      (fun τ hτ => (Finset.mem_filter.1 hτ).2) n k]
    congr 2
    apply Finset.sum_congr rfl
    intro τ _
    rw [hw, Complex.conj_ofReal]
  have hle := norm_sum_weight_le S (fun τ => w ((L : ℤ) + τ).toNat) (fun _ _ => (hw0 _).le) (f - k / n)
  have hsum : 0 ≤ ∑ τ ∈ S, w ((L : ℤ) + τ).toNat := Finset.sum_nonneg (fun _ _ => (hw0 _).le)
  rw [hM, ← mul_pow]
  refine ⟨pow_le_pow_left₀ (by positivity) (mul_le_mul_of_nonneg_left hle (norm_nonneg _)) 2, ?_⟩
  intro hA hL1 hn3 hN hm1 hm2
  rw [pow_left_inj₀ (by positivity) (by positivity) two_ne_zero, mul_right_inj' (norm_ne_zero_iff.2 hA)]
  have hhalf : 1 ≤ roundEven ((n : ℝ) / 2) - 1 := by rw [roundEven_half]; split <;> omega
  have hadj : ∃ a : ℤ, a ∈ S ∧ a + 1 ∈ S := by
    show ∃ a : ℤ, a ∈ segLags _ _ _ ∧ a + 1 ∈ segLags _ _ _
    unfold segLags
    by_cases h5 : ts.get m < x.len
    · exact ⟨0, by rw [Finset.mem_filter, Finset.mem_Icc]; omega, by rw [Finset.mem_filter, Finset.mem_Icc]; omega⟩
    · exact ⟨-1, by rw [Finset.mem_filter, Finset.mem_Icc]; omega, by rw [Finset.mem_filter, Finset.mem_Icc]; omega⟩
  obtain ⟨a, ha, hb⟩ := hadj
  rw [norm_sum_weight_eq_iff _ (fun τ => w ((L : ℤ) + τ).toNat) (fun _ _ => (hw0 _).le) ha hb (hw0 _) (hw0 _)]
  constructor
  · rintro ⟨q, hq⟩; exact ⟨q, by linarith⟩
  · rintro ⟨q, hq⟩; exact ⟨q, by linarith⟩

/-! ## C79 narrow-band ambiguity function of a chirp -/

/-- The ambiguity function of a chirp of slope `b`: its modulus is at most the power times the number of products at that lag, and reaches it
exactly on the line (modulo the period 1 of the Doppler axis) of Doppler `2 b τ`. -/
theorem C79_ambiguity_chirp (x : Vec ℂ) (A : ℂ) (a b : ℝ) (hx : IsChirp x A a b) (lag : Option (Vec ℝ)) (nf : Option ℕ) (B : Mat ℂ)
    (l xi : Vec ℝ) (h : Ambiguity.narrowBand x lag nf = .ok (B, l, xi)) {r c : ℕ} (hr : r < B.rows) (hc : c < B.cols) (j : ℤ)
    (hj : l.get c = j) (hjN : 2 * |j| ≤ x.len) :
    ‖B.get r c‖ ≤ ‖A‖ ^ 2 * (x.len - 2 * |j|) ∧
    (A ≠ 0 → 2 * |j| + 2 ≤ x.len → (‖B.get r c‖ = ‖A‖ ^ 2 * (x.len - 2 * |j|) ↔ ∃ q : ℤ, xi.get r = 2 * b * j + q)) := by
  obtain ⟨_, _, _, _, _, e⟩ := C42_closed_form x lag nf B l xi h
  have hS : ∀ z : ℤ, z ∈ Finset.Ico |j| ((x.len : ℤ) - |j|) ↔ |j| ≤ z ∧ z < (x.len : ℤ) - |j| := fun z => Finset.mem_Ico
  have hnorm : ‖B.get r c‖ = ‖A‖ ^ 2 * ‖∑ t ∈ Finset.Ico |j| ((x.len : ℤ) - |j|),
      ((1 : ℝ) : ℂ) * expi (2 * Real.pi * (t * (2 * b * j - xi.get r)))‖ := by
    rw [e r hr c hc, hj, Utils.truncInt_intCast]
    unfold ambiguity
    have e1 : ∑ t ∈ Finset.range x.len, wignerKernel x t j * expi (-(2 * Real.pi * (xi.get r * t)))
        = ∑ t ∈ Finset.Ico |j| ((x.len : ℤ) - |j|), wignerKernel x t j * expi (-(2 * Real.pi * (xi.get r * t))) := by
      symm
      apply Finset.sum_bij_ne_zero (fun t _ _ => t.toNat)
      · intro t ht _
        rw [hS] at ht
        rw [Finset.mem_range]
        have := abs_nonneg j
        omega
      · intro t ht _ u hu _ htu
        rw [hS] at ht hu
        have := abs_nonneg j
        omega
      · intro t ht hne
        rw [Finset.mem_range] at ht
        refine ⟨(t : ℤ), ?_, ?_, Int.toNat_natCast t⟩
        · rw [hS]
          by_contra hcon
          exact hne (by rw [wignerKernel_zero hcon, zero_mul])
        · rwa [Int.cast_natCast]
      · intro t ht _
        rw [hS] at ht
        have h0 : 0 ≤ t := (abs_nonneg j).trans ht.1
        have hc1 : ((t.toNat : ℕ) : ℝ) = (t : ℝ) := by
          have : ((t.toNat : ℤ) : ℝ) = (t : ℝ) := by rw [Int.toNat_of_nonneg h0]
          exact_mod_cast this
        rw [Int.toNat_of_nonneg h0, hc1]
    rw [e1]
    have e2 : ∀ t ∈ Finset.Ico |j| ((x.len : ℤ) - |j|), wignerKernel x t j * expi (-(2 * Real.pi * (xi.get r * t)))
        = (((‖A‖ ^ 2 : ℝ) : ℂ) * expi (2 * Real.pi * (2 * j * a))) * (((1 : ℝ) : ℂ) * expi (2 * Real.pi * (t * (2 * b * j - xi.get r)))) := by
      intro t ht
      rw [hS] at ht
      have h0 : 0 ≤ t := (abs_nonneg j).trans ht.1
      obtain ⟨u, rfl⟩ := Int.eq_ofNat_of_zero_le h0
      have h3 := abs_le.1 (le_refl |j|)
      rw [chirp_kernel hx u j (by omega) (by omega), Complex.ofReal_one, one_mul, mul_assoc (((‖A‖ ^ 2 : ℝ) : ℂ)), ← expi_add,
        mul_assoc (((‖A‖ ^ 2 : ℝ) : ℂ)), ← expi_add]
      congr 2
      push_cast
      ring
    rw [Finset.sum_congr rfl e2, ← Finset.mul_sum, norm_mul, norm_mul, norm_expi, mul_one, Complex.norm_real, Real.norm_of_nonneg (by positivity)]
  have hcard : ∑ t ∈ Finset.Ico |j| ((x.len : ℤ) - |j|), (1 : ℝ) = (x.len : ℝ) - 2 * |j| := by
    rw [Finset.sum_const, Int.card_Ico, nsmul_eq_mul, mul_one]
    have : ((((x.len : ℤ) - |j| - |j|).toNat : ℤ) : ℝ) = (((x.len : ℤ) - |j| - |j| : ℤ) : ℝ) := by rw [Int.toNat_of_nonneg (by omega)]
    push_cast at this
    rw [this]; push_cast; ring
  have hle := norm_sum_weight_le (Finset.Ico |j| ((x.len : ℤ) - |j|)) (fun _ => 1) (fun _ _ => zero_le_one) (2 * b * j - xi.get r)
  rw [hnorm]
  rw [hcard] at hle
  refine ⟨mul_le_mul_of_nonneg_left (by exact_mod_cast hle) (by positivity), fun hA hj2 => ?_⟩
  have hA1 : ‖A‖ ^ 2 ≠ 0 := by
    have := norm_ne_zero_iff.2 hA
    positivity
  have key := norm_sum_weight_eq_iff (Finset.Ico |j| ((x.len : ℤ) - |j|)) (fun _ => 1) (fun _ _ => zero_le_one) (a := |j|)
    (by rw [hS]; omega) (by rw [hS]; omega) one_pos one_pos (2 * b * j - xi.get r)
  rw [hcard] at key
  push_cast at key ⊢
  rw [mul_right_inj' hA1, key]
  constructor
  · rintro ⟨q, hq⟩; exact ⟨-q, by push_cast; linarith⟩
  · rintro ⟨q, hq⟩; exact ⟨-q, by push_cast; linarith⟩

/-- On the lags `narrow_band` picks itself, for what `fmlin` returns: the ridge is the line of slope `2 (ff - fi) / (N - 1)` through the origin. -/
theorem C79_ambiguity_fmlin (N : ℕ) (fi ff : ℝ) (t0 : Option ℝ) (y : Vec ℂ) (law : Vec ℝ) (h : fmlin N fi ff t0 = .ok (y, law))
    (B : Mat ℂ) (l xi : Vec ℝ) (hB : Ambiguity.narrowBand y none none = .ok (B, l, xi)) {r c : ℕ} (hr : r < B.rows) (hc : c < B.cols) :
    ‖B.get r c‖ ≤ N - 2 * |l.get c| ∧
    (2 * |l.get c| + 2 ≤ N → (‖B.get r c‖ = N - 2 * |l.get c| ↔ ∃ q : ℤ, xi.get r = 2 * (law.get 1 - law.get 0) * l.get c + q)) := by
  obtain ⟨hl1, hyN, A, a, b, hA, hch, hl⟩ := C77_fmlin_chirp N fi ff t0 y law h
  have hyN' : y.len = N := by exact_mod_cast hyN
  obtain ⟨e1, e2, e3, _⟩ := C42_closed_form y none none B l xi hB
  have e1' : l = Ambiguity.nbLags y.len := e1
  have hN0 : 1 ≤ y.len := by
    have : B.rows = y.len := e2
    omega
  obtain ⟨d1, d2⟩ := C42_default_lags y.len hN0
  have hj : l.get c = (((c : ℤ) - ((y.len - 1) / 2 : ℕ) : ℤ) : ℝ) := by rw [e1']; exact d2 c
  have hcl : c < 2 * ((y.len - 1) / 2) + 1 := by rw [← d1, ← e1', ← e3]; exact hc
  have hjN : 2 * |(c : ℤ) - ((y.len - 1) / 2 : ℕ)| ≤ y.len := by
    have : |(c : ℤ) - ((y.len - 1) / 2 : ℕ)| ≤ ((y.len - 1) / 2 : ℕ) := by rw [abs_le]; omega
    omega
  have key := C79_ambiguity_chirp y A a b hch none none B l xi hB hr hc _ hj hjN
  rw [hA, one_pow, one_mul, hyN'] at key
  rw [hyN'] at hj
  have habs : |l.get c| = ((|(c : ℤ) - ((N - 1) / 2 : ℕ)| : ℤ) : ℝ) := by rw [hj, Int.cast_abs]
  rw [habs]
  refine ⟨key.1, fun h2 => ?_⟩
  have h2' : 2 * |(c : ℤ) - ((N - 1) / 2 : ℕ)| + 2 ≤ (N : ℕ) := by exact_mod_cast h2
  have hN2 : 2 ≤ N := by have := abs_nonneg ((c : ℤ) - ((N - 1) / 2 : ℕ)); omega
  have hb : law.get 1 - law.get 0 = b := by
    rw [hl 1 (by omega), hl 0 (by omega)]; push_cast; ring
  rw [hb, hj]
  exact key.2 (norm_ne_zero_iff.1 (by rw [hA]; exact one_ne_zero)) h2'

/-! ## Concrete cases -/

/-- A chirp of 9 samples from 0.125 to 0.25: at the middle sample the law is 3/16, which is the label of row 6 of 16. -/
example : ∃ (y : Vec ℂ) (law : Vec ℝ) (M : Mat ℝ), fmlin 9 0.125 0.25 none = .ok (y, law) ∧ WvdReturns y (arange 0 9) 16 M ∧
    M.get 6 4 = 9 ∧ M.get 7 4 < 9 := by
  obtain ⟨k, hk1, hk2, _, hk⟩ := C10_fmlin_default 9 0.125 0.25 (by norm_num)
  have hok := fmlin_ok 9 k 0.125 0.25 (by norm_num) hk1 hk2 (by rw [abs_of_pos (by norm_num)]; norm_num) (by rw [abs_of_pos (by norm_num)]; norm_num)
  have hok' := hk.trans hok
  obtain ⟨M, hM, _⟩ := C33_wvd (⟨9, fun i => expi (2 * Real.pi *
      (linPhase 9 0.125 0.25 i - linPhase 9 0.125 0.25 ((k : ℝ) - 1)))⟩ : Vec ℂ) (arange 0 9) 16 (by norm_num) rfl (Or.inl (by rw [roundEven_half]; norm_num))
  refine ⟨_, _, M, hok', hM, ?_⟩
  have hT : min (min ((4 : ℕ) : ℤ) (((9 : ℕ) : ℤ) - 1 - (4 : ℕ))) (roundEven (((16 : ℕ) : ℝ) / 2) - 1) = 4 := by
    rw [roundEven_half]; norm_num
  have h3 := C77_wvd_fmlin 9 0.125 0.25 none _ _ hok' (arange 0 9) 16 (by norm_num) M hM 4 (by norm_num) 6 (by norm_num)
  have h4 := C77_wvd_fmlin 9 0.125 0.25 none _ _ hok' (arange 0 9) 16 (by norm_num) M hM 4 (by norm_num) 7 (by norm_num)
  simp only [hT] at h3 h4
  have hlaw : (linspace 0.125 0.25 9).get 4 = 3 / 16 := by
    show (if 9 = 1 then (0.125 : ℝ) else 0.125 + ((4 : ℕ) : ℝ) * ((0.25 - 0.125) / (((9 : ℕ) : ℝ) - 1))) = _
    norm_num
  rw [hlaw] at h3 h4
  constructor
  · have := (h3.2 (by norm_num)).2 ⟨0, by norm_num⟩
    rw [this]; norm_num
  · have h5 : M.get 7 4 ≤ 9 := by have := h4.1; norm_num at this ⊢; exact this
    refine lt_of_le_of_ne h5 (fun h6 => ?_)
    obtain ⟨m, hm⟩ := (h4.2 (by norm_num)).1 (by rw [h6]; norm_num)
    have : (m : ℝ) * 16 = -1 := by push_cast at hm; linarith
    have : m * 16 = -1 := by exact_mod_cast this
    omega

/-- A tone at 1/4 seen through a Hamming window of 5 samples, 8 bins: at every sample bin 2 is strictly above bin 3. -/
example : ∃ (y : Vec ℂ) (law : Vec ℝ) (M : Mat ℂ), fmconst 8 0.25 (some 4) = .ok (y, law) ∧
    stftOf y (arange 0 8) 8 (some ((hamming 5).map (fun r : ℝ => (r : ℂ)))) = .ok M ∧ ∀ m, 1 ≤ m → m < 8 → ‖M.get 3 m‖ < ‖M.get 2 m‖ := by
  have hok := fmconst_ok 8 4 0.25 (by norm_num) (by rw [abs_of_pos] <;> norm_num)
  obtain ⟨hl, hy, _, A, hA, hc⟩ := C77_fmconst_tone _ _ _ _ _ hok
  obtain ⟨M, h1, h2⟩ := C78_stft_tone _ A 0.25 hc (arange 0 8) 8 2 ((hamming 5).map (fun r : ℝ => (r : ℂ))) (hamming 5).get (Or.inl rfl)
    (by norm_num) (fun _ => rfl) (fun i => hamming_pos _ i)
  refine ⟨_, _, M, by exact_mod_cast hok, h1, fun m hm1 hm2 => ?_⟩
  have hb := h2 2 (by norm_num) m hm2
  have hc' := h2 3 (by norm_num) m hm2
  rw [(hb.2 hA (by norm_num) (by norm_num) hm1 (by show m ≤ 8; omega)).2 ⟨0, by norm_num⟩]
  refine lt_of_le_of_ne hc'.1 (fun h6 => ?_)
  obtain ⟨q, hq⟩ := (hc'.2 hA (by norm_num) (by norm_num) hm1 (by show m ≤ 8; omega)).1 h6
  have : (q : ℝ) * 8 = -1 := by push_cast at hq; linarith
  have : q * 8 = -1 := by exact_mod_cast this
  omega

/-- The ambiguity function of a chirp of 9 samples from -1/4 to 1/4: the peak is at the origin and the neighbouring Doppler row is below it. -/
example : ∃ (y : Vec ℂ) (law : Vec ℝ) (B : Mat ℂ) (l xi : Vec ℝ), fmlin 9 (-0.25) 0.25 none = .ok (y, law) ∧
    Ambiguity.narrowBand y none none = .ok (B, l, xi) ∧ ‖B.get 4 4‖ = 9 ∧ ‖B.get 3 4‖ < 9 := by
  obtain ⟨k, hk1, hk2, _, hk⟩ := C10_fmlin_default 9 (-0.25) 0.25 (by norm_num)
  have hok := fmlin_ok 9 k (-0.25) 0.25 (by norm_num) hk1 hk2 (by rw [abs_of_neg] <;> norm_num) (by rw [abs_of_pos] <;> norm_num)
  have hok' := hk.trans hok
  obtain ⟨B, l, xi, hB, hr, hc, _⟩ := C42_default (⟨9, fun i => expi (2 * Real.pi *
      (linPhase 9 (-0.25) 0.25 i - linPhase 9 (-0.25) 0.25 ((k : ℝ) - 1)))⟩ : Vec ℂ) (by norm_num)
  refine ⟨_, _, B, l, xi, hok', hB, ?_⟩
  have hr' : B.rows = 9 := hr
  have hc' : B.cols = 9 := hc.trans (by norm_num)
  obtain ⟨e1, _, _, _, e5, _⟩ := C42_closed_form _ none none B l xi hB
  have hl : l.get 4 = 0 := by
    have e1' : l = Ambiguity.nbLags 9 := by
      rw [Option.getD_none] at e1
      exact e1
    rw [e1']
    have h := (C42_default_lags 9 (by norm_num)).2 4
    rw [show (9 - 1) / 2 = 4 from rfl, sub_self, Int.cast_zero] at h
    exact h
  have h4 := C79_ambiguity_fmlin 9 (-0.25) 0.25 none _ _ hok' B l xi hB (r := 4) (c := 4) (by omega) (by omega)
  have h3 := C79_ambiguity_fmlin 9 (-0.25) 0.25 none _ _ hok' B l xi hB (r := 3) (c := 4) (by omega) (by omega)
  have x4 : xi.get 4 = 0 := by rw [e5 4 (by omega), hr', show ((9 / 2 : ℕ)) = 4 from rfl]; norm_num
  have x3 : xi.get 3 = -1 / 9 := by rw [e5 3 (by omega), hr', show ((9 / 2 : ℕ)) = 4 from rfl]; norm_num
  rw [hl, x4] at h4
  rw [hl, x3] at h3
  constructor
  · have := (h4.2 (by norm_num)).2 ⟨0, by norm_num⟩
    rw [this]; norm_num
  · have h5 : ‖B.get 3 4‖ ≤ 9 := by have := h3.1; norm_num at this ⊢; exact this
    refine lt_of_le_of_ne h5 (fun h6 => ?_)
    obtain ⟨m, hm⟩ := (h3.2 (by norm_num)).1 (by rw [h6]; norm_num)
    have : (m : ℝ) * 9 = -1 := by rw [mul_zero, zero_add] at hm; linarith
    have : m * 9 = -1 := by exact_mod_cast this
    omega

end Tftb.Props
