import Verif.Props.AmChirp
import Verif.Props.Misc
import Verif.Props.InstFreq
import Verif.Props.Ambiguity

/-! # C125 Gaussian atoms in time and frequency -/

namespace Tftb.Props

open Tftb Tftb.Spec Tftb.Linear Tftb.Cohen Tftb.Misc Tftb.TF Finset ComplexConjugate

/-- Product of two atoms `τ` samples after and before sample `t`: envelopes and phase. -/
theorem gaussAtom_pair (c d : ℤ) (f g s r A B : ℝ) (t : ℕ) (τ : ℤ) (h1 : 0 ≤ (t : ℤ) + τ) (h2 : 0 ≤ (t : ℤ) - τ) :
    gaussAtom c f s A ((t : ℤ) + τ).toNat * conj (gaussAtom d g r B ((t : ℤ) - τ).toNat)
      = ((A * B * Real.exp (-Real.pi * ((((t : ℝ) + 1 + τ - c) / s) ^ 2 + (((t : ℝ) + 1 - τ - d) / r) ^ 2)) : ℝ) : ℂ)
        * expi (2 * Real.pi * (τ * (f + g) + (f - g) * t - f * c + g * d)) := by
  unfold gaussAtom
  have e1 : (((t : ℤ) + τ).toNat : ℝ) = (t : ℝ) + τ := by
    have : ((((t : ℤ) + τ).toNat : ℤ) : ℝ) = (((t : ℤ) + τ : ℤ) : ℝ) := by rw [Int.toNat_of_nonneg h1]
    push_cast at this; exact this
  have e2 : (((t : ℤ) - τ).toNat : ℝ) = (t : ℝ) - τ := by
    have : ((((t : ℤ) - τ).toNat : ℤ) : ℝ) = (((t : ℤ) - τ : ℤ) : ℝ) := by rw [Int.toNat_of_nonneg h2]
    push_cast at this; exact this
  rw [e1, e2, map_mul, Complex.conj_ofReal, conj_expi]
  have e3 : expi (2 * Real.pi * (τ * (f + g) + (f - g) * t - f * c + g * d))
      = expi (2 * Real.pi * f * ((t : ℝ) + τ - c)) * expi (-(2 * Real.pi * g * ((t : ℝ) - τ - d))) := by
    rw [← expi_add]; congr 1; ring
  have e4 : Real.exp (-Real.pi * ((((t : ℝ) + 1 + τ - c) / s) ^ 2 + (((t : ℝ) + 1 - τ - d) / r) ^ 2))
      = Real.exp (-Real.pi * (((t : ℝ) + τ + 1 - c) / s) ^ 2) * Real.exp (-Real.pi * (((t : ℝ) - τ + 1 - d) / r) ^ 2) := by
    rw [← Real.exp_add]; congr 1; ring
  rw [e3, e4]
  push_cast
  ring

/-- Wigner-Ville distribution of what `atoms` returns: a sum over all pairs of atoms (a pair of an atom with itself is its own distribution, the others are
the interferences).  `T` is the number of lags available at sample `t`. -/
theorem C125_wvd {τ : Type} (N : ℕ) (C : Mat ℝ) (hN : 1 ≤ N) (hc : 4 ≤ C.cols) (hin : ∀ p < C.rows, atomCentre N (C.get p 0) < N) (z : Vec ℂ)
    (hz : atoms N (.two C) = .ok z) (ts : Vec τ) (n : ℕ) (hn : 2 ≤ n) (M : Mat ℝ) (hM : WvdReturns z ts n M) (k : ℕ) (hk : k < n) (t : ℕ) (ht : t < N) :
    let T := min (min (t : ℤ) ((N : ℤ) - 1 - t)) (roundEven ((n : ℝ) / 2) - 1)
    let c := fun p => (atomCentre N (C.get p 0) : ℝ)
    let f := fun p => atomFreq (C.get p 1)
    let s := fun p => C.get p 2
    let A := fun p => C.get p 3
    M.get k t = ∑ p ∈ range C.rows, ∑ q ∈ range C.rows, A p * A q * ∑ τ ∈ Finset.Icc (-T) T,
      Real.exp (-Real.pi * ((((t : ℝ) + 1 + τ - c p) / s p) ^ 2 + (((t : ℝ) + 1 - τ - c q) / s q) ^ 2))
        * Real.cos (2 * Real.pi * (τ * (f p + f q - k / n) + (f p - f q) * t - f p * c p + f q * c q)) := by
  intro T c f s A
  have hs : ∀ p < C.rows, C.get p 2 ≠ 0 := by
    intro p hp h0
    have := (C22_atoms N C hN hc hin).2 ⟨p, hp, h0⟩
    rw [hz] at this
    cases this
  obtain ⟨z', hz', hl, hg⟩ := (C22_atoms N C hN hc hin).1 hs
  rw [hz] at hz'
  injection hz' with hz'
  subst hz'
  have hn0 : n ≠ 0 := by omega
  obtain ⟨hts, hNn⟩ := (C32_returns_iff z ts n hn0).1 ⟨M, hM⟩
  obtain ⟨M', h1, _, _, h4⟩ := C33_wvd z ts n hn0 hts hNn
  obtain rfl := wvd_unique hM h1
  have h5 := congrArg Complex.re (h4 k hk t (by omega))
  rw [Complex.ofReal_re] at h5
  rw [h5, ← lagSum_extend (T := T) (min_le_right _ _)]
  · unfold lagSum
    rw [Complex.re_sum]
    simp only [Finset.mul_sum]
    rw [Finset.sum_congr rfl (fun p _ => Finset.sum_comm), Finset.sum_comm]
    refine Finset.sum_congr rfl fun τ hτ => ?_
    rw [Finset.mem_Icc] at hτ
    have hT : T ≤ t ∧ T ≤ (N : ℤ) - 1 - t := ⟨(min_le_left _ _).trans (min_le_left _ _), (min_le_left _ _).trans (min_le_right _ _)⟩
    unfold wignerKernel
    rw [zext_of_mem (by omega) (by omega), zext_of_mem (by omega) (by omega), hg _ (by omega), hg _ (by omega), map_sum, Finset.sum_mul_sum, Finset.sum_mul,
      Complex.re_sum]
    refine Finset.sum_congr rfl fun p _ => ?_
    rw [Finset.sum_mul, Complex.re_sum]
    refine Finset.sum_congr rfl fun q _ => ?_
    rw [gaussAtom_pair _ _ _ _ _ _ _ _ t τ (by omega) (by omega), mul_assoc, ← expi_add, Complex.re_ofReal_mul, expi_re, mul_assoc]
    congr 3
    push_cast
    ring
  · intro τ _ _ h3
    have hT : ¬ (|τ| ≤ (t : ℤ) ∧ (t : ℤ) < (z.len : ℤ) - |τ|) := by
      rintro ⟨a1, a2⟩
      rw [abs_le] at a1
      have a3 := abs_le.1 (show |τ| ≤ (z.len : ℤ) - 1 - t by omega)
      apply h3
      show -min (min (t : ℤ) ((N : ℤ) - 1 - t)) (roundEven ((n : ℝ) / 2) - 1) ≤ τ ∧ τ ≤ min (min (t : ℤ) ((N : ℤ) - 1 - t)) (roundEven ((n : ℝ) / 2) - 1)
      omega
    exact wignerKernel_zero hT

/-- Lags available at sample `t` of `N` with `n` bins. -/
noncomputable def wvdReach (N n t : ℕ) : ℤ := min (min (t : ℤ) ((N : ℤ) - 1 - t)) (roundEven ((n : ℝ) / 2) - 1)

/-- The distribution of one atom: a Gaussian in time around its centre, times a sum over lags that depends on the distance to its frequency. -/
noncomputable def atomWvd (T : ℤ) (c f s A : ℝ) (ν t : ℝ) : ℝ :=
  A ^ 2 * Real.exp (-(2 * Real.pi * ((t + 1 - c) / s) ^ 2)) * ∑ τ ∈ Finset.Icc (-T) T, Real.exp (-(2 * Real.pi * (τ / s) ^ 2)) * Real.cos (2 * Real.pi * (τ * (2 * (f - ν))))

/-- The interference of two atoms of equal spread: centred half way in time (`m`) and in frequency (`g`), modulated by the differences. -/
noncomputable def atomCross (T : ℤ) (c d f g s A B : ℝ) (ν t : ℝ) : ℝ :=
  2 * A * B * Real.exp (-(2 * Real.pi * ((t + 1 - (c + d) / 2) / s) ^ 2)) * ∑ τ ∈ Finset.Icc (-T) T,
    Real.exp (-(2 * Real.pi * ((τ - (c - d) / 2) / s) ^ 2)) * Real.cos (2 * Real.pi * (τ * (2 * ((f + g) / 2 - ν)) + ((f - g) * t - f * c + g * d)))

theorem atomWvd_eq (T : ℤ) (c f s A : ℝ) (n k t : ℕ) :
    A * A * ∑ τ ∈ Finset.Icc (-T) T, Real.exp (-Real.pi * ((((t : ℝ) + 1 + τ - c) / s) ^ 2 + (((t : ℝ) + 1 - τ - c) / s) ^ 2))
        * Real.cos (2 * Real.pi * (τ * (f + f - k / n) + (f - f) * t - f * c + f * c)) = atomWvd T c f s A (k / (2 * n)) t := by
  unfold atomWvd
  rw [mul_assoc (A ^ 2), ← pow_two, Finset.mul_sum (Finset.Icc (-T) T) _ (Real.exp _)]
  congr 1
  refine Finset.sum_congr rfl fun τ _ => ?_
  rw [← mul_assoc, ← Real.exp_add]
  congr 2 <;> ring

theorem atomCross_eq (T : ℤ) (c d f g s A B : ℝ) (n k t : ℕ) :
    A * B * (∑ τ ∈ Finset.Icc (-T) T, Real.exp (-Real.pi * ((((t : ℝ) + 1 + τ - c) / s) ^ 2 + (((t : ℝ) + 1 - τ - d) / s) ^ 2))
        * Real.cos (2 * Real.pi * (τ * (f + g - k / n) + (f - g) * t - f * c + g * d)))
      + B * A * (∑ τ ∈ Finset.Icc (-T) T, Real.exp (-Real.pi * ((((t : ℝ) + 1 + τ - d) / s) ^ 2 + (((t : ℝ) + 1 - τ - c) / s) ^ 2))
        * Real.cos (2 * Real.pi * (τ * (g + f - k / n) + (g - f) * t - g * d + f * c))) = atomCross T c d f g s A B (k / (2 * n)) t := by
  have e : ∑ τ ∈ Finset.Icc (-T) T, Real.exp (-Real.pi * ((((t : ℝ) + 1 + τ - d) / s) ^ 2 + (((t : ℝ) + 1 - τ - c) / s) ^ 2))
        * Real.cos (2 * Real.pi * (τ * (g + f - k / n) + (g - f) * t - g * d + f * c))
      = ∑ τ ∈ Finset.Icc (-T) T, Real.exp (-Real.pi * ((((t : ℝ) + 1 + τ - c) / s) ^ 2 + (((t : ℝ) + 1 - τ - d) / s) ^ 2))
        * Real.cos (2 * Real.pi * (τ * (f + g - k / n) + (f - g) * t - f * c + g * d)) := by
    refine Finset.sum_equiv (Equiv.neg ℤ) (fun τ => ?_) (fun τ _ => ?_)
    · rw [Finset.mem_Icc, Finset.mem_Icc, Equiv.neg_apply]; omega
    · rw [Equiv.neg_apply, ← Real.cos_neg (2 * Real.pi * (τ * (g + f - k / n) + (g - f) * t - g * d + f * c))]
      congr 2 <;> push_cast <;> ring
  rw [e, mul_comm B A, ← two_mul, ← mul_assoc, ← mul_assoc]
  unfold atomCross
  rw [mul_assoc (2 * A * B) (Real.exp _), Finset.mul_sum (Finset.Icc (-T) T) _ (Real.exp _)]
  congr 1
  refine Finset.sum_congr rfl fun τ _ => ?_
  rw [← mul_assoc, ← Real.exp_add]
  congr 2 <;> ring

/-- One atom: the closed form; at every instant the row of the atom's frequency (modulo 1/2) is the largest and the only one to be. -/
theorem C125_one {τ : Type} (N : ℕ) (C : Mat ℝ) (hN : 1 ≤ N) (hc : 4 ≤ C.cols) (h1 : C.rows = 1) (hin : atomCentre N (C.get 0 0) < N) (z : Vec ℂ)
    (hz : atoms N (.two C) = .ok z) (ts : Vec τ) (n : ℕ) (hn : 2 ≤ n) (M : Mat ℝ) (hM : WvdReturns z ts n M) :
    let c := (atomCentre N (C.get 0 0) : ℝ)
    let f := atomFreq (C.get 0 1)
    let s := C.get 0 2
    let A := C.get 0 3
    (∀ k < n, ∀ t < N, M.get k t = atomWvd (wvdReach N n t) c f s A (k / (2 * n)) t) ∧
    (∀ k < n, ∀ t < N, M.get k t ≤ atomWvd (wvdReach N n t) c f s A f t) ∧
    (A ≠ 0 → ∀ k < n, ∀ t < N, 1 ≤ wvdReach N n t → (M.get k t = atomWvd (wvdReach N n t) c f s A f t ↔ ∃ m : ℤ, f = k / (2 * n) + m / 2)) ∧
    -- the entries at the centre are above the others, if the other instants have no more lags
    (A ≠ 0 → ∀ u < N, (u : ℝ) + 1 = c → ∀ k < n, ∀ t < N, t ≠ u → wvdReach N n t ≤ wvdReach N n u → M.get k t < atomWvd (wvdReach N n u) c f s A f u) := by
  intro c f s A
  have hin' : ∀ p < C.rows, atomCentre N (C.get p 0) < N := by
    intro p hp
    rw [show p = 0 by omega]
    exact hin
  have hcl : ∀ k < n, ∀ t < N, M.get k t = atomWvd (wvdReach N n t) c f s A (k / (2 * n)) t := by
    intro k hk t ht
    have h := C125_wvd N C hN hc hin' z hz ts n hn M hM k hk t ht
    rw [h1] at h
    simp only [Finset.sum_range_one] at h
    rw [h]
    exact atomWvd_eq _ c f s A n k t
  have hpk : ∀ T : ℤ, ∀ t : ℝ, atomWvd T c f s A f t
      = A ^ 2 * Real.exp (-(2 * Real.pi * ((t + 1 - c) / s) ^ 2)) * ∑ τ ∈ Finset.Icc (-T) T, Real.exp (-(2 * Real.pi * ((τ : ℝ) / s) ^ 2)) := by
    intro T t
    unfold atomWvd
    congr 1
    refine Finset.sum_congr rfl fun τ _ => ?_
    rw [sub_self, mul_zero, mul_zero, mul_zero, Real.cos_zero, mul_one]
  have hle : ∀ k < n, ∀ t < N, M.get k t ≤ atomWvd (wvdReach N n t) c f s A f t := by
    intro k hk t ht
    rw [hcl k hk t ht, hpk]
    exact mul_le_mul_of_nonneg_left (sum_weight_cos_le _ _ (fun τ _ => (Real.exp_pos _).le) _) (by positivity)
  refine ⟨hcl, hle, ?_, ?_⟩
  · intro hA k hk t ht hT
    have hA1 : A ^ 2 * Real.exp (-(2 * Real.pi * (((t : ℝ) + 1 - c) / s) ^ 2)) ≠ 0 := by positivity
    rw [hcl k hk t ht, hpk]
    unfold atomWvd
    rw [mul_right_inj' hA1, sum_weight_cos_eq_iff _ (fun τ => Real.exp (-(2 * Real.pi * ((τ : ℝ) / s) ^ 2))) (fun τ _ => (Real.exp_pos _).le)
      (by rw [Finset.mem_Icc]; omega) (Real.exp_pos _)]
    constructor
    · rintro ⟨m, hm⟩; exact ⟨m, by linarith⟩
    · rintro ⟨m, hm⟩; exact ⟨m, by linarith⟩
  · intro hA u hu huc k hk t ht htu hT
    refine (hle k hk t ht).trans_lt ?_
    rw [hpk, hpk]
    have hs : s ≠ 0 := by
      intro h0
      have := (C22_atoms N C hN hc hin').2 ⟨0, by omega, h0⟩
      rw [hz] at this
      cases this
    have hne : (t : ℝ) + 1 - c ≠ 0 := by
      rw [← huc]
      intro h0
      apply htu
      have : (t : ℝ) = u := by linarith
      exact_mod_cast this
    have hexp : Real.exp (-(2 * Real.pi * (((t : ℝ) + 1 - c) / s) ^ 2)) < Real.exp (-(2 * Real.pi * (((u : ℝ) + 1 - c) / s) ^ 2)) := by
      rw [Real.exp_lt_exp, huc, sub_self, zero_div]
      have h2 : 0 < (((t : ℝ) + 1 - c) / s) ^ 2 := by
        have := div_ne_zero hne hs
        positivity
      have := mul_pos (mul_pos two_pos Real.pi_pos) h2
      simp only [ne_eq, OfNat.ofNat_ne_zero, not_false_eq_true, zero_pow, mul_zero, neg_zero]
      linarith
    have hSt : ∑ τ ∈ Finset.Icc (-wvdReach N n t) (wvdReach N n t), Real.exp (-(2 * Real.pi * ((τ : ℝ) / s) ^ 2))
        ≤ ∑ τ ∈ Finset.Icc (-wvdReach N n u) (wvdReach N n u), Real.exp (-(2 * Real.pi * ((τ : ℝ) / s) ^ 2)) := by
      refine Finset.sum_le_sum_of_subset_of_nonneg (fun τ hτ => ?_) (fun _ _ _ => (Real.exp_pos _).le)
      rw [Finset.mem_Icc] at hτ ⊢
      omega
    have hSp : 0 < ∑ τ ∈ Finset.Icc (-wvdReach N n u) (wvdReach N n u), Real.exp (-(2 * Real.pi * ((τ : ℝ) / s) ^ 2)) := by
      refine Finset.sum_pos (fun _ _ => Real.exp_pos _) ⟨0, ?_⟩
      have : 0 ≤ wvdReach N n u := by
        unfold wvdReach
        have : 1 ≤ roundEven ((n : ℝ) / 2) := by rw [roundEven_half]; split <;> omega
        omega
      rw [Finset.mem_Icc]
      omega
    have hA2 : 0 < A ^ 2 := by positivity
    refine (mul_le_mul_of_nonneg_left hSt (by positivity)).trans_lt ?_
    exact mul_lt_mul_of_pos_right (mul_lt_mul_of_pos_left hexp hA2) hSp

/-- Two atoms of equal spread: the two distributions, and an interference halfway between them in time and in frequency. -/
theorem C125_two {τ : Type} (N : ℕ) (C : Mat ℝ) (hN : 1 ≤ N) (hc : 4 ≤ C.cols) (h2 : C.rows = 2) (hs : C.get 1 2 = C.get 0 2) (hin : ∀ p < 2, atomCentre N (C.get p 0) < N)
    (z : Vec ℂ) (hz : atoms N (.two C) = .ok z) (ts : Vec τ) (n : ℕ) (hn : 2 ≤ n) (M : Mat ℝ) (hM : WvdReturns z ts n M) (k : ℕ) (hk : k < n) (t : ℕ) (ht : t < N) :
    let c := fun p => (atomCentre N (C.get p 0) : ℝ)
    let f := fun p => atomFreq (C.get p 1)
    let s := C.get 0 2
    let A := fun p => C.get p 3
    let T := wvdReach N n t
    M.get k t = atomWvd T (c 0) (f 0) s (A 0) (k / (2 * n)) t + atomWvd T (c 1) (f 1) s (A 1) (k / (2 * n)) t
      + atomCross T (c 0) (c 1) (f 0) (f 1) s (A 0) (A 1) (k / (2 * n)) t ∧
    |atomCross T (c 0) (c 1) (f 0) (f 1) s (A 0) (A 1) (k / (2 * n)) t| ≤ 2 * |A 0 * A 1| * Real.exp (-(2 * Real.pi * (((t : ℝ) + 1 - (c 0 + c 1) / 2) / s) ^ 2))
      * ∑ τ ∈ Finset.Icc (-T) T, Real.exp (-(2 * Real.pi * (((τ : ℝ) - (c 0 - c 1) / 2) / s) ^ 2)) := by
  intro c f s A T
  constructor
  · have h := C125_wvd N C hN hc (by rw [h2]; exact hin) z hz ts n hn M hM k hk t ht
    rw [h2] at h
    simp only [Finset.sum_range_succ, Finset.sum_range_zero, zero_add, hs] at h
    rw [h, ← atomWvd_eq, ← atomWvd_eq, ← atomCross_eq]
    show _ + _ + (_ + _) = _ + _ + (_ + _)
    simp only [c, f, s, A, T, wvdReach]
    ring
  · unfold atomCross
    rw [abs_mul, abs_mul, mul_assoc 2, abs_mul, abs_two, abs_of_pos (Real.exp_pos _)]
    refine mul_le_mul_of_nonneg_left ((Finset.abs_sum_le_sum_abs _ _).trans (Finset.sum_le_sum fun τ _ => ?_)) (by positivity)
    rw [abs_mul, abs_of_pos (Real.exp_pos _)]
    exact mul_le_of_le_one_right (Real.exp_pos _).le (Real.abs_cos_le_one _)

/-- `inst_freq` of one atom is its frequency at every instant, whatever its centre, spread and (non-zero) amplitude. -/
theorem C125_inst_freq (N : ℕ) (C : Mat ℝ) (hN : 1 ≤ N) (hc : 4 ≤ C.cols) (h1 : C.rows = 1) (hin : atomCentre N (C.get 0 0) < N) (hf : 0 < C.get 0 1) (hA : C.get 0 3 ≠ 0)
    (z : Vec ℂ) (hz : atoms N (.two C) = .ok z) :
    ∃ (g : Vec ℝ) (t : Vec ℤ), instFreq z none = .ok (g, t) ∧ g.len = N - 2 ∧ ∀ j < N - 2, g.get j = min (C.get 0 1) (1 / 2) := by
  have hin' : ∀ p < C.rows, atomCentre N (C.get p 0) < N := by
    intro p hp
    rw [show p = 0 by omega]
    exact hin
  have hs : ∀ p < C.rows, C.get p 2 ≠ 0 := by
    intro p hp h0
    have := (C22_atoms N C hN hc hin').2 ⟨p, hp, h0⟩
    rw [hz] at this
    cases this
  obtain ⟨z', hz', hl, hg⟩ := (C22_atoms N C hN hc hin').1 hs
  rw [hz] at hz'
  injection hz' with hz'
  subst hz'
  rw [h1] at hg
  simp only [Finset.sum_range_one] at hg
  set f := atomFreq (C.get 0 1) with hfd
  have hfe : f = min (C.get 0 1) (1 / 2) := by
    rw [hfd, atomFreq]
    exact max_eq_left (le_min hf.le (by norm_num))
  have hf0 : 0 < f := by rw [hfe]; exact lt_min hf (by norm_num)
  have hf1 : f ≤ 1 / 2 := by rw [hfe]; exact min_le_right _ _
  set e : ℝ := if C.get 0 3 < 0 then 1 / 2 else 0 with he
  have hamp : ((C.get 0 3 : ℝ) : ℂ) = ((|C.get 0 3| : ℝ) : ℂ) * expi (2 * Real.pi * e) := by
    rw [he]
    split_ifs with h
    · rw [abs_of_neg h, show 2 * Real.pi * (1 / 2) = Real.pi by ring]
      unfold expi
      rw [Complex.exp_pi_mul_I]
      push_cast
      ring
    · rw [abs_of_nonneg (not_lt.1 h), mul_zero, expi_zero, mul_one]
  obtain ⟨g, t, r1, r2, _, r4⟩ := instFreq_phase N
    (fun i => |C.get 0 3| * Real.exp (-Real.pi * (((i : ℝ) + 1 - atomCentre N (C.get 0 0)) / C.get 0 2) ^ 2))
    (fun i => f * ((i : ℝ) - atomCentre N (C.get 0 0)) + e) (fun i _ => mul_pos (abs_pos.2 hA) (Real.exp_pos _))
    (fun i _ => by
      have : (f * (((i + 2 : ℕ) : ℝ) - atomCentre N (C.get 0 0)) + e - (f * ((i : ℝ) - atomCentre N (C.get 0 0)) + e)) / 2 = f := by push_cast; ring
      rw [this]
      exact ⟨hf0, hf1⟩) z hl (fun i hi => by
      rw [hg i hi]
      unfold gaussAtom
      rw [Complex.ofReal_mul, hamp, mul_add, expi_add]
      push_cast
      rw [show 2 * Real.pi * (f * ((i : ℝ) - (atomCentre N (C.get 0 0) : ℝ))) = 2 * Real.pi * f * ((i : ℝ) - (atomCentre N (C.get 0 0) : ℝ)) by ring]
      ring)
  refine ⟨g, t, r1, r2, fun j hj => ?_⟩
  rw [(r4 j hj).2, ← hfe]
  push_cast
  ring

/-- The ambiguity function of one atom: its modulus does not depend on the frequency of the atom; at integer lag `j` it is a Gaussian of the lag times the transform, at
the Doppler of the row, of the squared envelope over the samples available. -/
theorem C125_ambiguity (N : ℕ) (C : Mat ℝ) (hN : 1 ≤ N) (hc : 4 ≤ C.cols) (h1 : C.rows = 1) (hin : atomCentre N (C.get 0 0) < N)
    (z : Vec ℂ) (hz : atoms N (.two C) = .ok z) (lag : Option (Vec ℝ)) (nf : Option ℕ) (B : Mat ℂ) (l xi : Vec ℝ)
    (h : Ambiguity.narrowBand z lag nf = .ok (B, l, xi)) (r : ℕ) (hr : r < B.rows) (u : ℕ) (hu : u < B.cols) (j : ℤ) (hj : l.get u = j) :
    let c := (atomCentre N (C.get 0 0) : ℝ)
    let s := C.get 0 2
    let A := C.get 0 3
    ‖B.get r u‖ = A ^ 2 * Real.exp (-(2 * Real.pi * (j / s) ^ 2))
      * ‖∑ t ∈ (range N).filter (fun t : ℕ => |j| ≤ (t : ℤ) ∧ (t : ℤ) < (N : ℤ) - |j|),
          ((Real.exp (-(2 * Real.pi * (((t : ℝ) + 1 - c) / s) ^ 2)) : ℝ) : ℂ) * expi (-(2 * Real.pi * (xi.get r * t)))‖ := by
  intro c s A
  have hin' : ∀ p < C.rows, atomCentre N (C.get p 0) < N := by
    intro p hp
    rw [show p = 0 by omega]
    exact hin
  have hs : ∀ p < C.rows, C.get p 2 ≠ 0 := by
    intro p hp h0
    have := (C22_atoms N C hN hc hin').2 ⟨p, hp, h0⟩
    rw [hz] at this
    cases this
  obtain ⟨z', hz', hl, hg⟩ := (C22_atoms N C hN hc hin').1 hs
  rw [hz] at hz'
  injection hz' with hz'
  subst hz'
  rw [h1] at hg
  simp only [Finset.sum_range_one] at hg
  obtain ⟨_, _, _, _, _, e⟩ := C42_closed_form z lag nf B l xi h
  rw [e r hr u hu, hj, Utils.truncInt_intCast]
  unfold ambiguity
  rw [hl, ← Finset.sum_filter_of_ne (p := fun t : ℕ => |j| ≤ (t : ℤ) ∧ (t : ℤ) < (N : ℤ) - |j|)]
  · have key : ∀ t ∈ (range N).filter (fun t : ℕ => |j| ≤ (t : ℤ) ∧ (t : ℤ) < (N : ℤ) - |j|),
        wignerKernel z t j * expi (-(2 * Real.pi * (xi.get r * t)))
          = (((A ^ 2 * Real.exp (-(2 * Real.pi * (j / s) ^ 2)) : ℝ) : ℂ) * expi (2 * Real.pi * (j * (atomFreq (C.get 0 1) + atomFreq (C.get 0 1)))))
            * (((Real.exp (-(2 * Real.pi * (((t : ℝ) + 1 - c) / s) ^ 2)) : ℝ) : ℂ) * expi (-(2 * Real.pi * (xi.get r * t)))) := by
      intro t ht
      rw [Finset.mem_filter, Finset.mem_range] at ht
      obtain ⟨ht0, ht1, ht2⟩ := ht
      have a1 := abs_le.1 ht1
      have a2 := abs_le.1 (show |j| ≤ (N : ℤ) - 1 - t by omega)
      unfold wignerKernel
      rw [zext_of_mem (by omega) (by omega), zext_of_mem (by omega) (by omega), hg _ (by omega), hg _ (by omega), gaussAtom_pair _ _ _ _ _ _ _ _ t j (by omega) (by omega)]
      have e1 : Real.exp (-Real.pi * ((((t : ℝ) + 1 + j - (atomCentre N (C.get 0 0) : ℝ)) / C.get 0 2) ^ 2 + (((t : ℝ) + 1 - j - (atomCentre N (C.get 0 0) : ℝ)) / C.get 0 2) ^ 2))
          = Real.exp (-(2 * Real.pi * (j / s) ^ 2)) * Real.exp (-(2 * Real.pi * (((t : ℝ) + 1 - c) / s) ^ 2)) := by
        rw [← Real.exp_add]
        congr 1
        simp only [c, s]
        ring
      rw [e1, show (j : ℝ) * (atomFreq (C.get 0 1) + atomFreq (C.get 0 1)) + (atomFreq (C.get 0 1) - atomFreq (C.get 0 1)) * t
        - atomFreq (C.get 0 1) * (atomCentre N (C.get 0 0) : ℝ) + atomFreq (C.get 0 1) * (atomCentre N (C.get 0 0) : ℝ)
        = j * (atomFreq (C.get 0 1) + atomFreq (C.get 0 1)) by ring]
      simp only [A]
      push_cast
      ring
    rw [Finset.sum_congr rfl key, ← Finset.mul_sum, norm_mul, norm_mul, norm_expi, mul_one, Complex.norm_real, Real.norm_of_nonneg (by positivity)]
  · intro t _ hne
    by_contra hcon
    exact hne (by rw [wignerKernel_zero (by rw [hl]; exact hcon), zero_mul])

/-! ## Examples -/

/-- Two atoms of spread 5 at instants 4 and 8. -/
noncomputable def twoAtoms : Mat ℝ := ⟨2, 4, fun r c => if c = 0 then (if r = 0 then 4 else 8) else if c = 1 then (if r = 0 then 1 / 8 else 3 / 8) else if c = 2 then 5 else 1⟩

theorem atomCentre_four : atomCentre 12 4 = 4 := by
  unfold atomCentre
  norm_num
  exact_mod_cast roundEven_intCast 4

theorem atomCentre_eight : atomCentre 12 8 = 8 := by
  unfold atomCentre
  norm_num
  exact_mod_cast roundEven_intCast 8

/-- Half way in time (sample 5) and in frequency (row 6 of 12) the distribution of the two atoms shows an interference that neither of them has: with `12` bins. -/
example : ∃ z M, atoms (12 : ℕ) (.two twoAtoms) = .ok z ∧ WvdReturns z (arange 0 (12 : ℕ)) 12 M ∧
    M.get 6 5 = atomWvd (wvdReach 12 12 5) 4 (1 / 8) 5 1 (1 / 4) 5 + atomWvd (wvdReach 12 12 5) 8 (3 / 8) 5 1 (1 / 4) 5
      + atomCross (wvdReach 12 12 5) 4 8 (1 / 8) (3 / 8) 5 1 1 (1 / 4) 5 := by
  have hin : ∀ p < 2, atomCentre 12 (twoAtoms.get p 0) < (12 : ℕ) := by
    intro p _
    show atomCentre 12 (if p = 0 then 4 else 8) < _
    split_ifs
    · rw [atomCentre_four]; norm_num
    · rw [atomCentre_eight]; norm_num
  obtain ⟨z, hz, hl, _⟩ := (C22_atoms 12 twoAtoms (by norm_num) (le_refl 4) hin).1 (fun p _ => by show (5 : ℝ) ≠ 0; norm_num)
  obtain ⟨M, hM⟩ := (C32_returns_iff z (arange 0 (12 : ℕ)) 12 (by norm_num)).2 ⟨by rw [hl]; rfl, Or.inl (by
    rw [hl, roundEven_half]; norm_num)⟩
  refine ⟨z, M, hz, hM, ?_⟩
  have h := (C125_two 12 twoAtoms (by norm_num) (le_refl 4) rfl rfl hin z hz _ 12 (by norm_num) M hM 6 (by norm_num) 5 (by norm_num)).1
  have e0 : atomCentre 12 (twoAtoms.get 0 0) = 4 := atomCentre_four
  have e1 : atomCentre 12 (twoAtoms.get 1 0) = 8 := atomCentre_eight
  have e2 : atomFreq (twoAtoms.get 0 1) = 1 / 8 := by show max (min (1 / 8 : ℝ) (1 / 2)) 0 = _; norm_num
  have e3 : atomFreq (twoAtoms.get 1 1) = 3 / 8 := by show max (min (3 / 8 : ℝ) (1 / 2)) 0 = _; norm_num
  simp only [e0, e1, e2, e3] at h
  rw [h]
  show _ + _ + atomCross _ _ _ _ _ 5 1 1 _ _ = _
  norm_num [twoAtoms]

/-- One atom of spread 5, amplitude -3 and frequency 1/4 in the middle of 12 samples. -/
noncomputable def oneAtom : Mat ℝ := ⟨1, 4, fun _ c => if c = 0 then 6 else if c = 1 then 1 / 4 else if c = 2 then 5 else -3⟩

theorem atomCentre_six : atomCentre 12 6 = 6 := by
  unfold atomCentre
  norm_num
  exact_mod_cast roundEven_intCast 6

theorem oneAtom_ok : ∃ z, atoms (12 : ℕ) (.two oneAtom) = .ok z ∧ z.len = 12 := by
  obtain ⟨z, hz, hl, _⟩ := (C22_atoms 12 oneAtom (by norm_num) (le_refl 4) (fun _ _ => by
    show atomCentre 12 6 < _
    rw [atomCentre_six]; norm_num)).1 (fun p _ => by show (5 : ℝ) ≠ 0; norm_num)
  exact ⟨z, hz, hl⟩

/-- Its largest value is at sample 5 in row 6 of 12 (frequency 1/4), and every other column stays below; `inst_freq` is 1/4. -/
example : ∃ z M g t, atoms (12 : ℕ) (.two oneAtom) = .ok z ∧ WvdReturns z (arange 0 (12 : ℕ)) 12 M ∧
    (∀ k < 12, ∀ t < 12, t ≠ 5 → M.get k t < M.get 6 5) ∧ instFreq z none = .ok (g, t) ∧ g.len = 10 ∧ ∀ j < 10, g.get j = 1 / 4 := by
  obtain ⟨z, hz, hl⟩ := oneAtom_ok
  have hin : atomCentre 12 (oneAtom.get 0 0) < (12 : ℕ) := by
    show atomCentre 12 6 < _
    rw [atomCentre_six]; norm_num
  obtain ⟨M, hM⟩ := (C32_returns_iff z (arange 0 (12 : ℕ)) 12 (by norm_num)).2 ⟨by rw [hl]; rfl, Or.inl (by
    rw [hl, roundEven_half]; norm_num)⟩
  obtain ⟨_, _, h3, h4⟩ := C125_one 12 oneAtom (by norm_num) (le_refl 4) rfl hin z hz _ 12 (by norm_num) M hM
  have hA : oneAtom.get 0 3 ≠ 0 := by show (-3 : ℝ) ≠ 0; norm_num
  have hr : roundEven (((12 : ℕ) : ℝ) / 2) = 6 := by rw [roundEven_half]; norm_num
  have h5 : wvdReach 12 12 5 = 5 := by
    unfold wvdReach
    rw [hr]
    norm_num
  have hf : atomFreq (oneAtom.get 0 1) = 1 / 4 := by show max (min (1 / 4 : ℝ) (1 / 2)) 0 = _; norm_num
  have hpk := (h3 hA 6 (by norm_num) 5 (by norm_num) (by rw [h5]; norm_num)).2 ⟨0, by rw [hf]; norm_num⟩
  obtain ⟨g, t, g1, g2, g3⟩ := C125_inst_freq 12 oneAtom (by norm_num) (le_refl 4) rfl hin (by show (0 : ℝ) < 1 / 4; norm_num) hA z hz
  refine ⟨z, M, g, t, hz, hM, fun k hk t ht htu => ?_, g1, g2, fun j hj => ?_⟩
  · rw [hpk]
    refine h4 hA 5 (by norm_num) ?_ k hk t ht htu ?_
    · show ((5 : ℕ) : ℝ) + 1 = ((atomCentre 12 6 : ℤ) : ℝ)
      rw [atomCentre_six]; norm_num
    · rw [h5]
      unfold wvdReach
      rw [hr]
      exact min_le_right _ _
  · rw [g3 j hj]
    show min (1 / 4 : ℝ) (1 / 2) = _
    norm_num

end Tftb.Props
