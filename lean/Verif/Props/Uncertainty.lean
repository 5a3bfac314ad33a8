import Verif.Props.Spreads
import Mathlib.Analysis.SpecialFunctions.Trigonometric.Bounds

/-!
# C133: measured duration and measured bandwidth

`loctime` (/repo/tftb/processing/time_domain.py) and `locfreq` (/repo/tftb/processing/freq_domain.py).  C96 shows that the product of
the two spreads has no positive lower bound.  The reason is that `locfreq` treats the signal as periodic; the theorems below give the
uncertainty relation that holds for every signal, with a term for its two end samples.
-/

namespace Tftb.Props

open Tftb Tftb.Spec Tftb.TF Finset

/-- How much the samples, taken around a circle, differ from those of a tone of frequency `φ`: the squared differences between each sample and
the one before it turned by `2πφ`. -/
noncomputable def variation (x : Vec ℂ) (φ : ℝ) : ℝ := ∑ j ∈ range x.len, ‖x.get ((j + 1) % x.len) - expi (2 * Real.pi * φ) * x.get j‖ ^ 2

theorem norm_expi_sub_sq (a b : ℝ) : ‖expi a - expi b‖ ^ 2 = 2 - 2 * Real.cos (a - b) := by
  rw [← Complex.normSq_eq_norm_sq, Complex.normSq_apply, Real.cos_sub]
  simp only [Complex.sub_re, Complex.sub_im, expi, Complex.exp_ofReal_mul_I_re, Complex.exp_ofReal_mul_I_im]
  have h1 := Real.cos_sq_add_sin_sq a
  have h2 := Real.cos_sq_add_sin_sq b
  linear_combination h1 + h2

theorem expi_binFreq {n k : ℕ} (hn : n ≠ 0) : expi (2 * Real.pi * binFreq n k) = rootPow n (-(((1 : ℕ) : ℤ) * (k : ℤ))) := by
  have hn' : (n : ℝ) ≠ 0 := Nat.cast_ne_zero.2 hn
  rw [rootPow_eq_expi]
  unfold binFreq
  split_ifs
  · congr 1
    push_cast
    ring
  · rw [show 2 * Real.pi * (((k : ℝ) - n) / n) = -(2 * Real.pi * (((-(((1 : ℕ) : ℤ) * (k : ℤ)) : ℤ) : ℝ) / n)) - 2 * Real.pi by
      push_cast; field_simp]
    rw [expi_sub]
    have : expi (2 * Real.pi) = 1 := by
      unfold expi
      have := Complex.exp_two_pi_mul_I
      push_cast
      exact this
    rw [this, div_one]

/-- The variation is a weighted sum over the spectrum. -/
theorem variation_spectrum (x : Vec ℂ) (hn : x.len ≠ 0) (φ : ℝ) :
    x.len * variation x φ = ∑ k ∈ range x.len, (2 - 2 * Real.cos (2 * Real.pi * binFreq x.len k - 2 * Real.pi * φ)) * ‖dft x k‖ ^ 2 := by
  unfold variation
  rw [← parseval hn (fun j => x.get ((j + 1) % x.len) - expi (2 * Real.pi * φ) * x.get j)]
  refine Finset.sum_congr rfl fun k _ => ?_
  have e : dftC x.len (fun j => x.get ((j + 1) % x.len) - expi (2 * Real.pi * φ) * x.get j) k
      = (expi (2 * Real.pi * binFreq x.len k) - expi (2 * Real.pi * φ)) * dft x k := by
    have e1 : (fun j => x.get ((j + 1) % x.len) - expi (2 * Real.pi * φ) * x.get j)
        = fun j => x.get ((j + 1) % x.len) + -expi (2 * Real.pi * φ) * x.get j := by
      funext j; ring
    rw [e1, dftC_add, dftC_smul, dftC_rotate hn, dft_eq_dftC, expi_binFreq hn]
    ring
  rw [e, norm_mul, mul_pow, norm_expi_sub_sq]

/-- Summation by parts with the weights `j + 1/2 - c`. -/
theorem sum_parts (a : ℕ → ℝ) (c : ℝ) (n : ℕ) :
    ∑ j ∈ range n, ((j : ℝ) + 1 / 2 - c) * (a j - a (j + 1))
      = ∑ j ∈ range (n + 1), a j - ((n : ℝ) + 1 / 2 - c) * a n - (c + 1 / 2) * a 0 := by
  induction n with
  | zero => simp; ring
  | succ n ih =>
    rw [Finset.sum_range_succ, ih, Finset.sum_range_succ _ (n + 1)]
    push_cast
    ring

theorem sum_weights {a : ℕ → ℝ} (ha : ∀ j, 0 ≤ a j) (c : ℝ) (n : ℕ) :
    ∑ j ∈ range n, ((j : ℝ) + 1 / 2 - c) ^ 2 * (2 * (a j + a (j + 1))) ≤ ∑ j ∈ range (n + 1), (4 * ((j : ℝ) - c) ^ 2 + 1) * a j := by
  have h : ∑ j ∈ range n, ((j : ℝ) + 1 / 2 - c) ^ 2 * (2 * (a j + a (j + 1))) + 2 * ((n : ℝ) + 1 / 2 - c) ^ 2 * a n + 2 * (1 / 2 + c) ^ 2 * a 0
      = ∑ j ∈ range (n + 1), (4 * ((j : ℝ) - c) ^ 2 + 1) * a j := by
    induction n with
    | zero => simp; ring
    | succ n ih =>
      rw [Finset.sum_range_succ, Finset.sum_range_succ _ (n + 1), ← ih]
      push_cast
      ring
  have h1 : 0 ≤ 2 * ((n : ℝ) + 1 / 2 - c) ^ 2 * a n := mul_nonneg (by positivity) (ha n)
  have h2 : 0 ≤ 2 * (1 / 2 + c) ^ 2 * a 0 := mul_nonneg (by positivity) (ha 0)
  linarith

/-- The discrete form of Heisenberg's inequality on `n + 1` samples, with end terms. -/
theorem heisenberg (y : ℕ → ℂ) (e : ℂ) (he : ‖e‖ = 1) (c : ℝ) (n : ℕ) :
    ∑ j ∈ range (n + 1), ‖y j‖ ^ 2 - ((n : ℝ) + 1 / 2 - c) * ‖y n‖ ^ 2 - (c + 1 / 2) * ‖y 0‖ ^ 2
      ≤ Real.sqrt (∑ j ∈ range n, ‖y (j + 1) - e * y j‖ ^ 2) * Real.sqrt (∑ j ∈ range (n + 1), (4 * ((j : ℝ) - c) ^ 2 + 1) * ‖y j‖ ^ 2) := by
  rw [← sum_parts (fun j => ‖y j‖ ^ 2) c n]
  have h1 : ∀ j : ℕ, ((j : ℝ) + 1 / 2 - c) * (‖y j‖ ^ 2 - ‖y (j + 1)‖ ^ 2)
      ≤ ‖y (j + 1) - e * y j‖ * (|(j : ℝ) + 1 / 2 - c| * (‖y j‖ + ‖y (j + 1)‖)) := by
    intro j
    have hj : |‖y j‖ - ‖y (j + 1)‖| ≤ ‖y (j + 1) - e * y j‖ := by
      have := abs_norm_sub_norm_le (e * y j) (y (j + 1))
      rwa [norm_mul, he, one_mul, norm_sub_rev] at this
    have hs : 0 ≤ |(j : ℝ) + 1 / 2 - c| * (‖y j‖ + ‖y (j + 1)‖) := by positivity
    calc ((j : ℝ) + 1 / 2 - c) * (‖y j‖ ^ 2 - ‖y (j + 1)‖ ^ 2) ≤ |((j : ℝ) + 1 / 2 - c) * (‖y j‖ ^ 2 - ‖y (j + 1)‖ ^ 2)| := le_abs_self _
      _ = |‖y j‖ - ‖y (j + 1)‖| * (|(j : ℝ) + 1 / 2 - c| * (‖y j‖ + ‖y (j + 1)‖)) := by
        rw [show ‖y j‖ ^ 2 - ‖y (j + 1)‖ ^ 2 = (‖y j‖ - ‖y (j + 1)‖) * (‖y j‖ + ‖y (j + 1)‖) by ring, abs_mul, abs_mul,
          abs_of_nonneg (by positivity : 0 ≤ ‖y j‖ + ‖y (j + 1)‖)]
        ring
      _ ≤ _ := mul_le_mul_of_nonneg_right hj hs
  refine (Finset.sum_le_sum fun j _ => h1 j).trans ?_
  refine (Real.sum_mul_le_sqrt_mul_sqrt _ _ _).trans ?_
  refine mul_le_mul_of_nonneg_left (Real.sqrt_le_sqrt ?_) (Real.sqrt_nonneg _)
  refine le_trans (Finset.sum_le_sum fun j _ => ?_) (sum_weights (a := fun j => ‖y j‖ ^ 2) (fun j => by positivity) c n)
  rw [mul_pow, sq_abs]
  refine mul_le_mul_of_nonneg_left ?_ (sq_nonneg _)
  nlinarith [sq_nonneg (‖y j‖ - ‖y (j + 1)‖)]

theorem wvar_mul {n : ℕ} {p w : ℕ → ℝ} (hS : (∑ i ∈ range n, w i) ≠ 0) :
    wvar n p w * ∑ i ∈ range n, w i = ∑ i ∈ range n, (p i - wmean n p w) ^ 2 * w i := by
  unfold wvar
  rw [wmean]
  field_simp

theorem two_sub_two_cos_le (θ : ℝ) : 2 - 2 * Real.cos θ ≤ θ ^ 2 := by
  have := Real.one_sub_sq_div_two_le_cos (x := θ)
  linarith

/-- The squared bandwidth bounds the variation around the measured frequency from above. -/
theorem variation_le {x : Vec ℂ} (hx : energy x ≠ 0) :
    variation x (wmean x.len (binFreq x.len) (fun k => ‖dft x k‖ ^ 2))
      ≤ 4 * Real.pi ^ 2 * wvar x.len (binFreq x.len) (fun k => ‖dft x k‖ ^ 2) * energy x := by
  have hn : x.len ≠ 0 := by
    intro h; apply hx; unfold energy; rw [h]; simp
  have hn' : (0 : ℝ) < x.len := by exact_mod_cast Nat.pos_of_ne_zero hn
  set fm := wmean x.len (binFreq x.len) (fun k => ‖dft x k‖ ^ 2) with hfm
  have hP : ∑ k ∈ range x.len, ‖dft x k‖ ^ 2 = x.len * energy x := by
    rw [Finset.sum_congr rfl fun k _ => by rw [dft_eq_dftC], parseval hn]; rfl
  have hP0 : ∑ k ∈ range x.len, ‖dft x k‖ ^ 2 ≠ 0 := by rw [hP]; exact mul_ne_zero hn'.ne' hx
  have hv := wvar_mul (p := binFreq x.len) hP0
  rw [← hfm, hP] at hv
  refine le_of_mul_le_mul_left ?_ hn'
  rw [variation_spectrum x hn fm]
  calc ∑ k ∈ range x.len, (2 - 2 * Real.cos (2 * Real.pi * binFreq x.len k - 2 * Real.pi * fm)) * ‖dft x k‖ ^ 2
      ≤ ∑ k ∈ range x.len, 4 * Real.pi ^ 2 * ((binFreq x.len k - fm) ^ 2 * ‖dft x k‖ ^ 2) := by
        refine Finset.sum_le_sum fun k _ => ?_
        have := mul_le_mul_of_nonneg_right (two_sub_two_cos_le (2 * Real.pi * binFreq x.len k - 2 * Real.pi * fm)) (sq_nonneg ‖dft x k‖)
        linarith [this]
    _ = _ := by rw [← Finset.mul_sum, ← hv]; ring

/-- `energy · (4·variance + 1)`, as it occurs in `heisenberg`. -/
theorem second_moment_eq {x : Vec ℂ} (hx : energy x ≠ 0) :
    ∑ j ∈ range x.len, (4 * ((j : ℝ) - wmean x.len (fun i => (i : ℝ)) (fun i => ‖x.get i‖ ^ 2)) ^ 2 + 1) * ‖x.get j‖ ^ 2
      = energy x * (4 * wvar x.len (fun i => (i : ℝ)) (fun i => ‖x.get i‖ ^ 2) + 1) := by
  have hv := wvar_mul (p := fun i => (i : ℝ)) (w := fun i => ‖x.get i‖ ^ 2) (n := x.len) hx
  simp only [add_mul, one_mul, Finset.sum_add_distrib, mul_assoc]
  rw [← Finset.mul_sum, ← hv]
  unfold energy
  ring

/-- The step from `heisenberg` to the spreads. -/
theorem spread_step {E D V W L : ℝ} (hE : 0 ≤ E) (hW : 0 ≤ W) (hV : 0 ≤ V) (hD : D ≤ 4 * Real.pi ^ 2 * W * E)
    (h : L ≤ Real.sqrt D * Real.sqrt (E * (4 * V + 1))) :
    L ≤ E * ((2 * Real.sqrt (Real.pi * W)) * Real.sqrt ((2 * Real.sqrt (Real.pi * V)) ^ 2 + Real.pi)) := by
  have hπ := Real.pi_pos
  refine h.trans ?_
  rw [mul_pow, Real.sq_sqrt (by positivity)]
  have h1 : Real.sqrt D * Real.sqrt (E * (4 * V + 1)) ≤ Real.sqrt (4 * Real.pi ^ 2 * W * E) * Real.sqrt (E * (4 * V + 1)) :=
    mul_le_mul_of_nonneg_right (Real.sqrt_le_sqrt hD) (Real.sqrt_nonneg _)
  refine h1.trans (le_of_eq ?_)
  have e2 : (2 : ℝ) * Real.sqrt (Real.pi * W) = Real.sqrt (4 * (Real.pi * W)) := by
    rw [Real.sqrt_mul (by norm_num : (0 : ℝ) ≤ 4) (Real.pi * W), show (4 : ℝ) = 2 ^ 2 by norm_num, Real.sqrt_sq (by norm_num : (0 : ℝ) ≤ 2)]
  have e3 : E = Real.sqrt (E ^ 2) := (Real.sqrt_sq hE).symm
  rw [← Real.sqrt_mul (by positivity), e2, ← Real.sqrt_mul (by positivity)]
  conv_rhs => rw [e3]
  rw [← Real.sqrt_mul (by positivity)]
  congr 1
  ring

/-- **The uncertainty relation of `loctime` and `locfreq`.**  For every signal that is not zero (of a length `locfreq` accepts), with measured
centre `tm`, duration `T` and bandwidth `B`, the energy is at most `B √(T² + π)` times the energy, plus the energy of the two end samples, each
multiplied by its distance from the centre increased by one half. -/
theorem C133_uncertainty (x : Vec ℂ) (hN : x.len % 4 ≠ 1) (hx : energy x ≠ 0) :
    ∃ tm T fm B, loctime x = .ok (tm, T) ∧ locfreq x = .ok (fm, B) ∧
      energy x ≤ energy x * (B * Real.sqrt (T ^ 2 + Real.pi))
        + ((x.len : ℝ) - 1 / 2 - tm) * ‖x.get (x.len - 1)‖ ^ 2 + (tm + 1 / 2) * ‖x.get 0‖ ^ 2 := by
  have hn : x.len ≠ 0 := by
    intro h; apply hx; unfold energy; rw [h]; simp
  refine ⟨_, _, _, _, C44_loctime x hx, C45_locfreq x hN hx, ?_⟩
  have hE : 0 ≤ energy x := Finset.sum_nonneg fun i _ => by positivity
  obtain ⟨n, hn1⟩ : ∃ n, x.len = n + 1 := ⟨x.len - 1, by omega⟩
  have hh := heisenberg x.get (expi (2 * Real.pi * wmean x.len (binFreq x.len) (fun k => ‖dft x k‖ ^ 2))) (norm_expi _)
    (wmean x.len (fun i => (i : ℝ)) (fun i => ‖x.get i‖ ^ 2)) n
  rw [← hn1, second_moment_eq hx] at hh
  have hW : 0 ≤ wvar x.len (binFreq x.len) (fun k => ‖dft x k‖ ^ 2) :=
    div_nonneg (Finset.sum_nonneg fun i _ => by positivity) (Finset.sum_nonneg fun i _ => by positivity)
  have hV : 0 ≤ wvar x.len (fun i => (i : ℝ)) (fun i => ‖x.get i‖ ^ 2) :=
    div_nonneg (Finset.sum_nonneg fun i _ => by positivity) (Finset.sum_nonneg fun i _ => by positivity)
  have hD := variation_le hx
  have hlin : ∑ j ∈ range n, ‖x.get (j + 1) - expi (2 * Real.pi * wmean x.len (binFreq x.len) (fun k => ‖dft x k‖ ^ 2)) * x.get j‖ ^ 2
      ≤ variation x (wmean x.len (binFreq x.len) (fun k => ‖dft x k‖ ^ 2)) := by
    unfold variation
    conv_rhs => rw [show range x.len = range (n + 1) by rw [hn1]]
    rw [Finset.sum_range_succ]
    have : ∑ j ∈ range n, ‖x.get ((j + 1) % x.len) - expi (2 * Real.pi * wmean x.len (binFreq x.len) (fun k => ‖dft x k‖ ^ 2)) * x.get j‖ ^ 2
        = ∑ j ∈ range n, ‖x.get (j + 1) - expi (2 * Real.pi * wmean x.len (binFreq x.len) (fun k => ‖dft x k‖ ^ 2)) * x.get j‖ ^ 2 := by
      refine Finset.sum_congr rfl fun j hj => ?_
      have hj := Finset.mem_range.1 hj
      rw [Nat.mod_eq_of_lt (by omega)]
    rw [this]
    exact le_add_of_nonneg_right (by positivity)
  have := spread_step hE hW hV (hlin.trans hD) hh
  rw [show x.len - 1 = n by omega, show (x.len : ℝ) - 1 / 2 = (n : ℝ) + 1 / 2 by rw [hn1]; push_cast; ring]
  have hEe : energy x = ∑ j ∈ range x.len, ‖x.get j‖ ^ 2 := rfl
  rw [← hEe] at this
  linarith

/-- **Signals that begin or end with silence.**  If the first or the last sample is zero, the measured bandwidth `B` and the measured duration `T`
satisfy `B² (T² + π) ≥ 1`. -/
theorem C133_silent_end (x : Vec ℂ) (hN : x.len % 4 ≠ 1) (hx : energy x ≠ 0) (h0 : x.get 0 = 0 ∨ x.get (x.len - 1) = 0) :
    ∃ tm T fm B, loctime x = .ok (tm, T) ∧ locfreq x = .ok (fm, B) ∧ 1 ≤ B ^ 2 * (T ^ 2 + Real.pi) := by
  have hn : x.len ≠ 0 := by
    intro h; apply hx; unfold energy; rw [h]; simp
  refine ⟨_, _, _, _, C44_loctime x hx, C45_locfreq x hN hx, ?_⟩
  have hE : 0 < energy x := lt_of_le_of_ne (Finset.sum_nonneg fun i _ => by positivity) hx.symm
  have hW : 0 ≤ wvar x.len (binFreq x.len) (fun k => ‖dft x k‖ ^ 2) :=
    div_nonneg (Finset.sum_nonneg fun i _ => by positivity) (Finset.sum_nonneg fun i _ => by positivity)
  have hV : 0 ≤ wvar x.len (fun i => (i : ℝ)) (fun i => ‖x.get i‖ ^ 2) :=
    div_nonneg (Finset.sum_nonneg fun i _ => by positivity) (Finset.sum_nonneg fun i _ => by positivity)
  have hD := variation_le hx
  have hsm := second_moment_eq hx
  set e := expi (2 * Real.pi * wmean x.len (binFreq x.len) (fun k => ‖dft x k‖ ^ 2)) with he
  set c := wmean x.len (fun i => (i : ℝ)) (fun i => ‖x.get i‖ ^ 2) with hc
  have hne : ‖e‖ = 1 := norm_expi _
  have hEe : energy x = ∑ j ∈ range x.len, ‖x.get j‖ ^ 2 := rfl
  have hcirc : ∑ j ∈ range x.len, ‖x.get ((j + 1) % x.len) - e * x.get j‖ ^ 2 ≤ _ := hD
  obtain ⟨n, hn1⟩ : ∃ n, x.len = n + 1 := ⟨x.len - 1, by omega⟩
  have hsplit : ∑ j ∈ range x.len, ‖x.get ((j + 1) % x.len) - e * x.get j‖ ^ 2
      = ∑ j ∈ range n, ‖x.get (j + 1) - e * x.get j‖ ^ 2 + ‖x.get 0 - e * x.get n‖ ^ 2 := by
    rw [show range x.len = range (n + 1) by rw [hn1], Finset.sum_range_succ]
    congr 1
    · refine Finset.sum_congr rfl fun j hj => ?_
      have hj := Finset.mem_range.1 hj
      rw [Nat.mod_eq_of_lt (by omega)]
    · rw [show (n + 1) % x.len = 0 by rw [hn1, Nat.mod_self]]
  have key : energy x ≤ Real.sqrt (∑ j ∈ range x.len, ‖x.get ((j + 1) % x.len) - e * x.get j‖ ^ 2)
      * Real.sqrt (energy x * (4 * wvar x.len (fun i => (i : ℝ)) (fun i => ‖x.get i‖ ^ 2) + 1)) := by
    rw [hsplit, ← hsm]
    rcases h0 with h0 | h0
    · have hh := heisenberg (fun j => if j < n + 1 then x.get j else 0) e hne c (n + 1)
      rw [Finset.sum_range_succ _ (n + 1), Finset.sum_range_succ (fun j => ‖_ - _‖ ^ 2) n, Finset.sum_range_succ (fun j => (_ + 1) * _) (n + 1)] at hh
      simp only [lt_irrefl, if_false, norm_zero, Nat.lt_succ_self, if_true, Nat.succ_pos, h0] at hh
      have s1 : ∑ j ∈ range (n + 1), ‖(if j < n + 1 then x.get j else 0 : ℂ)‖ ^ 2 = energy x := by
        rw [hEe, hn1]
        exact Finset.sum_congr rfl fun j hj => by rw [if_pos (Finset.mem_range.1 hj)]
      have s2 : ∑ j ∈ range n, ‖(if j + 1 < n + 1 then x.get (j + 1) else 0 : ℂ) - e * (if j < n + 1 then x.get j else 0)‖ ^ 2
          = ∑ j ∈ range n, ‖x.get (j + 1) - e * x.get j‖ ^ 2 := by
        refine Finset.sum_congr rfl fun j hj => ?_
        have hj := Finset.mem_range.1 hj
        rw [if_pos (by omega), if_pos (by omega)]
      have s3 : ∑ j ∈ range (n + 1), (4 * ((j : ℝ) - c) ^ 2 + 1) * ‖(if j < n + 1 then x.get j else 0 : ℂ)‖ ^ 2
          = ∑ j ∈ range x.len, (4 * ((j : ℝ) - c) ^ 2 + 1) * ‖x.get j‖ ^ 2 := by
        rw [hn1]
        exact Finset.sum_congr rfl fun j hj => by rw [if_pos (Finset.mem_range.1 hj)]
      rw [s1, s2, s3] at hh
      rw [h0]
      simpa using hh
    · rw [show x.len - 1 = n by omega] at h0
      have hh := heisenberg (fun j => if j = 0 then 0 else x.get (j - 1)) e hne (c + 1) (n + 1)
      rw [Finset.sum_range_succ' _ (n + 1), Finset.sum_range_succ' (fun j => ‖_ - _‖ ^ 2) n, Finset.sum_range_succ' (fun j => (_ + 1) * _) (n + 1)] at hh
      simp only [Nat.succ_ne_zero, if_false, if_true, Nat.add_sub_cancel, norm_zero, h0] at hh
      have s3 : ∑ j ∈ range (n + 1), (4 * (((j + 1 : ℕ) : ℝ) - (c + 1)) ^ 2 + 1) * ‖x.get j‖ ^ 2
          = ∑ j ∈ range x.len, (4 * ((j : ℝ) - c) ^ 2 + 1) * ‖x.get j‖ ^ 2 := by
        rw [hn1]
        exact Finset.sum_congr rfl fun j hj => by push_cast; ring
      have s1 : ∑ j ∈ range (n + 1), ‖x.get j‖ ^ 2 = energy x := by rw [hEe, hn1]
      rw [s1, s3] at hh
      rw [h0]
      simpa using hh
  have h := spread_step hE.le hW hV hcirc key
  have h1 : 1 ≤ (2 * Real.sqrt (Real.pi * wvar x.len (binFreq x.len) (fun k => ‖dft x k‖ ^ 2)))
      * Real.sqrt ((2 * Real.sqrt (Real.pi * wvar x.len (fun i => (i : ℝ)) (fun i => ‖x.get i‖ ^ 2))) ^ 2 + Real.pi) := by
    refine le_of_mul_le_mul_left ?_ hE
    rwa [mul_one]
  have h2 := pow_le_pow_left₀ zero_le_one h1 2
  rw [one_pow, mul_pow, Real.sq_sqrt (by positivity)] at h2
  exact h2

/-- How much the samples, taken around a circle, bend: the squared second differences. -/
noncomputable def curvature (x : Vec ℂ) : ℝ :=
  ∑ j ∈ range x.len, ‖x.get ((j + 2) % x.len) - 2 * x.get ((j + 1) % x.len) + x.get j‖ ^ 2

theorem curvature_spectrum (x : Vec ℂ) (hn : x.len ≠ 0) :
    x.len * curvature x = ∑ k ∈ range x.len, (2 - 2 * Real.cos (2 * Real.pi * binFreq x.len k)) ^ 2 * ‖dft x k‖ ^ 2 := by
  unfold curvature
  rw [← parseval hn (fun j => x.get ((j + 2) % x.len) - 2 * x.get ((j + 1) % x.len) + x.get j)]
  refine Finset.sum_congr rfl fun k _ => ?_
  have e : dftC x.len (fun j => x.get ((j + 2) % x.len) - 2 * x.get ((j + 1) % x.len) + x.get j) k
      = (expi (2 * Real.pi * binFreq x.len k) - expi 0) ^ 2 * dft x k := by
    have e1 : (fun j => x.get ((j + 2) % x.len) - 2 * x.get ((j + 1) % x.len) + x.get j)
        = fun j => (x.get ((j + 2) % x.len) + -2 * x.get ((j + 1) % x.len)) + x.get j := by
      funext j; ring
    have e2 : rootPow x.len (-(((2 : ℕ) : ℤ) * (k : ℤ))) = rootPow x.len (-(((1 : ℕ) : ℤ) * (k : ℤ))) ^ 2 := by
      rw [sq, ← rootPow_add]
      congr 1
      push_cast
      ring
    rw [e1, dftC_add, dftC_add, dftC_smul, dftC_rotate hn, dftC_rotate hn, dft_eq_dftC, expi_binFreq hn, e2]
    have : expi 0 = 1 := by simp [expi]
    rw [this]
    ring
  rw [e, norm_mul, mul_pow, norm_pow, ← pow_mul, mul_comm 2 2, pow_mul, norm_expi_sub_sq, sub_zero]

theorem abs_binFreq_le {n k : ℕ} (hN : 2 ∣ n) (hn : n ≠ 0) (hk : k < n) : |binFreq n k| ≤ 1 / 2 := by
  obtain ⟨m, hm⟩ := hN
  have hm0 : (0 : ℝ) < m := by
    have : 0 < m := by omega
    exact_mod_cast this
  unfold binFreq
  rw [hm]
  split_ifs with h
  · have : (k : ℝ) ≤ m := by
      have : k ≤ m := by omega
      exact_mod_cast this
    rw [abs_of_nonneg (by positivity), div_le_iff₀ (by push_cast; positivity)]
    push_cast
    linarith
  · have h1 : (m : ℝ) ≤ k := by
      have : m ≤ k := by omega
      exact_mod_cast this
    have h2 : (k : ℝ) ≤ (2 * m : ℕ) := by
      have : k ≤ 2 * m := by omega
      exact_mod_cast this
    rw [abs_of_nonpos (div_nonpos_of_nonpos_of_nonneg (by linarith) (by positivity)), ← neg_div, div_le_iff₀ (by push_cast; positivity)]
    push_cast at h2 ⊢
    linarith

theorem two_sub_two_cos (f : ℝ) : 2 - 2 * Real.cos (2 * Real.pi * f) = 4 * Real.sin (Real.pi * f) ^ 2 := by
  rw [show 2 * Real.pi * f = 2 * (Real.pi * f) by ring, Real.cos_two_mul, Real.cos_sq']
  ring

theorem four_sq_le_sin_sq {f : ℝ} (hb : |f| ≤ 1 / 2) : (2 * f) ^ 2 ≤ Real.sin (Real.pi * f) ^ 2 := by
  have hπ := Real.pi_pos
  rw [← sq_abs (2 * f), ← sq_abs (Real.sin (Real.pi * f))]
  refine pow_le_pow_left₀ (abs_nonneg _) ?_ 2
  have h3 := Real.mul_abs_le_abs_sin (x := Real.pi * f) (by rw [abs_mul, abs_of_pos hπ]; nlinarith)
  rw [abs_mul, abs_of_pos hπ] at h3
  rw [abs_mul, abs_of_pos (by norm_num : (0 : ℝ) < 2)]
  have : 2 / Real.pi * (Real.pi * |f|) = 2 * |f| := by field_simp
  linarith

/-- The square of an angle up to a right angle exceeds that of its sine by at most `π⁴/48` times the fourth power of the sine. -/
theorem sq_le_sin {f : ℝ} (hb : |f| ≤ 1 / 2) :
    (Real.pi * f) ^ 2 ≤ Real.sin (Real.pi * f) ^ 2 + Real.pi ^ 4 / 48 * Real.sin (Real.pi * f) ^ 4 := by
  have hπ := Real.pi_pos
  have h4 := four_sq_le_sin_sq hb
  have h5 : (Real.pi * f) ^ 4 / 3 ≤ Real.pi ^ 4 / 48 * Real.sin (Real.pi * f) ^ 4 := by
    have := pow_le_pow_left₀ (sq_nonneg _) h4 2
    have h6 := mul_le_mul_of_nonneg_left this (by positivity : (0 : ℝ) ≤ Real.pi ^ 4 / 48)
    nlinarith [h6]
  have h7 : (Real.pi * f) ^ 2 - (Real.pi * f) ^ 4 / 3 ≤ Real.sin (Real.pi * f) ^ 2 := by
    have hs : Real.sin (Real.pi * f) ^ 2 = Real.sin |Real.pi * f| ^ 2 := by
      rcases abs_choice (Real.pi * f) with h | h
      · rw [h]
      · rw [h, Real.sin_neg, neg_sq]
    have ht2 : |Real.pi * f| ≤ 2 := by
      rw [abs_mul, abs_of_pos hπ]
      nlinarith [Real.pi_le_four]
    rw [hs, ← sq_abs (Real.pi * f), show (Real.pi * f) ^ 4 = |Real.pi * f| ^ 4 by rw [← abs_pow, abs_of_nonneg (by positivity)]]
    set t := |Real.pi * f|
    have ht0 : 0 ≤ t := abs_nonneg _
    have h8 := Real.sin_ge_sub_cube ht0
    have h9 : 0 ≤ t - t ^ 3 / 6 := by nlinarith [mul_nonneg ht0 (mul_nonneg (sub_nonneg.2 ht2) (by linarith : 0 ≤ 2 + t))]
    have := pow_le_pow_left₀ h9 h8 2
    nlinarith [sq_nonneg (t ^ 3)]
  linarith

/-- The second moment of the spectrum, from what `locfreq` returns. -/
theorem spectrum_second {x : Vec ℂ} (hx : energy x ≠ 0) (hn : x.len ≠ 0) :
    ∑ k ∈ range x.len, binFreq x.len k ^ 2 * ‖dft x k‖ ^ 2
      = (wvar x.len (binFreq x.len) (fun k => ‖dft x k‖ ^ 2) + wmean x.len (binFreq x.len) (fun k => ‖dft x k‖ ^ 2) ^ 2) * (x.len * energy x) := by
  have hn' : (0 : ℝ) < x.len := by exact_mod_cast Nat.pos_of_ne_zero hn
  set fm := wmean x.len (binFreq x.len) (fun k => ‖dft x k‖ ^ 2) with hfm
  have hP : ∑ k ∈ range x.len, ‖dft x k‖ ^ 2 = x.len * energy x := by
    rw [Finset.sum_congr rfl fun k _ => by rw [dft_eq_dftC], parseval hn]; rfl
  have hP0 : ∑ k ∈ range x.len, ‖dft x k‖ ^ 2 ≠ 0 := by rw [hP]; exact mul_ne_zero hn'.ne' hx
  have hv := wvar_mul (p := binFreq x.len) hP0
  rw [← hfm, hP] at hv
  have hm : ∑ k ∈ range x.len, binFreq x.len k * ‖dft x k‖ ^ 2 = fm * (x.len * energy x) := by
    rw [hfm, wmean, ← hP]; field_simp
  have e1 : ∀ k, binFreq x.len k ^ 2 * ‖dft x k‖ ^ 2 = (binFreq x.len k - fm) ^ 2 * ‖dft x k‖ ^ 2
      + 2 * fm * (binFreq x.len k * ‖dft x k‖ ^ 2) - fm ^ 2 * ‖dft x k‖ ^ 2 := fun k => by ring
  rw [Finset.sum_congr rfl fun k _ => e1 k, Finset.sum_sub_distrib, Finset.sum_add_distrib, ← Finset.mul_sum, ← Finset.mul_sum, hm, hP, ← hv]
  ring

/-- **Bandwidth and variation of the samples.**  For every signal of even length, `B² + 4π fm²` (four `π` times the second moment of the spectrum) is
at least `1/π` times the relative variation, the squared differences of neighbouring samples around the circle over the energy.  It is at most `π/4`
times the relative variation, and exceeds the lower bound by at most `π³/192` times the relative curvature (squared second differences). -/
theorem C133_variation (x : Vec ℂ) (hN : 2 ∣ x.len) (hx : energy x ≠ 0) :
    ∃ fm B, locfreq x = .ok (fm, B) ∧ variation x 0 ≤ Real.pi * (B ^ 2 + 4 * Real.pi * fm ^ 2) * energy x ∧
      (B ^ 2 + 4 * Real.pi * fm ^ 2) * energy x ≤ Real.pi / 4 * variation x 0 ∧
      (B ^ 2 + 4 * Real.pi * fm ^ 2) * energy x ≤ variation x 0 / Real.pi + Real.pi ^ 3 / 192 * curvature x := by
  have hn : x.len ≠ 0 := by
    intro h; apply hx; unfold energy; rw [h]; simp
  have hπ := Real.pi_pos
  have hn' : (0 : ℝ) < x.len := by exact_mod_cast Nat.pos_of_ne_zero hn
  refine ⟨_, _, C45_locfreq x (by omega) hx, ?_⟩
  have h2 := spectrum_second hx hn
  set fm := wmean x.len (binFreq x.len) (fun k => ‖dft x k‖ ^ 2) with hfm
  have hW : 0 ≤ wvar x.len (binFreq x.len) (fun k => ‖dft x k‖ ^ 2) :=
    div_nonneg (Finset.sum_nonneg fun i _ => by positivity) (Finset.sum_nonneg fun i _ => by positivity)
  have hs := variation_spectrum x hn 0
  have hcv := curvature_spectrum x hn
  simp only [mul_zero, sub_zero] at hs
  rw [mul_pow, Real.sq_sqrt (by positivity)]
  have hB : (2 : ℝ) ^ 2 * (Real.pi * wvar x.len (binFreq x.len) (fun k => ‖dft x k‖ ^ 2)) + 4 * Real.pi * fm ^ 2
      = 4 * Real.pi * (wvar x.len (binFreq x.len) (fun k => ‖dft x k‖ ^ 2) + fm ^ 2) := by ring
  rw [hB]
  have h3 : x.len * (4 * Real.pi * (wvar x.len (binFreq x.len) (fun k => ‖dft x k‖ ^ 2) + fm ^ 2) * energy x)
        = 4 * Real.pi * ∑ k ∈ range x.len, binFreq x.len k ^ 2 * ‖dft x k‖ ^ 2 := by rw [h2]; ring
  refine ⟨?_, ?_, ?_⟩
  · refine le_of_mul_le_mul_left ?_ hn'
    rw [hs]
    calc ∑ k ∈ range x.len, (2 - 2 * Real.cos (2 * Real.pi * binFreq x.len k)) * ‖dft x k‖ ^ 2
        ≤ ∑ k ∈ range x.len, 4 * Real.pi ^ 2 * (binFreq x.len k ^ 2 * ‖dft x k‖ ^ 2) := by
          refine Finset.sum_le_sum fun k _ => ?_
          have := mul_le_mul_of_nonneg_right (two_sub_two_cos_le (2 * Real.pi * binFreq x.len k)) (sq_nonneg ‖dft x k‖)
          linarith
      _ = _ := by rw [← Finset.mul_sum, h2]; ring
  · refine le_of_mul_le_mul_left ?_ hn'
    rw [h3, show (x.len : ℝ) * (Real.pi / 4 * variation x 0) = Real.pi / 4 * (x.len * variation x 0) by ring, hs, Finset.mul_sum, Finset.mul_sum]
    refine Finset.sum_le_sum fun k hk => ?_
    have hsin := four_sq_le_sin_sq (abs_binFreq_le hN hn (Finset.mem_range.1 hk))
    rw [two_sub_two_cos]
    have := mul_le_mul_of_nonneg_right hsin (sq_nonneg ‖dft x k‖)
    nlinarith
  · refine le_of_mul_le_mul_left ?_ hn'
    rw [h3, show (x.len : ℝ) * (variation x 0 / Real.pi + Real.pi ^ 3 / 192 * curvature x)
      = 1 / Real.pi * (x.len * variation x 0) + Real.pi ^ 3 / 192 * (x.len * curvature x) by ring, hs, hcv, Finset.mul_sum, Finset.mul_sum,
      Finset.mul_sum, ← Finset.sum_add_distrib]
    refine Finset.sum_le_sum fun k hk => ?_
    have hsin := sq_le_sin (abs_binFreq_le hN hn (Finset.mem_range.1 hk))
    rw [two_sub_two_cos]
    set f := binFreq x.len k
    have := mul_le_mul_of_nonneg_left (mul_le_mul_of_nonneg_right hsin (sq_nonneg ‖dft x k‖)) (by positivity : 0 ≤ 4 / Real.pi)
    refine le_trans (le_of_eq ?_) (this.trans (le_of_eq ?_))
    · field_simp
    · field_simp
      ring

/-- A pulse of two samples between two zeros: its bandwidth is at least `1/√(T² + π)`. -/
example : ∃ tm T fm B, loctime ⟨4, fun i => if i = 1 ∨ i = 2 then 1 else 0⟩ = .ok (tm, T) ∧
    locfreq ⟨4, fun i => if i = 1 ∨ i = 2 then 1 else 0⟩ = .ok (fm, B) ∧ 1 ≤ B ^ 2 * (T ^ 2 + Real.pi) :=
  C133_silent_end ⟨4, fun i => if i = 1 ∨ i = 2 then 1 else 0⟩ (by norm_num) (by norm_num [energy, Finset.sum_range_succ]) (Or.inl (by norm_num))

/-- The constant signal, for which the bandwidth is zero: the end terms of `C133_uncertainty` are its whole energy. -/
example : ∃ tm T, loctime ⟨4, fun _ => 1⟩ = .ok (tm, T) ∧ locfreq ⟨4, fun _ => 1⟩ = .ok (0, 0) ∧
    ((4 : ℝ) - 1 / 2 - tm) * ‖(1 : ℂ)‖ ^ 2 + (tm + 1 / 2) * ‖(1 : ℂ)‖ ^ 2 = energy ⟨4, fun _ => 1⟩ := by
  refine ⟨_, _, C44_loctime ⟨4, fun _ => 1⟩ (by simp [energy]), ?_, ?_⟩
  · exact (C96_freq_zero ⟨4, fun _ => 1⟩ (by norm_num) (by simp [energy]) 0).2 ⟨0, 1, by norm_num, by norm_num [binFreq], one_ne_zero, fun j _ => by simp [expi]⟩
  · norm_num [energy, wmean, Finset.sum_range_succ]

/-- The alternating signal of two samples: its variation is four times its energy, and `B² + 4π fm²` is `π`. -/
example : ∃ fm B, locfreq ⟨2, fun i => if i = 0 then 1 else -1⟩ = .ok (fm, B) ∧ B ^ 2 + 4 * Real.pi * fm ^ 2 ≤ Real.pi := by
  obtain ⟨fm, B, h, -, h2, -⟩ := C133_variation ⟨2, fun i => if i = 0 then 1 else -1⟩ (by norm_num) (by norm_num [energy, Finset.sum_range_succ])
  refine ⟨fm, B, h, ?_⟩
  have e1 : energy ⟨2, fun i => if i = 0 then 1 else -1⟩ = 2 := by norm_num [energy, Finset.sum_range_succ]
  have e2 : variation ⟨2, fun i => if i = 0 then 1 else -1⟩ 0 = 8 := by
    norm_num [variation, Finset.sum_range_succ, expi]
  rw [e1, e2] at h2
  linarith

end Tftb.Props
