import Verif.Props.TimeFreq
import Verif.Props.Covariance

/-! # Group delays: mean, symmetric signals, delays, cascades (C109) -/

namespace Tftb.Props

open Tftb Tftb.Spec Tftb.TF Finset ComplexConjugate

/-- The quotient of which `group_delay` keeps the values in `[1, N + 3]`. -/
noncomputable def rawDelay (x : Vec ℂ) (v : ℝ) : ℝ := (dtft (timeWeighted x) v / dtft x v).re

theorem clipDelay_ne_zero {N : ℕ} {r : ℝ} (h : clipDelay N r ≠ 0) : clipDelay N r = r ∧ 1 ≤ r ∧ r ≤ (N : ℝ) + 3 := by
  unfold clipDelay at h ⊢
  split at h
  · rename_i h1
    rw [if_pos h1]
    exact ⟨rfl, h1⟩
  · exact absurd rfl h

/-- **Mean.**  For a signal without spectral zero none of whose group delays is suppressed, the mean of the group delays of the `N` bins, weighted by the power spectrum, is the
centre that `loctime` gives, plus one. -/
theorem C109_mean (x : Vec ℂ) (hn : x.len ≠ 0) (hz : ∀ k < x.len, dft x k ≠ 0) :
    ∃ (g : Vec ℝ) (tm T : ℝ), groupDelay x = .ok g ∧ g.len = x.len ∧ loctime x = .ok (tm, T) ∧ ((∀ i < x.len, g.get i ≠ 0) →
      wmean x.len g.get (fun i => ‖dft x ((i + (x.len - x.len / 2)) % x.len)‖ ^ 2) = tm + 1) := by
  have he : energy x ≠ 0 := by
    intro h0
    have := sum_dft_sq x hn
    rw [h0, mul_zero] at this
    have h1 := (Finset.sum_eq_zero_iff_of_nonneg (fun k _ => by positivity)).1 this 0 (Finset.mem_range.2 (by omega))
    exact hz 0 (by omega) (by simpa using h1)
  obtain ⟨g, h1, h2, h3⟩ := C46_group_delay x hn hz
  refine ⟨g, _, _, h1, h2, C44_loctime x he, fun hg => ?_⟩
  have hN : (x.len : ℝ) ≠ 0 := Nat.cast_ne_zero.2 hn
  have hlt : ∀ i, (i + (x.len - x.len / 2)) % x.len < x.len := fun i => Nat.mod_lt _ (by omega)
  have hterm : ∀ i < x.len, g.get i * ‖dft x ((i + (x.len - x.len / 2)) % x.len)‖ ^ 2
      = (dft (timeWeighted x) ((i + (x.len - x.len / 2)) % x.len) * conj (dft x ((i + (x.len - x.len / 2)) % x.len))).re := by
    intro i hi
    have h4 := h3 i hi
    have h5 := clipDelay_ne_zero (by rw [← h4]; exact hg i hi)
    rw [h4, h5.1]
    have hd := hz _ (hlt i)
    generalize (i + (x.len - x.len / 2)) % x.len = k at hd ⊢
    rw [← Complex.re_mul_ofReal, ← mul_conj_eq_norm_sq]
    congr 1
    field_simp
  have hS : ∑ i ∈ range x.len, ‖dft x ((i + (x.len - x.len / 2)) % x.len)‖ ^ 2 = x.len * energy x := by
    rw [sum_rotate (x.len - x.len / 2) (fun k => ‖dft x k‖ ^ 2), sum_dft_sq x hn]
  have hM : ∑ i ∈ range x.len, g.get i * ‖dft x ((i + (x.len - x.len / 2)) % x.len)‖ ^ 2 = x.len * ∑ j ∈ range x.len, ((j : ℝ) + 1) * ‖x.get j‖ ^ 2 := by
    rw [Finset.sum_congr rfl fun i hi => hterm i (Finset.mem_range.1 hi),
      sum_rotate (x.len - x.len / 2) (fun k => (dft (timeWeighted x) k * conj (dft x k)).re), ← Complex.re_sum]
    have hp := sum_dftC_mul_conj hn (timeWeighted x).get x.get
    have : ∀ k, dft (timeWeighted x) k * conj (dft x k) = dftC x.len (timeWeighted x).get k * conj (dftC x.len x.get k) := fun k => by
      rw [dft_eq_dftC, dft_eq_dftC]
      rfl
    rw [Finset.sum_congr rfl fun k _ => this k, hp]
    have e : ∑ j ∈ range x.len, (timeWeighted x).get j * conj (x.get j) = ((∑ j ∈ range x.len, ((j : ℝ) + 1) * ‖x.get j‖ ^ 2 : ℝ) : ℂ) := by
      rw [Complex.ofReal_sum]
      refine Finset.sum_congr rfl fun j _ => ?_
      show ((j : ℂ) + 1) * x.get j * conj (x.get j) = _
      rw [mul_assoc, mul_conj_eq_norm_sq]
      push_cast
      ring
    rw [e]
    exact_mod_cast rfl
  unfold wmean
  rw [hS, hM, mul_div_mul_left _ _ hN]
  unfold energy at he ⊢
  rw [div_add_one he]
  congr 1
  rw [← Finset.sum_add_distrib]
  exact Finset.sum_congr rfl fun j _ => by ring

/-- The hypothesis holds for impulses: an impulse at sample 1 of 3, whose group delays are all 2. -/
example : ∃ g : Vec ℝ, groupDelay ⟨3, fun t => if t = 1 then 1 else 0⟩ = .ok g ∧ (∀ i < 3, g.get i ≠ 0) ∧ ∃ T, loctime ⟨3, fun t => if t = 1 then 1 else 0⟩ = .ok (1, T) := by
  obtain ⟨g, h1, -, h3⟩ := C46_impulse ⟨3, fun t => if t = 1 then 1 else 0⟩ 1 (by norm_num) (by simp) (fun i _ hi => by simp [hi])
  refine ⟨g, h1, fun i hi => ?_, 0, ?_⟩
  · rw [h3 i hi]
    norm_num
  · have := C44_impulse ⟨3, fun t => if t = 1 then 1 else 0⟩ 1 (by norm_num) (by simp) (fun i _ hi => by simp [hi])
    rw [this]
    norm_num

/-- Symmetric (Hermitian) signals, up to a phase. -/
def HermSym (x : Vec ℂ) : Prop := ∃ a : ℂ, ∀ t < x.len, x.get (x.len - 1 - t) = a * conj (x.get t)

theorem rawDelay_herm (x : Vec ℂ) (hs : HermSym x) (v : ℝ) (hv : dtft x v ≠ 0) : rawDelay x v = ((x.len : ℝ) + 1) / 2 := by
  obtain ⟨a, ha⟩ := hs
  set c : ℂ := a * expi (-(2 * Real.pi * v * ((x.len : ℝ) - 1))) with hc
  have hcast : ∀ t < x.len, ((x.len - 1 - t : ℕ) : ℝ) = (x.len : ℝ) - 1 - t := fun t ht => by
    rw [Nat.cast_sub (by omega), Nat.cast_sub (by omega), Nat.cast_one]
  have hterm : ∀ t < x.len, x.get (x.len - 1 - t) * expi (-(2 * Real.pi * v * (x.len - 1 - t : ℕ))) = c * conj (x.get t * expi (-(2 * Real.pi * v * t))) := by
    intro t ht
    rw [ha t ht, hcast t ht, map_mul, conj_expi, neg_neg, hc,
      show -(2 * Real.pi * v * ((x.len : ℝ) - 1 - t)) = -(2 * Real.pi * v * ((x.len : ℝ) - 1)) + 2 * Real.pi * v * t by ring, expi_add]
    ring
  have hX : dtft x v = c * conj (dtft x v) := by
    unfold dtft
    rw [map_sum, Finset.mul_sum, ← Finset.sum_range_reflect]
    exact Finset.sum_congr rfl fun t ht => hterm t (Finset.mem_range.1 ht)
  have hW : dtft (timeWeighted x) v = ((x.len : ℂ) + 1) * dtft x v - c * conj (dtft (timeWeighted x) v) := by
    have : dtft (timeWeighted x) v = ∑ t ∈ range x.len, (((x.len : ℂ) + 1) * (c * conj (x.get t * expi (-(2 * Real.pi * v * t))))
        - c * conj ((timeWeighted x).get t * expi (-(2 * Real.pi * v * t)))) := by
      unfold dtft
      show ∑ t ∈ range x.len, _ = _
      rw [← Finset.sum_range_reflect]
      refine Finset.sum_congr rfl fun t ht => ?_
      have ht' := Finset.mem_range.1 ht
      show (((x.len - 1 - t : ℕ) : ℂ) + 1) * x.get (x.len - 1 - t) * _ = _
      rw [mul_assoc, hterm t ht']
      show _ = _ - c * conj (((t : ℂ) + 1) * x.get t * _)
      have e : ((x.len - 1 - t : ℕ) : ℂ) = (x.len : ℂ) - 1 - t := by
        rw [Nat.cast_sub (by omega), Nat.cast_sub (by omega), Nat.cast_one]
      rw [e, mul_assoc ((t : ℂ) + 1), map_mul conj ((t : ℂ) + 1), map_add, map_one, Complex.conj_natCast]
      ring
    refine this.trans ?_
    rw [Finset.sum_sub_distrib, ← Finset.mul_sum, ← Finset.mul_sum, ← Finset.mul_sum, ← map_sum, ← map_sum]
    congr 1
    rw [show ∑ t ∈ range x.len, x.get t * expi (-(2 * Real.pi * v * t)) = dtft x v from rfl, ← hX]
  have hq : dtft (timeWeighted x) v / dtft x v = ((x.len : ℂ) + 1) - conj (dtft (timeWeighted x) v / dtft x v) := by
    have hcx : conj (dtft x v) ≠ 0 := fun h => hv (by simpa using congrArg conj h)
    have hc0 : c ≠ 0 := by
      intro h
      rw [h, zero_mul] at hX
      exact hv hX
    have e : conj (dtft (timeWeighted x) v / dtft x v) = c * conj (dtft (timeWeighted x) v) / dtft x v := by
      rw [map_div₀]
      conv_rhs => rw [hX]
      rw [mul_div_mul_left _ _ hc0]
    rw [e]
    conv_lhs => rw [hW]
    rw [sub_div, mul_div_cancel_right₀ _ hv]
  unfold rawDelay
  have := congrArg Complex.re hq
  rw [Complex.sub_re, Complex.conj_re] at this
  have e : ((x.len : ℂ) + 1).re = (x.len : ℝ) + 1 := by simp
  rw [e] at this
  linarith

/-- **Symmetric signals** (real symmetric windows and envelopes, Hermitian signals, times any phase) have the same group delay `(N + 1) / 2` at all frequencies where the spectrum does
not vanish, and `group_delay` reports it. -/
theorem C109_symmetric (x : Vec ℂ) (hs : HermSym x) (f : Vec ℝ) (hz : ∀ k < f.len, dtft x (f.get k) ≠ 0) :
    ∃ g : Vec ℝ, groupDelayAt x f = .ok g ∧ g.len = f.len ∧ ∀ k < f.len, g.get k = ((x.len : ℝ) + 1) / 2 := by
  obtain ⟨g, h1, h2, h3⟩ := C46_group_delay_at x f hz
  refine ⟨g, h1, h2, fun k hk => ?_⟩
  have hr := rawDelay_herm x hs _ (hz k hk)
  unfold rawDelay at hr
  rw [h3 k hk, hr]
  have hn : 1 ≤ x.len := by
    by_contra h
    refine hz k hk ?_
    unfold dtft
    rw [show x.len = 0 by omega]
    simp
  have hN : (1 : ℝ) ≤ x.len := by exact_mod_cast hn
  unfold clipDelay
  rw [if_pos ⟨by linarith, by linarith⟩]

/-- The same at the default frequencies. -/
theorem C109_symmetric_bins (x : Vec ℂ) (hs : HermSym x) (hn : x.len ≠ 0) (hz : ∀ k < x.len, dft x k ≠ 0) :
    ∃ g : Vec ℝ, groupDelay x = .ok g ∧ g.len = x.len ∧ ∀ k < x.len, g.get k = ((x.len : ℝ) + 1) / 2 := by
  obtain ⟨g, h1, h2, h3⟩ := C46_group_delay x hn hz
  refine ⟨g, h1, h2, fun k hk => ?_⟩
  have hr := rawDelay_herm x hs _ (hz _ (Nat.mod_lt (k + (x.len - x.len / 2)) (by omega)))
  have hN : (1 : ℝ) ≤ x.len := by exact_mod_cast Nat.one_le_iff_ne_zero.2 hn
  unfold rawDelay at hr
  rw [h3 k hk]
  unfold dft
  rw [show (timeWeighted x).len = x.len from rfl, hr]
  unfold clipDelay
  rw [if_pos ⟨by linarith, by linarith⟩]

/-- The window `(1, 2, 1)` at the frequency 1/4, times the phase `i`. -/
example : ∃ g : Vec ℝ, groupDelayAt ⟨3, fun t => Complex.I * if t = 1 then 2 else 1⟩ ⟨1, fun _ => 1 / 4⟩ = .ok g ∧ g.get 0 = 2 := by
  have hs : HermSym ⟨3, fun t => Complex.I * if t = 1 then 2 else 1⟩ := ⟨-1, fun t ht => by
    change t < 3 at ht
    rcases (by omega : t = 0 ∨ t = 1 ∨ t = 2) with rfl | rfl | rfl <;> simp
    exact (map_ofNat (starRingEnd ℂ) 2).symm⟩
  obtain ⟨g, h1, -, h3⟩ := C109_symmetric _ hs ⟨1, fun _ => 1 / 4⟩ (fun k _ => by
    unfold dtft
    simp only [Finset.sum_range_succ, Finset.sum_range_zero]
    have e1 : expi (-(2 * Real.pi * (1 / 4) * ((1 : ℕ) : ℝ))) = -Complex.I := by
      rw [show -(2 * Real.pi * (1 / 4) * ((1 : ℕ) : ℝ)) = -(Real.pi / 2) by push_cast; ring, expi_neg]
      unfold expi
      push_cast
      rw [Complex.exp_pi_div_two_mul_I, Complex.inv_I]
    have e2 : expi (-(2 * Real.pi * (1 / 4) * ((2 : ℕ) : ℝ))) = -1 := by
      rw [show -(2 * Real.pi * (1 / 4) * ((2 : ℕ) : ℝ)) = -Real.pi by push_cast; ring, expi_neg]
      unfold expi
      rw [Complex.exp_pi_mul_I]
      norm_num
    rw [e1, e2]
    simp)
  exact ⟨g, h1, by rw [h3 0 one_pos]; norm_num⟩

/-! ## Delays, frequency shifts, cascades -/

theorem dtft_shiftFreq (x : Vec ℂ) (f v : ℝ) : dtft (shiftFreq f x) v = dtft x (v - f) := by
  unfold dtft
  refine Finset.sum_congr rfl fun t _ => ?_
  show x.get t * expi (2 * Real.pi * (f * t)) * _ = _
  rw [mul_assoc, ← expi_add]
  congr 2
  ring

/-- A frequency shift moves the group delays along the frequency axis. -/
theorem C109_shift (x : Vec ℂ) (f : ℝ) (v : Vec ℝ) (hz : ∀ k < v.len, dtft x (v.get k) ≠ 0) :
    ∃ g g' : Vec ℝ, groupDelayAt x v = .ok g ∧ groupDelayAt (shiftFreq f x) ⟨v.len, fun k => v.get k + f⟩ = .ok g' ∧ g.len = v.len ∧ g'.len = v.len ∧
      ∀ k < v.len, g'.get k = g.get k := by
  have hs : ∀ k, dtft (shiftFreq f x) (v.get k + f) = dtft x (v.get k) := fun k => by rw [dtft_shiftFreq, add_sub_cancel_right]
  obtain ⟨g, h1, h2, h3⟩ := C46_group_delay_at x v hz
  obtain ⟨g', h1', h2', h3'⟩ := C46_group_delay_at (shiftFreq f x) ⟨v.len, fun k => v.get k + f⟩ (fun k hk => by
    show dtft (shiftFreq f x) (v.get k + f) ≠ 0
    rw [hs]
    exact hz k hk)
  refine ⟨g, g', h1, h1', h2, h2', fun k hk => ?_⟩
  rw [h3 k hk, h3' k hk]
  show clipDelay x.len (dtft (timeWeighted (shiftFreq f x)) (v.get k + f) / dtft (shiftFreq f x) (v.get k + f)).re = _
  have e : dtft (timeWeighted (shiftFreq f x)) (v.get k + f) = dtft (timeWeighted x) (v.get k) := by
    have e1 : timeWeighted (shiftFreq f x) = shiftFreq f (timeWeighted x) := by
      unfold timeWeighted shiftFreq
      simp only [mul_assoc]
    rw [e1, dtft_shiftFreq, add_sub_cancel_right]
  rw [e, hs]

/-- The full convolution of two signals. -/
noncomputable def convolve (x y : Vec ℂ) : Vec ℂ := ⟨x.len + y.len - 1, fun t => ∑ i ∈ range x.len, x.get i * zext y ((t : ℤ) - i)⟩

theorem sum_convolve (x y : Vec ℂ) (F : ℕ → ℂ) :
    ∑ t ∈ range (convolve x y).len, (convolve x y).get t * F t = ∑ i ∈ range x.len, ∑ j ∈ range y.len, x.get i * y.get j * F (i + j) := by
  show ∑ t ∈ range (x.len + y.len - 1), (∑ i ∈ range x.len, x.get i * zext y ((t : ℤ) - i)) * F t = _
  simp_rw [Finset.sum_mul]
  rw [Finset.sum_comm]
  refine Finset.sum_congr rfl fun i hi => ?_
  have hi' := Finset.mem_range.1 hi
  have hsub : (range y.len).map (addLeftEmbedding i) ⊆ range (x.len + y.len - 1) := by
    intro t ht
    rw [Finset.mem_map] at ht
    obtain ⟨j, hj, rfl⟩ := ht
    rw [Finset.mem_range] at hj ⊢
    rw [addLeftEmbedding_apply]
    omega
  rw [← Finset.sum_subset hsub, Finset.sum_map]
  · refine Finset.sum_congr rfl fun j hj => ?_
    have hj' := Finset.mem_range.1 hj
    rw [addLeftEmbedding_apply, zext_of_mem (by push_cast; omega) (by push_cast; omega)]
    congr 3
    omega
  · intro t _ ht
    rw [zext_of_not_mem, mul_zero, zero_mul]
    rintro ⟨h1, h2⟩
    refine ht (Finset.mem_map.2 ⟨t - i, Finset.mem_range.2 (by omega), ?_⟩)
    rw [addLeftEmbedding_apply]
    omega

theorem dtft_convolve (x y : Vec ℂ) (v : ℝ) : dtft (convolve x y) v = dtft x v * dtft y v := by
  unfold dtft
  rw [sum_convolve x y, Finset.sum_mul_sum]
  refine Finset.sum_congr rfl fun i _ => Finset.sum_congr rfl fun j _ => ?_
  rw [show -(2 * Real.pi * v * ((i + j : ℕ) : ℝ)) = -(2 * Real.pi * v * i) + -(2 * Real.pi * v * j) by push_cast; ring, expi_add]
  ring

theorem dtft_weighted_convolve (x y : Vec ℂ) (v : ℝ) :
    dtft (timeWeighted (convolve x y)) v = dtft (timeWeighted x) v * dtft y v + dtft x v * dtft (timeWeighted y) v - dtft x v * dtft y v := by
  have e : dtft (timeWeighted (convolve x y)) v
      = ∑ t ∈ range (convolve x y).len, (convolve x y).get t * (((t : ℂ) + 1) * expi (-(2 * Real.pi * v * t))) := by
    unfold dtft
    refine Finset.sum_congr rfl fun t _ => ?_
    show ((t : ℂ) + 1) * (convolve x y).get t * _ = _
    ring
  rw [e, sum_convolve x y]
  unfold dtft
  show _ = (∑ i ∈ range x.len, (timeWeighted x).get i * _) * _ + _ * (∑ i ∈ range y.len, (timeWeighted y).get i * _) - _
  rw [Finset.sum_mul_sum, Finset.sum_mul_sum, Finset.sum_mul_sum, ← Finset.sum_add_distrib, ← Finset.sum_sub_distrib]
  refine Finset.sum_congr rfl fun i _ => ?_
  rw [← Finset.sum_add_distrib, ← Finset.sum_sub_distrib]
  refine Finset.sum_congr rfl fun j _ => ?_
  show _ = ((i : ℂ) + 1) * x.get i * _ * _ + _ * (((j : ℂ) + 1) * y.get j * _) - _
  rw [show -(2 * Real.pi * v * ((i + j : ℕ) : ℝ)) = -(2 * Real.pi * v * i) + -(2 * Real.pi * v * j) by push_cast; ring, expi_add]
  push_cast
  ring

theorem rawDelay_convolve (x y : Vec ℂ) (v : ℝ) (h1 : dtft x v ≠ 0) (h2 : dtft y v ≠ 0) :
    rawDelay (convolve x y) v = rawDelay x v + rawDelay y v - 1 := by
  unfold rawDelay
  rw [dtft_convolve x y, dtft_weighted_convolve x y]
  have : (dtft (timeWeighted x) v * dtft y v + dtft x v * dtft (timeWeighted y) v - dtft x v * dtft y v) / (dtft x v * dtft y v)
      = dtft (timeWeighted x) v / dtft x v + dtft (timeWeighted y) v / dtft y v - 1 := by
    field_simp
  rw [this, Complex.sub_re, Complex.add_re, Complex.one_re]

/-- **Cascades.**  Group delays of a convolution add up (less the one that both count), at the frequencies where neither is suppressed and their sum is not. -/
theorem C109_cascade (x y : Vec ℂ) (v : Vec ℝ) (h1 : ∀ k < v.len, dtft x (v.get k) ≠ 0) (h2 : ∀ k < v.len, dtft y (v.get k) ≠ 0) :
    ∃ a b c : Vec ℝ, groupDelayAt x v = .ok a ∧ groupDelayAt y v = .ok b ∧ groupDelayAt (convolve x y) v = .ok c ∧ a.len = v.len ∧ b.len = v.len ∧ c.len = v.len ∧
      ∀ k < v.len, a.get k ≠ 0 → b.get k ≠ 0 →
        c.get k = if a.get k + b.get k ≤ x.len + y.len + 3 then a.get k + b.get k - 1 else 0 := by
  obtain ⟨a, a1, a2, a3⟩ := C46_group_delay_at x v h1
  obtain ⟨b, b1, b2, b3⟩ := C46_group_delay_at y v h2
  obtain ⟨c, c1, c2, c3⟩ := C46_group_delay_at (convolve x y) v (fun k hk => by rw [dtft_convolve x y]; exact mul_ne_zero (h1 k hk) (h2 k hk))
  refine ⟨a, b, c, a1, b1, c1, a2, b2, c2, fun k hk ha hb => ?_⟩
  have ea := clipDelay_ne_zero (by rw [← a3 k hk]; exact ha)
  have eb := clipDelay_ne_zero (by rw [← b3 k hk]; exact hb)
  have ec := rawDelay_convolve x y _ (h1 k hk) (h2 k hk)
  unfold rawDelay at ec
  rw [a3 k hk, b3 k hk, c3 k hk, ea.1, eb.1, ec]
  unfold clipDelay
  have hne : ∀ z : Vec ℂ, dtft z (v.get k) ≠ 0 → z.len ≠ 0 := by
    intro z hz h
    refine hz ?_
    unfold dtft
    rw [h]
    simp
  have hx := hne x (h1 k hk)
  have hy := hne y (h2 k hk)
  have hl : ((convolve x y).len : ℝ) = (x.len : ℝ) + y.len - 1 := by
    show ((x.len + y.len - 1 : ℕ) : ℝ) = _
    rw [Nat.cast_sub (by omega)]
    push_cast
    ring
  rw [hl]
  refine if_congr ⟨fun h => by linarith [h.2], fun h => ⟨by linarith [ea.2.1, eb.2.1], by linarith⟩⟩ rfl rfl

/-- `(1, 2, 1)` and one sample, at frequency 0: delays 2 and 1 give 2. -/
example : ∃ c : Vec ℝ, groupDelayAt (convolve ⟨3, fun t => if t = 1 then 2 else 1⟩ ⟨1, fun _ => 3⟩) ⟨1, fun _ => 0⟩ = .ok c ∧ c.get 0 = 2 := by
  have hx : dtft ⟨3, fun t => if t = 1 then 2 else 1⟩ 0 ≠ 0 := by
    unfold dtft
    norm_num [Finset.sum_range_succ]
  have hy : dtft ⟨1, fun _ => 3⟩ 0 ≠ 0 := by
    unfold dtft
    norm_num
  have hs : HermSym ⟨3, fun t => if t = 1 then 2 else 1⟩ := ⟨1, fun t ht => by
    change t < 3 at ht
    rcases (by omega : t = 0 ∨ t = 1 ∨ t = 2) with rfl | rfl | rfl <;> simp
    exact (map_ofNat (starRingEnd ℂ) 2).symm⟩
  have hs' : HermSym ⟨1, fun _ => 3⟩ := ⟨1, fun t _ => by
    simp only [one_mul]
    exact (map_ofNat (starRingEnd ℂ) 3).symm⟩
  obtain ⟨a, b, c, a1, b1, c1, -, -, -, h⟩ := C109_cascade _ _ ⟨1, fun _ => 0⟩ (fun _ _ => hx) (fun _ _ => hy)
  obtain ⟨a', a1', -, a3'⟩ := C109_symmetric _ hs ⟨1, fun _ => 0⟩ (fun _ _ => hx)
  obtain ⟨b', b1', -, b3'⟩ := C109_symmetric _ hs' ⟨1, fun _ => 0⟩ (fun _ _ => hy)
  rw [a1] at a1'
  rw [b1] at b1'
  injection a1' with a1'
  injection b1' with b1'
  have ea := a3' 0 one_pos
  have eb := b3' 0 one_pos
  rw [← a1'] at ea
  rw [← b1'] at eb
  norm_num at ea eb
  refine ⟨c, c1, ?_⟩
  rw [h 0 one_pos (by rw [ea]; norm_num) (by rw [eb]; norm_num), ea, eb]
  norm_num

/-- **Delays.**  `d` zeros before the signal add `d` to every group delay that is not suppressed; one that is suppressed because it is below 1 appears as soon as `d` is large
enough. -/
theorem C109_delay (x : Vec ℂ) (d : ℕ) (v : Vec ℝ) (hz : ∀ k < v.len, dtft x (v.get k) ≠ 0) :
    ∃ g g' : Vec ℝ, groupDelayAt x v = .ok g ∧ groupDelayAt (delayBy d x) v = .ok g' ∧ g.len = v.len ∧ g'.len = v.len ∧
      ∀ k < v.len, (g.get k ≠ 0 → g'.get k = g.get k + d) ∧
        (rawDelay x (v.get k) < 1 → g.get k = 0 ∧ g'.get k = if 1 ≤ rawDelay x (v.get k) + d then rawDelay x (v.get k) + d else 0) := by
  have hsum : ∀ F : ℕ → ℂ, ∑ t ∈ range (delayBy d x).len, (delayBy d x).get t * F t = ∑ j ∈ range x.len, x.get j * F (d + j) := by
    intro F
    show ∑ t ∈ range (x.len + d), (if t < d then 0 else x.get (t - d)) * F t = _
    rw [add_comm x.len d, Finset.sum_range_add, Finset.sum_eq_zero (fun t ht => by rw [if_pos (Finset.mem_range.1 ht), zero_mul]), zero_add]
    refine Finset.sum_congr rfl fun j _ => ?_
    rw [if_neg (by omega), Nat.add_sub_cancel_left]
  have hX : ∀ w, dtft (delayBy d x) w = expi (-(2 * Real.pi * w * d)) * dtft x w := by
    intro w
    unfold dtft
    rw [hsum, Finset.mul_sum]
    refine Finset.sum_congr rfl fun j _ => ?_
    rw [show -(2 * Real.pi * w * ((d + j : ℕ) : ℝ)) = -(2 * Real.pi * w * d) + -(2 * Real.pi * w * j) by push_cast; ring, expi_add]
    ring
  have hW : ∀ w, dtft (timeWeighted (delayBy d x)) w = expi (-(2 * Real.pi * w * d)) * (dtft (timeWeighted x) w + d * dtft x w) := by
    intro w
    have e : dtft (timeWeighted (delayBy d x)) w = ∑ t ∈ range (delayBy d x).len, (delayBy d x).get t * (((t : ℂ) + 1) * expi (-(2 * Real.pi * w * t))) := by
      unfold dtft
      refine Finset.sum_congr rfl fun t _ => ?_
      show ((t : ℂ) + 1) * (delayBy d x).get t * _ = _
      ring
    rw [e, hsum]
    unfold dtft
    show _ = _ * (∑ i ∈ range x.len, (timeWeighted x).get i * _ + _)
    rw [Finset.mul_sum, ← Finset.sum_add_distrib, Finset.mul_sum]
    refine Finset.sum_congr rfl fun j _ => ?_
    show _ = _ * (((j : ℂ) + 1) * x.get j * _ + _)
    rw [show -(2 * Real.pi * w * ((d + j : ℕ) : ℝ)) = -(2 * Real.pi * w * d) + -(2 * Real.pi * w * j) by push_cast; ring, expi_add]
    push_cast
    ring
  obtain ⟨g, g1, g2, g3⟩ := C46_group_delay_at x v hz
  obtain ⟨g', b1, b2, b3⟩ := C46_group_delay_at (delayBy d x) v (fun k hk => by rw [hX]; exact mul_ne_zero (expi_ne_zero _) (hz k hk))
  refine ⟨g, g', g1, b1, g2, b2, fun k hk => ?_⟩
  have hr : (dtft (timeWeighted (delayBy d x)) (v.get k) / dtft (delayBy d x) (v.get k)).re = rawDelay x (v.get k) + d := by
    rw [hX, hW, mul_div_mul_left _ _ (expi_ne_zero _), add_div, mul_div_cancel_right₀ _ (hz k hk), Complex.add_re, Complex.natCast_re]
    rfl
  have hl : ((delayBy d x).len : ℝ) = x.len + d := by
    show ((x.len + d : ℕ) : ℝ) = _
    push_cast
    ring
  rw [b3 k hk, hr, g3 k hk]
  change (clipDelay x.len (rawDelay x (v.get k)) ≠ 0 → _ = clipDelay x.len (rawDelay x (v.get k)) + _) ∧ (_ → clipDelay x.len (rawDelay x (v.get k)) = 0 ∧ _)
  have hd : (0 : ℝ) ≤ d := Nat.cast_nonneg d
  have hN : (0 : ℝ) ≤ x.len := Nat.cast_nonneg _
  refine ⟨fun h => ?_, fun h => ⟨?_, ?_⟩⟩
  · have e := clipDelay_ne_zero h
    rw [e.1]
    unfold clipDelay
    rw [hl, if_pos ⟨by linarith [e.2.1], by linarith [e.2.2]⟩]
  · unfold clipDelay
    rw [if_neg (fun h' => by linarith [h'.1])]
  · unfold clipDelay
    rw [hl]
    refine if_congr ⟨fun h => h.1, fun h' => ⟨h', by linarith⟩⟩ rfl rfl

end Tftb.Props
