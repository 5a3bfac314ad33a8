import Verif.Model.TimeFreq
import Verif.Lemmas.TimeFreq
import Verif.Lemmas.FM

/-! # Time and frequency localisation, group delay (C44, C45, C46) -/

namespace Tftb.Props

open Tftb Tftb.TF Tftb.Spec Finset

theorem energy_pos_iff (x : Vec ℂ) : energy x ≠ 0 ↔ 0 < energy x := by
  have h : 0 ≤ energy x := Finset.sum_nonneg (fun _ _ => sq_nonneg _)
  exact ⟨fun hne => lt_of_le_of_ne h (Ne.symm hne), fun h => ne_of_gt h⟩

/-- For every signal of non-zero energy `loctime` returns the mean of the sample times weighted by
the squared modulus, and `2√(π·variance)`. -/
theorem C44_loctime (x : Vec ℂ) (hx : energy x ≠ 0) :
    loctime x = .ok (wmean x.len (fun i => (i : ℝ)) (fun i => ‖x.get i‖ ^ 2),
      2 * Real.sqrt (Real.pi * wvar x.len (fun i => (i : ℝ)) (fun i => ‖x.get i‖ ^ 2))) := by
  have hn : x.len ≠ 0 := by
    intro h; apply hx; unfold energy; rw [h]; simp
  have hn' : (x.len : ℝ) ≠ 0 := Nat.cast_ne_zero.2 hn
  have hl : (arange 0 (x.len : ℤ)).len = x.len := by rw [arange_len]; simp
  have hm : (∑ i ∈ range x.len, ‖x.get i‖ ^ 2) / (x.len : ℝ) ≠ 0 := div_ne_zero hx hn'
  simp only [loctime, Vec.mean, Vec.map_len, if_neg hn, ok_bind, Vec.sum, Vec.map_get, norm_pow,
    if_neg hm, Vec.bcast, hl, if_true, arange_get]
  have hz : ∀ i : ℕ, (((0 : ℤ) + (i : ℤ) : ℤ) : ℝ) = i := fun i => by push_cast; ring
  simp only [hz, mean_normalised hn]
  rfl

/-- The zero (or empty) signal has no localisation. -/
theorem C44_loctime_zero (x : Vec ℂ) (hx : energy x = 0) : loctime x = .error .nonFinite := by
  by_cases hn : x.len = 0
  · simp [loctime, Vec.mean, hn]
  · have : (∑ i ∈ range x.len, ‖x.get i‖ ^ 2) / (x.len : ℝ) = 0 := by
      unfold energy at hx; rw [hx]; simp
    simp only [loctime, Vec.mean, Vec.map_len, if_neg hn, ok_bind, Vec.sum, Vec.map_get, norm_pow,
      if_pos this]

/-- The centre is a time inside the signal and the spread is non-negative. -/
theorem C44_range (x : Vec ℂ) (hx : energy x ≠ 0) :
    ∃ tm T, loctime x = .ok (tm, T) ∧ 0 ≤ tm ∧ tm ≤ (x.len : ℝ) - 1 ∧ 0 ≤ T := by
  have hb := wmean_mem (n := x.len) (p := fun i => (i : ℝ)) (w := fun i => ‖x.get i‖ ^ 2) (lo := 0)
    (hi := (x.len : ℝ) - 1) (fun _ _ => sq_nonneg _) ((energy_pos_iff x).1 hx)
    (fun i hi => ⟨by positivity, by
      have : (i : ℝ) + 1 ≤ x.len := by exact_mod_cast hi
      linarith⟩)
  exact ⟨_, _, C44_loctime x hx, hb.1, hb.2, by positivity⟩

/-- Scaling the signal by a non-zero factor changes nothing. -/
theorem C44_scale (x : Vec ℂ) (a : ℂ) (ha : a ≠ 0) :
    loctime (x.map (fun z => a * z)) = loctime x := by
  have ha' : ‖a‖ ^ 2 ≠ 0 := by positivity
  have he : energy (x.map (fun z => a * z)) = ‖a‖ ^ 2 * energy x := by
    unfold energy; rw [Finset.mul_sum]
    simp [mul_pow]
  by_cases hx : energy x = 0
  · rw [C44_loctime_zero x hx, C44_loctime_zero _ (by rw [he, hx, mul_zero])]
  · rw [C44_loctime x hx, C44_loctime _ (by rw [he]; exact mul_ne_zero ha' hx)]
    simp only [Vec.map_len, Vec.map_get, norm_mul, mul_pow]
    rw [wmean_scale ha', wvar_scale ha']

/-- A signal concentrated on sample `k` is located at `k` with spread 0. -/
theorem C44_impulse (x : Vec ℂ) (k : ℕ) (hk : k < x.len) (hxk : x.get k ≠ 0)
    (h0 : ∀ i < x.len, i ≠ k → x.get i = 0) : loctime x = .ok ((k : ℝ), 0) := by
  have hx : energy x ≠ 0 := by
    unfold energy
    rw [Finset.sum_eq_single_of_mem k (Finset.mem_range.2 hk)]
    · positivity
    · intro i hi hne; rw [h0 i (Finset.mem_range.1 hi) hne]; simp
  have hw : ∀ i < x.len, i ≠ k → ‖x.get i‖ ^ 2 = 0 := fun i hi hne => by rw [h0 i hi hne]; simp
  have hwk : ‖x.get k‖ ^ 2 ≠ 0 := by positivity
  rw [C44_loctime x hx, wmean_point hk hwk hw, wvar_point hk hwk hw]
  simp

/-- `x` preceded by `d` zeros. -/
def delayed (d : ℕ) (x : Vec ℂ) : Vec ℂ := ⟨d + x.len, fun i => if i < d then 0 else x.get (i - d)⟩

/-- Delaying a signal by `d` samples adds `d` to its centre and keeps its spread. -/
theorem C44_delay (x : Vec ℂ) (d : ℕ) (hx : energy x ≠ 0) :
    ∃ tm T, loctime x = .ok (tm, T) ∧ loctime (delayed d x) = .ok (tm + d, T) := by
  have h0 : ∀ i < d, ‖(delayed d x).get i‖ ^ 2 = 0 := fun i hi => by simp [delayed, hi]
  have h1 : ∀ i, ‖(delayed d x).get (d + i)‖ ^ 2 = ‖x.get i‖ ^ 2 := fun i => by simp [delayed]
  have he : energy (delayed d x) = energy x := by
    unfold energy
    show ∑ i ∈ range (d + x.len), _ = _
    rw [Finset.sum_range_add, Finset.sum_eq_zero (fun i hi => h0 i (Finset.mem_range.1 hi)), zero_add]
    exact Finset.sum_congr rfl (fun i _ => h1 i)
  have hcast : (fun i : ℕ => (((d + i : ℕ)) : ℝ)) = fun i : ℕ => (i : ℝ) + d := by
    funext i; push_cast; ring
  have hm : wmean (d + x.len) (fun i => (i : ℝ)) (fun i => ‖(delayed d x).get i‖ ^ 2)
      = wmean x.len (fun i => (i : ℝ)) (fun i => ‖x.get i‖ ^ 2) + d := by
    rw [wmean_prepend h0 h1, hcast, wmean_shift _ hx]
  refine ⟨_, _, C44_loctime x hx, ?_⟩
  rw [C44_loctime _ (by rw [he]; exact hx)]
  show Except.ok (wmean (d + x.len) _ _, _) = _
  rw [hm]
  have hv : wvar (d + x.len) (fun i => (i : ℝ)) (fun i => ‖(delayed d x).get i‖ ^ 2)
      = wvar x.len (fun i => (i : ℝ)) (fun i => ‖x.get i‖ ^ 2) := by
    unfold wvar
    rw [hm, wmean_prepend h0 h1]
    exact wmean_congr (fun i _ => by push_cast; ring) (fun _ _ => rfl)
  show Except.ok (_, 2 * Real.sqrt (Real.pi * wvar (d + x.len) _ _)) = _
  rw [hv]

example : energy (Vec.ofList [(1 : ℂ), 2]) ≠ 0 := by
  simp only [energy, Vec.ofList]
  norm_num [Finset.sum_range_succ]

/-! ## C45 locfreq -/

theorem sum_dft_sq (x : Vec ℂ) (hn : x.len ≠ 0) :
    ∑ k ∈ range x.len, ‖dft x k‖ ^ 2 = x.len * energy x := by
  simp only [dft_eq_dftC]
  exact parseval hn x.get

theorem freqs_len (N : ℕ) (h : N % 4 ≠ 1) :
    ((arange 0 ⌊(N : ℝ) / 2⌋).append (arange (-roundEven ((N : ℝ) / 2)) 0)).len = N := by
  have hf : ⌊(N : ℝ) / 2⌋ = (N : ℤ) / 2 := by
    have := Int.floor_div_natCast (N : ℝ) 2
    rw [show ((2 : ℕ) : ℝ) = 2 by norm_num] at this
    rw [this]; simp
  rw [Vec.append_len, arange_len, arange_len, roundEven_half, hf]
  split <;> omega

theorem freqs_get (N k : ℕ) (h : N % 4 ≠ 1) (_hk : k < N) :
    ((((arange 0 ⌊(N : ℝ) / 2⌋).append (arange (-roundEven ((N : ℝ) / 2)) 0)).get k : ℤ) : ℝ) / N
      = binFreq N k := by
  have hf : ⌊(N : ℝ) / 2⌋ = (N : ℤ) / 2 := by
    have := Int.floor_div_natCast (N : ℝ) 2
    rw [show ((2 : ℕ) : ℝ) = 2 by norm_num] at this
    rw [this]; simp
  unfold binFreq Vec.append
  simp only [arange_len, arange_get, roundEven_half, hf]
  have hl : ((N : ℤ) / 2 - 0).toNat = N / 2 := by omega
  rw [hl]
  by_cases hlt : k < N / 2
  · rw [if_pos hlt, if_pos hlt]; push_cast; ring
  · rw [if_neg hlt, if_neg hlt]
    congr 1
    have : (-(if N % 4 = 3 then ((N : ℤ) + 1) / 2 else (N : ℤ) / 2) + ((k - N / 2 : ℕ) : ℤ)) = (k : ℤ) - N := by
      split <;> omega
    rw [this]; push_cast; ring

/-- For every signal of non-zero energy whose length is not `1` modulo 4, `locfreq` returns the mean
of the bin frequencies weighted by the squared modulus of the spectrum, and `2√(π·variance)`. -/
theorem C45_locfreq (x : Vec ℂ) (hN : x.len % 4 ≠ 1) (hx : energy x ≠ 0) :
    locfreq x = .ok (wmean x.len (binFreq x.len) (fun k => ‖dft x k‖ ^ 2),
      2 * Real.sqrt (Real.pi * wvar x.len (binFreq x.len) (fun k => ‖dft x k‖ ^ 2))) := by
  have hn : x.len ≠ 0 := by
    intro h; apply hx; unfold energy; rw [h]; simp
  have hn' : (x.len : ℝ) ≠ 0 := Nat.cast_ne_zero.2 hn
  have hm : (∑ k ∈ range x.len, ‖dftC x.len x.get k‖ ^ 2) / (x.len : ℝ) ≠ 0 := by
    rw [parseval hn]; exact div_ne_zero (mul_ne_zero hn' hx) hn'
  simp only [locfreq, fft_ok hn, ok_bind, Vec.mean, Vec.map_len, if_neg hn, Vec.sum, Vec.map_get,
    if_neg hm, Vec.bcast, freqs_len _ hN, if_true, mean_normalised hn]
  congr 2
  · exact wmean_congr (fun k hk => freqs_get _ k hN hk) (fun k _ => by rw [dft_eq_dftC])
  · congr 3
    show wvar _ _ _ = _
    exact wvar_congr (fun k hk => freqs_get _ k hN hk) (fun k _ => by rw [dft_eq_dftC])

/-- Lengths `5, 9, 13, …` always fail: the frequency axis has one entry too few. -/
theorem C45_bad_length (x : Vec ℂ) (hN : x.len % 4 = 1) (h5 : 5 ≤ x.len) :
    locfreq x = .error .valueError := by
  have hn : x.len ≠ 0 := by omega
  have hf : ⌊(x.len : ℝ) / 2⌋ = (x.len : ℤ) / 2 := by
    have := Int.floor_div_natCast (x.len : ℝ) 2
    rw [show ((2 : ℕ) : ℝ) = 2 by norm_num] at this
    rw [this]; simp
  have hl : ((arange 0 ⌊(x.len : ℝ) / 2⌋).append
      (arange (-roundEven ((x.len : ℝ) / 2)) 0)).len = x.len - 1 := by
    rw [Vec.append_len, arange_len, arange_len, roundEven_half, hf, if_neg (by omega)]
    omega
  simp only [locfreq, fft_ok hn, ok_bind, Vec.map_len, Vec.bcast, hl]
  rw [if_neg (by omega), if_neg (by omega), if_neg (by omega)]
  rfl

/-- One sample: the frequency axis is empty and the result is undefined. -/
theorem C45_one_sample (x : Vec ℂ) (hN : x.len = 1) : locfreq x = .error .nonFinite := by
  have hn : x.len ≠ 0 := by omega
  have hl : ((arange 0 ⌊(x.len : ℝ) / 2⌋).append
      (arange (-roundEven ((x.len : ℝ) / 2)) 0)).len = 0 := by
    have hf : ⌊(x.len : ℝ) / 2⌋ = 0 := by
      rw [hN, Int.floor_eq_iff]; norm_num
    rw [Vec.append_len, arange_len, arange_len, roundEven_half, hf, hN]; norm_num
  have hne : ¬ (0 : ℕ) = x.len := by omega
  simp only [locfreq, fft_ok hn, ok_bind, Vec.mean, Vec.map_len, if_neg hn, Vec.sum, Vec.map_get,
    Vec.bcast, hl, if_neg hne, if_neg (zero_ne_one (α := ℕ)), if_pos hN, if_true]
  split <;> rfl

theorem binFreq_even_range (N k : ℕ) (h2 : N % 2 = 0) (hk : k < N) :
    -(1 / 2) ≤ binFreq N k ∧ binFreq N k ≤ 1 / 2 - 1 / N := by
  have hN : (0 : ℝ) < N := by exact_mod_cast (by omega : 0 < N)
  unfold binFreq
  obtain ⟨m, hm⟩ : ∃ m, N = 2 * m := ⟨N / 2, by omega⟩
  have hm' : (N : ℝ) = 2 * m := by exact_mod_cast hm
  split
  · have hk' : (k : ℝ) + 1 ≤ m := by exact_mod_cast (by omega : k + 1 ≤ m)
    constructor
    · have : (0 : ℝ) ≤ (k : ℝ) / N := by positivity
      linarith
    · rw [show (1 : ℝ) / 2 - 1 / N = (N / 2 - 1) / N by field_simp]
      apply div_le_div_of_nonneg_right _ hN.le
      linarith
  · have hk' : (m : ℝ) ≤ k := by exact_mod_cast (by omega : m ≤ k)
    have hk2 : (k : ℝ) + 1 ≤ N := by exact_mod_cast hk
    have hN2 : (2 : ℝ) ≤ N := by exact_mod_cast (by omega : 2 ≤ N)
    constructor
    · rw [le_div_iff₀ hN]; linarith
    · rw [show (1 : ℝ) / 2 - 1 / N = (N / 2 - 1) / N by field_simp]
      apply div_le_div_of_nonneg_right _ hN.le
      linarith

/-- Even length: the centre is in `[-1/2, 1/2)` and the bandwidth is non-negative. -/
theorem C45_range (x : Vec ℂ) (hN : x.len % 2 = 0) (hx : energy x ≠ 0) :
    ∃ fm B, locfreq x = .ok (fm, B) ∧ -(1 / 2) ≤ fm ∧ fm < 1 / 2 ∧ 0 ≤ B := by
  have hn : x.len ≠ 0 := by
    intro h; apply hx; unfold energy; rw [h]; simp
  have hn' : (0 : ℝ) < x.len := by exact_mod_cast Nat.pos_of_ne_zero hn
  have hS : 0 < ∑ k ∈ range x.len, ‖dft x k‖ ^ 2 := by
    rw [sum_dft_sq x hn]; exact mul_pos hn' ((energy_pos_iff x).1 hx)
  have hb := wmean_mem (n := x.len) (p := binFreq x.len) (w := fun k => ‖dft x k‖ ^ 2)
    (fun _ _ => sq_nonneg _) hS (fun k hk => binFreq_even_range x.len k hN hk)
  refine ⟨_, _, C45_locfreq x (by omega) hx, hb.1, lt_of_le_of_lt hb.2 ?_, by positivity⟩
  have : 0 < 1 / (x.len : ℝ) := by positivity
  linarith

/-- Scaling the signal by a non-zero factor changes nothing. -/
theorem C45_scale (x : Vec ℂ) (a : ℂ) (ha : a ≠ 0) (hN : x.len % 4 ≠ 1) (hx : energy x ≠ 0) :
    locfreq (x.map (fun z => a * z)) = locfreq x := by
  have ha' : ‖a‖ ^ 2 ≠ 0 := by positivity
  have he : energy (x.map (fun z => a * z)) = ‖a‖ ^ 2 * energy x := by
    unfold energy; rw [Finset.mul_sum]
    simp [mul_pow]
  have hd : ∀ k, ‖dft (x.map (fun z => a * z)) k‖ ^ 2 = ‖a‖ ^ 2 * ‖dft x k‖ ^ 2 := by
    intro k
    rw [dft_eq_dftC, dft_eq_dftC]
    show ‖dftC x.len (fun j => a * x.get j) k‖ ^ 2 = _
    rw [dftC_smul, norm_mul, mul_pow]
  rw [C45_locfreq x hN hx, C45_locfreq (x.map (fun z => a * z)) hN (by rw [he]; exact mul_ne_zero ha' hx)]
  simp only [Vec.map_len, hd]
  rw [wmean_scale ha', wvar_scale ha']

/-- The signal advanced circularly by `d` samples. -/
def rotated (d : ℕ) (x : Vec ℂ) : Vec ℂ := ⟨x.len, fun j => x.get ((j + d) % x.len)⟩

/-- A circular shift of the signal changes nothing. -/
theorem C45_rotate (x : Vec ℂ) (d : ℕ) (hN : x.len % 4 ≠ 1) (hx : energy x ≠ 0) :
    locfreq (rotated d x) = locfreq x := by
  have hn : x.len ≠ 0 := by
    intro h; apply hx; unfold energy; rw [h]; simp
  have he : energy (rotated d x) = energy x := sum_rotate d (fun j => ‖x.get j‖ ^ 2)
  have hd : ∀ k, ‖dft (rotated d x) k‖ ^ 2 = ‖dft x k‖ ^ 2 := by
    intro k
    rw [dft_eq_dftC, dft_eq_dftC]
    show ‖dftC x.len (fun j => x.get ((j + d) % x.len)) k‖ ^ 2 = _
    rw [dftC_rotate hn, norm_mul, norm_rootPow, one_mul]
  rw [C45_locfreq x hN hx, C45_locfreq (rotated d x) hN (by rw [he]; exact hx)]
  simp only [hd]
  rfl

/-- A pure tone on DFT bin `m` is located at that bin's frequency, with bandwidth 0. -/
theorem C45_tone (N m : ℕ) (a : ℂ) (ha : a ≠ 0) (hN : N % 4 ≠ 1) (hm : m < N) :
    locfreq ⟨N, fun j => a * expi (2 * Real.pi * (m * j / N))⟩ = .ok (binFreq N m, 0) := by
  have hn : N ≠ 0 := by omega
  set x : Vec ℂ := ⟨N, fun j => a * expi (2 * Real.pi * (m * j / N))⟩ with hxdef
  have hget : x.get = fun j : ℕ => a * rootPow N (-((j : ℤ) * m)) := by
    funext j
    show a * expi (2 * Real.pi * (m * j / N)) = _
    rw [rootPow_eq_expi]; congr 2; push_cast; ring
  have hd : ∀ k < N, dft x k = if k = m then a * N else 0 := by
    intro k hk
    rw [dft_eq_dftC, hget]
    exact dftC_tone hn a hm hk
  have hx : energy x ≠ 0 := by
    unfold energy
    show ∑ i ∈ range N, ‖a * expi _‖ ^ 2 ≠ 0
    simp only [norm_mul, norm_expi, mul_one, Finset.sum_const, Finset.card_range, nsmul_eq_mul]
    have : (N : ℝ) ≠ 0 := Nat.cast_ne_zero.2 hn
    positivity
  have hw : ∀ k < N, k ≠ m → ‖dft x k‖ ^ 2 = 0 := fun k hk hne => by
    rw [hd k hk, if_neg hne]; simp
  have hwm : ‖dft x m‖ ^ 2 ≠ 0 := by
    rw [hd m hm, if_pos rfl]
    have : (N : ℂ) ≠ 0 := Nat.cast_ne_zero.2 hn
    have := mul_ne_zero ha this
    positivity
  rw [C45_locfreq x hN hx]
  show Except.ok (wmean N (binFreq N) _, 2 * Real.sqrt (Real.pi * wvar N (binFreq N) _)) = _
  rw [wmean_point hm hwm hw, wvar_point hm hwm hw]
  simp

/-- Finding: for `N = 3` a tone on bin 1 (frequency `1/3`) is reported at `-2/3`. -/
theorem C45_odd_label : locfreq ⟨3, fun j => expi (2 * Real.pi * (1 * j / 3))⟩ = .ok (-2 / 3, 0) := by
  have := C45_tone 3 1 1 one_ne_zero (by norm_num) (by norm_num)
  simp only [one_mul, Nat.cast_one, Nat.cast_ofNat] at this
  simp only [one_mul]
  rw [this]
  unfold binFreq
  norm_num

example : (8 : ℕ) % 4 ≠ 1 ∧ (3 : ℕ) < 8 ∧ (2 : ℂ) ≠ 0 := by norm_num

/-! ## C46 group delay -/

/-- The value reported for a group delay `r`: `r` inside `[1, N+3]`, else `0`. -/
noncomputable def clipDelay (N : ℕ) (r : ℝ) : ℝ := if 1 ≤ r ∧ r ≤ (N : ℝ) + 3 then r else 0

theorem gdKeep_eq (n : ℕ) (a b : ℂ) : gdKeep n a b = clipDelay n (a / b).re := by
  simp only [gdKeep, clipDelay, ge_iff_le]
  by_cases h1 : 1 ≤ (a / b).re <;> by_cases h2 : (a / b).re ≤ (n : ℝ) + 3 <;> simp [h1, h2]

/-- `x` multiplied by the one-based sample times. -/
noncomputable def timeWeighted (x : Vec ℂ) : Vec ℂ := ⟨x.len, fun j => ((j : ℂ) + 1) * x.get j⟩

/-- With the default frequencies, for every signal without spectral zero, `group_delay` reports at
position `i` the real part of `DFT(t·x)/DFT(x)` at the bin which `fftshift` puts there. -/
theorem C46_group_delay (x : Vec ℂ) (hn : x.len ≠ 0) (hz : ∀ k < x.len, dft x k ≠ 0) :
    ∃ g : Vec ℝ, groupDelay x = .ok g ∧ g.len = x.len ∧ ∀ i < x.len, g.get i =
      clipDelay x.len (dft (timeWeighted x) ((i + (x.len - x.len / 2)) % x.len)
        / dft x ((i + (x.len - x.len / 2)) % x.len)).re := by
  have hl : (arange 1 ((x.len : ℤ) + 1)).len = x.len := by rw [arange_len]; omega
  have hz' : ¬ ∃ k < x.len, dftC x.len x.get k = 0 := by
    rintro ⟨k, hk, h⟩; exact hz k hk (by rw [dft_eq_dftC]; exact h)
  have hok : groupDelay x = .ok (fftshift ⟨x.len, fun k => gdKeep x.len
      (dftC x.len (fun j => x.get j * ((1 + (j : ℤ) : ℤ) : ℂ)) k) (dftC x.len x.get k)⟩) := by
    have hb : Vec.bcast (fun (z : ℂ) (k : ℤ) => z * (k : ℂ)) x (arange 1 ((x.len : ℤ) + 1))
        = .ok ⟨x.len, fun j => x.get j * ((1 + (j : ℤ) : ℤ) : ℂ)⟩ := by
      rw [Vec.bcast_ok hl.symm]; rfl
    simp only [groupDelay, hb, ok_bind]
    rw [fft_ok (v := ⟨x.len, fun j => x.get j * ((1 + (j : ℤ) : ℤ) : ℂ)⟩) hn, ok_bind, fft_ok hn, ok_bind,
      if_neg hz']
  refine ⟨_, hok, rfl, fun i _ => ?_⟩
  simp only [fftshift, gdKeep_eq, dft_eq_dftC]
  congr 3
  apply dftC_congr
  intro j _
  simp only [timeWeighted]
  push_cast; ring

/-- The same at arbitrary normalised frequencies. -/
theorem C46_group_delay_at (x : Vec ℂ) (f : Vec ℝ) (hz : ∀ k < f.len, dtft x (f.get k) ≠ 0) :
    ∃ g : Vec ℝ, groupDelayAt x f = .ok g ∧ g.len = f.len ∧ ∀ k < f.len, g.get k =
      clipDelay x.len (dtft (timeWeighted x) (f.get k) / dtft x (f.get k)).re := by
  have he : ∀ (v : ℝ) (j : ℕ), Complex.exp (-Complex.I * 2.0 * Real.pi * v * j)
      = expi (-(2 * Real.pi * v * j)) := by
    intro v j; unfold expi; congr 1; push_cast; norm_num; ring
  have hden : ∀ v : ℝ, ∑ j ∈ range x.len, Complex.exp (-Complex.I * 2.0 * Real.pi * v * j) * x.get j
      = dtft x v := by
    intro v; unfold dtft
    exact Finset.sum_congr rfl (fun j _ => by rw [he, mul_comm])
  have hnum : ∀ v : ℝ, ∑ j ∈ range x.len, Complex.exp (-Complex.I * 2.0 * Real.pi * v * j)
      * (x.get j * ((j : ℂ) + 1)) = dtft (timeWeighted x) v := by
    intro v; unfold dtft
    exact Finset.sum_congr rfl (fun j _ => by rw [he]; simp only [timeWeighted]; ring)
  simp only [groupDelayAt, Vec.map_len, Vec.map_get, hden, hnum]
  rw [if_neg (by rintro ⟨k, hk, h⟩; exact hz k hk h)]
  exact ⟨_, rfl, rfl, fun k _ => gdKeep_eq _ _ _⟩

/-- Every reported delay is 0 or in `[1, N+3]`. -/
theorem C46_range (x : Vec ℂ) (g : Vec ℝ) (h : groupDelay x = .ok g) :
    ∀ i < g.len, g.get i = 0 ∨ (1 ≤ g.get i ∧ g.get i ≤ (x.len : ℝ) + 3) := by
  have hc : ∀ (r : ℝ), clipDelay x.len r = 0 ∨ (1 ≤ clipDelay x.len r ∧ clipDelay x.len r ≤ (x.len : ℝ) + 3) := by
    intro r; unfold clipDelay; split
    · right; assumption
    · left; rfl
  have hn : x.len ≠ 0 := by
    intro h0
    simp only [groupDelay, Vec.bcast, arange_len, h0] at h
    simp [fft, h0] at h
  by_cases hz : ∀ k < x.len, dft x k ≠ 0
  · obtain ⟨g', h1, h2, h3⟩ := C46_group_delay x hn hz
    rw [h] at h1
    obtain rfl : g = g' := by injection h1
    intro i hi
    rw [h3 i (h2 ▸ hi)]; exact hc _
  · exfalso
    push Not at hz
    obtain ⟨k, hk, h0⟩ := hz
    have hl : (arange 1 ((x.len : ℤ) + 1)).len = x.len := by rw [arange_len]; omega
    have hb : Vec.bcast (fun (z : ℂ) (k : ℤ) => z * (k : ℂ)) x (arange 1 ((x.len : ℤ) + 1))
        = .ok ⟨x.len, fun j => x.get j * ((1 + (j : ℤ) : ℤ) : ℂ)⟩ := by
      rw [Vec.bcast_ok hl.symm]; rfl
    simp only [groupDelay, hb, ok_bind] at h
    rw [fft_ok (v := ⟨x.len, fun j => x.get j * ((1 + (j : ℤ) : ℤ) : ℂ)⟩) hn, ok_bind, fft_ok hn, ok_bind,
      if_pos ⟨k, hk, (dft_eq_dftC x k).symm.trans h0⟩] at h
    cases h

/-- An impulse at sample `m` is reported to be delayed by `m + 1` at every frequency. -/
theorem C46_impulse (x : Vec ℂ) (m : ℕ) (hm : m < x.len) (hxm : x.get m ≠ 0)
    (h0 : ∀ i < x.len, i ≠ m → x.get i = 0) :
    ∃ g : Vec ℝ, groupDelay x = .ok g ∧ g.len = x.len ∧ ∀ i < x.len, g.get i = (m : ℝ) + 1 := by
  have hn : x.len ≠ 0 := by omega
  have hd : ∀ v, dtft x v = x.get m * expi (-(2 * Real.pi * v * m)) := by
    intro v; unfold dtft
    rw [Finset.sum_eq_single_of_mem m (Finset.mem_range.2 hm)]
    intro i hi hne; rw [h0 i (Finset.mem_range.1 hi) hne, zero_mul]
  have hw : ∀ v, dtft (timeWeighted x) v = ((m : ℂ) + 1) * (x.get m * expi (-(2 * Real.pi * v * m))) := by
    intro v; unfold dtft
    show ∑ j ∈ range x.len, _ = _
    rw [Finset.sum_eq_single_of_mem m (Finset.mem_range.2 hm)]
    · simp only [timeWeighted]; ring
    · intro i hi hne; simp only [timeWeighted]; rw [h0 i (Finset.mem_range.1 hi) hne]; ring
  have hne : ∀ v, x.get m * expi (-(2 * Real.pi * v * m)) ≠ 0 := fun v =>
    mul_ne_zero hxm (expi_ne_zero _)
  obtain ⟨g, h1, h2, h3⟩ := C46_group_delay x hn (fun k _ => by unfold dft; rw [hd]; exact hne _)
  refine ⟨g, h1, h2, fun i hi => ?_⟩
  rw [h3 i hi]
  unfold dft
  have hlen : (timeWeighted x).len = x.len := rfl
  rw [hd, hw, hlen, mul_div_cancel_right₀ _ (hne _)]
  have hre : ((m : ℂ) + 1).re = (m : ℝ) + 1 := by simp
  rw [hre]
  unfold clipDelay
  rw [if_pos]
  have : (m : ℝ) + 1 ≤ x.len := by exact_mod_cast hm
  have hm0 : (0 : ℝ) ≤ m := by positivity
  constructor <;> linarith

/-- A non-zero gain does not change the group delay. -/
theorem C46_scale (x : Vec ℂ) (a : ℂ) (ha : a ≠ 0) (hn : x.len ≠ 0) (hz : ∀ k < x.len, dft x k ≠ 0) :
    ∃ g g' : Vec ℝ, groupDelay x = .ok g ∧ groupDelay (x.map (fun z => a * z)) = .ok g' ∧ g.Same g' := by
  have hd : ∀ v, dtft (x.map (fun z => a * z)) v = a * dtft x v := by
    intro v; unfold dtft; rw [Finset.mul_sum]
    exact Finset.sum_congr rfl (fun j _ => by rw [Vec.map_get]; ring)
  have hw : ∀ v, dtft (timeWeighted (x.map (fun z => a * z))) v = a * dtft (timeWeighted x) v := by
    intro v; unfold dtft; rw [Finset.mul_sum]
    exact Finset.sum_congr rfl (fun j _ => by simp only [timeWeighted, Vec.map_get]; ring)
  obtain ⟨g, h1, h2, h3⟩ := C46_group_delay x hn hz
  obtain ⟨g', h1', h2', h3'⟩ := C46_group_delay (x.map (fun z => a * z)) hn
    (fun k hk => by unfold dft; rw [hd]; exact mul_ne_zero ha (hz k hk))
  refine ⟨g, g', h1, h1', by rw [h2, h2']; rfl, fun i hi => ?_⟩
  rw [h3 i (h2 ▸ hi), h3' i (by rw [h2] at hi; exact hi)]
  unfold dft
  rw [hd, hw, mul_div_mul_left _ _ ha]
  rfl

example : ∃ x : Vec ℂ, x.len = 4 ∧ x.get 2 ≠ 0 ∧ ∀ i < x.len, i ≠ 2 → x.get i = 0 :=
  ⟨⟨4, fun i => if i = 2 then 5 else 0⟩, rfl, by simp, fun i _ h => by simp [h]⟩

end Tftb.Props
