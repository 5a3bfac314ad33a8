import Verif.Props.MargenauHillInverse
import Verif.Props.WvdMoments
import Verif.Props.GroupDelay

/-! # Moments of the Margenau-Hill distribution (C115) -/

namespace Tftb.Props

open Tftb Tftb.Spec Tftb.Cohen Tftb.TF Finset ComplexConjugate

/-- The estimate labelled `j + 2` of `inst_freq` is half the phase, in cycles, of `x[j+2] conj(x[j])`. -/
theorem instFreq_product (x : Vec ℂ) :
    ∃ f : Vec ℝ, instFreq x none = .ok (f, arange 2 x.len) ∧ f.len = x.len - 2 ∧ ∀ j, j + 2 < x.len → 0 < f.get j ∧ f.get j ≤ 1 / 2 ∧
      x.get (j + 2) * conj (x.get j) = ‖x.get (j + 2) * conj (x.get j)‖ * expi (2 * Real.pi * (2 * f.get j)) := by
  obtain ⟨e, hl, hidx⟩ := C16_default x
  obtain ⟨f, hf, hfl, hfr⟩ := C16_range x (arange 2 x.len) (fun j hj => (hidx j hj).2)
  refine ⟨f, by rw [e, hf], by rw [hfl, hl], fun j hj => ?_⟩
  have hj' : j < (arange 2 (x.len : ℤ)).len := by rw [hl]; omega
  refine ⟨(hfr j hj').1, (hfr j hj').2, ?_⟩
  have hval : f.get j = 0.5 * (Complex.arg (-x.get (j + 2) * conj (x.get j)) + Real.pi) / (2 * Real.pi) := by
    have h1 : x.take (arange 2 x.len) = .ok ⟨(arange 2 (x.len : ℤ)).len, fun j => x.get (wrapIdx x.len ((arange 2 (x.len : ℤ)).get j))⟩ := by
      unfold Vec.take; rw [if_pos (fun j hj => (hidx j hj).2.1)]
    have h2 : x.take ((arange 2 (x.len : ℤ)).map (fun i : ℤ => i - 2))
        = .ok ⟨(arange 2 (x.len : ℤ)).len, fun j => x.get (wrapIdx x.len ((arange 2 (x.len : ℤ)).get j - 2))⟩ := by
      unfold Vec.take
      rw [if_pos (fun j hj => by rw [Vec.map_get]; exact (hidx j hj).2.2)]; rfl
    simp only [instFreq, Option.getD_some] at hf
    rw [h1, ok_bind, h2, ok_bind] at hf
    simp only [Vec.bcast, if_true, ok_bind, Except.ok.injEq, Prod.mk.injEq, and_true] at hf
    rw [← hf]
    simp only [Vec.map_get]
    rw [(hidx j hj').1, wrapIdx_of_nonneg (by omega), wrapIdx_of_nonneg (by omega),
      show ((j : ℤ) + 2).toNat = j + 2 by omega, show ((j : ℤ) + 2 - 2).toNat = j by omega]
  set z := x.get (j + 2) * conj (x.get j) with hz
  have hneg : -x.get (j + 2) * conj (x.get j) = -z := by rw [hz]; ring
  rw [hneg] at hval
  have hpi := Real.pi_pos
  have harg : 2 * Real.pi * (2 * f.get j) = Complex.arg (-z) + Real.pi := by
    rw [hval]; field_simp; ring
  rw [harg, expi_add]
  have e1 : expi Real.pi = -1 := by simp [expi]
  have e2 : (‖z‖ : ℂ) * expi (Complex.arg (-z)) = -z := by
    have := Complex.norm_mul_exp_arg_mul_I (-z)
    rw [norm_neg] at this
    exact this
  rw [e1, ← mul_assoc, e2]
  ring

/-- Two complex numbers of the same modulus: the square of their sum points in the direction of their product. -/
theorem sq_sum_of_norm_eq {u v e : ℂ} {r : ℝ} (hu : u * conj u = r) (hv : v * conj v = r) (huv : u * v = r * e) :
    (u + v) ^ 2 = ((‖u + v‖ ^ 2 : ℝ) : ℂ) * e := by
  have hn : ((‖u + v‖ ^ 2 : ℝ) : ℂ) = (u + v) * (conj u + conj v) := by
    rw [← map_add, Complex.mul_conj, Complex.normSq_eq_norm_sq]
  rcases eq_or_ne (r : ℂ) 0 with h0 | h0
  · rw [h0] at hu hv
    have hu0 : u = 0 := by
      rcases mul_eq_zero.1 hu with h | h
      · exact h
      · simpa using h
    have hv0 : v = 0 := by
      rcases mul_eq_zero.1 hv with h | h
      · exact h
      · simpa using h
    rw [hu0, hv0]; simp
  · apply mul_left_cancel₀ h0
    rw [hn]
    linear_combination (-(u + v) * v) * hu + (-(u + v) * u) * hv + ((u + v) * (conj u + conj v)) * huv

/-- **Instantaneous frequency.**  Where the samples before and after instant `t = j + 1 ≥ 2` have the same modulus, the square of the first circular moment over frequency of
column `t` of the Margenau-Hill distribution has the phase `2 π (2 f)`, `f` being the estimate of `inst_freq` labelled `j + 2`. -/
theorem C115_inst_freq (x : Vec ℂ) (hx : x.len ≠ 0) (M : Mat ℝ) (hM : MhReturns x (arange 0 x.len) x.len M) :
    ∃ f : Vec ℝ, instFreq x none = .ok (f, arange 2 x.len) ∧ f.len = x.len - 2 ∧ ∀ j, 1 ≤ j → j + 2 < x.len → ‖x.get j‖ = ‖x.get (j + 2)‖ →
      (∑ k ∈ range x.len, (M.get k (j + 1) : ℂ) * expi (2 * Real.pi * ((k : ℝ) / x.len))) ^ 2
        = ((‖∑ k ∈ range x.len, (M.get k (j + 1) : ℂ) * expi (2 * Real.pi * ((k : ℝ) / x.len))‖ ^ 2 : ℝ) : ℂ) * expi (2 * Real.pi * (2 * f.get j)) := by
  obtain ⟨f, h1, h2, h3⟩ := instFreq_product x
  refine ⟨f, h1, h2, fun j hj1 hj hn => ?_⟩
  obtain ⟨_, _, hz⟩ := h3 j hj
  have hsum : ∑ k ∈ range x.len, (M.get k (j + 1) : ℂ) * expi (2 * Real.pi * ((k : ℝ) / x.len))
      = ((x.len / 2 : ℝ) : ℂ) * (x.get (j + 1) * conj (x.get j) + conj (x.get (j + 1)) * x.get (j + 2)) := by
    have hp := mh_pair_sum x x.len (j + 1) j le_rfl hj1 (by omega)
    rw [mhPair_of x (u := j + 2) (by omega) hj ⟨0, by push_cast; ring⟩] at hp
    push_cast at hp ⊢
    rw [← hp]
    refine Finset.sum_congr rfl fun k hk => ?_
    rw [mh_column x x.len hx le_rfl M hM k (Finset.mem_range.1 hk) (j + 1) (by omega)]
    push_cast
    congr 1
    rw [rootPow_eq_expi]
    congr 1
    push_cast
    ring
  rw [hsum]
  set a := x.get j
  set b := x.get (j + 1)
  set c := x.get (j + 2)
  set e := expi (2 * Real.pi * (2 * f.get j))
  have n2 : ∀ w : ℂ, w * conj w = ((‖w‖ ^ 2 : ℝ) : ℂ) := fun w => by rw [Complex.mul_conj, Complex.normSq_eq_norm_sq]
  have key := sq_sum_of_norm_eq (u := b * conj a) (v := conj b * c) (e := e) (r := ‖b‖ ^ 2 * ‖c‖ ^ 2) (by
      have ha := n2 a
      have hb := n2 b
      rw [hn] at ha
      rw [map_mul, Complex.conj_conj]
      push_cast at ha hb ⊢
      rw [← ha, ← hb]; ring) (by
      have hc := n2 c
      have hb := n2 b
      rw [map_mul, Complex.conj_conj]
      push_cast at hc hb ⊢
      rw [← hc, ← hb]; ring) (by
      have hb := n2 b
      rw [norm_mul, Complex.norm_conj, hn] at hz
      push_cast at hz hb ⊢
      rw [← hb]
      linear_combination (b * conj b) * hz)
  have hpos : (0 : ℝ) ≤ x.len / 2 := by positivity
  rw [mul_pow, key, norm_mul, Complex.norm_real, Real.norm_eq_abs, abs_of_nonneg hpos]
  push_cast
  ring

/-- Sums of a Margenau-Hill distribution weighted by a function of time. -/
theorem mh_time_moment (x : Vec ℂ) (hx : x.len ≠ 0) (M : Mat ℝ) (hM : MhReturns x (arange 0 x.len) x.len M) (p : ℕ → ℝ) :
    ∑ t ∈ range x.len, ∑ k ∈ range x.len, p t * M.get k t = x.len * (∑ t ∈ range x.len, p t * ‖x.get t‖ ^ 2 - p 0 * ‖x.get 0‖ ^ 2) := by
  obtain ⟨h1, h0⟩ := C38_time_marginal x hx M hM
  obtain ⟨N, hN⟩ := Nat.exists_eq_succ_of_ne_zero hx
  simp only [← Finset.mul_sum]
  rw [hN, Finset.sum_range_succ', Finset.sum_range_succ' (fun t => p t * ‖x.get t‖ ^ 2), ← hN, h0, mul_zero, add_zero, add_sub_cancel_right, Finset.mul_sum]
  refine Finset.sum_congr rfl fun t ht => ?_
  have := Finset.mem_range.1 ht
  rw [h1 (t + 1) (by omega) (by omega)]
  ring

/-- **Mean time.**  The mean time of the distribution is the centre of `loctime` times `E / (E - |x[0]|²)`, `E` the energy of the signal: sample 0 is left out of the total. -/
theorem C115_mean_time (x : Vec ℂ) (M : Mat ℝ) (hM : MhReturns x (arange 0 x.len) x.len M) (h0 : ‖x.get 0‖ ^ 2 ≠ energy x) (hx : x.len ≠ 0) (hE : energy x ≠ 0) :
    ∃ tm T, loctime x = .ok (tm, T) ∧
      (∑ t ∈ range x.len, ∑ k ∈ range x.len, t * M.get k t) / (∑ t ∈ range x.len, ∑ k ∈ range x.len, M.get k t)
        = tm * (energy x / (energy x - ‖x.get 0‖ ^ 2)) := by
  refine ⟨_, _, C44_loctime x hE, ?_⟩
  have hN : (x.len : ℝ) ≠ 0 := Nat.cast_ne_zero.2 hx
  have e1 := mh_time_moment x hx M hM (fun t => (t : ℝ))
  have e2 := mh_time_moment x hx M hM (fun _ => 1)
  simp only [one_mul, Nat.cast_zero, zero_mul, sub_zero] at e1 e2
  rw [e1, e2]
  unfold wmean
  change _ = _ / energy x * _
  change _ / (_ * (energy x - _)) = _
  have h3 : energy x - ‖x.get 0‖ ^ 2 ≠ 0 := sub_ne_zero.2 (Ne.symm h0)
  field_simp

/-- **Localisation.**  For a signal that starts with a zero, centre and spread of `loctime` are mean and spread in time of the Margenau-Hill distribution. -/
theorem C115_loctime (x : Vec ℂ) (M : Mat ℝ) (hM : MhReturns x (arange 0 x.len) x.len M) (h0 : x.get 0 = 0) (hx : x.len ≠ 0) (hE : energy x ≠ 0) :
    ∃ tm T, loctime x = .ok (tm, T) ∧
      tm = (∑ t ∈ range x.len, ∑ k ∈ range x.len, t * M.get k t) / (∑ t ∈ range x.len, ∑ k ∈ range x.len, M.get k t) ∧
      T = 2 * Real.sqrt (Real.pi * ((∑ t ∈ range x.len, ∑ k ∈ range x.len, (t - tm) ^ 2 * M.get k t)
        / (∑ t ∈ range x.len, ∑ k ∈ range x.len, M.get k t))) := by
  have hN : (x.len : ℝ) ≠ 0 := Nat.cast_ne_zero.2 hx
  have key : ∀ p : ℕ → ℝ, (∑ t ∈ range x.len, ∑ k ∈ range x.len, p t * M.get k t) / (∑ t ∈ range x.len, ∑ k ∈ range x.len, M.get k t)
      = wmean x.len p (fun i => ‖x.get i‖ ^ 2) := by
    intro p
    have e2 := mh_time_moment x hx M hM (fun _ => 1)
    simp only [one_mul] at e2
    rw [mh_time_moment x hx M hM p, e2, h0]
    unfold wmean
    simp only [norm_zero, ne_eq, OfNat.ofNat_ne_zero, not_false_eq_true, zero_pow, mul_zero, sub_zero]
    rw [mul_div_mul_left _ _ hN]
  exact ⟨_, _, C44_loctime x hE, (key fun t => (t : ℝ)).symm, by
    rw [key (fun t => ((t : ℝ) - wmean x.len (fun i => (i : ℝ)) (fun i => ‖x.get i‖ ^ 2)) ^ 2)]; rfl⟩

/-- Sums of a Margenau-Hill distribution weighted by a function of frequency, for a signal that starts with a zero. -/
theorem mh_freq_moment (x : Vec ℂ) (hx : x.len ≠ 0) (h0 : x.get 0 = 0) (M : Mat ℝ) (hM : MhReturns x (arange 0 x.len) x.len M) (p : ℕ → ℝ) :
    ∑ k ∈ range x.len, ∑ t ∈ range x.len, p k * M.get k t = ∑ k ∈ range x.len, p k * ‖dft x k‖ ^ 2 := by
  refine Finset.sum_congr rfl fun k hk => ?_
  rw [← Finset.mul_sum, C38_freq_marginal x hx M hM k (Finset.mem_range.1 hk), h0]
  simp

/-- For a signal that starts with a zero, of an accepted length, centre and spread of `locfreq` are mean and spread in frequency of the Margenau-Hill distribution. -/
theorem C115_locfreq (x : Vec ℂ) (M : Mat ℝ) (hM : MhReturns x (arange 0 x.len) x.len M) (h0 : x.get 0 = 0) (hN : x.len % 4 ≠ 1) (hE : energy x ≠ 0) :
    ∃ fm B, locfreq x = .ok (fm, B) ∧
      fm = (∑ k ∈ range x.len, ∑ t ∈ range x.len, binFreq x.len k * M.get k t) / (∑ k ∈ range x.len, ∑ t ∈ range x.len, M.get k t) ∧
      B = 2 * Real.sqrt (Real.pi * ((∑ k ∈ range x.len, ∑ t ∈ range x.len, (binFreq x.len k - fm) ^ 2 * M.get k t)
        / (∑ k ∈ range x.len, ∑ t ∈ range x.len, M.get k t))) := by
  have hx : x.len ≠ 0 := by
    intro h; apply hE; unfold energy; rw [h]; simp
  have key : ∀ p : ℕ → ℝ, (∑ k ∈ range x.len, ∑ t ∈ range x.len, p k * M.get k t) / (∑ k ∈ range x.len, ∑ t ∈ range x.len, M.get k t)
      = wmean x.len p (fun k => ‖dft x k‖ ^ 2) := by
    intro p
    have e2 := mh_freq_moment x hx h0 M hM (fun _ => 1)
    simp only [one_mul] at e2
    rw [mh_freq_moment x hx h0 M hM p, e2]
    rfl
  exact ⟨_, _, C45_locfreq x hN hE, (key (binFreq x.len)).symm, by
    rw [key (fun k => (binFreq x.len k - wmean x.len (binFreq x.len) (fun k => ‖dft x k‖ ^ 2)) ^ 2)]; rfl⟩

/-- **Group delay.**  For a signal that starts with a zero and has no spectral zero, `group_delay` reports for each bin the mean (one-based) time of its row of the
Margenau-Hill distribution, or zero if that mean is not between 1 and `N + 3`. -/
theorem C115_group_delay (x : Vec ℂ) (M : Mat ℝ) (hM : MhReturns x (arange 0 x.len) x.len M) (h0 : x.get 0 = 0) (hx : x.len ≠ 0) (hz : ∀ k < x.len, dft x k ≠ 0) :
    ∃ g : Vec ℝ, groupDelay x = .ok g ∧ g.len = x.len ∧ ∀ i < x.len, ∃ m : ℝ,
      m = wmean x.len (fun t => (t : ℝ) + 1) (fun t => M.get ((i + (x.len - x.len / 2)) % x.len) t) ∧
      g.get i = if 1 ≤ m ∧ m ≤ (x.len : ℝ) + 3 then m else 0 := by
  obtain ⟨g, h1, h2, h3⟩ := C46_group_delay x hx hz
  refine ⟨g, h1, h2, fun i hi => ⟨_, rfl, ?_⟩⟩
  have hk : (i + (x.len - x.len / 2)) % x.len < x.len := Nat.mod_lt _ (by omega)
  rw [h3 i hi]
  set k := (i + (x.len - x.len / 2)) % x.len
  suffices h : wmean x.len (fun t => (t : ℝ) + 1) (fun t => M.get k t) = (dft (timeWeighted x) k / dft x k).re by rw [h]; rfl
  obtain ⟨M', m1, _, _, m4⟩ := C38_default x hx
  obtain rfl := mh_unique hM m1
  unfold wmean
  rw [C38_freq_marginal x hx M hM k hk, h0]
  have hnum : ∑ t ∈ range x.len, ((t : ℝ) + 1) * M.get k t = (dft (timeWeighted x) k * conj (dft x k)).re := by
    have : dft (timeWeighted x) k = ∑ t ∈ range x.len, (((t : ℝ) + 1 : ℝ) : ℂ) * (x.get t * expi (-(2 * Real.pi * ((k : ℝ) / x.len) * t))) := by
      unfold dft dtft timeWeighted
      refine Finset.sum_congr rfl fun t _ => ?_
      push_cast
      ring
    rw [this, Finset.sum_mul, Complex.re_sum]
    refine Finset.sum_congr rfl fun t ht => ?_
    rw [m4 k hk t (Finset.mem_range.1 ht), h0, sub_zero, mul_assoc (((t : ℝ) + 1 : ℝ) : ℂ), Complex.re_ofReal_mul]
  rw [hnum, map_zero, mul_zero, Complex.zero_re, sub_zero, ← Complex.normSq_eq_norm_sq, div_eq_mul_inv, div_eq_mul_inv, Complex.inv_def,
    ← mul_assoc, Complex.re_mul_ofReal]

/-- The signal `0, 1, i, -1, 2`: modulus one around instant 2. -/
example : ∃ (M : Mat ℝ) (f : Vec ℝ), MhReturns ⟨5, fun i => if i = 1 then 1 else if i = 2 then Complex.I else if i = 3 then -1 else if i = 4 then 2 else 0⟩ (arange 0 (5 : ℕ)) 5 M ∧
    (∑ k ∈ range 5, (M.get k 2 : ℂ) * expi (2 * Real.pi * ((k : ℝ) / (5 : ℕ)))) ^ 2
      = ((‖∑ k ∈ range 5, (M.get k 2 : ℂ) * expi (2 * Real.pi * ((k : ℝ) / (5 : ℕ)))‖ ^ 2 : ℝ) : ℂ) * expi (2 * Real.pi * (2 * f.get 1)) := by
  obtain ⟨M, h1, _⟩ := C38_default ⟨5, fun i => if i = 1 then 1 else if i = 2 then Complex.I else if i = 3 then -1 else if i = 4 then 2 else 0⟩ (by norm_num)
  obtain ⟨f, _, _, h3⟩ := C115_inst_freq _ (by norm_num) M h1
  exact ⟨M, f, h1, h3 1 le_rfl (by norm_num) (by simp)⟩

/-- The impulse `0, 1, 0`: the group delay is 2 at every bin. -/
example : ∃ M, MhReturns ⟨3, fun i => if i = 1 then 1 else 0⟩ (arange 0 (3 : ℕ)) 3 M ∧ ∃ g : Vec ℝ, groupDelay ⟨3, fun i => if i = 1 then 1 else 0⟩ = .ok g ∧
    g.get 0 = 2 ∧ wmean 3 (fun t => (t : ℝ) + 1) (fun t => M.get 2 t) = 2 := by
  obtain ⟨M, h1, _⟩ := C38_default ⟨3, fun i => if i = 1 then 1 else 0⟩ (by norm_num)
  have hd : ∀ k < 3, dft ⟨3, fun i => if i = 1 then 1 else 0⟩ k ≠ 0 := by
    intro k _
    unfold dft dtft
    simp [expi]
  obtain ⟨g, g1, _, g3⟩ := C115_group_delay _ M h1 rfl (by norm_num) hd
  obtain ⟨g', g1', _, g3'⟩ := C46_impulse ⟨3, fun i => if i = 1 then 1 else 0⟩ 1 (by norm_num) (by simp) (fun i _ hi => if_neg hi)
  obtain rfl : g = g' := by rw [g1] at g1'; injection g1'
  have hg := g3' 0 (by norm_num)
  obtain ⟨m, m1, m2⟩ := g3 0 (by norm_num)
  norm_num at hg
  refine ⟨M, h1, g, g1, hg, ?_⟩
  rw [hg] at m2
  have : m = 2 := by
    split at m2
    · exact m2.symm
    · norm_num at m2
  rw [this] at m1
  exact m1.symm

/-- Two equal samples: the centre is 1/2 but the mean time of the distribution is 1. -/
example : ∃ M, MhReturns ⟨2, fun _ => 1⟩ (arange 0 (2 : ℕ)) 2 M ∧ (∃ T, loctime ⟨2, fun _ => 1⟩ = .ok (1 / 2, T)) ∧
    (∑ t ∈ range 2, ∑ k ∈ range 2, t * M.get k t) / (∑ t ∈ range 2, ∑ k ∈ range 2, M.get k t) = 1 := by
  obtain ⟨M, h1, _⟩ := C38_default ⟨2, fun _ => 1⟩ (by norm_num)
  have hE : energy ⟨2, fun _ => 1⟩ = 2 := by simp [energy]
  obtain ⟨tm, T, h2, h3⟩ := C115_mean_time ⟨2, fun _ => 1⟩ M h1 (by rw [hE]; simp) (by norm_num) (by rw [hE]; norm_num)
  have ht : tm = 1 / 2 := by
    have := C44_loctime ⟨2, fun _ => 1⟩ (by rw [hE]; norm_num)
    rw [h2] at this
    injection this with this
    injection this with this _
    rw [this]
    norm_num [wmean, Finset.sum_range_succ]
  rw [ht, hE] at h3
  refine ⟨M, h1, ⟨T, by rw [h2, ht]⟩, ?_⟩
  refine h3.trans ?_
  norm_num

/-- The signal `0, 1, i`: both localisations are moments of its distribution. -/
example : ∃ M, MhReturns ⟨3, fun i => if i = 1 then 1 else if i = 2 then Complex.I else 0⟩ (arange 0 (3 : ℕ)) 3 M ∧ ∃ tm T fm B : ℝ,
    loctime ⟨3, fun i => if i = 1 then 1 else if i = 2 then Complex.I else 0⟩ = .ok (tm, T) ∧
    locfreq ⟨3, fun i => if i = 1 then 1 else if i = 2 then Complex.I else 0⟩ = .ok (fm, B) ∧
    tm = (∑ t ∈ range 3, ∑ k ∈ range 3, t * M.get k t) / (∑ t ∈ range 3, ∑ k ∈ range 3, M.get k t) ∧
    fm = (∑ k ∈ range 3, ∑ t ∈ range 3, binFreq 3 k * M.get k t) / (∑ k ∈ range 3, ∑ t ∈ range 3, M.get k t) := by
  obtain ⟨M, h1, _⟩ := C38_default ⟨3, fun i => if i = 1 then 1 else if i = 2 then Complex.I else 0⟩ (by norm_num)
  have hE : energy ⟨3, fun i => if i = 1 then 1 else if i = 2 then Complex.I else 0⟩ ≠ 0 := by norm_num [energy, Finset.sum_range_succ]
  obtain ⟨tm, T, t1, t2, _⟩ := C115_loctime _ M h1 rfl (by norm_num) hE
  obtain ⟨fm, B, f1, f2, _⟩ := C115_locfreq _ M h1 rfl (by norm_num) hE
  exact ⟨M, h1, tm, T, fm, B, t1, f1, t2, f2⟩

end Tftb.Props
