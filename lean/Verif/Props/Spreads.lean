import Verif.Props.TimeFreq

/-!
# C96: how small and how large the spreads of `loctime` and `locfreq` are

`loctime` (/repo/tftb/processing/time_domain.py) and `locfreq` (/repo/tftb/processing/freq_domain.py)
return a centre and a spread.  The spread in time is 0 exactly for a single non-zero sample, the spread
in frequency exactly for a single tone on a DFT bin, so their product has no positive lower bound; both
have an upper bound that depends on the number of samples only.
-/

namespace Tftb.Props

open Tftb Tftb.Spec Tftb.TF Finset

/-- The variance of distinct positions vanishes exactly when all the weight sits on one of them. -/
theorem wvar_eq_zero_iff {n : ℕ} {p w : ℕ → ℝ} (hw : ∀ i < n, 0 ≤ w i) (hS : 0 < ∑ i ∈ range n, w i)
    (hp : ∀ i < n, ∀ j < n, p i = p j → i = j) :
    wvar n p w = 0 ↔ ∃ k < n, w k ≠ 0 ∧ ∀ i < n, i ≠ k → w i = 0 := by
  constructor
  · intro h
    obtain ⟨k, hk, hwk⟩ : ∃ k < n, w k ≠ 0 := by
      by_contra hc
      push Not at hc
      exact hS.ne' (Finset.sum_eq_zero fun i hi => hc i (Finset.mem_range.1 hi))
    unfold wvar at h
    have hsum : ∑ i ∈ range n, (p i - wmean n p w) ^ 2 * w i = 0 := by
      unfold wmean at h ⊢
      rcases div_eq_zero_iff.1 h with h | h
      · exact h
      · exact absurd h hS.ne'
    have hz : ∀ i < n, w i ≠ 0 → p i = wmean n p w := by
      intro i hi hne
      have := (Finset.sum_eq_zero_iff_of_nonneg (fun j hj => mul_nonneg (sq_nonneg _) (hw j (Finset.mem_range.1 hj)))).1 hsum i (Finset.mem_range.2 hi)
      rcases mul_eq_zero.1 this with h1 | h1
      · have := pow_eq_zero_iff (two_ne_zero) |>.1 h1
        linarith
      · exact absurd h1 hne
    refine ⟨k, hk, hwk, fun i hi hne => ?_⟩
    by_contra hc
    exact hne (hp i hi k hk ((hz i hi hc).trans (hz k hk hwk).symm))
  · rintro ⟨k, hk, hwk, h0⟩
    exact wvar_point hk hwk h0

/-- The variance of positions between `lo` and `hi` is at most a quarter of the squared distance. -/
theorem wvar_le {n : ℕ} {p w : ℕ → ℝ} {lo hi : ℝ} (hw : ∀ i < n, 0 ≤ w i) (hS : 0 < ∑ i ∈ range n, w i)
    (hp : ∀ i < n, lo ≤ p i ∧ p i ≤ hi) : wvar n p w ≤ ((hi - lo) / 2) ^ 2 := by
  set m := wmean n p w with hm
  have hms : ∑ i ∈ range n, p i * w i = m * ∑ i ∈ range n, w i := by
    rw [hm]; unfold wmean; field_simp
  have h1 : ∑ i ∈ range n, (p i - m) ^ 2 * w i ≤ ∑ i ∈ range n, (p i - (lo + hi) / 2) ^ 2 * w i := by
    have e : ∑ i ∈ range n, (p i - (lo + hi) / 2) ^ 2 * w i
        = ∑ i ∈ range n, (p i - m) ^ 2 * w i + (m - (lo + hi) / 2) ^ 2 * ∑ i ∈ range n, w i := by
      have e1 : ∀ i, (p i - (lo + hi) / 2) ^ 2 * w i = (p i - m) ^ 2 * w i + 2 * (m - (lo + hi) / 2) * (p i * w i)
          - 2 * (m - (lo + hi) / 2) * m * w i + (m - (lo + hi) / 2) ^ 2 * w i := fun i => by ring
      rw [Finset.sum_congr rfl fun i _ => e1 i, Finset.sum_add_distrib, Finset.sum_sub_distrib, Finset.sum_add_distrib,
        ← Finset.mul_sum, ← Finset.mul_sum, ← Finset.mul_sum, hms]
      ring
    rw [e]
    have : 0 ≤ (m - (lo + hi) / 2) ^ 2 * ∑ i ∈ range n, w i := by positivity
    linarith
  have h2 : ∑ i ∈ range n, (p i - (lo + hi) / 2) ^ 2 * w i ≤ ((hi - lo) / 2) ^ 2 * ∑ i ∈ range n, w i := by
    rw [Finset.mul_sum]
    refine Finset.sum_le_sum fun i hi' => ?_
    obtain ⟨a, b⟩ := hp i (Finset.mem_range.1 hi')
    refine mul_le_mul_of_nonneg_right ?_ (hw i (Finset.mem_range.1 hi'))
    nlinarith
  unfold wvar
  rw [← hm]
  unfold wmean
  rw [div_le_iff₀ hS]
  exact h1.trans h2

theorem spread_zero_iff {v : ℝ} (hv : 0 ≤ v) : 2 * Real.sqrt (Real.pi * v) = 0 ↔ v = 0 := by
  constructor
  · intro h
    have h1 : Real.sqrt (Real.pi * v) = 0 := by linarith
    have h2 := (Real.sqrt_eq_zero (mul_nonneg Real.pi_pos.le hv)).1 h1
    exact (mul_eq_zero.1 h2).resolve_left Real.pi_ne_zero
  · rintro rfl; simp

theorem spread_le {v d : ℝ} (hd : 0 ≤ d) (h : v ≤ (d / 2) ^ 2) : 2 * Real.sqrt (Real.pi * v) ≤ Real.sqrt Real.pi * d := by
  have h1 : Real.sqrt (Real.pi * v) ≤ Real.sqrt (Real.pi * (d / 2) ^ 2) :=
    Real.sqrt_le_sqrt (mul_le_mul_of_nonneg_left h Real.pi_pos.le)
  rw [Real.sqrt_mul Real.pi_pos.le ((d / 2) ^ 2), Real.sqrt_sq (by linarith)] at h1
  linarith

/-- The bins of `locfreq` carry distinct frequencies. -/
theorem binFreq_inj {N : ℕ} {i j : ℕ} (hi : i < N) (hj : j < N) (h : binFreq N i = binFreq N j) : i = j := by
  have hN : (0 : ℝ) < N := by exact_mod_cast (by omega : 0 < N)
  have hi' : (i : ℝ) < N := by exact_mod_cast hi
  have hj' : (j : ℝ) < N := by exact_mod_cast hj
  have i0 : (0 : ℝ) ≤ i := by positivity
  have j0 : (0 : ℝ) ≤ j := by positivity
  unfold binFreq at h
  have : (i : ℝ) = j := by
    split_ifs at h <;> (rw [div_eq_div_iff hN.ne' hN.ne'] at h; have h' := mul_right_cancel₀ hN.ne' h; linarith)
  exact_mod_cast this

theorem binFreq_range (N k : ℕ) (h2 : 2 ≤ N) (hk : k < N) :
    (((N / 2 : ℕ) : ℝ) - N) / N ≤ binFreq N k ∧ binFreq N k ≤ (((N / 2 : ℕ) : ℝ) - 1) / N := by
  have hN : (0 : ℝ) < N := by exact_mod_cast (by omega : 0 < N)
  have hk' : (k : ℝ) + 1 ≤ N := by exact_mod_cast hk
  have k0 : (0 : ℝ) ≤ k := by positivity
  have c1 : (1 : ℝ) ≤ ((N / 2 : ℕ) : ℝ) := by exact_mod_cast (by omega : 1 ≤ N / 2)
  have c2 : ((N / 2 : ℕ) : ℝ) ≤ N := by exact_mod_cast (by omega : N / 2 ≤ N)
  unfold binFreq
  split_ifs with h
  · have h' : (k : ℝ) + 1 ≤ ((N / 2 : ℕ) : ℝ) := by exact_mod_cast h
    constructor <;> (rw [div_le_div_iff_of_pos_right hN]; linarith)
  · have h' : ((N / 2 : ℕ) : ℝ) ≤ (k : ℝ) := by exact_mod_cast (by omega : N / 2 ≤ k)
    constructor <;> (rw [div_le_div_iff_of_pos_right hN]; linarith)

/-- The spread in time is 0 exactly for a signal with a single non-zero sample, whose index is the centre. -/
theorem C96_time_zero (x : Vec ℂ) (hx : energy x ≠ 0) (tm : ℝ) :
    loctime x = .ok (tm, 0) ↔ ∃ k < x.len, tm = k ∧ x.get k ≠ 0 ∧ ∀ i < x.len, i ≠ k → x.get i = 0 := by
  constructor
  · intro h
    have h0 := h
    rw [C44_loctime x hx] at h
    have h2 := (Prod.mk.inj (Except.ok.inj h)).2
    rw [spread_zero_iff (wvar_nonneg fun _ _ => sq_nonneg _),
      wvar_eq_zero_iff (fun _ _ => sq_nonneg _) ((energy_pos_iff x).1 hx) (fun i _ j _ e => by exact_mod_cast e)] at h2
    obtain ⟨k, hk, h3, h4⟩ := h2
    have h5 : x.get k ≠ 0 := fun e => h3 (by rw [e]; simp)
    have h6 : ∀ i < x.len, i ≠ k → x.get i = 0 := fun i hi hne => by simpa using h4 i hi hne
    rw [C44_impulse x k hk h5 h6] at h0
    exact ⟨k, hk, (Prod.mk.inj (Except.ok.inj h0)).1.symm, h5, h6⟩
  · rintro ⟨k, hk, rfl, h3, h4⟩
    exact C44_impulse x k hk h3 h4

/-- The spread in frequency is 0 exactly for a tone on a DFT bin; the centre is then its frequency. -/
theorem C96_freq_zero (x : Vec ℂ) (hN : x.len % 4 ≠ 1) (hx : energy x ≠ 0) (fm : ℝ) :
    locfreq x = .ok (fm, 0) ↔
      ∃ (m : ℕ) (a : ℂ), m < x.len ∧ fm = binFreq x.len m ∧ a ≠ 0 ∧ ∀ j < x.len, x.get j = a * expi (2 * Real.pi * (m * j / x.len)) := by
  have hn : x.len ≠ 0 := by
    intro h; apply hx; unfold energy; rw [h]; simp
  have hn' : (x.len : ℝ) ≠ 0 := Nat.cast_ne_zero.2 hn
  have hS : 0 < ∑ k ∈ range x.len, ‖dft x k‖ ^ 2 := by
    rw [sum_dft_sq x hn]
    exact mul_pos (by positivity) ((energy_pos_iff x).1 hx)
  constructor
  · intro h
    rw [C45_locfreq x hN hx] at h
    have hf := (Prod.mk.inj (Except.ok.inj h)).1
    have h2 := (Prod.mk.inj (Except.ok.inj h)).2
    rw [spread_zero_iff (wvar_nonneg fun _ _ => sq_nonneg _),
      wvar_eq_zero_iff (fun _ _ => sq_nonneg _) hS (fun i hi j hj e => binFreq_inj hi hj e)] at h2
    obtain ⟨m, hm, h3, h4⟩ := h2
    have hc : (x.len : ℂ) ≠ 0 := Nat.cast_ne_zero.2 hn
    have h5 : dft x m ≠ 0 := fun e => h3 (by rw [e]; simp)
    refine ⟨m, dft x m / x.len, hm, hf.symm.trans (wmean_point hm h3 h4), div_ne_zero h5 hc, fun j hj => ?_⟩
    have h6 := idft_dftC hn x.get hj
    simp only [← dft_eq_dftC] at h6
    rw [Finset.sum_eq_single_of_mem m (Finset.mem_range.2 hm) (fun i hi hne => by
      have := h4 i (Finset.mem_range.1 hi) hne
      have h7 : dft x i = 0 := by simpa using this
      rw [h7, zero_mul])] at h6
    have h8 : x.get j = dft x m / x.len * rootPow x.len (-((m : ℤ) * (j : ℤ))) := by
      field_simp
      rw [h6]; ring
    rw [h8, rootPow_eq_expi]
    congr 2
    push_cast; ring
  · rintro ⟨m, a, hm, rfl, ha, h⟩
    rw [← C45_tone x.len m a ha hN hm]
    have hd : ∀ k, dft x k = dft ⟨x.len, fun j => a * expi (2 * Real.pi * (m * j / x.len))⟩ k := by
      intro k
      rw [dft_eq_dftC, dft_eq_dftC]
      unfold dftC
      exact Finset.sum_congr rfl fun j hj => by rw [h j (Finset.mem_range.1 hj)]
    have he : energy (⟨x.len, fun j => a * expi (2 * Real.pi * (m * j / x.len))⟩ : Vec ℂ) = energy x := by
      unfold energy
      exact Finset.sum_congr rfl fun j hj => by rw [h j (Finset.mem_range.1 hj)]
    rw [C45_locfreq x hN hx, C45_locfreq ⟨x.len, fun j => a * expi (2 * Real.pi * (m * j / x.len))⟩ hN (by rw [he]; exact hx)]
    simp only [hd]

/-- With two samples or more, no signal has both spreads 0. -/
theorem C96_not_both (x : Vec ℂ) (h2 : 2 ≤ x.len) (hN : x.len % 4 ≠ 1) (hx : energy x ≠ 0) :
    ∃ tm T fm B, loctime x = .ok (tm, T) ∧ locfreq x = .ok (fm, B) ∧ 0 ≤ T ∧ 0 ≤ B ∧ 0 < T + B := by
  refine ⟨_, _, _, _, C44_loctime x hx, C45_locfreq x hN hx, by positivity, by positivity, ?_⟩
  by_contra hc
  have hT : 0 ≤ 2 * Real.sqrt (Real.pi * wvar x.len (fun i => (i : ℝ)) (fun i => ‖x.get i‖ ^ 2)) := by positivity
  have hB : 0 ≤ 2 * Real.sqrt (Real.pi * wvar x.len (binFreq x.len) (fun k => ‖dft x k‖ ^ 2)) := by positivity
  obtain ⟨k, hk, -, -, h4⟩ := (C96_time_zero x hx _).1 (by rw [C44_loctime x hx]; congr 2; linarith)
  obtain ⟨m, a, hm, -, ha, h⟩ := (C96_freq_zero x hN hx _).1 (by rw [C45_locfreq x hN hx]; congr 2; linarith)
  have hne : ∀ j < x.len, x.get j ≠ 0 := fun j hj => by
    rw [h j hj]
    intro e
    have e1 := congrArg norm e
    rw [norm_mul, norm_expi, mul_one, norm_zero, norm_eq_zero] at e1
    exact ha e1
  rcases Nat.eq_zero_or_pos k with h0 | h0
  · exact hne 1 (by omega) (h4 1 (by omega) (by omega))
  · exact hne 0 (by omega) (h4 0 (by omega) (by omega))

/-- No uncertainty principle: for every number of samples that `locfreq` accepts, an impulse and a tone
have a product of spreads equal to 0. -/
theorem C96_no_uncertainty (N k m : ℕ) (hN : N % 4 ≠ 1) (hk : k < N) (hm : m < N) :
    (∃ x : Vec ℂ, x.len = N ∧ ∃ T fm B, loctime x = .ok ((k : ℝ), T) ∧ locfreq x = .ok (fm, B) ∧ T * B = 0) ∧
    ∃ x : Vec ℂ, x.len = N ∧ ∃ tm T B, loctime x = .ok (tm, T) ∧ locfreq x = .ok (binFreq N m, B) ∧ T * B = 0 := by
  constructor
  · refine ⟨⟨N, fun i => if i = k then 1 else 0⟩, rfl, 0, ?_⟩
    have hx : energy (⟨N, fun i => if i = k then 1 else 0⟩ : Vec ℂ) ≠ 0 := by
      unfold energy
      rw [Finset.sum_eq_single_of_mem k (Finset.mem_range.2 hk) (fun i _ hne => by simp [hne])]
      simp
    exact ⟨_, _, C44_impulse _ k hk (by simp) (fun i _ hne => by simp [hne]), C45_locfreq _ hN hx, zero_mul _⟩
  · refine ⟨⟨N, fun j => 1 * expi (2 * Real.pi * (m * j / N))⟩, rfl, ?_⟩
    have hx : energy (⟨N, fun j => 1 * expi (2 * Real.pi * (m * j / N))⟩ : Vec ℂ) ≠ 0 := by
      unfold energy
      show ∑ i ∈ range N, ‖1 * expi _‖ ^ 2 ≠ 0
      simp only [norm_mul, norm_expi, mul_one, Finset.sum_const, Finset.card_range, nsmul_eq_mul, norm_one, one_pow]
      exact Nat.cast_ne_zero.2 (by omega)
    exact ⟨_, _, 0, C44_loctime _ hx, C45_tone N m 1 one_ne_zero hN hm, mul_zero _⟩

/-- The spread in time is at most `√π (N - 1)`. -/
theorem C96_time_max (x : Vec ℂ) (hx : energy x ≠ 0) :
    ∃ tm T, loctime x = .ok (tm, T) ∧ T ≤ Real.sqrt Real.pi * (x.len - 1) := by
  have h1 : 1 ≤ x.len := by
    rcases Nat.eq_zero_or_pos x.len with h | h
    · exact absurd (by unfold energy; rw [h]; simp) hx
    · exact h
  have h1' : (1 : ℝ) ≤ x.len := by exact_mod_cast h1
  refine ⟨_, _, C44_loctime x hx, spread_le (by linarith) ?_⟩
  have := wvar_le (n := x.len) (p := fun i => (i : ℝ)) (w := fun i => ‖x.get i‖ ^ 2) (lo := 0) (hi := (x.len : ℝ) - 1)
    (fun _ _ => sq_nonneg _) ((energy_pos_iff x).1 hx) (fun i hi => ⟨by positivity, by
      have : (i : ℝ) + 1 ≤ x.len := by exact_mod_cast hi
      linarith⟩)
  simpa using this

/-- The bound is reached by two samples of equal modulus at the two ends and silence between them. -/
theorem C96_time_max_reached (N : ℕ) (h2 : 2 ≤ N) (a b : ℂ) (ha : a ≠ 0) (hab : ‖b‖ = ‖a‖) :
    loctime ⟨N, fun i => if i = 0 then a else if i = N - 1 then b else 0⟩ = .ok (((N : ℝ) - 1) / 2, Real.sqrt Real.pi * (N - 1)) := by
  obtain ⟨n, rfl⟩ : ∃ n, N = n + 1 + 1 := ⟨N - 2, by omega⟩
  set x : Vec ℂ := ⟨n + 1 + 1, fun i => if i = 0 then a else if i = n + 1 + 1 - 1 then b else 0⟩ with hx
  have hw : ∀ g : ℕ → ℝ, ∑ i ∈ range (n + 1 + 1), g i * ‖x.get i‖ ^ 2 = g 0 * ‖a‖ ^ 2 + g (n + 1) * ‖a‖ ^ 2 := by
    intro g
    rw [Finset.sum_range_succ, Finset.sum_range_succ']
    rw [Finset.sum_eq_zero (fun i hi => by
      have := Finset.mem_range.1 hi
      have h1 : i ≠ n := by omega
      simp [hx, h1])]
    simp [hx, hab]
  have hs : ∑ i ∈ range (n + 1 + 1), ‖x.get i‖ ^ 2 = 2 * ‖a‖ ^ 2 := by
    have := hw (fun _ => 1)
    simp only [one_mul] at this
    rw [this]; ring
  have ha' : ‖a‖ ^ 2 ≠ 0 := by positivity
  have he : energy x ≠ 0 := by
    show ∑ i ∈ range (n + 1 + 1), ‖x.get i‖ ^ 2 ≠ 0
    rw [hs]; positivity
  have hm : wmean (n + 1 + 1) (fun i => (i : ℝ)) (fun i => ‖x.get i‖ ^ 2) = ((n : ℝ) + 1) / 2 := by
    unfold wmean
    rw [hw (fun i => (i : ℝ)), hs]
    push_cast
    field_simp
    ring
  have hv : wvar (n + 1 + 1) (fun i => (i : ℝ)) (fun i => ‖x.get i‖ ^ 2) = (((n : ℝ) + 1) / 2) ^ 2 := by
    unfold wvar
    rw [hm]
    unfold wmean
    rw [hw (fun i => ((i : ℝ) - ((n : ℝ) + 1) / 2) ^ 2), hs]
    push_cast
    field_simp
    ring
  rw [C44_loctime x he]
  show Except.ok (wmean (n + 1 + 1) _ _, 2 * Real.sqrt (Real.pi * wvar (n + 1 + 1) _ _)) = _
  rw [hm, hv, Real.sqrt_mul Real.pi_pos.le, Real.sqrt_sq (by positivity)]
  congr 2
  · push_cast; ring
  · push_cast; ring

/-- The spread in frequency is at most `√π (N - 1) / N`. -/
theorem C96_freq_max (x : Vec ℂ) (hN : x.len % 4 ≠ 1) (hx : energy x ≠ 0) :
    ∃ fm B, locfreq x = .ok (fm, B) ∧ B ≤ Real.sqrt Real.pi * ((x.len - 1) / x.len) := by
  have h0 : x.len ≠ 0 := by
    intro h; apply hx; unfold energy; rw [h]; simp
  have h2 : 2 ≤ x.len := by omega
  have hn : (0 : ℝ) < x.len := by exact_mod_cast (by omega : 0 < x.len)
  have h1' : (1 : ℝ) ≤ x.len := by exact_mod_cast (by omega : 1 ≤ x.len)
  have hS : 0 < ∑ k ∈ range x.len, ‖dft x k‖ ^ 2 := by
    rw [sum_dft_sq x h0]
    exact mul_pos hn ((energy_pos_iff x).1 hx)
  refine ⟨_, _, C45_locfreq x hN hx, spread_le (div_nonneg (by linarith) hn.le) ?_⟩
  have := wvar_le (fun _ _ => sq_nonneg _) hS (fun k hk => binFreq_range x.len k h2 hk)
  refine this.trans (le_of_eq ?_)
  congr 2
  field_simp
  ring

/-- The product of the spreads is at most `π (N - 1)² / N`. -/
theorem C96_product_max (x : Vec ℂ) (hN : x.len % 4 ≠ 1) (hx : energy x ≠ 0) :
    ∃ tm T fm B, loctime x = .ok (tm, T) ∧ locfreq x = .ok (fm, B) ∧ 0 ≤ T * B ∧ T * B ≤ Real.pi * (x.len - 1) ^ 2 / x.len := by
  obtain ⟨tm, T, h1, h2⟩ := C96_time_max x hx
  obtain ⟨fm, B, h3, h4⟩ := C96_freq_max x hN hx
  have hT : 0 ≤ T := by
    rw [C44_loctime x hx] at h1
    rw [← (Prod.mk.inj (Except.ok.inj h1)).2]; positivity
  have hB : 0 ≤ B := by
    rw [C45_locfreq x hN hx] at h3
    rw [← (Prod.mk.inj (Except.ok.inj h3)).2]; positivity
  refine ⟨tm, T, fm, B, h1, h3, mul_nonneg hT hB, (mul_le_mul h2 h4 hB (hT.trans h2)).trans (le_of_eq ?_)⟩
  have : Real.sqrt Real.pi * (x.len - 1) * (Real.sqrt Real.pi * ((x.len - 1) / x.len))
      = (Real.sqrt Real.pi * Real.sqrt Real.pi) * ((x.len - 1) * ((x.len - 1) / x.len) : ℝ) := by ring
  rw [this, Real.mul_self_sqrt Real.pi_pos.le]
  ring

/-- Two ones at the ends of four samples: centre 3/2, spread `3√π`. -/
example : loctime ⟨4, fun i => if i = 0 then 1 else if i = 4 - 1 then Complex.I else 0⟩ = .ok (((4 : ℕ) - 1 : ℝ) / 2, Real.sqrt Real.pi * ((4 : ℕ) - 1)) :=
  C96_time_max_reached 4 (by norm_num) 1 Complex.I one_ne_zero (by simp)

/-- Four equal samples are a tone on bin 0: spread 0 in frequency. -/
example : locfreq ⟨4, fun _ => 1⟩ = .ok (0, 0) :=
  (C96_freq_zero ⟨4, fun _ => 1⟩ (by norm_num) (by simp [energy]) 0).2 ⟨0, 1, by norm_num, by norm_num [binFreq], one_ne_zero, fun j _ => by simp [expi]⟩

end Tftb.Props
