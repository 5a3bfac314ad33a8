import Verif.Props.Quadrature
import Verif.Props.Spreads
import Verif.Props.Uncertainty

/-! # C136 — locfreq and the analytic projection -/

namespace Tftb.Props

open Tftb Tftb.Spec Tftb.Analytic Tftb.TF Finset

theorem wmean_congr {n : ℕ} {p p' w : ℕ → ℝ} (h : ∀ i < n, w i ≠ 0 → p i = p' i) : wmean n p w = wmean n p' w := by
  unfold wmean
  congr 1
  refine Finset.sum_congr rfl fun i hi => ?_
  by_cases hw : w i = 0
  · rw [hw, mul_zero, mul_zero]
  · rw [h i (Finset.mem_range.1 hi) hw]

theorem wvar_congr {n : ℕ} {p p' w : ℕ → ℝ} (h : ∀ i < n, w i ≠ 0 → p i = p' i) : wvar n p w = wvar n p' w := by
  have hm := wmean_congr h
  unfold wmean at hm
  unfold wvar
  unfold wmean
  rw [hm]
  congr 1
  refine Finset.sum_congr rfl fun i hi => ?_
  by_cases hw : w i = 0
  · rw [hw, mul_zero, mul_zero]
  · dsimp only
    rw [h i (Finset.mem_range.1 hi) hw]

/-- The squared spread is the second moment less the square of the mean. -/
theorem wvar_eq {n : ℕ} {p w : ℕ → ℝ} (hS : (∑ i ∈ range n, w i) ≠ 0) :
    wvar n p w = (∑ i ∈ range n, p i ^ 2 * w i) / (∑ i ∈ range n, w i) - wmean n p w ^ 2 := by
  have h := wvar_mul (p := p) hS
  have hm : ∑ i ∈ range n, p i * w i = wmean n p w * ∑ i ∈ range n, w i := by unfold wmean; field_simp
  have e : ∀ i, (p i - wmean n p w) ^ 2 * w i = p i ^ 2 * w i - 2 * wmean n p w * (p i * w i) + wmean n p w ^ 2 * w i := fun i => by ring
  rw [Finset.sum_congr rfl fun i _ => e i, Finset.sum_add_distrib, Finset.sum_sub_distrib, ← Finset.mul_sum, ← Finset.mul_sum, hm] at h
  rw [eq_sub_iff_add_eq, eq_div_iff hS, add_mul, h]
  ring

theorem energy_pos_dft {z : Vec ℂ} (hz : energy z ≠ 0) : (∑ k ∈ range z.len, ‖dft z k‖ ^ 2) = z.len * energy z ∧ 0 < ∑ k ∈ range z.len, ‖dft z k‖ ^ 2 := by
  have hn : z.len ≠ 0 := by
    intro h; apply hz; unfold energy; rw [h]; simp
  have h := parseval hn z.get
  simp only [← dft_eq_dftC] at h
  refine ⟨h, ?_⟩
  rw [h]
  have h1 : 0 < (z.len : ℝ) := by exact_mod_cast Nat.pos_of_ne_zero hn
  have h2 : 0 < energy z := lt_of_le_of_ne (Finset.sum_nonneg fun _ _ => by positivity) hz.symm
  exact mul_pos h1 h2

/-- A sum over the bins of an even length: zero, the positive ones, half the sampling frequency, and the negative ones. -/
theorem sum_bins (p : ℕ) (F : ℕ → ℝ) :
    ∑ k ∈ range (2 * (p + 1)), F k = F 0 + ∑ j ∈ range p, F (j + 1) + F (p + 1) + ∑ j ∈ range p, F (2 * (p + 1) - (j + 1)) := by
  rw [show 2 * (p + 1) = (p + 1 + 1) + p by ring, Finset.sum_range_add, Finset.sum_range_succ, Finset.sum_range_succ', ← Finset.sum_range_reflect (fun j => F (p + 1 + 1 + j))]
  have e : ∑ j ∈ range p, F (p + 1 + 1 + (p - 1 - j)) = ∑ j ∈ range p, F (p + 1 + 1 + p - (j + 1)) :=
    Finset.sum_congr rfl fun j hj => by have := Finset.mem_range.1 hj; congr 1; omega
  rw [e]
  ring

theorem binFreq_low {p k : ℕ} (h : k < p + 1) : binFreq (2 * (p + 1)) k = (k : ℝ) / (2 * (p + 1) : ℕ) := by
  unfold binFreq
  rw [if_pos (by omega)]

/-- **The range.**  Of the analytic projection of a real signal of even length locfreq reports a centre of at most `1/2 - 1/N`, and of at least minus half the share of the
energy at half the sampling frequency; without energy there the centre is not negative and the bandwidth at most `√π (1/2 - 1/N)`. -/
theorem C136_range (x : Vec ℝ) (z : Vec ℂ) (hz : IsAnalytic x z) (h2 : x.len % 2 = 0) (he : energy z ≠ 0) :
    ∃ f A : ℝ, locfreq z = .ok (f, A) ∧ -(‖dft z (x.len / 2)‖ ^ 2 / (x.len * energy z)) / 2 ≤ f ∧ f ≤ 1 / 2 - 1 / x.len ∧ 0 ≤ A ∧
      (dft z (x.len / 2) = 0 → 0 ≤ f ∧ A ≤ Real.sqrt Real.pi * (1 / 2 - 1 / x.len)) := by
  obtain ⟨hpar, hpos⟩ := energy_pos_dft he
  have hl := hz.len
  have hn : x.len ≠ 0 := by
    intro h; apply he; unfold energy; rw [hl, h]; simp
  have hloc := C45_locfreq z (by omega) he
  rw [hl] at hloc hpar hpos
  obtain ⟨p, hp⟩ : ∃ p, x.len = 2 * (p + 1) := ⟨x.len / 2 - 1, by omega⟩
  have hneg : ∀ k < x.len, x.len < 2 * k → ‖dft z k‖ ^ 2 = 0 := fun k hk h => by rw [hz.neg k hk h]; simp
  rw [hp] at hloc hpar hpos hneg ⊢
  rw [show 2 * (p + 1) / 2 = p + 1 by omega]
  have hN : (0 : ℝ) < ((2 * (p + 1) : ℕ) : ℝ) := by positivity
  have hNN : ((2 * (p + 1) : ℕ) : ℝ) = 2 * (p + 1) := by push_cast; ring
  have hp0 : (0 : ℝ) ≤ p := Nat.cast_nonneg p
  have hnyq : binFreq (2 * (p + 1)) (p + 1) = -(1 / 2) := by
    unfold binFreq
    rw [if_neg (by omega), hNN]
    push_cast
    field_simp
    ring
  have hup : ∀ k < 2 * (p + 1), binFreq (2 * (p + 1)) k ≤ 1 / 2 - 1 / ((2 * (p + 1) : ℕ) : ℝ) := by
    intro k hk
    have e : 1 / 2 - 1 / ((2 * (p + 1) : ℕ) : ℝ) = p / ((2 * (p + 1) : ℕ) : ℝ) := by rw [hNN]; field_simp; ring
    rw [e]
    rcases Nat.lt_or_ge k (p + 1) with h | h
    · rw [binFreq_low h]
      refine div_le_div_of_nonneg_right ?_ hN.le
      exact_mod_cast (by omega : k ≤ p)
    · unfold binFreq
      rw [if_neg (by omega)]
      refine div_le_div_of_nonneg_right ?_ hN.le
      have : (k : ℝ) ≤ ((2 * (p + 1) : ℕ) : ℝ) := by exact_mod_cast hk.le
      linarith
  have hmean : wmean (2 * (p + 1)) (binFreq (2 * (p + 1))) (fun k => ‖dft z k‖ ^ 2) * (((2 * (p + 1) : ℕ) : ℝ) * energy z) = ∑ k ∈ range (2 * (p + 1)), binFreq (2 * (p + 1)) k * ‖dft z k‖ ^ 2 := by
    rw [← hpar]
    unfold wmean
    exact div_mul_cancel₀ _ hpos.ne'
  have hlow : -(‖dft z (p + 1)‖ ^ 2) / 2 ≤ ∑ k ∈ range (2 * (p + 1)), binFreq (2 * (p + 1)) k * ‖dft z k‖ ^ 2 := by
    rw [sum_bins, hnyq]
    have h1 : 0 ≤ binFreq (2 * (p + 1)) 0 * ‖dft z 0‖ ^ 2 := by rw [binFreq_low (by omega)]; positivity
    have h3 : 0 ≤ ∑ j ∈ range p, binFreq (2 * (p + 1)) (j + 1) * ‖dft z (j + 1)‖ ^ 2 :=
      Finset.sum_nonneg fun j hj => by rw [binFreq_low (by have := Finset.mem_range.1 hj; omega)]; positivity
    have h4 : ∑ j ∈ range p, binFreq (2 * (p + 1)) (2 * (p + 1) - (j + 1)) * ‖dft z (2 * (p + 1) - (j + 1))‖ ^ 2 = 0 :=
      Finset.sum_eq_zero fun j hj => by have := Finset.mem_range.1 hj; rw [hneg _ (by omega) (by omega), mul_zero]
    linarith
  have hD : 0 < ((2 * (p + 1) : ℕ) : ℝ) * energy z := by rw [← hpar]; exact hpos
  have hf1 : -(‖dft z (p + 1)‖ ^ 2 / (((2 * (p + 1) : ℕ) : ℝ) * energy z)) / 2 ≤ wmean (2 * (p + 1)) (binFreq (2 * (p + 1))) (fun k => ‖dft z k‖ ^ 2) := by
    rw [← hmean, ← div_le_iff₀ hD] at hlow
    refine le_trans (le_of_eq ?_) hlow
    ring
  refine ⟨_, _, hloc, hf1, ?_, by positivity, fun h0 => ⟨?_, ?_⟩⟩
  · refine (div_le_iff₀ hpos).2 ?_
    rw [Finset.mul_sum]
    exact Finset.sum_le_sum fun k hk => mul_le_mul_of_nonneg_right (hup k (Finset.mem_range.1 hk)) (by positivity)
  · rw [h0] at hf1
    simpa using hf1
  · have hle : wvar (2 * (p + 1)) (binFreq (2 * (p + 1))) (fun k => ‖dft z k‖ ^ 2) ≤ ((1 / 2 - 1 / ((2 * (p + 1) : ℕ) : ℝ) - 0) / 2) ^ 2 := by
      rw [wvar_congr (p' := fun k => if k < p + 1 then binFreq (2 * (p + 1)) k else 0) fun k hk hw => ?_]
      · refine wvar_le (fun k _ => by positivity) hpos fun k hk => ?_
        have hpp : 0 ≤ 1 / 2 - 1 / ((2 * (p + 1) : ℕ) : ℝ) := by
          have := hup 0 (by omega)
          rw [binFreq_low (by omega)] at this
          simpa using this
        split
        · rename_i hk'
          exact ⟨by rw [binFreq_low hk']; positivity, hup k hk⟩
        · exact ⟨le_rfl, hpp⟩
      · by_cases hk' : k < p + 1
        · rw [if_pos hk']
        · exfalso
          apply hw
          rcases Nat.lt_or_ge (p + 1) k with h | h
          · exact hneg k hk (by omega)
          · rw [show k = p + 1 by omega, h0]; simp
    have hpp : 0 ≤ 1 / 2 - 1 / ((2 * (p + 1) : ℕ) : ℝ) := by
      have := hup 0 (by omega)
      rw [binFreq_low (by omega)] at this
      simpa using this
    calc 2 * Real.sqrt (Real.pi * wvar (2 * (p + 1)) (binFreq (2 * (p + 1))) (fun k => ‖dft z k‖ ^ 2))
        ≤ 2 * Real.sqrt (Real.pi * ((1 / 2 - 1 / ((2 * (p + 1) : ℕ) : ℝ) - 0) / 2) ^ 2) := by gcongr
      _ = Real.sqrt Real.pi * (1 / 2 - 1 / ((2 * (p + 1) : ℕ) : ℝ)) := by
        rw [Real.sqrt_mul Real.pi_pos.le, Real.sqrt_sq (by linarith)]
        ring

/-- **What the projection changes.**  A real signal of even length without mean and without energy at half the sampling frequency: the centre of its frequencies is zero, the
one of its analytic projection is the mean of their absolute values, and the bandwidth `B` of the real signal consists of bandwidth and centre of the projection:
`B² = A² + 4π f²`. -/
theorem C136_projection (x : Vec ℝ) (z : Vec ℂ) (hz : IsAnalytic x z) (h2 : x.len % 2 = 0) (hs : ∑ t ∈ range x.len, x.get t = 0)
    (hny : ∑ t ∈ range x.len, (-1) ^ t * x.get t = 0) (hx : ∃ t < x.len, x.get t ≠ 0) :
    ∃ f A B : ℝ, locfreq ⟨x.len, fun t => (x.get t : ℂ)⟩ = .ok (0, B) ∧ locfreq z = .ok (f, A) ∧ 0 ≤ A ∧ 0 ≤ B ∧ B ^ 2 = A ^ 2 + 4 * Real.pi * f ^ 2 ∧
      f = wmean x.len (fun k => |binFreq x.len k|) (fun k => ‖dft ⟨x.len, fun t => (x.get t : ℂ)⟩ k‖ ^ 2) ∧
      1 / x.len ≤ f ∧ f ≤ 1 / 2 - 1 / x.len ∧ A ≤ Real.sqrt Real.pi * (1 / 2 - 2 / x.len) := by
  obtain ⟨t, ht, hxt⟩ := hx
  have hn : x.len ≠ 0 := by omega
  set X : Vec ℂ := ⟨x.len, fun t => (x.get t : ℂ)⟩ with hX
  have hEX : energy X ≠ 0 := by
    have : 0 < energy X := by
      refine Finset.sum_pos' (fun _ _ => by positivity) ⟨t, Finset.mem_range.2 ht, ?_⟩
      have : X.get t ≠ 0 := Complex.ofReal_ne_zero.2 hxt
      positivity
    exact this.ne'
  have hEz : energy z ≠ 0 := by
    have : 0 < energy z := by
      refine Finset.sum_pos' (fun _ _ => by positivity) ⟨t, Finset.mem_range.2 (by rw [hz.len]; exact ht), ?_⟩
      have : z.get t ≠ 0 := by
        intro h
        have := hz.re t ht
        rw [h] at this
        exact hxt this.symm
      positivity
    exact this.ne'
  obtain ⟨_, hposX⟩ := energy_pos_dft hEX
  obtain ⟨_, hposZ⟩ := energy_pos_dft hEz
  have hlocX := C45_locfreq X (by show x.len % 4 ≠ 1; omega) hEX
  have hlocZ := C45_locfreq z (by rw [hz.len]; omega) hEz
  have hXl : X.len = x.len := rfl
  rw [hXl] at hlocX hposX
  rw [hz.len] at hlocZ hposZ
  -- the bins
  have hdX : ∀ k : ℕ, dft X k = dftC x.len (fun t => (x.get t : ℂ)) k := fun k => dft_eq_dftC X k
  have hdZ : ∀ k : ℕ, dft z k = dftC x.len z.get k := fun k => by rw [dft_eq_dftC, hz.len]
  have hX0 : dft X 0 = 0 := by
    rw [hdX, Nat.cast_zero, dftC_zero_bin, ← Complex.ofReal_sum, hs, Complex.ofReal_zero]
  have hZ0 : dft z 0 = 0 := by
    rw [hdZ, Nat.cast_zero, dftC_zero_bin, analytic_dc hz, hs, Complex.ofReal_zero]
  have hXn : dft X (x.len / 2) = 0 := by
    rw [hdX, dftC_half hn h2, hny, Complex.ofReal_zero]
  have hmask : ∀ k, 0 < k → k < x.len → dft z k = (hilbertMask x.len k : ℂ) * dft X k := fun k h0 hk => by rw [hdZ, hdX, analytic_bin hz h0 hk]
  have hZn : dft z (x.len / 2) = 0 := by
    rw [hmask _ (by omega) (by omega), hXn, mul_zero]
  have hsym : ∀ k, 0 < k → k < x.len → ‖dft X (x.len - k)‖ ^ 2 = ‖dft X k‖ ^ 2 := by
    intro k h0 hk
    have := conj_dftC_real hn x.get hk
    rw [Nat.mod_eq_of_lt (by omega), ← hdX, ← hdX] at this
    rw [← this, Complex.norm_conj]
  have hZp : ∀ k, 0 < k → 2 * k < x.len → ‖dft z k‖ ^ 2 = 4 * ‖dft X k‖ ^ 2 := by
    intro k h0 hk
    rw [hmask k h0 (by omega)]
    unfold hilbertMask
    rw [if_neg (by omega), if_pos hk, norm_mul, mul_pow]
    norm_num
  have hneg : ∀ k < x.len, x.len < 2 * k → ‖dft z k‖ ^ 2 = 0 := fun k hk h => by rw [hz.neg k hk h]; simp
  obtain ⟨p, hp⟩ : ∃ p, x.len = 2 * (p + 1) := ⟨x.len / 2 - 1, by omega⟩
  rw [hp] at hlocX hlocZ hposX hposZ hXn hZn hsym hZp hneg ⊢
  rw [show 2 * (p + 1) / 2 = p + 1 by omega] at hXn hZn
  have hN : (0 : ℝ) < ((2 * (p + 1) : ℕ) : ℝ) := by positivity
  have hbneg : ∀ j < p, binFreq (2 * (p + 1)) (2 * (p + 1) - (j + 1)) = -binFreq (2 * (p + 1)) (j + 1) := by
    intro j hj
    rw [binFreq_low (k := j + 1) (by omega)]
    unfold binFreq
    rw [if_neg (by omega), Nat.cast_sub (by omega), ← neg_div]
    congr 1
    push_cast
    ring
  have hbpos : ∀ j < p, 0 ≤ binFreq (2 * (p + 1)) (j + 1) := fun j hj => by rw [binFreq_low (by omega)]; positivity
  -- sums over the bins
  have sumX : ∀ g : ℝ → ℝ, ∑ k ∈ range (2 * (p + 1)), g (binFreq (2 * (p + 1)) k) * ‖dft X k‖ ^ 2
      = ∑ j ∈ range p, (g (binFreq (2 * (p + 1)) (j + 1)) + g (-binFreq (2 * (p + 1)) (j + 1))) * ‖dft X (j + 1)‖ ^ 2 := by
    intro g
    rw [sum_bins, hX0, hXn]
    simp only [norm_zero, ne_eq, OfNat.ofNat_ne_zero, not_false_eq_true, zero_pow, mul_zero, zero_add, add_zero]
    rw [← Finset.sum_add_distrib]
    refine Finset.sum_congr rfl fun j hj => ?_
    have hj' := Finset.mem_range.1 hj
    rw [hbneg j hj', hsym (j + 1) (by omega) (by omega)]
    ring
  have sumZ : ∀ g : ℝ → ℝ, ∑ k ∈ range (2 * (p + 1)), g (binFreq (2 * (p + 1)) k) * ‖dft z k‖ ^ 2
      = ∑ j ∈ range p, 4 * g (binFreq (2 * (p + 1)) (j + 1)) * ‖dft X (j + 1)‖ ^ 2 := by
    intro g
    rw [sum_bins, hZ0, hZn]
    have h4 : ∑ j ∈ range p, g (binFreq (2 * (p + 1)) (2 * (p + 1) - (j + 1))) * ‖dft z (2 * (p + 1) - (j + 1))‖ ^ 2 = 0 :=
      Finset.sum_eq_zero fun j hj => by have := Finset.mem_range.1 hj; rw [hneg _ (by omega) (by omega), mul_zero]
    rw [h4]
    simp only [norm_zero, ne_eq, OfNat.ofNat_ne_zero, not_false_eq_true, zero_pow, mul_zero, zero_add, add_zero]
    refine Finset.sum_congr rfl fun j hj => ?_
    have hj' := Finset.mem_range.1 hj
    rw [hZp (j + 1) (by omega) (by omega)]
    ring
  -- an even function of the frequency has the same mean for both
  have heven : ∀ g : ℝ → ℝ, (∀ v, g (-v) = g v) → ∑ k ∈ range (2 * (p + 1)), g (binFreq (2 * (p + 1)) k) * ‖dft z k‖ ^ 2
      = 2 * ∑ k ∈ range (2 * (p + 1)), g (binFreq (2 * (p + 1)) k) * ‖dft X k‖ ^ 2 := by
    intro g hg
    rw [sumX, sumZ, Finset.mul_sum]
    exact Finset.sum_congr rfl fun j _ => by rw [hg]; ring
  have hS : ∑ k ∈ range (2 * (p + 1)), ‖dft z k‖ ^ 2 = 2 * ∑ k ∈ range (2 * (p + 1)), ‖dft X k‖ ^ 2 := by
    simpa only [one_mul] using heven (fun _ => 1) fun _ => rfl
  have hM2 : ∑ k ∈ range (2 * (p + 1)), binFreq (2 * (p + 1)) k ^ 2 * ‖dft z k‖ ^ 2 = 2 * ∑ k ∈ range (2 * (p + 1)), binFreq (2 * (p + 1)) k ^ 2 * ‖dft X k‖ ^ 2 :=
    heven (fun v => v ^ 2) fun v => neg_sq v
  have hM1 : ∑ k ∈ range (2 * (p + 1)), |binFreq (2 * (p + 1)) k| * ‖dft z k‖ ^ 2 = 2 * ∑ k ∈ range (2 * (p + 1)), |binFreq (2 * (p + 1)) k| * ‖dft X k‖ ^ 2 :=
    heven (fun v => |v|) fun v => abs_neg v
  have hMX : wmean (2 * (p + 1)) (binFreq (2 * (p + 1))) (fun k => ‖dft X k‖ ^ 2) = 0 := by
    unfold wmean
    have := sumX fun v => v
    rw [this]
    simp
  -- the bins with energy
  have hbin : ∀ k < 2 * (p + 1), ‖dft z k‖ ^ 2 ≠ 0 → 0 < k ∧ k < p + 1 := by
    intro k hk hw
    refine ⟨?_, ?_⟩
    · rcases Nat.eq_zero_or_pos k with h | h
      · rw [h, hZ0] at hw; simp at hw
      · exact h
    · by_contra hc
      rcases Nat.lt_or_ge (p + 1) k with h | h
      · exact hw (hneg k hk (by omega))
      · rw [show k = p + 1 by omega, hZn] at hw; simp at hw
  have hf : wmean (2 * (p + 1)) (binFreq (2 * (p + 1))) (fun k => ‖dft z k‖ ^ 2) = wmean (2 * (p + 1)) (fun k => |binFreq (2 * (p + 1)) k|) (fun k => ‖dft X k‖ ^ 2) := by
    rw [wmean_congr (p' := fun k => |binFreq (2 * (p + 1)) k|) fun k hk hw => ?_]
    · unfold wmean
      rw [hM1, hS, mul_div_mul_left _ _ two_ne_zero]
    · obtain ⟨_, h⟩ := hbin k hk hw
      rw [abs_of_nonneg]
      rw [binFreq_low h]
      positivity
  have hVX := wvar_eq (p := binFreq (2 * (p + 1))) hposX.ne'
  have hVZ := wvar_eq (p := binFreq (2 * (p + 1))) hposZ.ne'
  rw [hMX] at hVX hlocX
  have hVX0 : 0 ≤ wvar (2 * (p + 1)) (binFreq (2 * (p + 1))) (fun k => ‖dft X k‖ ^ 2) :=
    div_nonneg (Finset.sum_nonneg fun i _ => by positivity) (Finset.sum_nonneg fun i _ => by positivity)
  have hVZ0 : 0 ≤ wvar (2 * (p + 1)) (binFreq (2 * (p + 1))) (fun k => ‖dft z k‖ ^ 2) :=
    div_nonneg (Finset.sum_nonneg fun i _ => by positivity) (Finset.sum_nonneg fun i _ => by positivity)
  have hrel : wvar (2 * (p + 1)) (binFreq (2 * (p + 1))) (fun k => ‖dft X k‖ ^ 2)
      = wvar (2 * (p + 1)) (binFreq (2 * (p + 1))) (fun k => ‖dft z k‖ ^ 2) + wmean (2 * (p + 1)) (binFreq (2 * (p + 1))) (fun k => ‖dft z k‖ ^ 2) ^ 2 := by
    rw [hVX, hVZ, hM2, hS, mul_div_mul_left _ _ two_ne_zero]
    ring
  have hrange : ∀ k, 0 < k → k < p + 1 → 1 / ((2 * (p + 1) : ℕ) : ℝ) ≤ binFreq (2 * (p + 1)) k ∧ binFreq (2 * (p + 1)) k ≤ 1 / 2 - 1 / ((2 * (p + 1) : ℕ) : ℝ) := by
    intro k h0 h1
    rw [binFreq_low h1]
    constructor
    · refine div_le_div_of_nonneg_right ?_ hN.le
      exact_mod_cast h0
    · have e : 1 / 2 - 1 / ((2 * (p + 1) : ℕ) : ℝ) = p / ((2 * (p + 1) : ℕ) : ℝ) := by push_cast; field_simp; ring
      rw [e]
      refine div_le_div_of_nonneg_right ?_ hN.le
      exact_mod_cast (by omega : k ≤ p)
  refine ⟨_, _, _, hlocX, hlocZ, by positivity, by positivity, ?_, hf, ?_, ?_, ?_⟩
  · rw [mul_pow, mul_pow, Real.sq_sqrt (by positivity), Real.sq_sqrt (by positivity), hrel]
    ring
  · refine (le_div_iff₀ hposZ).2 ?_
    rw [Finset.mul_sum]
    refine Finset.sum_le_sum fun k hk => ?_
    by_cases hw : ‖dft z k‖ ^ 2 = 0
    · dsimp only
      rw [hw, mul_zero, mul_zero]
    · obtain ⟨a, b⟩ := hbin k (Finset.mem_range.1 hk) hw
      exact mul_le_mul_of_nonneg_right (hrange k a b).1 (by positivity)
  · refine (div_le_iff₀ hposZ).2 ?_
    rw [Finset.mul_sum]
    refine Finset.sum_le_sum fun k hk => ?_
    by_cases hw : ‖dft z k‖ ^ 2 = 0
    · dsimp only
      rw [hw, mul_zero, mul_zero]
    · obtain ⟨a, b⟩ := hbin k (Finset.mem_range.1 hk) hw
      exact mul_le_mul_of_nonneg_right (hrange k a b).2 (by positivity)
  · obtain ⟨k0, hk0, hw0⟩ : ∃ k < 2 * (p + 1), ‖dft z k‖ ^ 2 ≠ 0 := by
      by_contra hc
      push Not at hc
      rw [Finset.sum_eq_zero fun k hk => hc k (Finset.mem_range.1 hk)] at hposZ
      exact lt_irrefl _ hposZ
    have hlh := (hrange k0 (hbin k0 hk0 hw0).1 (hbin k0 hk0 hw0).2)
    have hle : wvar (2 * (p + 1)) (binFreq (2 * (p + 1))) (fun k => ‖dft z k‖ ^ 2) ≤ ((1 / 2 - 1 / ((2 * (p + 1) : ℕ) : ℝ) - 1 / ((2 * (p + 1) : ℕ) : ℝ)) / 2) ^ 2 := by
      rw [wvar_congr (p' := fun k => if 0 < k ∧ k < p + 1 then binFreq (2 * (p + 1)) k else binFreq (2 * (p + 1)) k0) fun k hk hw => by rw [if_pos (hbin k hk hw)]]
      refine wvar_le (fun k _ => by positivity) hposZ fun k hk => ?_
      split
      · rename_i hk'
        exact hrange k hk'.1 hk'.2
      · exact hlh
    have hpp : 0 ≤ 1 / 2 - 1 / ((2 * (p + 1) : ℕ) : ℝ) - 1 / ((2 * (p + 1) : ℕ) : ℝ) := by linarith [hlh.1, hlh.2]
    calc 2 * Real.sqrt (Real.pi * wvar (2 * (p + 1)) (binFreq (2 * (p + 1))) (fun k => ‖dft z k‖ ^ 2))
        ≤ 2 * Real.sqrt (Real.pi * ((1 / 2 - 1 / ((2 * (p + 1) : ℕ) : ℝ) - 1 / ((2 * (p + 1) : ℕ) : ℝ)) / 2) ^ 2) := by gcongr
      _ = Real.sqrt Real.pi * (1 / 2 - 2 / ((2 * (p + 1) : ℕ) : ℝ)) := by
        rw [Real.sqrt_mul Real.pi_pos.le, Real.sqrt_sq (by linarith)]
        ring

/-- One period of a cosine in four samples: the real signal has the centre 0 and the squared bandwidth `π / 4`, its projection the centre 1/4 and the bandwidth 0. -/
example (z : Vec ℂ) (hz : hilbert ⟨4, fun t => if t = 0 then 1 else if t = 2 then -1 else 0⟩ = .ok z) :
    locfreq z = .ok (1 / 4, 0) ∧ ∃ B : ℝ, locfreq ⟨4, fun t => ((if t = 0 then 1 else if t = 2 then -1 else 0 : ℝ) : ℂ)⟩ = .ok (0, B) ∧ B ^ 2 = Real.pi / 4 := by
  obtain ⟨w, hw, ha, _⟩ := hilbert_analytic (x := ⟨4, fun t => if t = 0 then 1 else if t = 2 then -1 else 0⟩) (by norm_num)
  rw [hz] at hw
  injection hw with hw
  subst hw
  obtain ⟨f, A, B, h1, h2, h3, h4, h5, h6, h7, h8, h9⟩ := C136_projection _ z ha (by norm_num) (by norm_num [Finset.sum_range_succ]) (by norm_num [Finset.sum_range_succ])
    ⟨0, by norm_num, by norm_num⟩
  have hf : f = 1 / 4 := by
    norm_num at h7 h8
    linarith
  have hA : A = 0 := by
    norm_num at h9
    linarith
  rw [hA, hf] at h5
  refine ⟨by rw [h2, hA, hf], B, h1, ?_⟩
  rw [h5]
  ring

/-- The projection of an impulse in eight samples. -/
example : ∃ (z : Vec ℂ) (f A : ℝ), anapulse 8 (some 3) = .ok z ∧ locfreq z = .ok (f, A) ∧ -(1 / 2) ≤ f ∧ f ≤ 3 / 8 := by
  obtain ⟨z, hz, ha⟩ := C20_anapulse 8 3 (by norm_num)
  have hl : z.len = 8 := ha.len
  have he : energy z ≠ 0 := by
    have : 0 < energy z := by
      refine Finset.sum_pos' (fun _ _ => by positivity) ⟨3, Finset.mem_range.2 (by rw [hl]; norm_num), ?_⟩
      have : z.get 3 ≠ 0 := by
        intro h
        have := ha.re 3 (by norm_num)
        rw [h] at this
        norm_num at this
      positivity
    exact this.ne'
  obtain ⟨f, A, h1, h2, h3, _⟩ := C136_range _ z ha (by norm_num) he
  refine ⟨z, f, A, hz, h1, ?_, by norm_num at h3; linarith⟩
  refine le_trans ?_ h2
  obtain ⟨hpar, hpos⟩ := energy_pos_dft he
  have h5 : ‖dft z (8 / 2)‖ ^ 2 ≤ z.len * energy z := by
    rw [← hpar]
    exact Finset.single_le_sum (f := fun k => ‖dft z k‖ ^ 2) (fun _ _ => by positivity) (Finset.mem_range.2 (by rw [hl]; norm_num))
  rw [hpar, hl] at hpos
  rw [hl] at h5
  have h6 := (div_le_one hpos).2 h5
  simp only at h6 ⊢
  linarith

end Tftb.Props
