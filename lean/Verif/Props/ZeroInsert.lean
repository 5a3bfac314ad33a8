import Verif.Props.WvdInverse
import Verif.Props.Ambiguity
import Verif.Props.TimeFreq
import Verif.Props.Conj
import Verif.Props.InstFreq

/-! # C128 — a zero between every two samples removes the sampling ambiguities -/

namespace Tftb.Props

open Tftb Tftb.Spec Tftb.Linear Tftb.Cohen Finset ComplexConjugate

/-- The signal with a zero inserted after every sample: `y = np.zeros(2 * len(x), complex); y[::2] = x`. -/
noncomputable def stuffed (x : Vec ℂ) : Vec ℂ := ⟨2 * x.len, fun i => if i % 2 = 0 then x.get (i / 2) else 0⟩

theorem zext_stuffed_even (x : Vec ℂ) (z : ℤ) : zext (stuffed x) (2 * z) = zext x z := by
  by_cases h : 0 ≤ z ∧ z < (x.len : ℤ)
  · rw [zext_of_mem h.1 h.2, zext_of_mem (x := stuffed x) (by omega) (by simp only [stuffed]; push_cast; omega)]
    simp only [stuffed]
    rw [if_pos (by omega)]
    congr 1
    omega
  · rw [zext_of_not_mem h, zext_of_not_mem]
    simp only [stuffed]; push_cast; omega

theorem zext_stuffed_odd (x : Vec ℂ) (z : ℤ) (hz : z % 2 ≠ 0) : zext (stuffed x) z = 0 := by
  by_cases h : 0 ≤ z ∧ z < ((stuffed x).len : ℤ)
  · rw [zext_of_mem h.1 h.2]
    simp only [stuffed]
    rw [if_neg (by omega)]
  · exact zext_of_not_mem h

theorem zext_ne {x : Vec ℂ} {z : ℤ} (h : zext x z ≠ 0) : 0 ≤ z ∧ z < (x.len : ℤ) := by
  by_contra h'
  exact h (zext_of_not_mem h')

/-- **Wigner-Ville distribution, even instants.**  Column `2t` is the transform of all the products `x[t+τ] x̄[t−τ]` at twice the frequency. -/
theorem C128_wvd_even {τ : Type} (x : Vec ℂ) (ts : Vec τ) (n : ℕ) (hn : 2 ≤ n) (M : Mat ℝ) (hM : WvdReturns (stuffed x) ts n M) (k : ℕ) (hk : k < n)
    (t : ℕ) (ht : t < x.len) :
    (M.get k (2 * t) : ℂ) = ∑ j ∈ Finset.Icc (-(x.len : ℤ)) x.len, zext x (t + j) * conj (zext x (t - j)) * expi (-(2 * Real.pi * (k * (2 * j) / n))) := by
  obtain ⟨h1, _, h3⟩ := wvd_sizes hn hM
  have hl : ((stuffed x).len : ℤ) = 2 * x.len := by simp [stuffed]
  rw [h3 k hk (2 * t) (by omega)]
  unfold lagSum
  symm
  refine Finset.sum_bij_ne_zero (fun j _ _ => 2 * j) ?_ ?_ ?_ ?_
  · intro j hj hne
    have a1 := zext_ne (left_ne_zero_of_mul (left_ne_zero_of_mul hne))
    have a2 := zext_ne ((map_ne_zero (starRingEnd ℂ)).1 (right_ne_zero_of_mul (left_ne_zero_of_mul hne)))
    rw [Finset.mem_Icc]
    omega
  · intro a _ _ b _ _ hab
    simpa using hab
  · intro σ hσ hne
    have hk0 := left_ne_zero_of_mul hne
    unfold wignerKernel at hk0
    have b1 := left_ne_zero_of_mul hk0
    have b2 := (map_ne_zero (starRingEnd ℂ)).1 (right_ne_zero_of_mul hk0)
    have hev : σ % 2 = 0 := by
      by_contra hodd
      exact b1 (zext_stuffed_odd x _ (by push_cast; omega))
    have a1 := zext_ne b1
    have a2 := zext_ne b2
    have e1 : ((2 * t : ℕ) : ℤ) + σ = 2 * (t + σ / 2) := by push_cast; omega
    have e2 : ((2 * t : ℕ) : ℤ) - σ = 2 * (t - σ / 2) := by push_cast; omega
    have e3 : 2 * (σ / 2) = σ := by omega
    refine ⟨σ / 2, ?_, ?_, e3⟩
    · rw [Finset.mem_Icc]; omega
    · rw [e1, zext_stuffed_even] at b1
      rw [e2, zext_stuffed_even] at b2
      exact mul_ne_zero (mul_ne_zero b1 ((map_ne_zero (starRingEnd ℂ)).2 b2)) (expi_ne_zero _)
  · intro j hj hne
    unfold wignerKernel
    have e1 : ((2 * t : ℕ) : ℤ) + 2 * j = 2 * (t + j) := by push_cast; ring
    have e2 : ((2 * t : ℕ) : ℤ) - 2 * j = 2 * (t - j) := by push_cast; ring
    rw [e1, e2, zext_stuffed_even, zext_stuffed_even]
    push_cast
    rfl

/-- **Wigner-Ville distribution, odd instants.**  Column `2t+1` carries the products `x[t+1+τ] x̄[t−τ]` of samples an odd number of places apart,
which no column of the distribution of `x` itself contains. -/
theorem C128_wvd_odd {τ : Type} (x : Vec ℂ) (ts : Vec τ) (n : ℕ) (hn : 2 ≤ n) (M : Mat ℝ) (hM : WvdReturns (stuffed x) ts n M) (k : ℕ) (hk : k < n)
    (t : ℕ) (ht : t < x.len) :
    (M.get k (2 * t + 1) : ℂ)
      = ∑ j ∈ Finset.Icc (-(x.len : ℤ)) x.len, zext x (t + 1 + j) * conj (zext x (t - j)) * expi (-(2 * Real.pi * (k * (2 * j + 1) / n))) := by
  obtain ⟨h1, _, h3⟩ := wvd_sizes hn hM
  have hl : ((stuffed x).len : ℤ) = 2 * x.len := by simp [stuffed]
  rw [h3 k hk (2 * t + 1) (by omega)]
  unfold lagSum
  symm
  refine Finset.sum_bij_ne_zero (fun j _ _ => 2 * j + 1) ?_ ?_ ?_ ?_
  · intro j hj hne
    have a1 := zext_ne (left_ne_zero_of_mul (left_ne_zero_of_mul hne))
    have a2 := zext_ne ((map_ne_zero (starRingEnd ℂ)).1 (right_ne_zero_of_mul (left_ne_zero_of_mul hne)))
    rw [Finset.mem_Icc]
    omega
  · intro a _ _ b _ _ hab
    simpa using hab
  · intro σ hσ hne
    have hk0 := left_ne_zero_of_mul hne
    unfold wignerKernel at hk0
    have b1 := left_ne_zero_of_mul hk0
    have b2 := (map_ne_zero (starRingEnd ℂ)).1 (right_ne_zero_of_mul hk0)
    have hev : σ % 2 = 1 := by
      by_contra hodd
      exact b1 (zext_stuffed_odd x _ (by push_cast; omega))
    have a1 := zext_ne b1
    have a2 := zext_ne b2
    have e1 : ((2 * t + 1 : ℕ) : ℤ) + σ = 2 * (t + 1 + σ / 2) := by push_cast; omega
    have e2 : ((2 * t + 1 : ℕ) : ℤ) - σ = 2 * (t - σ / 2) := by push_cast; omega
    have e3 : 2 * (σ / 2) + 1 = σ := by omega
    refine ⟨σ / 2, ?_, ?_, e3⟩
    · rw [Finset.mem_Icc]; omega
    · rw [e1, zext_stuffed_even] at b1
      rw [e2, zext_stuffed_even] at b2
      exact mul_ne_zero (mul_ne_zero b1 ((map_ne_zero (starRingEnd ℂ)).2 b2)) (expi_ne_zero _)
  · intro j hj hne
    unfold wignerKernel
    have e1 : ((2 * t + 1 : ℕ) : ℤ) + (2 * j + 1) = 2 * (t + 1 + j) := by push_cast; ring
    have e2 : ((2 * t + 1 : ℕ) : ℤ) - (2 * j + 1) = 2 * (t - j) := by push_cast; ring
    rw [e1, e2, zext_stuffed_even, zext_stuffed_even]
    push_cast
    rfl

/-- **Two copies.**  With twice the number of bins, the even columns are the distribution of `x` itself, twice over. -/
theorem C128_wvd_copies {τ τ' : Type} (x : Vec ℂ) (ts : Vec τ) (ts' : Vec τ') (n : ℕ) (hn : 2 ≤ n) (M M' : Mat ℝ) (hM : WvdReturns (stuffed x) ts (2 * n) M)
    (hM' : WvdReturns x ts' n M') (k : ℕ) (hk : k < 2 * n) (t : ℕ) (ht : t < x.len) : M.get k (2 * t) = M'.get (k % n) t := by
  obtain ⟨h1, _, h3⟩ := wvd_sizes hn hM'
  have hn0 : (n : ℝ) ≠ 0 := by positivity
  have key : (M.get k (2 * t) : ℂ) = (M'.get (k % n) t : ℂ) := by
    rw [C128_wvd_even x ts (2 * n) (by omega) M hM k hk t ht, h3 (k % n) (Nat.mod_lt _ (by omega)) t ht]
    unfold lagSum
    have hterm : ∀ j : ℤ, zext x (t + j) * conj (zext x (t - j)) * expi (-(2 * Real.pi * (k * (2 * j) / (2 * n : ℕ))))
        = wignerKernel x t j * expi (-(2 * Real.pi * (((k % n : ℕ) : ℤ) * j / n))) := by
      intro j
      unfold wignerKernel
      congr 1
      have hd : (k : ℝ) = n * ((k / n : ℕ) : ℝ) + ((k % n : ℕ) : ℝ) := by exact_mod_cast (Nat.div_add_mod k n).symm
      refine expi_eq_of_sub _ _ (-((k / n : ℕ) * j)) ?_
      generalize k / n = q at hd ⊢
      generalize k % n = r at hd ⊢
      push_cast
      field_simp
      rw [hd]
      ring
    rw [Finset.sum_congr rfl (fun j _ => hterm j)]
    have hout : ∀ j : ℤ, ¬ (2 * |j| < x.len) → wignerKernel x t j * expi (-(2 * Real.pi * (((k % n : ℕ) : ℤ) * j / n))) = 0 := by
      intro j hj
      rw [wignerKernel_zero (by omega), zero_mul]
    trans ∑ j ∈ (Finset.Icc (-(x.len : ℤ)) x.len).filter (fun j : ℤ => 2 * |j| < (x.len : ℤ)), wignerKernel x t j * expi (-(2 * Real.pi * (((k % n : ℕ) : ℤ) * j / n)))
    · rw [Finset.sum_filter_of_ne]
      intro j _ hne
      by_contra h
      exact hne (hout j h)
    · refine Finset.sum_subset ?_ ?_
      · intro j hj
        rw [Finset.mem_filter] at hj
        have := abs_lt.1 (show |j| < roundEven ((n : ℝ) / 2) - 1 + 1 by omega)
        rw [Finset.mem_Icc]
        omega
      · intro j _ hj
        apply hout
        intro h
        apply hj
        rw [Finset.mem_filter, Finset.mem_Icc]
        have := abs_lt.1 (show |j| < x.len by have := abs_nonneg j; omega)
        exact ⟨by omega, h⟩
  exact_mod_cast key

/-- **The signal is determined up to one phase.**  Without the zeros two phases remain free, one for the even and one for the odd samples. -/
theorem C128_determines {τ : Type} (x y : Vec ℂ) (ts : Vec τ) (n : ℕ) (hn : 2 ≤ n) (hlen : y.len = x.len) (M M' : Mat ℝ)
    (hM : WvdReturns (stuffed x) ts n M) (hM' : WvdReturns (stuffed y) ts n M') :
    (∀ k < n, ∀ t < 2 * x.len, M.get k t = M'.get k t) ↔ ∃ α : ℂ, ‖α‖ = 1 ∧ ∀ i < x.len, y.get i = α * x.get i := by
  refine (C73_determines (stuffed x) (stuffed y) ts n hn (by simp [stuffed, hlen]) M M' hM hM').trans ?_
  constructor
  · rintro ⟨α, β, h1, _, h3⟩
    refine ⟨α, h1, fun i hi => ?_⟩
    have := h3 (2 * i) (by simp only [stuffed]; omega)
    simpa [stuffed] using this
  · rintro ⟨α, h1, h2⟩
    refine ⟨α, 1, h1, by simp, fun i hi => ?_⟩
    simp only [stuffed] at hi ⊢
    by_cases h : i % 2 = 0
    · rw [if_pos h, if_pos h, if_pos h, h2 _ (by omega)]
    · rw [if_neg h, if_neg h, if_neg h, mul_zero]

/-- **Narrow-band ambiguity function.**  At lag `j` it is the product of samples `j` places apart — odd lags included — whereas the function of `x` itself
only contains samples an even number of places apart. -/
theorem C128_narrow_band (x : Vec ℂ) (lag : Option (Vec ℝ)) (nf : Option ℕ) (A : Mat ℂ) (l xi : Vec ℝ)
    (h : Ambiguity.narrowBand (stuffed x) lag nf = .ok (A, l, xi)) (r : ℕ) (hr : r < A.rows) (c : ℕ) (hc : c < A.cols) (j : ℤ)
    (hj : truncInt (l.get c) = j) :
    A.get r c = ∑ s ∈ range x.len, zext x (s + j) * conj (x.get s) * expi (-(2 * Real.pi * (xi.get r * (2 * s + j)))) := by
  obtain ⟨_, _, _, _, _, h6⟩ := C42_closed_form _ _ _ _ _ _ h
  rw [h6 r hr c hc, hj]
  unfold ambiguity
  have hl : (stuffed x).len = 2 * x.len := rfl
  symm
  refine Finset.sum_bij_ne_zero (fun s _ _ => (2 * (s : ℤ) + j).toNat) ?_ ?_ ?_ ?_
  · intro s hs hne
    have a1 := zext_ne (left_ne_zero_of_mul (left_ne_zero_of_mul hne))
    rw [Finset.mem_range] at hs ⊢
    omega
  · intro a ha hna b hb hnb hab
    have a1 := zext_ne (left_ne_zero_of_mul (left_ne_zero_of_mul hna))
    have a2 := zext_ne (left_ne_zero_of_mul (left_ne_zero_of_mul hnb))
    omega
  · intro t ht hne
    have hk0 := left_ne_zero_of_mul hne
    unfold wignerKernel at hk0
    have b1 := left_ne_zero_of_mul hk0
    have b2 := (map_ne_zero (starRingEnd ℂ)).1 (right_ne_zero_of_mul hk0)
    have hev : ((t : ℤ) - j) % 2 = 0 := by
      by_contra hodd
      exact b2 (zext_stuffed_odd x _ hodd)
    have a1 := zext_ne b1
    have a2 := zext_ne b2
    obtain ⟨s, hs⟩ : ∃ s : ℕ, (t : ℤ) - j = 2 * s := ⟨(((t : ℤ) - j) / 2).toNat, by omega⟩
    have hsx : s < x.len := by omega
    refine ⟨s, Finset.mem_range.2 hsx, ?_, by omega⟩
    rw [show (t : ℤ) + j = 2 * (s + j) by omega, zext_stuffed_even] at b1
    rw [hs, zext_stuffed_even, zext_of_mem (by omega) (by omega), Int.toNat_natCast] at b2
    exact mul_ne_zero (mul_ne_zero b1 ((map_ne_zero (starRingEnd ℂ)).2 b2)) (expi_ne_zero _)
  · intro s hs hne
    have a1 := zext_ne (left_ne_zero_of_mul (left_ne_zero_of_mul hne))
    rw [Finset.mem_range] at hs
    have e0 : (((2 * (s : ℤ) + j).toNat : ℕ) : ℤ) = 2 * s + j := by omega
    have e0' : (((2 * (s : ℤ) + j).toNat : ℕ) : ℝ) = 2 * s + j := by exact_mod_cast e0
    unfold wignerKernel
    rw [e0, e0', show 2 * (s : ℤ) + j + j = 2 * (s + j) by ring, show 2 * (s : ℤ) + j - j = 2 * s by ring, zext_stuffed_even, zext_stuffed_even,
      zext_of_mem (x := x) (i := s) (by omega) (by omega), Int.toNat_natCast]

theorem sum_range_double (N : ℕ) (F : ℕ → ℝ) (h : ∀ i, F (2 * i + 1) = 0) : ∑ i ∈ range (2 * N), F i = ∑ i ∈ range N, F (2 * i) := by
  induction N with
  | zero => simp
  | succ N ih => rw [show 2 * (N + 1) = 2 * N + 1 + 1 by ring, Finset.sum_range_succ, Finset.sum_range_succ, ih, h, Finset.sum_range_succ, add_zero]

theorem wmean_stuffed (x : Vec ℂ) (p : ℕ → ℝ) :
    wmean (stuffed x).len p (fun i => ‖(stuffed x).get i‖ ^ 2) = wmean x.len (fun i => p (2 * i)) (fun i => ‖x.get i‖ ^ 2) := by
  have ho : ∀ i, (stuffed x).get (2 * i + 1) = 0 := by intro i; simp only [stuffed]; rw [if_neg (by omega)]
  have he : ∀ i, (stuffed x).get (2 * i) = x.get i := by
    intro i; simp only [stuffed]; rw [if_pos (by omega), Nat.mul_div_cancel_left _ (by norm_num)]
  unfold wmean
  rw [show (stuffed x).len = 2 * x.len from rfl, sum_range_double _ _ (by intro i; simp [ho]), sum_range_double _ _ (by intro i; simp [ho])]
  simp only [he]

/-- **Time centre and spread.**  Both double: the samples sit at the even instants. -/
theorem C128_loctime (x : Vec ℂ) (tm T : ℝ) (h : TF.loctime x = .ok (tm, T)) : TF.loctime (stuffed x) = .ok (2 * tm, 2 * T) := by
  have hx : energy x ≠ 0 := by
    intro h0
    rw [C44_loctime_zero x h0] at h
    exact absurd h (by simp)
  have he : energy (stuffed x) = energy x := by
    unfold energy
    rw [show (stuffed x).len = 2 * x.len from rfl, sum_range_double]
    · refine Finset.sum_congr rfl fun i _ => ?_
      simp [stuffed]
    · intro i
      simp only [stuffed]
      rw [if_neg (by omega)]
      simp
  rw [C44_loctime x hx] at h
  injection h with h
  injection h with h1 h2
  rw [C44_loctime (stuffed x) (by rwa [he])]
  have hm : wmean (stuffed x).len (fun i => (i : ℝ)) (fun i => ‖(stuffed x).get i‖ ^ 2) = 2 * tm := by
    rw [wmean_stuffed, ← h1]
    unfold wmean
    rw [← mul_div_assoc, Finset.mul_sum]
    congr 1
    refine Finset.sum_congr rfl fun i _ => ?_
    push_cast; ring
  have hv : wvar (stuffed x).len (fun i => (i : ℝ)) (fun i => ‖(stuffed x).get i‖ ^ 2)
      = 4 * wvar x.len (fun i => (i : ℝ)) (fun i => ‖x.get i‖ ^ 2) := by
    unfold wvar
    rw [wmean_stuffed, hm, h1]
    unfold wmean
    rw [← mul_div_assoc, Finset.mul_sum]
    congr 1
    refine Finset.sum_congr rfl fun i _ => ?_
    push_cast; ring
  have hs : Real.sqrt (Real.pi * (4 * wvar x.len (fun i => (i : ℝ)) (fun i => ‖x.get i‖ ^ 2)))
      = 2 * Real.sqrt (Real.pi * wvar x.len (fun i => (i : ℝ)) (fun i => ‖x.get i‖ ^ 2)) := by
    rw [show Real.pi * (4 * wvar x.len (fun i => (i : ℝ)) (fun i => ‖x.get i‖ ^ 2))
      = 2 ^ 2 * (Real.pi * wvar x.len (fun i => (i : ℝ)) (fun i => ‖x.get i‖ ^ 2)) by ring, Real.sqrt_mul (by norm_num), Real.sqrt_sq (by norm_num)]
  rw [hm, hv, hs, ← h2]

/-- **Instantaneous frequency.**  At the even instants the estimate is half the phase advance from one sample of `x` to the next, taken in `(0, 1]` turns: frequencies
are resolved modulo the sampling rate.  The estimate on `x` itself only resolves them modulo half the sampling rate. -/
theorem C128_inst_freq (x : Vec ℂ) (a φ : ℕ → ℝ) (ha : ∀ i < x.len, 0 < a i) (hx : ∀ i < x.len, x.get i = (a i : ℂ) * expi (2 * Real.pi * φ i)) :
    ∃ f : Vec ℝ, TF.instFreq (stuffed x) (some ⟨x.len - 1, fun j => 2 * (j : ℤ) + 2⟩) = .ok (f, ⟨x.len - 1, fun j => 2 * (j : ℤ) + 2⟩) ∧ f.len = x.len - 1 ∧
      ∀ j < x.len - 1, ∀ (g : ℝ) (m : ℤ), 0 < g → g ≤ 1 → φ (j + 1) - φ j = g + m → f.get j = g / 2 := by
  have hpi := Real.pi_pos
  have hl : (stuffed x).len = 2 * x.len := rfl
  obtain ⟨f, h1, h2, h3⟩ := inst_freq_eq (stuffed x) ⟨x.len - 1, fun j => 2 * (j : ℤ) + 2⟩ (by
    intro j hj
    simp only at hj ⊢
    unfold IdxOk
    omega)
  refine ⟨f, h1, h2, fun j hj g m g0 g1 hg => ?_⟩
  rw [h3 j hj]
  simp only
  have e1 : wrapIdx (stuffed x).len (2 * (j : ℤ) + 2) = 2 * (j + 1) := by
    rw [wrapIdx_of_nonneg (by omega)]; omega
  have e2 : wrapIdx (stuffed x).len (2 * (j : ℤ) + 2 - 2) = 2 * j := by
    rw [wrapIdx_of_nonneg (by omega)]; omega
  have he : ∀ i, (stuffed x).get (2 * i) = x.get i := by
    intro i; simp only [stuffed]; rw [if_pos (by omega), Nat.mul_div_cancel_left _ (by norm_num)]
  have e3 : expi (2 * Real.pi * φ (j + 1)) = expi (2 * Real.pi * (φ (j + 1) - m)) := expi_eq_of_sub _ _ m (by ring)
  have e4 : (φ (j + 1) - m - φ j) / 2 = g / 2 := by linarith
  rw [e1, e2, he, he, hx _ (by omega), hx _ (by omega), e3]
  have := instFreq_value (a (j + 1)) (a j) (φ (j + 1) - m) (φ j) (ha _ (by omega)) (ha _ (by omega)) (by rw [e4]; linarith) (by rw [e4]; linarith)
  rw [e4] at this
  rw [← this, ← neg_mul]
  generalize Complex.arg _ = θ
  have hp : Real.pi ≠ 0 := hpi.ne'
  rw [div_eq_div_iff (by positivity) (by positivity)]
  ring

/-- The signals `(1, 1)` and `(1, -1)` have the same Wigner-Ville distribution; with the zeros inserted they do not. -/
example : ∃ M M' P P' : Mat ℝ, WvdReturns ⟨2, fun _ => 1⟩ (arange 0 (2 : ℕ)) 4 M ∧ WvdReturns ⟨2, fun i => if i = 0 then 1 else -1⟩ (arange 0 (2 : ℕ)) 4 M' ∧
    WvdReturns (stuffed ⟨2, fun _ => 1⟩) (arange 0 (4 : ℕ)) 4 P ∧ WvdReturns (stuffed ⟨2, fun i => if i = 0 then 1 else -1⟩) (arange 0 (4 : ℕ)) 4 P' ∧
    (∀ k < 4, ∀ t < 2, M.get k t = M'.get k t) ∧ ¬ (∀ k < 4, ∀ t < 4, P.get k t = P'.get k t) := by
  have hr : roundEven (((4 : ℕ) : ℝ) / 2) = 2 := by
    rw [show (((4 : ℕ) : ℝ) / 2) = ((2 : ℤ) : ℝ) by norm_num, roundEven_intCast]
  obtain ⟨M, hM⟩ := (C32_returns_iff (⟨2, fun _ => 1⟩ : Vec ℂ) (arange 0 (2 : ℕ)) 4 (by norm_num)).2 ⟨by simp [arange_len], by rw [hr]; norm_num⟩
  obtain ⟨M', hM'⟩ := (C32_returns_iff (⟨2, fun i => if i = 0 then 1 else -1⟩ : Vec ℂ) (arange 0 (2 : ℕ)) 4 (by norm_num)).2
    ⟨by simp [arange_len], by rw [hr]; norm_num⟩
  obtain ⟨P, hP⟩ := (C32_returns_iff (stuffed ⟨2, fun _ => 1⟩) (arange 0 (4 : ℕ)) 4 (by norm_num)).2 ⟨by simp [arange_len, stuffed], by rw [hr]; simp [stuffed]⟩
  obtain ⟨P', hP'⟩ := (C32_returns_iff (stuffed ⟨2, fun i => if i = 0 then 1 else -1⟩) (arange 0 (4 : ℕ)) 4 (by norm_num)).2
    ⟨by simp [arange_len, stuffed], by rw [hr]; simp [stuffed]⟩
  refine ⟨M, M', P, P', hM, hM', hP, hP', ?_, ?_⟩
  · refine (C73_determines ⟨2, fun _ => 1⟩ ⟨2, fun i => if i = 0 then 1 else -1⟩ _ 4 (by norm_num) rfl M M' hM hM').2 ⟨1, -1, by simp, by simp, fun i hi => ?_⟩
    simp only at hi ⊢
    rcases (show i = 0 ∨ i = 1 by omega) with rfl | rfl <;> simp
  · intro h
    obtain ⟨α, _, h2⟩ := (C128_determines ⟨2, fun _ => 1⟩ ⟨2, fun i => if i = 0 then 1 else -1⟩ _ 4 (by norm_num) rfl P P' hP hP').1 h
    have h0 := h2 0 (by norm_num)
    have h1 := h2 1 (by norm_num)
    simp at h0 h1
    rw [← h0] at h1
    norm_num at h1

/-- A tone at the frequency 0.4 and one at −0.1 have the same estimate 0.4; with the zeros inserted, the estimates are 0.2 and 0.45. -/
example (N : ℕ) : ∃ f f' : Vec ℝ,
    TF.instFreq (stuffed ⟨N, fun i => expi (2 * Real.pi * (0.4 * i))⟩) (some ⟨N - 1, fun j => 2 * (j : ℤ) + 2⟩) = .ok (f, ⟨N - 1, fun j => 2 * (j : ℤ) + 2⟩) ∧
    TF.instFreq (stuffed ⟨N, fun i => expi (2 * Real.pi * (-0.1 * i))⟩) (some ⟨N - 1, fun j => 2 * (j : ℤ) + 2⟩) = .ok (f', ⟨N - 1, fun j => 2 * (j : ℤ) + 2⟩) ∧
    ∀ j < N - 1, f.get j = 0.2 ∧ f'.get j = 0.45 := by
  obtain ⟨f, h1, _, h3⟩ := C128_inst_freq ⟨N, fun i => expi (2 * Real.pi * (0.4 * i))⟩ (fun _ => 1) (fun i => 0.4 * i) (by intros; norm_num)
    (by intros; simp)
  obtain ⟨f', h1', _, h3'⟩ := C128_inst_freq ⟨N, fun i => expi (2 * Real.pi * (-0.1 * i))⟩ (fun _ => 1) (fun i => -0.1 * i) (by intros; norm_num)
    (by intros; simp)
  refine ⟨f, f', h1, h1', fun j hj => ⟨?_, ?_⟩⟩
  · rw [h3 j hj 0.4 0 (by norm_num) (by norm_num) (by push_cast; ring)]
    norm_num
  · rw [h3' j hj 0.9 (-1) (by norm_num) (by norm_num) (by push_cast; ring)]
    norm_num

end Tftb.Props
