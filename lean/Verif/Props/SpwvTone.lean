import Verif.Props.Chirp
import Verif.Props.Spwv
import Verif.Props.Wvd

/-! # Smoothed pseudo Wigner-Ville: tones, bounds, locality (C108) -/

namespace Tftb.Props

open Tftb Tftb.Spec Tftb.Linear Tftb.Cohen Finset ComplexConjugate

/-- Lags of `smoothed_pseudo_wigner_ville` at the instant `ti` of a signal of `N` samples, for windows of `2 Lg + 1` and `2 Lh + 1` samples. -/
def spwvLags (N Lg Lh : ℕ) (ti : ℤ) : ℕ := (min (min (ti + Lg - 1) ((N : ℤ) - ti + Lg)) (min (Lh : ℤ) (((N : ℤ) + 1) / 2))).toNat

/-- What the lag `τ` weighs: the window at `τ + 1` on one side and at `1 - τ` on the other one. -/
noncomputable def spwvWeight (h : Vec ℝ) (Lh τ : ℕ) : ℝ := h.get (Lh + τ + 1) + h.get (Lh + 1 - τ)

theorem smoothMass_real (g : Vec ℝ) (L N : ℕ) (c τ : ℤ) :
    smoothMass (g.map Complex.ofReal) L N c τ = ((∑ p ∈ smoothSeg L N c τ, g.get ((L : ℤ) + p).toNat : ℝ) : ℂ) := by
  rw [Complex.ofReal_sum]; rfl

theorem smoothMass_pos {g : Vec ℝ} {L : ℕ} (hg : g.len = 2 * L + 1) (hpos : ∀ i < g.len, 0 < g.get i) {N : ℕ} {c τ : ℤ} (hne : (smoothSeg L N c τ).Nonempty) :
    0 < ∑ p ∈ smoothSeg L N c τ, g.get ((L : ℤ) + p).toNat := by
  refine Finset.sum_pos (fun p hp => hpos _ ?_) hne
  have := Finset.mem_Icc.1 (Finset.mem_filter.1 hp).1
  omega

theorem smoothSeg_empty {L N : ℕ} {c τ : ℤ} (h : (N : ℤ) ≤ 2 * |τ|) : smoothSeg L N c τ = ∅ := by
  unfold smoothSeg
  rw [Finset.filter_eq_empty_iff]
  intro p _
  omega

theorem smoothCorr_empty {g : Vec ℂ} {L : ℕ} {x : Vec ℂ} {c τ : ℤ} (h : (x.len : ℤ) ≤ 2 * |τ|) : smoothCorr g L x c τ = 0 := by
  unfold smoothCorr
  rw [smoothSeg_empty h]
  simp

/-- The closed form for real windows, the first one positive. -/
theorem spwv_real (x : Vec ℂ) (g h : Vec ℝ) (ts : Vec ℤ) (n Lg Lh : ℕ) (hg : g.len = 2 * Lg + 1) (hh : h.len = 2 * Lh + 1)
    (hpos : ∀ i < g.len, 0 < g.get i) (hn : 2 * Lh + 2 ≤ n) :
    ∃ M, spwv x (some ts) (some n) (some (g.map Complex.ofReal)) (some (h.map Complex.ofReal)) = .ok M ∧ M.rows = n ∧ M.cols = ts.len ∧
      ∀ k < n, ∀ c < ts.len, M.get k c = (smoothCorr (g.map Complex.ofReal) Lg x (ts.get c - 1) 0 +
        ∑ τ ∈ range (spwvLags x.len Lg Lh (ts.get c)),
          ((h.get (Lh + τ + 1) : ℂ) * smoothCorr (g.map Complex.ofReal) Lg x (ts.get c - 1) τ * expi (-(2 * Real.pi * (k * (τ + 1) / n)))
          + (h.get (Lh + 1 - τ) : ℂ) * smoothCorr (g.map Complex.ofReal) Lg x (ts.get c - 1) (-τ) * expi (2 * Real.pi * (k * (τ + 1) / n)))).re := by
  have hr : (Lh : ℤ) < roundEven ((n : ℝ) / 2) := by rw [roundEven_half]; split <;> omega
  obtain ⟨M, h1, h2, h3, h4⟩ := C37_closed_form x (g.map Complex.ofReal) (h.map Complex.ofReal) ts n Lg Lh (by omega) hg hh
    (fun c _ τ hne => by
      rw [smoothMass_real]
      exact_mod_cast (smoothMass_pos hg hpos hne).ne') (fun c _ => Or.inl hr)
  refine ⟨M, h1, h2, h3, fun k hk c hc => ?_⟩
  rw [h4 k hk c hc]
  congr 2
  symm
  have hsub : range (spwvLags x.len Lg Lh (ts.get c)) ⊆
      range (min (min (ts.get c + Lg - 1) (x.len - ts.get c + Lg)) (min (roundEven ((n : ℝ) / 2) - 1) Lh)).toNat := by
    intro τ hτ
    rw [Finset.mem_range] at hτ ⊢
    unfold spwvLags at hτ
    omega
  refine Finset.sum_subset hsub (fun τ hτ hτ' => ?_)
  rw [Finset.mem_range] at hτ hτ'
  have hbig : (x.len : ℤ) ≤ 2 * |(τ : ℤ)| := by
    rw [abs_of_nonneg (by omega)]
    unfold spwvLags at hτ'
    omega
  rw [smoothCorr_empty hbig, smoothCorr_empty (by rw [abs_neg]; exact hbig)]
  simp

/-- The lags of `spwvLags` all have samples. -/
theorem spwvLags_nonempty {N Lg Lh : ℕ} {ti : ℤ} {τ : ℕ} (h : τ < spwvLags N Lg Lh ti) : (smoothSeg Lg N (ti - 1) τ).Nonempty := by
  unfold spwvLags at h
  refine ⟨max (-(Lg : ℤ)) (ti - 1 + τ - N + 1), ?_⟩
  unfold smoothSeg
  rw [Finset.mem_filter, Finset.mem_Icc, abs_of_nonneg (by omega)]
  omega

theorem smoothSeg_zero_nonempty {N Lg : ℕ} {ti : ℤ} (h1 : 1 ≤ ti + Lg) (h2 : ti ≤ N + Lg) (hN : 1 ≤ N) : (smoothSeg Lg N (ti - 1) 0).Nonempty := by
  refine ⟨max (-(Lg : ℤ)) (ti - 1 - N + 1), ?_⟩
  unfold smoothSeg
  rw [Finset.mem_filter, Finset.mem_Icc, abs_zero]
  omega

theorem smoothSeg_neg (L N : ℕ) (c τ : ℤ) : smoothSeg L N c (-τ) = smoothSeg L N c τ := by
  unfold smoothSeg
  rw [abs_neg]

/-- Smoothing does not change the instantaneous correlation of a tone. -/
theorem smoothCorr_tone {x : Vec ℂ} {A : ℂ} {f : ℝ} (hx : IsChirp x A f 0) {g : Vec ℝ} {L : ℕ} (hg : g.len = 2 * L + 1)
    (hpos : ∀ i < g.len, 0 < g.get i) {c τ : ℤ} (hne : (smoothSeg L x.len c τ).Nonempty) :
    smoothCorr (g.map Complex.ofReal) L x c τ = ((‖A‖ ^ 2 : ℝ) : ℂ) * expi (2 * Real.pi * (τ * (2 * f))) := by
  unfold smoothCorr
  have hm := smoothMass_pos hg hpos hne
  rw [div_eq_iff (by rw [smoothMass_real]; exact_mod_cast hm.ne'), smoothMass, Finset.mul_sum]
  refine Finset.sum_congr rfl fun p hp => ?_
  unfold smoothSeg at hp
  rw [Finset.mem_filter, Finset.mem_Icc] at hp
  have ha := abs_le.1 (le_refl |τ|)
  have hk := chirp_kernel hx (c - p).toNat τ (by omega) (by omega)
  rw [Int.toNat_of_nonneg (by omega)] at hk
  rw [hk, zero_mul, add_zero]
  ring

/-- **Tones.**  The smoothed pseudo Wigner-Ville distribution of a tone of frequency `f`: every lag is delayed by one place, which adds the phase `4 π f`
to all of them.  Any positive time window gives the same. -/
theorem C108_tone (x : Vec ℂ) (A : ℂ) (f : ℝ) (hx : IsChirp x A f 0) (g h : Vec ℝ) (ts : Vec ℤ) (n Lg Lh : ℕ) (hg : g.len = 2 * Lg + 1)
    (hh : h.len = 2 * Lh + 1) (hpos : ∀ i < g.len, 0 < g.get i) (hn : 2 * Lh + 2 ≤ n) :
    ∃ M, spwv x (some ts) (some n) (some (g.map Complex.ofReal)) (some (h.map Complex.ofReal)) = .ok M ∧ M.rows = n ∧ M.cols = ts.len ∧
      ∀ k < n, ∀ c < ts.len, 1 ≤ ts.get c + Lg → ts.get c ≤ x.len + Lg → 1 ≤ x.len →
        M.get k c = ‖A‖ ^ 2 * (1 + ∑ τ ∈ range (spwvLags x.len Lg Lh (ts.get c)),
          spwvWeight h Lh τ * Real.cos (2 * Real.pi * ((τ + 1) * (2 * f - k / n)) - 4 * Real.pi * f)) := by
  obtain ⟨M, h1, h2, h3, h4⟩ := spwv_real x g h ts n Lg Lh hg hh hpos hn
  refine ⟨M, h1, h2, h3, fun k hk c hc hc1 hc2 hN => ?_⟩
  rw [h4 k hk c hc, smoothCorr_tone hx hg hpos (smoothSeg_zero_nonempty hc1 hc2 hN), Complex.add_re, Complex.re_sum, mul_add, Finset.mul_sum]
  congr 1
  · rw [Int.cast_zero, zero_mul, mul_zero, expi_zero, mul_one, mul_one, Complex.ofReal_re]
  · refine Finset.sum_congr rfl fun τ hτ => ?_
    have hne := spwvLags_nonempty (Finset.mem_range.1 hτ)
    rw [smoothCorr_tone hx hg hpos hne, smoothCorr_tone hx hg hpos (by rw [smoothSeg_neg]; exact hne)]
    have e : ∀ (w u v : ℝ), (w : ℂ) * (((‖A‖ ^ 2 : ℝ) : ℂ) * expi u) * expi v = ((w * ‖A‖ ^ 2 : ℝ) : ℂ) * expi (u + v) := by
      intro w u v
      rw [expi_add]
      push_cast
      ring
    rw [e, e, Complex.add_re, Complex.re_ofReal_mul, Complex.re_ofReal_mul, expi_re, expi_re]
    unfold spwvWeight
    rw [show 2 * Real.pi * ((τ : ℤ) * (2 * f)) + -(2 * Real.pi * (k * (τ + 1) / n)) = 2 * Real.pi * ((τ + 1) * (2 * f - k / n)) - 4 * Real.pi * f by
        push_cast; ring,
      show 2 * Real.pi * ((-(τ : ℤ) : ℤ) * (2 * f)) + 2 * Real.pi * (k * (τ + 1) / n) = -(2 * Real.pi * ((τ + 1) * (2 * f - k / n)) - 4 * Real.pi * f) by
        push_cast; ring, Real.cos_neg]
    ring

/-- **The row of the tone.**  The row whose label is the frequency of the tone holds `|A|² (1 + cos(4 π f) W)`, `W` being the sum of the weights: the peak for
`f = 0`, the average of the column for `f = 1/8`, a trough for `f = 1/4`. -/
theorem C108_own_row (x : Vec ℂ) (A : ℂ) (f : ℝ) (hx : IsChirp x A f 0) (g h : Vec ℝ) (ts : Vec ℤ) (n Lg Lh : ℕ) (hg : g.len = 2 * Lg + 1)
    (hh : h.len = 2 * Lh + 1) (hpos : ∀ i < g.len, 0 < g.get i) (hn : 2 * Lh + 2 ≤ n) (k : ℕ) (hk : k < n) (q : ℤ) (hf : 2 * f * n = k + q * n) (M : Mat ℝ)
    (hM : spwv x (some ts) (some n) (some (g.map Complex.ofReal)) (some (h.map Complex.ofReal)) = .ok M) :
    ∀ c < ts.len, 1 ≤ ts.get c + Lg → ts.get c ≤ x.len + Lg → 1 ≤ x.len →
      M.get k c = ‖A‖ ^ 2 * (1 + Real.cos (4 * Real.pi * f) * ∑ τ ∈ range (spwvLags x.len Lg Lh (ts.get c)), spwvWeight h Lh τ) := by
  obtain ⟨M', h1, -, -, h4⟩ := C108_tone x A f hx g h ts n Lg Lh hg hh hpos hn
  rw [hM] at h1
  injection h1 with h1
  subst h1
  intro c hc hc1 hc2 hN
  rw [h4 k hk c hc hc1 hc2 hN, Finset.mul_sum]
  congr 2
  refine Finset.sum_congr rfl fun τ _ => ?_
  have hn0 : (n : ℝ) ≠ 0 := Nat.cast_ne_zero.2 (by omega)
  have e : 2 * f - k / n = q := by
    field_simp
    linarith
  rw [e, mul_comm (Real.cos _), show 2 * Real.pi * (((τ : ℝ) + 1) * q) - 4 * Real.pi * f = -(4 * Real.pi * f) + (((τ + 1 : ℤ) * q : ℤ) : ℝ) * (2 * Real.pi) by
    push_cast; ring, Real.cos_add_int_mul_two_pi, Real.cos_neg]

/-- **A tone at a quarter of the sampling frequency** is a strict minimum of its columns: the row of its own frequency is below every other one. -/
theorem C108_quarter (x : Vec ℂ) (A : ℂ) (hA : A ≠ 0) (hx : IsChirp x A (1 / 4) 0) (g h : Vec ℝ) (ts : Vec ℤ) (m Lg Lh : ℕ) (hg : g.len = 2 * Lg + 1)
    (hh : h.len = 2 * Lh + 1) (hpos : ∀ i < g.len, 0 < g.get i) (hn : Lh + 1 ≤ m) (h0 : ∀ i < h.len, 0 ≤ h.get i) (h1 : 0 < h.get (Lh + 1)) (M : Mat ℝ)
    (hM : spwv x (some ts) (some (2 * m)) (some (g.map Complex.ofReal)) (some (h.map Complex.ofReal)) = .ok M) :
    ∀ c < ts.len, 1 ≤ spwvLags x.len Lg Lh (ts.get c) → ∀ k < 2 * m, k ≠ m → M.get m c < M.get k c := by
  obtain ⟨M', e1, -, -, e4⟩ := C108_tone x A (1 / 4) hx g h ts (2 * m) Lg Lh hg hh hpos (by omega)
  rw [hM] at e1
  injection e1 with e1
  subst e1
  intro c hc hl k hk hkm
  have hl' := hl
  unfold spwvLags at hl'
  have hw : ∀ τ ∈ range (spwvLags x.len Lg Lh (ts.get c)), 0 ≤ spwvWeight h Lh τ := fun τ hτ => by
    have := Finset.mem_range.1 hτ
    unfold spwvLags at this
    exact add_nonneg (h0 _ (by omega)) (h0 _ (by omega))
  have hm0 : (0 : ℝ) < m := Nat.cast_pos.2 (by omega)
  have hcos : ∀ τ : ℕ, ∀ k : ℕ, Real.cos (2 * Real.pi * (((τ : ℝ) + 1) * (2 * (1 / 4) - (k : ℝ) / (2 * m : ℕ))) - 4 * Real.pi * (1 / 4))
      = -Real.cos (2 * Real.pi * (((τ : ℝ) + 1) * (1 / 2 - (k : ℝ) / (2 * m : ℕ)))) := fun τ k => by
    rw [show 4 * Real.pi * (1 / 4) = Real.pi by ring, Real.cos_sub_pi, show (2 : ℝ) * (1 / 4) = 1 / 2 by norm_num]
  have hzero : (1 : ℝ) / 2 - (m : ℝ) / (2 * m : ℕ) = 0 := by
    push_cast
    field_simp
    norm_num
  rw [e4 m (by omega) c hc (by omega) (by omega) (by omega), e4 k hk c hc (by omega) (by omega) (by omega)]
  refine mul_lt_mul_of_pos_left ?_ (by positivity)
  rw [add_lt_add_iff_left]
  refine Finset.sum_lt_sum (fun τ hτ => mul_le_mul_of_nonneg_left ?_ (hw τ hτ)) ⟨0, Finset.mem_range.2 hl, ?_⟩
  · rw [hcos, hcos, hzero, mul_zero, mul_zero, Real.cos_zero]
    exact neg_le_neg (Real.cos_le_one _)
  · refine mul_lt_mul_of_pos_left ?_ ?_
    · rw [hcos, hcos, hzero, mul_zero, mul_zero, Real.cos_zero]
      refine neg_lt_neg (lt_of_le_of_ne (Real.cos_le_one _) fun h => ?_)
      obtain ⟨j, hj⟩ := (Real.cos_eq_one_iff _).1 h
      have hpi := Real.pi_pos
      have e : (j : ℝ) = 1 / 2 - (k : ℝ) / (2 * m : ℕ) := by
        have : (j : ℝ) * (2 * Real.pi) = (1 / 2 - (k : ℝ) / (2 * m : ℕ)) * (2 * Real.pi) := by
          rw [hj]; push_cast; ring
        exact mul_right_cancel₀ (by positivity) this
      have e' : (2 * m : ℝ) * j = m - k := by
        rw [e]
        push_cast
        field_simp
      have e'' : (2 * m : ℤ) * j = m - k := by exact_mod_cast e'
      rcases lt_trichotomy j 0 with hj0 | hj0 | hj0
      · nlinarith
      · subst hj0
        omega
      · nlinarith
    · unfold spwvWeight
      rw [Nat.add_zero, Nat.sub_zero]
      linarith

/-- **Bound.**  No entry exceeds the largest squared modulus of the samples times one plus the weights of the lags. -/
theorem C108_bound (x : Vec ℂ) (B : ℝ) (hB : ∀ i < x.len, ‖x.get i‖ ≤ B) (g h : Vec ℝ) (ts : Vec ℤ) (n Lg Lh : ℕ) (hg : g.len = 2 * Lg + 1)
    (hh : h.len = 2 * Lh + 1) (hpos : ∀ i < g.len, 0 < g.get i) (hn : 2 * Lh + 2 ≤ n) :
    ∃ M, spwv x (some ts) (some n) (some (g.map Complex.ofReal)) (some (h.map Complex.ofReal)) = .ok M ∧
      ∀ k < n, ∀ c < ts.len, |M.get k c| ≤ B ^ 2 * (1 + ∑ τ ∈ range (spwvLags x.len Lg Lh (ts.get c)), (|h.get (Lh + τ + 1)| + |h.get (Lh + 1 - τ)|)) := by
  obtain ⟨M, h1, -, -, h4⟩ := spwv_real x g h ts n Lg Lh hg hh hpos hn
  refine ⟨M, h1, fun k hk c hc => ?_⟩
  have hcorr : ∀ c τ : ℤ, ‖smoothCorr (g.map Complex.ofReal) Lg x c τ‖ ≤ B ^ 2 := by
    intro c τ
    by_cases hne : (smoothSeg Lg x.len c τ).Nonempty
    · have hm := smoothMass_pos hg hpos hne
      unfold smoothCorr
      rw [smoothMass_real, norm_div, Complex.norm_real, Real.norm_of_nonneg hm.le, div_le_iff₀ hm, Finset.mul_sum]
      refine (norm_sum_le _ _).trans (Finset.sum_le_sum fun p hp => ?_)
      unfold smoothSeg at hp
      rw [Finset.mem_filter, Finset.mem_Icc] at hp
      have ha := abs_le.1 (le_refl |τ|)
      rw [norm_mul, mul_comm]
      refine mul_le_mul ?_ ?_ (norm_nonneg _) (by positivity)
      · unfold wignerKernel
        rw [zext_of_mem (by omega) (by omega), zext_of_mem (by omega) (by omega), norm_mul, Complex.norm_conj, sq]
        have hB1 := hB (c - p + τ).toNat (by omega)
        exact mul_le_mul hB1 (hB _ (by omega)) (norm_nonneg _) ((norm_nonneg _).trans hB1)
      · show ‖((g.get ((Lg : ℤ) + p).toNat : ℝ) : ℂ)‖ ≤ _
        rw [Complex.norm_real, Real.norm_of_nonneg (hpos _ (by omega)).le]
    · rw [Finset.not_nonempty_iff_eq_empty] at hne
      unfold smoothCorr
      rw [hne]
      simp only [Finset.sum_empty, zero_div, norm_zero]
      positivity
  rw [h4 k hk c hc, mul_add, mul_one, Finset.mul_sum]
  refine (Complex.abs_re_le_norm _).trans ((norm_add_le _ _).trans (add_le_add (hcorr _ _) ((norm_sum_le _ _).trans (Finset.sum_le_sum fun τ _ => ?_))))
  refine (norm_add_le _ _).trans ?_
  rw [norm_mul, norm_mul, norm_mul, norm_mul, norm_expi, norm_expi, mul_one, mul_one, Complex.norm_real, Complex.norm_real, Real.norm_eq_abs, Real.norm_eq_abs, mul_add,
    mul_comm (B ^ 2), mul_comm (B ^ 2)]
  exact add_le_add (mul_le_mul_of_nonneg_left (hcorr _ _) (abs_nonneg _)) (mul_le_mul_of_nonneg_left (hcorr _ _) (abs_nonneg _))

/-- **Locality and delays.**  Where the windows stay inside both signals, a column only depends on the samples at distance less than `Lg + Lh` of sample `ti - 1`;
neither the position of these samples nor the length of the signal matters. -/
theorem C108_local (x y : Vec ℂ) (g h : Vec ℝ) (ts us : Vec ℤ) (n Lg Lh : ℕ) (hg : g.len = 2 * Lg + 1) (hh : h.len = 2 * Lh + 1)
    (hpos : ∀ i < g.len, 0 < g.get i) (hn : 2 * Lh + 2 ≤ n) :
    ∃ X Y, spwv x (some ts) (some n) (some (g.map Complex.ofReal)) (some (h.map Complex.ofReal)) = .ok X ∧
      spwv y (some us) (some n) (some (g.map Complex.ofReal)) (some (h.map Complex.ofReal)) = .ok Y ∧
      ∀ c < ts.len, ∀ d < us.len, (Lg + Lh : ℤ) < ts.get c → ts.get c + (Lg + Lh) ≤ x.len → (Lg + Lh : ℤ) < us.get d → us.get d + (Lg + Lh) ≤ y.len →
        (∀ s : ℤ, |s| ≤ Lg + Lh - 1 ∨ |s| ≤ Lg → x.get (ts.get c - 1 + s).toNat = y.get (us.get d - 1 + s).toNat) → ∀ k < n, X.get k c = Y.get k d := by
  obtain ⟨X, x1, -, -, x4⟩ := spwv_real x g h ts n Lg Lh hg hh hpos hn
  obtain ⟨Y, y1, -, -, y4⟩ := spwv_real y g h us n Lg Lh hg hh hpos hn
  refine ⟨X, Y, x1, y1, fun c hc d hd b1 b2 b3 b4 hs k hk => ?_⟩
  have hT : ∀ N : ℕ, ∀ t : ℤ, (Lg + Lh : ℤ) < t → t + (Lg + Lh) ≤ N → spwvLags N Lg Lh t = Lh := fun N t h1 h2 => by
    unfold spwvLags
    omega
  have hseg : ∀ N : ℕ, ∀ t : ℤ, (Lg + Lh : ℤ) < t → t + (Lg + Lh) ≤ N → ∀ τ : ℤ, |τ| ≤ Lh → smoothSeg Lg N (t - 1) τ = Finset.Icc (-(Lg : ℤ)) Lg := by
    intro N t h1 h2 τ hτ
    unfold smoothSeg
    rw [Finset.filter_eq_self]
    intro p hp
    rw [Finset.mem_Icc] at hp
    omega
  have hc : ∀ τ : ℤ, |τ| ≤ Lh - 1 ∨ τ = 0 → smoothCorr (g.map Complex.ofReal) Lg x (ts.get c - 1) τ = smoothCorr (g.map Complex.ofReal) Lg y (us.get d - 1) τ := by
    intro τ hτ
    have hτ' : |τ| ≤ Lh := by
      rcases hτ with h | h
      · omega
      · rw [h, abs_zero]; omega
    unfold smoothCorr smoothMass
    rw [hseg _ _ b1 b2 τ hτ', hseg _ _ b3 b4 τ hτ']
    congr 1
    refine Finset.sum_congr rfl fun p hp => ?_
    rw [Finset.mem_Icc] at hp
    have ha := abs_le.1 (le_refl |τ|)
    unfold wignerKernel
    have key : ∀ σ : ℤ, |σ| = |τ| → zext x (ts.get c - 1 - p + σ) = zext y (us.get d - 1 - p + σ) := by
      intro σ hσ
      have hb := abs_le.1 hσ.le
      rw [zext_of_mem (by omega) (by omega), zext_of_mem (by omega) (by omega), show ts.get c - 1 - p + σ = ts.get c - 1 + (σ - p) by ring,
        show us.get d - 1 - p + σ = us.get d - 1 + (σ - p) by ring]
      refine hs _ ?_
      rcases hτ with h | h
      · left
        rw [abs_le]
        omega
      · right
        rw [h, abs_zero] at hσ
        rw [abs_eq_zero.1 hσ, abs_le]
        omega
    have k2 := key (-τ) (abs_neg τ)
    rw [← sub_eq_add_neg, ← sub_eq_add_neg] at k2
    rw [key τ rfl, k2]
  rw [x4 k hk c ‹_›, y4 k hk d hd, hT _ _ b1 b2, hT _ _ b3 b4, hc 0 (Or.inr rfl)]
  congr 2
  refine Finset.sum_congr rfl fun τ hτ => ?_
  have := Finset.mem_range.1 hτ
  rw [hc τ (Or.inl (by rw [abs_of_nonneg (by omega)]; omega)), hc (-τ) (Or.inl (by rw [abs_neg, abs_of_nonneg (by omega)]; omega))]

/-- The default call. -/
theorem spwv_default (x : Vec ℂ) (ts : Vec ℤ) (n : ℕ) :
    spwv x (some ts) (some n) none none
      = spwv x (some ts) (some n) (some ((hamming (2 * (n / 10 / 2) + 1)).map Complex.ofReal)) (some ((hamming (2 * (n / 4 / 2) + 1)).map Complex.ofReal)) := by
  rw [spwv_explicit x _ _ ts n (n / 10 / 2) (n / 4 / 2) rfl rfl]
  unfold spwv spwvWindow
  have e1 : n / 10 + 1 - n / 10 % 2 = 2 * (n / 10 / 2) + 1 := by omega
  have e2 : n / 4 + 1 - n / 4 % 2 = 2 * (n / 4 / 2) + 1 := by omega
  simp only [Option.getD_some, ok_bind, e1, e2]

/-- **Default windows.**  With an even number of bins, at least 8, the default call on a tone at a quarter of the sampling frequency returns columns whose strict minimum is
in the row of the tone, for all instants from 2 to the last but one. -/
theorem C108_default (x : Vec ℂ) (A : ℂ) (hA : A ≠ 0) (hx : IsChirp x A (1 / 4) 0) (ts : Vec ℤ) (m : ℕ) (hm : 4 ≤ m) :
    ∃ M, spwv x (some ts) (some (2 * m)) none none = .ok M ∧
      ∀ c < ts.len, 2 ≤ ts.get c → ts.get c < x.len → ∀ k < 2 * m, k ≠ m → M.get m c < M.get k c := by
  have hn : 2 * (2 * m / 4 / 2) + 2 ≤ 2 * m := by omega
  obtain ⟨M, h1, -⟩ := C108_tone x A (1 / 4) hx (hamming (2 * (2 * m / 10 / 2) + 1)) (hamming (2 * (2 * m / 4 / 2) + 1)) ts (2 * m) _ _ rfl rfl
    (fun i _ => hamming_pos _ i) hn
  refine ⟨M, by rw [spwv_default]; exact h1, fun c hc t1 t2 => ?_⟩
  refine C108_quarter x A hA hx _ _ ts m _ _ rfl rfl (fun i _ => hamming_pos _ i) (by omega) (fun i _ => (hamming_pos _ i).le) (hamming_pos _ _) M h1 c hc ?_
  unfold spwvLags
  omega

/-- Eight samples `1, i, -1, -i, ...`, eight bins: at instant 4, row 0 (frequency 0) exceeds row 4 (frequency 1/4). -/
example : ∃ M, spwv ⟨8, fun t => 1 * expi (2 * Real.pi * (1 / 4 * t + 0 * t ^ 2 / 2))⟩ (some ⟨1, fun _ => 4⟩) (some 8) none none = .ok M ∧ M.get 4 0 < M.get 0 0 := by
  obtain ⟨M, h1, h2⟩ := C108_default ⟨8, fun t => 1 * expi (2 * Real.pi * (1 / 4 * t + 0 * t ^ 2 / 2))⟩ 1 one_ne_zero (fun t _ => rfl) ⟨1, fun _ => 4⟩ 4 le_rfl
  exact ⟨M, h1, h2 0 one_pos (by norm_num) (by norm_num) 0 (by norm_num) (by norm_num)⟩

/-- The tone of frequency 1/8 with the rectangular windows of one and three samples: its row holds the average of the column, 1. -/
example (M : Mat ℝ) (hM : spwv ⟨8, fun t => 1 * expi (2 * Real.pi * (1 / 8 * t + 0 * t ^ 2 / 2))⟩ (some ⟨1, fun _ => 4⟩) (some 8)
    (some ((⟨1, fun _ => 1⟩ : Vec ℝ).map Complex.ofReal)) (some ((⟨3, fun _ => 1⟩ : Vec ℝ).map Complex.ofReal)) = .ok M) : M.get 2 0 = 1 := by
  rw [C108_own_row ⟨8, fun t => 1 * expi (2 * Real.pi * (1 / 8 * t + 0 * t ^ 2 / 2))⟩ 1 (1 / 8) (fun t _ => rfl) ⟨1, fun _ => 1⟩ ⟨3, fun _ => 1⟩ ⟨1, fun _ => 4⟩ 8 0 1
    rfl rfl (fun _ _ => one_pos) (by norm_num) 2 (by norm_num) 0 (by norm_num) M hM 0 one_pos (by norm_num) (by norm_num) (by norm_num),
    show 4 * Real.pi * (1 / 8) = Real.pi / 2 by ring, Real.cos_pi_div_two, zero_mul, add_zero, norm_one]
  norm_num

end Tftb.Props
