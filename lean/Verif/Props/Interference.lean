import Verif.Props.Superposition
import Verif.Lemmas.Chirp

/-! # Where the parts of a signal interfere (C122)

The Wigner-Ville kernel multiplies samples `t + τ` and `t - τ`, whose indices have the same parity: the even and the odd samples never interact.
-/

namespace Tftb.Props

open Tftb Tftb.Spec Tftb.Linear Tftb.Cohen Finset ComplexConjugate

/-! ## Even and odd samples -/

/-- The samples of even index, zeros in between. -/
def evens (x : Vec ℂ) : Vec ℂ := ⟨x.len, fun i => if i % 2 = 0 then x.get i else 0⟩

/-- The samples of odd index, zeros in between. -/
def odds (x : Vec ℂ) : Vec ℂ := ⟨x.len, fun i => if i % 2 = 0 then 0 else x.get i⟩

/-- The signal with its odd samples multiplied by `u`. -/
def oddGain (u : ℂ) (x : Vec ℂ) : Vec ℂ := ⟨x.len, fun i => if i % 2 = 0 then x.get i else u * x.get i⟩

theorem oddGain_one (x : Vec ℂ) : oddGain 1 x = x := by
  unfold oddGain
  simp only [one_mul, ite_self]

theorem zext_evens (x : Vec ℂ) (i : ℤ) : zext (evens x) i = if i % 2 = 0 then zext x i else 0 := by
  unfold zext evens
  dsimp only
  by_cases h : 0 ≤ i ∧ i < (x.len : ℤ)
  · rw [if_pos h, if_pos h]
    congr 1
    rw [eq_iff_iff]
    omega
  · rw [if_neg h, if_neg h, ite_self]

theorem zext_odds (x : Vec ℂ) (i : ℤ) : zext (odds x) i = if i % 2 = 0 then 0 else zext x i := by
  unfold zext odds
  dsimp only
  by_cases h : 0 ≤ i ∧ i < (x.len : ℤ)
  · rw [if_pos h, if_pos h]
    congr 1
    rw [eq_iff_iff]
    omega
  · rw [if_neg h, if_neg h, ite_self]

theorem zext_oddGain (u : ℂ) (x : Vec ℂ) (i : ℤ) : zext (oddGain u x) i = if i % 2 = 0 then zext x i else u * zext x i := by
  unfold zext oddGain
  dsimp only
  by_cases h : 0 ≤ i ∧ i < (x.len : ℤ)
  · rw [if_pos h, if_pos h]
    congr 1
    rw [eq_iff_iff]
    omega
  · rw [if_neg h, if_neg h, mul_zero, ite_self]

theorem kernel_parity (u : ℂ) (x : Vec ℂ) (t τ : ℤ) :
    wignerKernel (oddGain u x) t τ = wignerKernel (evens x) t τ + ((‖u‖ ^ 2 : ℝ) : ℂ) * wignerKernel (odds x) t τ := by
  unfold wignerKernel
  rw [zext_oddGain, zext_oddGain, zext_evens, zext_evens, zext_odds, zext_odds]
  by_cases h : (t + τ) % 2 = 0
  · have h' : (t - τ) % 2 = 0 := by omega
    rw [if_pos h, if_pos h', if_pos h, if_pos h', if_pos h, if_pos h']
    simp
  · have h' : ¬ (t - τ) % 2 = 0 := by omega
    rw [if_neg h, if_neg h', if_neg h, if_neg h', if_neg h, if_neg h', ← mul_conj_eq_norm_sq, map_mul]
    ring

theorem lagSum_add_mul (R : ℤ) (n : ℕ) (v f g : ℤ → ℂ) (c : ℂ) (h : ∀ τ, v τ = f τ + c * g τ) (k : ℤ) :
    lagSum R n v k = lagSum R n f k + c * lagSum R n g k := by
  unfold lagSum
  rw [Finset.mul_sum, ← Finset.sum_add_distrib]
  refine Finset.sum_congr rfl fun τ _ => ?_
  rw [h]
  ring

/-- Wigner-Ville: whatever factor the odd samples get, the distribution is the one of the even samples plus the squared modulus of the factor times the
one of the odd samples. In particular (`u = 1`) it is the sum of the two, and factors of modulus one leave it unchanged. -/
theorem C122_parity_wvd {τ : Type} (x : Vec ℂ) (ts : Vec τ) (n : ℕ) (hn : n ≠ 0) (M : Mat ℝ) (hM : WvdReturns x ts n M) :
    ∃ E O, WvdReturns (evens x) ts n E ∧ WvdReturns (odds x) ts n O ∧ (∀ k < n, ∀ t < x.len, M.get k t = E.get k t + O.get k t) ∧
      ∀ u, ∃ P, WvdReturns (oddGain u x) ts n P ∧ ∀ k < n, ∀ t < x.len, P.get k t = E.get k t + ‖u‖ ^ 2 * O.get k t := by
  obtain ⟨hts, hN⟩ := (C32_returns_iff x ts n hn).1 ⟨M, hM⟩
  obtain ⟨E, e1, _, _, e4⟩ := C33_wvd (evens x) ts n hn hts hN
  obtain ⟨O, o1, _, _, o4⟩ := C33_wvd (odds x) ts n hn hts hN
  have key : ∀ u, ∃ P, WvdReturns (oddGain u x) ts n P ∧ ∀ k < n, ∀ t < x.len, P.get k t = E.get k t + ‖u‖ ^ 2 * O.get k t := by
    intro u
    obtain ⟨P, p1, _, _, p4⟩ := C33_wvd (oddGain u x) ts n hn hts hN
    refine ⟨P, p1, fun k hk t ht => ?_⟩
    have h := lagSum_add_mul (roundEven ((n : ℝ) / 2) - 1) n _ _ _ _ (kernel_parity u x t) k
    rw [← p4 k hk t ht, ← e4 k hk t ht, ← o4 k hk t ht] at h
    exact_mod_cast h
  refine ⟨E, O, e1, o1, ?_, key⟩
  obtain ⟨P, p1, p2⟩ := key 1
  rw [oddGain_one] at p1
  obtain rfl := wvd_unique hM p1
  simpa using p2

/-- Pseudo Wigner-Ville, any odd window. -/
theorem C122_parity_pwvd {τ : Type} (x : Vec ℂ) (ts : Vec τ) (n : ℕ) (h : Vec ℂ) (L : ℕ) (hh : h.len = 2 * L + 1) (hL : (L : ℤ) < roundEven ((n : ℝ) / 2)) :
    ∃ M E O, PwvdReturns x ts n (some h) M ∧ PwvdReturns (evens x) ts n (some h) E ∧ PwvdReturns (odds x) ts n (some h) O ∧
      (∀ k < n, ∀ t < ts.len, M.get k t = E.get k t + O.get k t) ∧
      ∀ u, ∃ P, PwvdReturns (oddGain u x) ts n (some h) P ∧ ∀ k < n, ∀ t < ts.len, P.get k t = E.get k t + ‖u‖ ^ 2 * O.get k t := by
  obtain ⟨E, e1, _, _, e4⟩ := C36_pwvd (evens x) ts n h L hh hL
  obtain ⟨O, o1, _, _, o4⟩ := C36_pwvd (odds x) ts n h L hh hL
  have key : ∀ u, ∃ P, PwvdReturns (oddGain u x) ts n (some h) P ∧ ∀ k < n, ∀ t < ts.len, P.get k t = E.get k t + ‖u‖ ^ 2 * O.get k t := by
    intro u
    obtain ⟨P, p1, _, _, p4⟩ := C36_pwvd (oddGain u x) ts n h L hh hL
    refine ⟨P, p1, fun k hk t ht => ?_⟩
    rw [p4 k hk t ht, e4 k hk t ht, o4 k hk t ht, lagSum_add_mul L n _ (fun τ => h.get ((L : ℤ) + τ).toNat * wignerKernel (evens x) t τ)
      (fun τ => h.get ((L : ℤ) + τ).toNat * wignerKernel (odds x) t τ) ((‖u‖ ^ 2 : ℝ) : ℂ) (fun τ => by rw [kernel_parity]; ring) k, Complex.add_re,
      Complex.re_ofReal_mul]
  obtain ⟨M, m1, m2⟩ := key 1
  rw [oddGain_one] at m1
  exact ⟨M, E, O, m1, e1, o1, by simpa using m2, key⟩

theorem smoothCorr_parity (u : ℂ) (g : Vec ℂ) (L : ℕ) (x : Vec ℂ) (c τ : ℤ) :
    smoothCorr g L (oddGain u x) c τ = smoothCorr g L (evens x) c τ + ((‖u‖ ^ 2 : ℝ) : ℂ) * smoothCorr g L (odds x) c τ := by
  unfold smoothCorr
  show (∑ p ∈ smoothSeg L x.len c τ, _) / smoothMass g L x.len c τ = (∑ p ∈ smoothSeg L x.len c τ, _) / smoothMass g L x.len c τ
    + _ * ((∑ p ∈ smoothSeg L x.len c τ, _) / smoothMass g L x.len c τ)
  rw [← mul_div_assoc, ← add_div, Finset.mul_sum, ← Finset.sum_add_distrib]
  congr 1
  refine Finset.sum_congr rfl fun p _ => ?_
  rw [kernel_parity]
  ring

/-- Smoothed pseudo Wigner-Ville. -/
theorem C122_parity_spwv (x tw fw : Vec ℂ) (ts : Vec ℤ) (n Lg Lh : ℕ) (hn : n ≠ 0) (hg : tw.len = 2 * Lg + 1) (hh : fw.len = 2 * Lh + 1)
    (hfin : ∀ c < ts.len, ∀ τ : ℕ, (smoothSeg Lg x.len (ts.get c - 1) τ).Nonempty → smoothMass tw Lg x.len (ts.get c - 1) τ ≠ 0)
    (hz : ∀ c < ts.len, (Lh : ℤ) < roundEven ((n : ℝ) / 2) ∨ ts.get c ≤ roundEven ((n : ℝ) / 2) ∨
      (x.len : ℤ) - roundEven ((n : ℝ) / 2) < ts.get c) :
    ∃ M E O, spwv x (some ts) (some n) (some tw) (some fw) = .ok M ∧ spwv (evens x) (some ts) (some n) (some tw) (some fw) = .ok E ∧
      spwv (odds x) (some ts) (some n) (some tw) (some fw) = .ok O ∧ (∀ k < n, ∀ c < ts.len, M.get k c = E.get k c + O.get k c) ∧
      ∀ u, ∃ P, spwv (oddGain u x) (some ts) (some n) (some tw) (some fw) = .ok P ∧
        ∀ k < n, ∀ c < ts.len, P.get k c = E.get k c + ‖u‖ ^ 2 * O.get k c := by
  obtain ⟨E, e1, _, _, e4⟩ := C37_closed_form (evens x) tw fw ts n Lg Lh hn hg hh hfin hz
  obtain ⟨O, o1, _, _, o4⟩ := C37_closed_form (odds x) tw fw ts n Lg Lh hn hg hh hfin hz
  have key : ∀ u, ∃ P, spwv (oddGain u x) (some ts) (some n) (some tw) (some fw) = .ok P ∧
        ∀ k < n, ∀ c < ts.len, P.get k c = E.get k c + ‖u‖ ^ 2 * O.get k c := by
    intro u
    obtain ⟨P, p1, _, _, p4⟩ := C37_closed_form (oddGain u x) tw fw ts n Lg Lh hn hg hh hfin hz
    refine ⟨P, p1, fun k hk c hc => ?_⟩
    rw [p4 k hk c hc, e4 k hk c hc, o4 k hk c hc, ← Complex.re_ofReal_mul, ← Complex.add_re]
    congr 1
    show _ + ∑ τ ∈ range (min (min (ts.get c + Lg - 1) (x.len - ts.get c + Lg)) _).toNat, _
      = (_ + ∑ τ ∈ range (min (min (ts.get c + Lg - 1) (x.len - ts.get c + Lg)) _).toNat, _)
      + _ * (_ + ∑ τ ∈ range (min (min (ts.get c + Lg - 1) (x.len - ts.get c + Lg)) _).toNat, _)
    rw [smoothCorr_parity, mul_add, Finset.mul_sum, add_add_add_comm, ← Finset.sum_add_distrib]
    congr 1
    refine Finset.sum_congr rfl fun τ _ => ?_
    rw [smoothCorr_parity, smoothCorr_parity]
    ring
  obtain ⟨M, m1, m2⟩ := key 1
  rw [oddGain_one] at m1
  exact ⟨M, E, O, m1, e1, o1, by simpa using m2, key⟩

/-- Narrow-band ambiguity function. -/
theorem C122_parity_narrow_band (x : Vec ℂ) (lag : Option (Vec ℝ)) (nf : Option ℕ) (M : Mat ℂ) (l xi : Vec ℝ)
    (hM : Ambiguity.narrowBand x lag nf = .ok (M, l, xi)) :
    ∃ E O, Ambiguity.narrowBand (evens x) lag nf = .ok (E, l, xi) ∧ Ambiguity.narrowBand (odds x) lag nf = .ok (O, l, xi) ∧
      (∀ r < M.rows, ∀ c < M.cols, M.get r c = E.get r c + O.get r c) ∧
      ∀ u, ∃ P, Ambiguity.narrowBand (oddGain u x) lag nf = .ok (P, l, xi) ∧
        ∀ r < M.rows, ∀ c < M.cols, P.get r c = E.get r c + (‖u‖ ^ 2 : ℝ) * O.get r c := by
  have hret := (C42_returns_iff x lag nf).1 ⟨_, hM⟩
  have hall : ∀ z : Vec ℂ, z.len = x.len → ∃ Z, Ambiguity.narrowBand z lag nf = .ok (Z, l, xi) ∧
      ∀ r < M.rows, ∀ c < M.cols, Z.get r c = ambiguity z (truncInt (l.get c)) (xi.get r) := by
    intro z hz
    obtain ⟨Z, P, Q, z1, -⟩ := C83_narrow_band x z hz 0 0 lag nf M l xi hM
    obtain ⟨-, m2, m3, -⟩ := C42_closed_form x lag nf M l xi hM
    obtain ⟨-, z2, z3, -, -, z6⟩ := C42_closed_form z lag nf Z l xi z1
    rw [hz] at z2
    exact ⟨Z, z1, fun r hr c hc => z6 r (by rw [z2, ← m2]; exact hr) c (by rw [z3, ← m3]; exact hc)⟩
  obtain ⟨E, e1, e2⟩ := hall (evens x) rfl
  obtain ⟨O, o1, o2⟩ := hall (odds x) rfl
  have key : ∀ u, ∃ P, Ambiguity.narrowBand (oddGain u x) lag nf = .ok (P, l, xi) ∧
        ∀ r < M.rows, ∀ c < M.cols, P.get r c = E.get r c + (‖u‖ ^ 2 : ℝ) * O.get r c := by
    intro u
    obtain ⟨P, p1, p2⟩ := hall (oddGain u x) rfl
    refine ⟨P, p1, fun r hr c hc => ?_⟩
    rw [p2 r hr c hc, e2 r hr c hc, o2 r hr c hc]
    unfold ambiguity
    rw [Finset.mul_sum]
    show ∑ t ∈ range x.len, _ = ∑ t ∈ range x.len, _ + ∑ t ∈ range x.len, _
    rw [← Finset.sum_add_distrib]
    refine Finset.sum_congr rfl fun t _ => ?_
    rw [kernel_parity]
    ring
  refine ⟨E, O, e1, o1, ?_, key⟩
  obtain ⟨P, p1, p2⟩ := key 1
  rw [oddGain_one] at p1
  obtain ⟨rfl, -⟩ := Prod.mk.inj (Except.ok.inj (hM.symm.trans p1))
  simpa using p2

/-! ## Parts of the signal far from each other -/

/-- The nonzero samples of `x` and of `y` are more than `d` samples apart. -/
def FarApart (d : ℕ) (x y : Vec ℂ) : Prop := ∀ i < x.len, ∀ j < y.len, x.get i ≠ 0 → y.get j ≠ 0 → (d : ℤ) < |(i : ℤ) - j|

theorem FarApart.zext {d : ℕ} {x y : Vec ℂ} (h : FarApart d x y) (i j : ℤ) (hij : |i - j| ≤ d) : zext x i = 0 ∨ zext y j = 0 := by
  unfold Spec.zext
  by_contra hc
  push Not at hc
  by_cases hi : 0 ≤ i ∧ i < (x.len : ℤ)
  · by_cases hj : 0 ≤ j ∧ j < (y.len : ℤ)
    · rw [if_pos hi, if_pos hj] at hc
      have := h i.toNat (by omega) j.toNat (by omega) hc.1 hc.2
      rw [Int.toNat_of_nonneg hi.1, Int.toNat_of_nonneg hj.1] at this
      omega
    · rw [if_neg hj] at hc
      exact hc.2 rfl
  · rw [if_neg hi] at hc
    exact hc.1 rfl

theorem zext_combo' {x y : Vec ℂ} (hxy : y.len = x.len) (a b : ℂ) (i : ℤ) : zext (combo a b x y) i = a * zext x i + b * zext y i := by
  unfold zext combo
  dsimp only
  rw [hxy]
  split <;> simp

/-- Pseudo Wigner-Ville: parts of the signal more than `2 L` samples apart do not interfere under a window of `2 L + 1` samples. -/
theorem C122_far_pwvd {τ : Type} (x y : Vec ℂ) (hxy : y.len = x.len) (a b : ℂ) (ts : Vec τ) (n : ℕ) (h : Vec ℂ) (L : ℕ) (hh : h.len = 2 * L + 1)
    (hL : (L : ℤ) < roundEven ((n : ℝ) / 2)) (hfar : FarApart (2 * L) x y) :
    ∃ X Y P, PwvdReturns x ts n (some h) X ∧ PwvdReturns y ts n (some h) Y ∧ PwvdReturns (combo a b x y) ts n (some h) P ∧
      ∀ k < n, ∀ t < ts.len, P.get k t = ‖a‖ ^ 2 * X.get k t + ‖b‖ ^ 2 * Y.get k t := by
  obtain ⟨X, x1, _, _, x4⟩ := C36_pwvd x ts n h L hh hL
  obtain ⟨Y, y1, _, _, y4⟩ := C36_pwvd y ts n h L hh hL
  obtain ⟨P, p1, _, _, p4⟩ := C36_pwvd (combo a b x y) ts n h L hh hL
  refine ⟨X, Y, P, x1, y1, p1, fun k hk t ht => ?_⟩
  rw [p4 k hk t ht, x4 k hk t ht, y4 k hk t ht, ← Complex.re_ofReal_mul, ← Complex.re_ofReal_mul, ← Complex.add_re]
  congr 1
  unfold lagSum
  rw [Finset.mul_sum, Finset.mul_sum, ← Finset.sum_add_distrib]
  refine Finset.sum_congr rfl fun τ hτ => ?_
  rw [Finset.mem_Icc] at hτ
  unfold wignerKernel
  dsimp only
  rw [zext_combo' hxy, zext_combo' hxy, ← mul_conj_eq_norm_sq, ← mul_conj_eq_norm_sq, map_add, map_mul, map_mul]
  have h1 := hfar.zext (t + τ) (t - τ) (by rw [abs_le]; push_cast; omega)
  have h2 := hfar.zext (t - τ) (t + τ) (by rw [abs_le]; push_cast; omega)
  have e1 : zext x (t + τ) * conj (zext y (t - τ)) = 0 := by
    rcases h1 with h1 | h1 <;> rw [h1] <;> simp
  have e2 : zext y (t + τ) * conj (zext x (t - τ)) = 0 := by
    rcases h2 with h2 | h2 <;> rw [h2] <;> simp
  linear_combination (h.get ((L : ℤ) + τ).toNat * expi (-(2 * Real.pi * (((k : ℕ) : ℤ) * τ / n)))) * (a * conj b * e1 + b * conj a * e2)

/-- Pseudo Margenau-Hill: `L + 1` samples suffice. -/
theorem C122_far_pmh {τ : Type} (x y : Vec ℂ) (hxy : y.len = x.len) (a b : ℂ) (ts : Vec τ) (n : ℕ) (h : Vec ℂ) (L : ℕ) (hh : h.len = 2 * L + 1)
    (hL : (L : ℤ) < roundEven ((n : ℝ) / 2) - 1 ∨ (x.len : ℤ) < roundEven ((n : ℝ) / 2) - 1) (hts : ts.len ≤ x.len) (hfar : FarApart (L + 1) x y) :
    ∃ X Y P, PmhReturns x ts n (some h) X ∧ PmhReturns y ts n (some h) Y ∧ PmhReturns (combo a b x y) ts n (some h) P ∧
      ∀ k < n, ∀ t < ts.len, P.get k t = (‖a‖ ^ 2 : ℝ) * X.get k t + (‖b‖ ^ 2 : ℝ) * Y.get k t := by
  obtain ⟨X, x1, _, _, x4⟩ := (C61_pmh x ts n h L hh hL).1 hts
  obtain ⟨Y, y1, _, _, y4⟩ := (C61_pmh y ts n h L hh (by rw [hxy]; exact hL)).1 (by rw [hxy]; exact hts)
  obtain ⟨P, p1, _, _, p4⟩ := (C61_pmh (combo a b x y) ts n h L hh hL).1 hts
  refine ⟨X, Y, P, x1, y1, p1, fun k hk t ht => ?_⟩
  rw [p4 k hk t ht, x4 k hk t ht, y4 k hk t ht]
  unfold lagSum
  rw [Finset.mul_sum, Finset.mul_sum, ← Finset.sum_add_distrib]
  refine Finset.sum_congr rfl fun τ hτ => ?_
  rw [Finset.mem_Icc] at hτ
  have hx' : x.get t = zext x t := by
    unfold zext
    rw [if_pos (by omega), Int.toNat_natCast]
  have hy' : y.get t = zext y t := by
    unfold zext
    rw [if_pos (by omega), Int.toNat_natCast]
  dsimp only
  rw [zext_combo' hxy, ← mul_conj_eq_norm_sq, ← mul_conj_eq_norm_sq, map_add, map_mul, map_mul]
  show _ * (a * x.get t + b * y.get t) * _ * _ = _
  rw [hx', hy']
  have h1 := hfar.zext t (t - 1 - τ) (by rw [abs_le]; push_cast; omega)
  have h2 := hfar.zext (t - 1 - τ) t (by rw [abs_le]; push_cast; omega)
  have e1 : zext x t * conj (zext y (t - 1 - τ)) = 0 := by
    rcases h1 with h1 | h1 <;> rw [h1] <;> simp
  have e2 : zext y t * conj (zext x (t - 1 - τ)) = 0 := by
    rcases h2 with h2 | h2 <;> rw [h2] <;> simp
  linear_combination (h.get ((L : ℤ) + τ).toNat * expi (-(2 * Real.pi * (((k : ℕ) : ℤ) * τ / n)))) * (a * conj b * e1 + b * conj a * e2)

/-- Spectrogram: parts more than `2 L` samples apart do not interfere under a window of `2 L + 1` samples. -/
theorem C122_far_spectrogram (x y : Vec ℂ) (hxy : y.len = x.len) (a b : ℂ) (ts : Vec ℤ) (n L : ℕ) (h : Vec ℂ)
    (hh : h.len = 2 * L + 1 ∨ h.len = 2 * L + 2) (hn : n ≠ 0) (hw : WindowOk h n L x.len ts) (hfar : FarApart (2 * L) x y) :
    ∃ X Y P, SpectroReturns x ts n h X ∧ SpectroReturns y ts n h Y ∧ SpectroReturns (combo a b x y) ts n h P ∧
      ∀ k < n, ∀ t < ts.len, P.get k t = ‖a‖ ^ 2 * X.get k t + ‖b‖ ^ 2 * Y.get k t := by
  obtain ⟨X, Y, P, Q, x1, y1, p1, q1, e⟩ := C83_spectrogram x y hxy a b ts n L h hh hn hw
  obtain ⟨P', p1', _, _, p4⟩ := C31_closed_form (combo a b x y) ts n L h hh hn hw
  obtain ⟨Q', q1', _, _, q4⟩ := C31_closed_form (combo a (-b) x y) ts n L h hh hn hw
  have hPP : P = P' := by
    obtain ⟨o, h1, h2⟩ := p1
    obtain ⟨o', h1', h2'⟩ := p1'
    obtain rfl := Except.ok.inj (h1.symm.trans h1')
    rw [h2] at h2'
    injection h2'
  have hQQ : Q = Q' := by
    obtain ⟨o, h1, h2⟩ := q1
    obtain ⟨o', h1', h2'⟩ := q1'
    obtain rfl := Except.ok.inj (h1.symm.trans h1')
    rw [h2] at h2'
    injection h2'
  subst hPP hQQ
  refine ⟨X, Y, P, x1, y1, p1, fun k hk t ht => ?_⟩
  have hPQ : P.get k t = Q.get k t := by
    obtain ⟨p5, p6⟩ := p4 k hk t ht
    obtain ⟨q5, q6⟩ := q4 k hk t ht
    rcases hw t ht with h0 | h0
    · apply mul_right_cancel₀ h0
      refine p6.trans (Eq.trans ?_ q6.symm)
      show ‖∑ τ ∈ segLags (min (roundEven ((n : ℝ) / 2) - 1) L) x.len (ts.get t - 1), _‖ ^ 2
        = ‖∑ τ ∈ segLags (min (roundEven ((n : ℝ) / 2) - 1) L) x.len (ts.get t - 1), _‖ ^ 2
      set S := segLags (min (roundEven ((n : ℝ) / 2) - 1) L) x.len (ts.get t - 1) with hS
      have hin : ∀ τ ∈ S, -(L : ℤ) ≤ τ ∧ τ ≤ L := by
        intro τ hτ
        rw [hS] at hτ
        unfold segLags at hτ
        rw [Finset.mem_filter, Finset.mem_Icc] at hτ
        omega
      by_cases hx0 : ∀ τ ∈ S, zext x (ts.get t - 1 + τ) = 0
      · rw [← norm_neg, ← Finset.sum_neg_distrib]
        congr 2
        refine Finset.sum_congr rfl fun τ hτ => ?_
        rw [zext_combo' hxy, zext_combo' hxy, hx0 τ hτ]
        ring
      · push Not at hx0
        obtain ⟨σ, hσ, hσx⟩ := hx0
        congr 2
        refine Finset.sum_congr rfl fun τ hτ => ?_
        have hy0 : zext y (ts.get t - 1 + τ) = 0 := by
          have h1 := hin τ hτ
          have h2 := hin σ hσ
          exact (hfar.zext (ts.get t - 1 + σ) (ts.get t - 1 + τ) (by rw [abs_le]; push_cast; omega)).resolve_left hσx
        rw [zext_combo' hxy, zext_combo' hxy, hy0]
        ring
    · rw [p5 h0, q5 h0]
  have := e k hk t ht
  rw [← hPQ] at this
  linarith

/-! ## Two impulses -/

/-- Two impulses: `a` at sample `p`, `b` at sample `q`. -/
def twoImpulses (N p q : ℕ) (a b : ℂ) : Vec ℂ := ⟨N, fun i => if i = p then a else if i = q then b else 0⟩

theorem zext_twoImpulses {N p q : ℕ} (hp : p < N) (hq : q < N) (a b : ℂ) (i : ℤ) :
    zext (twoImpulses N p q a b) i = if i = p then a else if i = q then b else 0 := by
  unfold zext twoImpulses
  dsimp only
  by_cases h : 0 ≤ i ∧ i < (N : ℤ)
  · rw [if_pos h]
    have h1 : (i.toNat = p) = (i = (p : ℤ)) := by rw [eq_iff_iff]; omega
    have h2 : (i.toNat = q) = (i = (q : ℤ)) := by rw [eq_iff_iff]; omega
    simp only [h1, h2]
  · rw [if_neg h, if_neg (by omega), if_neg (by omega)]

/-- Wigner-Ville: each impulse fills its column; a term oscillating along the frequencies appears in the column half way, if there is one, that is if the distance
is even. -/
theorem C122_impulses_wvd {τ : Type} (N p q : ℕ) (hpq : p < q) (hq : q < N) (a b : ℂ) (ts : Vec τ) (n : ℕ) (hn : 2 ≤ n) (M : Mat ℝ)
    (hM : WvdReturns (twoImpulses N p q a b) ts n M) : ∀ k < n, ∀ t < N,
      M.get k t = (if t = p then ‖a‖ ^ 2 else 0) + (if t = q then ‖b‖ ^ 2 else 0)
        + if 2 * t = p + q then 2 * (a * conj b * expi (2 * Real.pi * ((k : ℝ) / (2 * n) * ((q : ℝ) - p)))).re else 0 := by
  intro k hk t ht
  have hn0 : n ≠ 0 := by omega
  obtain ⟨hts, hN⟩ := (C32_returns_iff _ ts n hn0).1 ⟨M, hM⟩
  obtain ⟨M', m1, _, _, m4⟩ := C33_wvd _ ts n hn0 hts hN
  obtain rfl := wvd_unique hM m1
  have hN' : (N : ℤ) ≤ 2 * roundEven ((n : ℝ) / 2) := by
    rcases hN with hN | hN
    · exact hN
    · have : N ≤ 1 := hN
      omega
  have h := m4 k hk t ht
  set R := roundEven ((n : ℝ) / 2) - 1 with hR
  have hker : ∀ τ : ℤ, wignerKernel (twoImpulses N p q a b) t τ = (if τ = 0 then (if t = p then a * conj a else if t = q then b * conj b else 0) else 0)
      + (if 2 * t = p + q ∧ τ = t - q then a * conj b else 0) + (if 2 * t = p + q ∧ τ = q - t then b * conj a else 0) := by
    intro τ
    unfold wignerKernel
    rw [zext_twoImpulses (by omega) hq, zext_twoImpulses (by omega) hq]
    split_ifs <;> first | (exfalso; omega) | simp
  have hsum : ((M.get k t : ℝ) : ℂ) = (if t = p then a * conj a else if t = q then b * conj b else 0)
      + (if 2 * t = p + q then a * conj b * expi (2 * Real.pi * ((k : ℝ) / (2 * n) * ((q : ℝ) - p)))
        + conj (a * conj b * expi (2 * Real.pi * ((k : ℝ) / (2 * n) * ((q : ℝ) - p)))) else 0) := by
    rw [h]
    unfold lagSum
    rw [Finset.sum_congr rfl (fun τ _ => by rw [hker τ, add_mul, add_mul])]
    rw [Finset.sum_add_distrib, Finset.sum_add_distrib]
    simp only [ite_mul, zero_mul]
    rw [Finset.sum_ite_eq' (Finset.Icc (-R) R) (0 : ℤ), if_pos (by rw [Finset.mem_Icc]; omega)]
    have e0 : expi (-(2 * Real.pi * (((k : ℕ) : ℤ) * ((0 : ℤ) : ℝ) / n))) = 1 := by
      rw [Int.cast_zero, mul_zero, zero_div, mul_zero, neg_zero, expi_zero]
    rw [e0, mul_one, mul_one, add_assoc]
    congr 1
    by_cases hm : 2 * t = p + q
    · simp only [hm, true_and, if_true]
      have hnR : (n : ℝ) ≠ 0 := by exact_mod_cast hn0
      have hmR : 2 * (t : ℝ) = p + q := by exact_mod_cast hm
      rw [Finset.sum_ite_eq' (Finset.Icc (-R) R) ((t : ℤ) - q), if_pos (by rw [Finset.mem_Icc]; omega),
        Finset.sum_ite_eq' (Finset.Icc (-R) R) ((q : ℤ) - t), if_pos (by rw [Finset.mem_Icc]; omega), map_mul, map_mul, conj_expi, Complex.conj_conj,
        mul_comm (conj a) b]
      congr 3
      · push_cast
        have : (t : ℝ) = (p + q) / 2 := by linarith
        rw [this]
        field_simp
        ring
      · push_cast
        have : (t : ℝ) = (p + q) / 2 := by linarith
        rw [this]
        field_simp
        ring
    · simp only [hm, false_and, if_false, Finset.sum_const_zero, add_zero]
  rw [Complex.add_conj] at hsum
  apply Complex.ofReal_injective
  rw [hsum, mul_conj_eq_norm_sq, mul_conj_eq_norm_sq]
  have hne : p ≠ q := by omega
  split_ifs <;> first | (exfalso; omega) | (push_cast; ring)

theorem phase_pair (u v w : ℝ) (h : w = v - u) : expi (-u) * conj (expi (-v)) = expi w := by
  rw [conj_expi, neg_neg, ← expi_add, h]
  congr 1
  ring

theorem dft_twoImpulses {N p q : ℕ} (hpq : p < q) (hq : q < N) (a b : ℂ) (k : ℕ) :
    dft (twoImpulses N p q a b) k = a * expi (-(2 * Real.pi * ((k : ℝ) / N) * p)) + b * expi (-(2 * Real.pi * ((k : ℝ) / N) * q)) := by
  unfold dft dtft twoImpulses
  dsimp only
  rw [Finset.sum_congr rfl (g := fun j => (if j = p then a * expi (-(2 * Real.pi * ((k : ℝ) / N) * j)) else 0)
    + (if j = q then b * expi (-(2 * Real.pi * ((k : ℝ) / N) * j)) else 0)) (fun j _ => by
      split_ifs <;> first | (exfalso; omega) | simp), Finset.sum_add_distrib, Finset.sum_ite_eq', Finset.sum_ite_eq', if_pos (by rw [Finset.mem_range]; omega),
    if_pos (by rw [Finset.mem_range]; omega)]

/-- Margenau-Hill with default arguments: the oscillating term is in the columns of the impulses themselves, whatever the distance. -/
theorem C122_impulses_margenau_hill (N p q : ℕ) (hpq : p < q) (hq : q < N) (a b : ℂ) :
    ∃ M, MhReturns (twoImpulses N p q a b) (arange 0 N) N M ∧ ∀ k < N,
      M.get k p = (if p = 0 then 0 else ‖a‖ ^ 2) + (a * conj b * expi (2 * Real.pi * ((k : ℝ) / N * ((q : ℝ) - p)))).re ∧
      M.get k q = ‖b‖ ^ 2 + (if p = 0 then 0 else (a * conj b * expi (2 * Real.pi * ((k : ℝ) / N * ((q : ℝ) - p)))).re) ∧
      ∀ t < N, t ≠ p → t ≠ q → M.get k t = 0 := by
  obtain ⟨M, m1, -, -, m4⟩ := C38_default (twoImpulses N p q a b) (by show N ≠ 0; omega)
  refine ⟨M, m1, fun k hk => ?_⟩
  have hd := dft_twoImpulses hpq hq a b k
  have gp : (twoImpulses N p q a b).get p = a := if_pos rfl
  have gq : (twoImpulses N p q a b).get q = b := by
    show (if q = p then a else if q = q then b else 0) = b
    rw [if_neg (by omega), if_pos rfl]
  have g0 : ∀ t, t ≠ p → t ≠ q → (twoImpulses N p q a b).get t = 0 := by
    intro t h1 h2
    show (if t = p then a else if t = q then b else 0) = 0
    rw [if_neg h1, if_neg h2]
  set θ : ℝ := 2 * Real.pi * ((k : ℝ) / N) with hθ
  have hpp := phase_pair (θ * p) (θ * p) 0 (by ring)
  have hqq := phase_pair (θ * q) (θ * q) 0 (by ring)
  have hpq' := phase_pair (θ * p) (θ * q) (2 * Real.pi * ((k : ℝ) / N * ((q : ℝ) - p))) (by rw [hθ]; ring)
  have hqp' := phase_pair (θ * q) (θ * p) (-(2 * Real.pi * ((k : ℝ) / N * ((q : ℝ) - p)))) (by rw [hθ]; ring)
  rw [expi_zero] at hpp hqq
  set E := expi (2 * Real.pi * ((k : ℝ) / N * ((q : ℝ) - p))) with hE
  have hEc : expi (-(2 * Real.pi * ((k : ℝ) / N * ((q : ℝ) - p)))) = conj E := by rw [hE, conj_expi]
  rw [hEc] at hqp'
  have ha := mul_conj_eq_norm_sq a
  have hb := mul_conj_eq_norm_sq b
  have hre : (b * conj a * conj E).re = (a * conj b * E).re := by
    rw [← Complex.conj_re]
    congr 1
    rw [map_mul, map_mul, Complex.conj_conj, Complex.conj_conj]
    ring
  have m : ∀ t < N, M.get k t = ((twoImpulses N p q a b).get t * expi (-(θ * t)) * conj (dft (twoImpulses N p q a b) k - (twoImpulses N p q a b).get 0)).re :=
    m4 k hk
  have h0 : (twoImpulses N p q a b).get 0 = if p = 0 then a else 0 := by
    show (if 0 = p then a else if 0 = q then b else 0) = _
    rw [if_neg (show ¬ 0 = q by omega)]
    congr 1
    rw [eq_iff_iff]
    omega
  refine ⟨?_, ?_, fun t ht h1 h2 => ?_⟩
  · rw [m p (by omega), gp, h0, hd]
    by_cases h : p = 0
    · subst h
      rw [if_pos rfl, if_pos rfl, zero_add]
      congr 1
      have e1 : expi (-(θ * ((0 : ℕ) : ℝ))) = 1 := by simp
      rw [e1] at hpq' ⊢
      rw [mul_one, add_sub_cancel_left, map_mul]
      linear_combination a * conj b * hpq'
    · rw [if_neg h, if_neg h, sub_zero, ← Complex.ofReal_re (‖a‖ ^ 2), ← Complex.add_re]
      congr 1
      rw [map_add, map_mul, map_mul]
      linear_combination a * conj a * hpp + a * conj b * hpq' + ha
  · rw [m q hq, gq, h0, hd]
    by_cases h : p = 0
    · subst h
      rw [if_pos rfl, if_pos rfl, add_zero, ← Complex.ofReal_re (‖b‖ ^ 2)]
      congr 1
      have e1 : expi (-(θ * ((0 : ℕ) : ℝ))) = 1 := by simp
      rw [e1, mul_one, add_sub_cancel_left, map_mul]
      linear_combination b * conj b * hqq + hb
    · rw [if_neg h, if_neg h, sub_zero, ← hre, ← Complex.ofReal_re (‖b‖ ^ 2), ← Complex.add_re]
      congr 1
      rw [map_add, map_mul, map_mul]
      linear_combination b * conj b * hqq + b * conj a * hqp' + hb
  · rw [m t ht, g0 t h1 h2, zero_mul, zero_mul, Complex.zero_re]

/-- Page representation with default arguments: the same, with every phase one sample off. -/
theorem C122_impulses_page (N p q : ℕ) (hpq : p < q) (hq : q < N) (a b : ℂ) :
    ∃ M, PageReturns (twoImpulses N p q a b) (arange 0 N) N M ∧ ∀ k < N,
      M.get k p = ‖a‖ ^ 2 * Real.cos (2 * Real.pi * (k / N)) + (a * conj b * expi (2 * Real.pi * ((k : ℝ) / N * ((q : ℝ) - p + 1)))).re ∧
      M.get k q = ‖b‖ ^ 2 * Real.cos (2 * Real.pi * (k / N)) + (a * conj b * expi (2 * Real.pi * ((k : ℝ) / N * ((q : ℝ) - p - 1)))).re ∧
      ∀ t < N, t ≠ p → t ≠ q → M.get k t = 0 := by
  obtain ⟨M, m1, -, -, m4⟩ := C39_default (twoImpulses N p q a b) (by show N ≠ 0; omega)
  refine ⟨M, m1, fun k hk => ?_⟩
  have hd := dft_twoImpulses hpq hq a b k
  have gp : (twoImpulses N p q a b).get p = a := if_pos rfl
  have gq : (twoImpulses N p q a b).get q = b := by
    show (if q = p then a else if q = q then b else 0) = b
    rw [if_neg (by omega), if_pos rfl]
  have g0 : ∀ t, t ≠ p → t ≠ q → (twoImpulses N p q a b).get t = 0 := by
    intro t h1 h2
    show (if t = p then a else if t = q then b else 0) = 0
    rw [if_neg h1, if_neg h2]
  set θ : ℝ := 2 * Real.pi * ((k : ℝ) / N) with hθ
  have hpp := phase_pair (θ * (p - 1)) (θ * p) θ (by ring)
  have hqq := phase_pair (θ * (q - 1)) (θ * q) θ (by ring)
  have hpq' := phase_pair (θ * (p - 1)) (θ * q) (2 * Real.pi * ((k : ℝ) / N * ((q : ℝ) - p + 1))) (by rw [hθ]; ring)
  have hqp' := phase_pair (θ * (q - 1)) (θ * p) (-(2 * Real.pi * ((k : ℝ) / N * ((q : ℝ) - p - 1)))) (by rw [hθ]; ring)
  set E := expi (2 * Real.pi * ((k : ℝ) / N * ((q : ℝ) - p - 1))) with hE
  have hEc : expi (-(2 * Real.pi * ((k : ℝ) / N * ((q : ℝ) - p - 1)))) = conj E := by rw [hE, conj_expi]
  rw [hEc] at hqp'
  have ha := mul_conj_eq_norm_sq a
  have hb := mul_conj_eq_norm_sq b
  have hre : (b * conj a * conj E).re = (a * conj b * E).re := by
    rw [← Complex.conj_re]
    congr 1
    rw [map_mul, map_mul, Complex.conj_conj, Complex.conj_conj]
    ring
  have m : ∀ t < N, M.get k t = ((twoImpulses N p q a b).get t * expi (-(θ * ((t : ℝ) - 1))) * conj (dft (twoImpulses N p q a b) k)).re :=
    m4 k hk
  refine ⟨?_, ?_, fun t ht h1 h2 => ?_⟩
  · rw [m p (by omega), gp, hd, ← expi_re, ← Complex.re_ofReal_mul, ← Complex.add_re]
    congr 1
    rw [map_add, map_mul, map_mul]
    linear_combination a * conj a * hpp + a * conj b * hpq' + expi θ * ha
  · rw [m q hq, gq, hd, ← hre, ← expi_re, ← Complex.re_ofReal_mul, ← Complex.add_re]
    congr 1
    rw [map_add, map_mul, map_mul]
    linear_combination b * conj b * hqq + b * conj a * hqp' + expi θ * hb
  · rw [m t ht, g0 t h1 h2, zero_mul, zero_mul, Complex.zero_re]

/-! ## Concrete cases -/

theorem wvd_three (x : Vec ℂ) (hx : x.len = 3) : ∃ M, WvdReturns x (arange 0 (3 : ℕ)) 4 M :=
  (C32_returns_iff x (arange 0 (3 : ℕ)) 4 (by norm_num)).2 ⟨by rw [hx, arange_len]; simp, .inl (by
    rw [hx, show ((4 : ℕ) : ℝ) / 2 = ((2 : ℤ) : ℝ) by norm_num, roundEven_intCast]; norm_num)⟩

/-- The signals `1, 1, 1` and `1, i, 1` have the same Wigner-Ville distribution, the sum of those of `1, 0, 1` and `0, 1, 0`. -/
example : ∃ M E O P, WvdReturns ⟨3, fun _ => 1⟩ (arange 0 (3 : ℕ)) 4 M ∧ WvdReturns ⟨3, fun i => if i % 2 = 0 then 1 else 0⟩ (arange 0 (3 : ℕ)) 4 E ∧
    WvdReturns ⟨3, fun i => if i % 2 = 0 then 0 else 1⟩ (arange 0 (3 : ℕ)) 4 O ∧ WvdReturns ⟨3, fun i => if i % 2 = 0 then 1 else Complex.I * 1⟩ (arange 0 (3 : ℕ)) 4 P ∧
    ∀ k < 4, ∀ t < 3, M.get k t = E.get k t + O.get k t ∧ P.get k t = M.get k t := by
  obtain ⟨M, hM⟩ := wvd_three ⟨3, fun _ => 1⟩ rfl
  obtain ⟨E, O, h1, h2, h3, h4⟩ := C122_parity_wvd _ _ 4 (by norm_num) M hM
  obtain ⟨P, p1, p2⟩ := h4 Complex.I
  refine ⟨M, E, O, P, hM, h1, h2, p1, fun k hk t ht => ⟨h3 k hk t ht, ?_⟩⟩
  rw [p2 k hk t ht, h3 k hk t ht, Complex.norm_I, one_pow, one_mul]

/-- Impulses at samples 0 and 2 of 3: between them the distribution takes the value 2 in row 0 and -2 in row 2. -/
example : ∃ M, WvdReturns (twoImpulses 3 0 2 1 1) (arange 0 (3 : ℕ)) 4 M ∧ M.get 0 1 = 2 ∧ M.get 2 1 = -2 ∧ M.get 0 0 = 1 := by
  obtain ⟨M, hM⟩ := wvd_three (twoImpulses 3 0 2 1 1) rfl
  have h := C122_impulses_wvd 3 0 2 (by norm_num) (by norm_num) 1 1 _ 4 (by norm_num) M hM
  refine ⟨M, hM, ?_, ?_, ?_⟩
  · rw [h 0 (by norm_num) 1 (by norm_num)]
    simp
  · rw [h 2 (by norm_num) 1 (by norm_num)]
    have e : 2 * Real.pi * (((2 : ℕ) : ℝ) / (2 * ((4 : ℕ) : ℝ)) * (((2 : ℕ) : ℝ) - ((0 : ℕ) : ℝ))) = Real.pi := by push_cast; ring
    rw [e, map_one, one_mul, one_mul, expi_re, Real.cos_pi]
    norm_num
  · rw [h 0 (by norm_num) 0 (by norm_num)]
    simp

/-- The same impulses one sample later in four samples, Margenau-Hill: nothing between them, 2 and 0 in rows 0 and 1 of their own columns. -/
example : ∃ M, MhReturns (twoImpulses 4 1 3 1 1) (arange 0 (4 : ℕ)) 4 M ∧ M.get 0 1 = 2 ∧ M.get 1 1 = 0 ∧ M.get 0 2 = 0 ∧ M.get 0 3 = 2 := by
  obtain ⟨M, hM, h⟩ := C122_impulses_margenau_hill 4 1 3 (by norm_num) (by norm_num) 1 1
  refine ⟨M, hM, ?_, ?_, (h 0 (by norm_num)).2.2 2 (by norm_num) (by norm_num) (by norm_num), ?_⟩
  · rw [(h 0 (by norm_num)).1]
    norm_num
  · rw [(h 1 (by norm_num)).1]
    have e : 2 * Real.pi * (((1 : ℕ) : ℝ) / ((4 : ℕ) : ℝ) * (((3 : ℕ) : ℝ) - ((1 : ℕ) : ℝ))) = Real.pi := by push_cast; ring
    rw [e, map_one, one_mul, one_mul, expi_re, Real.cos_pi]
    norm_num
  · rw [(h 0 (by norm_num)).2.1]
    norm_num

/-- Twelve samples, impulses at 1 and 9, a window of three ones: the spectrogram of the sum is the sum of the spectrograms. -/
example : ∃ X Y P, SpectroReturns ⟨12, fun i => if i = 1 then 1 else 0⟩ (arange 1 (11 : ℕ)) 12 ⟨3, fun _ => 1⟩ X ∧
    SpectroReturns ⟨12, fun i => if i = 9 then 1 else 0⟩ (arange 1 (11 : ℕ)) 12 ⟨3, fun _ => 1⟩ Y ∧
    SpectroReturns (combo 2 Complex.I ⟨12, fun i => if i = 1 then 1 else 0⟩ ⟨12, fun i => if i = 9 then 1 else 0⟩) (arange 1 (11 : ℕ)) 12 ⟨3, fun _ => 1⟩ P ∧
    ∀ k < 12, ∀ t < (arange 1 (11 : ℕ)).len, P.get k t = 4 * X.get k t + Y.get k t := by
  obtain ⟨X, Y, P, h1, h2, h3, h4⟩ := C122_far_spectrogram ⟨12, fun i => if i = 1 then 1 else 0⟩ ⟨12, fun i => if i = 9 then 1 else 0⟩ rfl 2 Complex.I
    (arange 1 (11 : ℕ)) 12 1 ⟨3, fun _ => 1⟩ (.inl rfl) (by norm_num) (fun m hm => by
      rw [or_iff_not_imp_right]
      intro hne
      unfold windowEnergy
      rw [Finset.sum_congr rfl (fun _ _ => by rw [norm_one, one_pow]), Finset.sum_const, nsmul_eq_mul, mul_one]
      have := Finset.card_ne_zero.2 (Finset.nonempty_iff_ne_empty.2 hne)
      exact_mod_cast this)
    (fun i _ j _ hi hj => by
      have h1 : i = 1 := by
        by_contra h
        exact hi (if_neg h)
      have h9 : j = 9 := by
        by_contra h
        exact hj (if_neg h)
      subst h1 h9
      norm_num)
  refine ⟨X, Y, P, h1, h2, h3, fun k hk t ht => ?_⟩
  rw [h4 k hk t ht, Complex.norm_I]
  norm_num

end Tftb.Props
