import Verif.Props.WvdInverse
import Verif.Props.Cohen
import Verif.Props.Spwv
import Verif.Lemmas.Utils
import Verif.Props.Conj
import Verif.Props.ReassignedShift

/-! # What a Wigner-Ville distribution cannot tell apart (C106) -/

namespace Tftb.Props

open Tftb Tftb.Spec Tftb.Linear Tftb.Cohen Tftb.Reassigned Finset ComplexConjugate

/-- Two signals of the same length with the same Wigner-Ville matrix, for some number of bins. -/
def SameWvd (x y : Vec ℂ) : Prop :=
  y.len = x.len ∧ ∃ (n : ℕ) (ts : Vec ℤ) (M M' : Mat ℝ), 2 ≤ n ∧ WvdReturns x ts n M ∧ WvdReturns y ts n M' ∧
    ∀ k < n, ∀ t < x.len, M.get k t = M'.get k t

/-- The same, for what the closed forms are made of. -/
theorem SameWvd.kernel {x y : Vec ℂ} (h : SameWvd x y) (t τ : ℤ) : wignerKernel y t τ = wignerKernel x t τ := by
  obtain ⟨hl, n, ts, M, M', hn, hM, hM', he⟩ := h
  unfold wignerKernel
  by_cases h1 : 0 ≤ t + τ ∧ t + τ < x.len
  · by_cases h2 : 0 ≤ t - τ ∧ t - τ < x.len
    · rw [zext_of_mem h1.1 (by omega), zext_of_mem h2.1 (by omega), zext_of_mem h1.1 h1.2, zext_of_mem h2.1 h2.2,
        C73_products x ts n hn M hM _ _ (by omega) (by omega) (by omega), C73_products y ts n hn M' hM' _ _ (by omega) (by omega) (by omega)]
      congr 1
      refine Finset.sum_congr rfl fun k hk => ?_
      rw [he k (Finset.mem_range.1 hk) _ (by omega)]
    · rw [zext_of_not_mem (x := y) (i := t - τ) (by omega), zext_of_not_mem (x := x) (i := t - τ) (by omega)]
      simp
  · rw [zext_of_not_mem (x := y) (i := t + τ) (by omega), zext_of_not_mem (x := x) (i := t + τ) (by omega)]
    simp

theorem sameWvd_of_kernel {x y : Vec ℂ} (hx : 1 ≤ x.len) (hl : y.len = x.len) (h : ∀ t τ : ℤ, wignerKernel y t τ = wignerKernel x t τ) : SameWvd x y := by
  have hr : roundEven (((2 * x.len : ℕ) : ℝ) / 2) = x.len := by
    rw [show (((2 * x.len : ℕ) : ℝ) / 2) = ((x.len : ℕ) : ℝ) by push_cast; ring, roundEven_natCast]
  obtain ⟨M, hM⟩ := (C32_returns_iff x (arange 0 x.len) (2 * x.len) (by omega)).2 ⟨by rw [arange_len]; omega, .inl (by rw [hr]; omega)⟩
  obtain ⟨M', hM'⟩ := (C32_returns_iff y (arange 0 x.len) (2 * x.len) (by omega)).2 ⟨by rw [arange_len]; omega, .inl (by rw [hr]; omega)⟩
  refine ⟨hl, 2 * x.len, arange 0 x.len, M, M', by omega, hM, hM', fun k hk t ht => ?_⟩
  rw [eq_comm, ← one_mul (M.get k t)]
  refine wvd_transfer (by omega) hM hM' hk hk ht (by omega) 1 ?_
  rw [Complex.ofReal_one, one_mul]
  exact lagSum_congr (fun σ _ _ => h t σ) _

theorem SameWvd.modulus {x y : Vec ℂ} (h : SameWvd x y) (t : ℤ) : ‖zext y t‖ = ‖zext x t‖ := by
  have e := congrArg norm (h.kernel t 0)
  unfold wignerKernel at e
  rw [add_zero, sub_zero, norm_mul, norm_mul, Complex.norm_conj, Complex.norm_conj] at e
  nlinarith [norm_nonneg (zext y t), norm_nonneg (zext x t)]

theorem SameWvd.modulus_get {x y : Vec ℂ} (h : SameWvd x y) {i : ℕ} (hi : i < x.len) : ‖y.get i‖ = ‖x.get i‖ := by
  have e := h.modulus i
  rw [zext_of_mem (by omega) (by have := h.1; omega), zext_of_mem (by omega) (by omega)] at e
  simpa using e

/-! ## Signals with the same Wigner-Ville distribution -/

/-- Signals with the same Wigner-Ville matrix for one number of bins have the same matrix for every number of bins (and the same failures). -/
theorem C106_every_size {τ : Type} (x y : Vec ℂ) (h : SameWvd x y) (ts : Vec τ) (n : ℕ) (hn : n ≠ 0) :
    ((∃ M, WvdReturns x ts n M) ↔ ∃ M, WvdReturns y ts n M) ∧
    ∀ M M', WvdReturns x ts n M → WvdReturns y ts n M' → ∀ k < n, ∀ t < x.len, M'.get k t = M.get k t := by
  refine ⟨by rw [C32_returns_iff x ts n hn, C32_returns_iff y ts n hn, h.1], fun M M' hM hM' k hk t ht => ?_⟩
  rw [← one_mul (M.get k t)]
  refine wvd_transfer hn hM hM' hk hk ht (by have := h.1; omega) 1 ?_
  rw [Complex.ofReal_one, one_mul]
  exact lagSum_congr (fun σ _ _ => h.kernel t σ) _

/-- They have the same pseudo Wigner-Ville distribution, whatever the window. -/
theorem C106_pwvd {τ : Type} (x y : Vec ℂ) (hs : SameWvd x y) (ts : Vec τ) (n : ℕ) (h : Vec ℂ) (L : ℕ) (hh : h.len = 2 * L + 1)
    (hL : (L : ℤ) < roundEven ((n : ℝ) / 2)) :
    ∃ X Y, PwvdReturns x ts n (some h) X ∧ PwvdReturns y ts n (some h) Y ∧ ∀ k < n, ∀ t < ts.len, Y.get k t = X.get k t := by
  obtain ⟨X, x1, -, -, x4⟩ := C36_pwvd x ts n h L hh hL
  obtain ⟨Y, y1, -, -, y4⟩ := C36_pwvd y ts n h L hh hL
  refine ⟨X, Y, x1, y1, fun k hk t ht => ?_⟩
  rw [x4 k hk t ht, y4 k hk t ht]
  congr 1
  exact lagSum_congr (fun τ _ _ => by rw [hs.kernel]) _

/-- They have the same smoothed pseudo Wigner-Ville distribution, whatever the two windows. -/
theorem C106_spwv (x y : Vec ℂ) (hs : SameWvd x y) (tw fw : Vec ℂ) (ts : Vec ℤ) (n Lg Lh : ℕ) (hn : n ≠ 0) (hg : tw.len = 2 * Lg + 1)
    (hh : fw.len = 2 * Lh + 1)
    (hfin : ∀ c < ts.len, ∀ τ : ℕ, (smoothSeg Lg x.len (ts.get c - 1) τ).Nonempty → smoothMass tw Lg x.len (ts.get c - 1) τ ≠ 0)
    (hz : ∀ c < ts.len, (Lh : ℤ) < roundEven ((n : ℝ) / 2) ∨ ts.get c ≤ roundEven ((n : ℝ) / 2) ∨
      (x.len : ℤ) - roundEven ((n : ℝ) / 2) < ts.get c) :
    ∃ X Y, spwv x (some ts) (some n) (some tw) (some fw) = .ok X ∧ spwv y (some ts) (some n) (some tw) (some fw) = .ok Y ∧
      ∀ k < n, ∀ c < ts.len, Y.get k c = X.get k c := by
  obtain ⟨X, x1, -, -, x4⟩ := C37_closed_form x tw fw ts n Lg Lh hn hg hh hfin hz
  obtain ⟨Y, y1, -, -, y4⟩ := C37_closed_form y tw fw ts n Lg Lh hn hg hh (by rw [hs.1]; exact hfin) (by rw [hs.1]; exact hz)
  refine ⟨X, Y, x1, y1, fun k hk c hc => ?_⟩
  have e : ∀ c τ : ℤ, smoothCorr tw Lg y c τ = smoothCorr tw Lg x c τ := by
    intro c τ
    unfold smoothCorr
    rw [hs.1]
    congr 1
    exact Finset.sum_congr rfl (fun p _ => by rw [hs.kernel])
  rw [x4 k hk c hc, y4 k hk c hc, hs.1]
  simp only [e]

/-- They have the same narrow-band ambiguity function, labels and failures included. -/
theorem C106_narrow_band (x y : Vec ℂ) (hs : SameWvd x y) (lag : Option (Vec ℝ)) (nf : Option ℕ) :
    ((∃ R, Ambiguity.narrowBand x lag nf = .ok R) ↔ ∃ R, Ambiguity.narrowBand y lag nf = .ok R) ∧
    ∀ A B l l' xi xi', Ambiguity.narrowBand x lag nf = .ok (A, l, xi) → Ambiguity.narrowBand y lag nf = .ok (B, l', xi') →
      l' = l ∧ B.rows = A.rows ∧ B.cols = A.cols ∧ xi'.len = xi.len ∧ (∀ r < A.rows, xi'.get r = xi.get r) ∧
      ∀ r < A.rows, ∀ c < A.cols, B.get r c = A.get r c := by
  refine ⟨by rw [C42_returns_iff, C42_returns_iff, hs.1], fun A B l l' xi xi' hA hB => ?_⟩
  obtain ⟨a1, a2, a3, a4, a5, a6⟩ := C42_closed_form x lag nf A l xi hA
  obtain ⟨b1, b2, b3, b4, b5, b6⟩ := C42_closed_form y lag nf B l' xi' hB
  have e1 : l' = l := by rw [a1, b1, hs.1]
  have e2 : B.rows = A.rows := by rw [a2, b2, hs.1]
  have e3 : B.cols = A.cols := by rw [a3, b3, e1]
  have e5 : ∀ r < A.rows, xi'.get r = xi.get r := fun r hr => by rw [a5 r hr, b5 r (by omega), e2]
  refine ⟨e1, e2, e3, by rw [a4, b4, e2], e5, fun r hr c hc => ?_⟩
  rw [a6 r hr c hc, b6 r (by omega) c (by omega), e1, e5 r hr]
  unfold ambiguity
  rw [hs.1]
  exact Finset.sum_congr rfl (fun t _ => by rw [hs.kernel])

/-- They have the same estimated instantaneous frequency. -/
theorem C106_inst_freq (x y : Vec ℂ) (hs : SameWvd x y) (t : Vec ℤ) (ht : ∀ j < t.len, 2 ≤ t.get j ∧ t.get j < x.len) :
    ∃ f g : Vec ℝ, TF.instFreq x (some t) = .ok (f, t) ∧ TF.instFreq y (some t) = .ok (g, t) ∧ f.len = t.len ∧ g.len = t.len ∧
      ∀ j < t.len, g.get j = f.get j := by
  obtain ⟨f, f1, f2, f3⟩ := inst_freq_eq x t (fun j hj => ⟨idxOk_of_lt (by have := ht j hj; omega) (ht j hj).2,
    idxOk_of_lt (by have := ht j hj; omega) (by have := ht j hj; omega)⟩)
  obtain ⟨g, g1, g2, g3⟩ := inst_freq_eq y t (fun j hj => by
    have h1 := ht j hj
    have := hs.1
    exact ⟨idxOk_of_lt (by omega) (by omega), idxOk_of_lt (by omega) (by omega)⟩)
  refine ⟨f, g, f1, g1, f2, g2, fun j hj => ?_⟩
  have h1 := ht j hj
  have hl := hs.1
  have e := hs.kernel (t.get j - 1) 1
  unfold wignerKernel at e
  rw [show t.get j - 1 + 1 = t.get j by ring, show t.get j - 1 - 1 = t.get j - 2 by ring, zext_of_mem (by omega) (by omega), zext_of_mem (by omega) (by omega),
    zext_of_mem (by omega) (by omega), zext_of_mem (by omega) (by omega)] at e
  rw [f3 j hj, g3 j hj, wrapIdx_of_nonneg (by omega), wrapIdx_of_nonneg (by omega), wrapIdx_of_nonneg (by omega), wrapIdx_of_nonneg (by omega), e]

/-- They have the same centre and spread in time. -/
theorem C106_loctime (x y : Vec ℂ) (hs : SameWvd x y) : TF.loctime y = TF.loctime x := by
  have he : energy y = energy x := by
    unfold energy
    rw [hs.1]
    exact Finset.sum_congr rfl (fun i hi => by rw [hs.modulus_get (Finset.mem_range.1 hi)])
  by_cases h0 : energy x = 0
  · rw [C44_loctime_zero x h0, C44_loctime_zero y (by rw [he]; exact h0)]
  · rw [C44_loctime x h0, C44_loctime y (by rw [he]; exact h0), hs.1]
    have e1 : ∀ p : ℕ → ℝ, wmean x.len p (fun i => ‖y.get i‖ ^ 2) = wmean x.len p (fun i => ‖x.get i‖ ^ 2) :=
      fun p => wmean_congr (fun _ _ => rfl) (fun i hi => by rw [hs.modulus_get hi])
    have e2 : wvar x.len (fun i => (i : ℝ)) (fun i => ‖y.get i‖ ^ 2) = wvar x.len (fun i => (i : ℝ)) (fun i => ‖x.get i‖ ^ 2) := by
      unfold wvar
      rw [e1, e1]
    rw [e1, e2]

/-- They have the same reassigned pseudo Wigner-Ville distribution: distribution, reassigned distribution and field of displacements. -/
theorem C106_reassigned (x y : Vec ℂ) (hs : SameWvd x y) (n L : ℕ) (w : Vec ℝ) (hn : n ≠ 0) (hw : w.len = 2 * L + 1) (hL : 1 ≤ L) (hmid : w.get L ≠ 0)
    (ts : Vec ℤ) (a b : ℤ) (hab : IsRange ts a b) (h0 : 0 ≤ a) (h1 : a < x.len)
    (hr : ∀ c < ts.len, ts.get c ≤ roundEven ((n : ℝ) / 2) ∨ (x.len : ℤ) - ts.get c < roundEven ((n : ℝ) / 2) ∨
      (L : ℤ) < roundEven ((n : ℝ) / 2) - 1) :
    ∃ tx rx vx ty ry vy, pseudoWignerVille x (some ts) (some n) (some w) = .ok (tx, rx, vx) ∧
      pseudoWignerVille y (some ts) (some n) (some w) = .ok (ty, ry, vy) ∧
      ∀ k < n, ∀ c < ts.len, ty.get k c = tx.get k c ∧ ry.get k c = rx.get k c ∧ vy.get k c = vx.get k c := by
  obtain ⟨dw, key⟩ := pwv_run n L w hn hw hL hmid
  obtain ⟨tx, rx, vx, x1, x2, x3, x4⟩ := key x ts a b hab h0 h1 hr
  obtain ⟨ty, ry, vy, y1, y2, y3, y4⟩ := key y ts a b hab h0 (by rw [hs.1]; exact h1) (by rw [hs.1]; exact hr)
  have ep : ∀ (g : ℕ → ℝ) (t k : ℤ), pwvSum y g n L t k = pwvSum x g n L t k := by
    intro g t k
    exact lagSum_congr (fun τ _ _ => by rw [hs.kernel]) _
  have es : slicePower y a b = slicePower x a b := by
    unfold slicePower
    rw [hs.1]
    congr 1
    exact Finset.sum_congr rfl (fun t _ => by rw [hs.modulus])
  have et : ∀ k < n, ∀ c < ts.len, ty.get k c = tx.get k c := fun k hk c hc => by rw [x2 k hk c hc, y2 k hk c hc, ep]
  refine ⟨tx, rx, vx, ty, ry, vy, x1, y1, fun k hk c hc => ⟨et k hk c hc, ?_, ?_⟩⟩
  · rw [x4 k hk c hc, y4 k hk c hc]
    refine Finset.sum_congr rfl (fun q hq => ?_)
    rw [et q (Finset.mem_range.1 hq) c hc, es, ep]
  · rw [x3 k hk c hc, y3 k hk c hc, et k hk c hc, es, ep]

/-! ## The narrow-band ambiguity function keeps exactly as much -/

/-- Two signals of the same length have the same narrow-band ambiguity function (default lags) exactly when they have the same Wigner-Ville distribution. -/
theorem C106_ambiguity_iff (x y : Vec ℂ) (hx : 1 ≤ x.len) (hl : y.len = x.len) (nf : Option ℕ) (A B : Mat ℂ) (l l' xi xi' : Vec ℝ)
    (hA : Ambiguity.narrowBand x none nf = .ok (A, l, xi)) (hB : Ambiguity.narrowBand y none nf = .ok (B, l', xi')) :
    (∀ r < A.rows, ∀ c < A.cols, B.get r c = A.get r c) ↔ SameWvd x y := by
  refine ⟨fun h => ?_, fun hs => ((C106_narrow_band x y hs none nf).2 A B l l' xi xi' hA hB).2.2.2.2.2⟩
  obtain ⟨a1, a2, a3, a4, a5, a6⟩ := C42_closed_form x none nf A l xi hA
  obtain ⟨b1, b2, b3, b4, b5, b6⟩ := C42_closed_form y none nf B l' xi' hB
  obtain ⟨n0, hz⟩ := (C42_returns_iff x none nf).1 ⟨_, hA⟩
  obtain ⟨d1, d2⟩ := C42_default_lags x.len hx
  simp only [Option.getD_none] at a1 b1 hz
  rw [hl] at b1 b2
  subst a1 b1
  have hcol : A.cols = 2 * ((x.len - 1) / 2) + 1 := by rw [a3, d1]
  have hrow : B.rows = A.rows := by rw [a2, b2]
  have hAr : A.rows ≠ 0 := by rw [a2]; exact n0
  have hbig : x.len ≤ A.rows := by
    have := hz ((x.len - 1) / 2) (by omega)
    rw [d2, Utils.truncInt_intCast] at this
    rw [a2]
    simp only [sub_self, abs_zero] at this
    omega
  refine sameWvd_of_kernel hx hl ?_
  have key : ∀ t < x.len, ∀ τ : ℤ, |τ| ≤ ((x.len - 1) / 2 : ℕ) → wignerKernel y t τ = wignerKernel x t τ := by
    intro t ht τ hτ
    obtain ⟨c, hc, hcτ⟩ : ∃ c < A.cols, (Ambiguity.nbLags x.len).get c = (τ : ℝ) := by
      have h1 := abs_le.1 hτ
      refine ⟨(τ + ((x.len - 1) / 2 : ℕ)).toNat, by omega, ?_⟩
      rw [d2]
      congr 1
      omega
    set q := A.rows with hq
    have hsum : ∀ r < q, dftC q (fun i => if i < x.len then (wignerKernel y i τ - wignerKernel x i τ) * rootPow q (-(((q / 2 : ℕ) : ℤ) * i)) else 0) r = 0 := by
      intro r hr
      have e := h r hr c hc
      rw [a6 r hr c hc, b6 r (by omega) c (by rw [b3, ← a3]; exact hc), hcτ, Utils.truncInt_intCast, a5 r hr, b5 r (by omega), hrow] at e
      unfold ambiguity at e
      rw [hl, ← sub_eq_zero, ← Finset.sum_sub_distrib] at e
      refine Eq.trans ?_ e
      unfold dftC
      rw [← Finset.sum_subset (Finset.range_subset_range.2 hbig) (fun i _ hi => by dsimp only; rw [if_neg (by simpa using hi), zero_mul])]
      refine Finset.sum_congr rfl (fun i hi => ?_)
      dsimp only
      rw [if_pos (Finset.mem_range.1 hi), ← sub_mul, mul_assoc, ← rootPow_add, rootPow_eq_expi]
      congr 2
      have : (q : ℝ) ≠ 0 := by exact_mod_cast hAr
      generalize q / 2 = s
      push_cast
      field_simp
      ring
    have hinv := idft_dftC hAr (fun i => if i < x.len then (wignerKernel y i τ - wignerKernel x i τ) * rootPow q (-(((q / 2 : ℕ) : ℤ) * i)) else 0)
      (t := t) (by omega)
    rw [Finset.sum_eq_zero (fun r hr => by rw [hsum r (Finset.mem_range.1 hr), zero_mul]), if_pos ht, eq_comm, mul_eq_zero, mul_eq_zero] at hinv
    rcases hinv with h1 | h1 | h1
    · exact absurd h1 (by exact_mod_cast hAr)
    · exact sub_eq_zero.1 h1
    · exact absurd h1 (rootPow_ne_zero _ _)
  intro t τ
  by_cases h1 : (0 ≤ t + τ ∧ t + τ < x.len) ∧ 0 ≤ t - τ ∧ t - τ < x.len
  · have := key t.toNat (by omega) τ (by rw [abs_le]; omega)
    rwa [Int.toNat_of_nonneg (by omega)] at this
  · unfold wignerKernel
    rcases not_and_or.1 h1 with h2 | h2
    · rw [zext_of_not_mem (x := y) (i := t + τ) (by omega), zext_of_not_mem (x := x) (i := t + τ) (by omega)]
      simp
    · rw [zext_of_not_mem (x := y) (i := t - τ) (by omega), zext_of_not_mem (x := x) (i := t - τ) (by omega)]
      simp

/-! ## Frequencies half a band apart -/

/-- A shift by half of the sampling frequency changes the sign of every other sample. -/
theorem modulateBins_half (m : ℕ) (hm : 1 ≤ m) (x : Vec ℂ) (i : ℕ) : (modulateBins m (2 * m) x).get i = (if i % 2 = 0 then 1 else -1) * x.get i := by
  have hm' : (m : ℝ) ≠ 0 := by exact_mod_cast (by omega : m ≠ 0)
  show x.get i * expi (2 * Real.pi * (((m : ℤ) : ℝ) * i / ((2 * m : ℕ) : ℝ))) = _
  have e : 2 * Real.pi * (((m : ℤ) : ℝ) * i / ((2 * m : ℕ) : ℝ)) = i * Real.pi := by
    push_cast
    field_simp
  have e2 : expi (i * Real.pi) = (-1) ^ i := by
    unfold expi
    rw [← Complex.exp_pi_mul_I, ← Complex.exp_nat_mul]
    congr 1
    push_cast
    ring
  rw [e, e2, mul_comm]
  congr 1
  rcases Nat.even_or_odd i with h | h
  · rw [h.neg_one_pow, if_pos (Nat.even_iff.1 h)]
  · rw [h.neg_one_pow, if_neg (by have := Nat.odd_iff.1 h; omega)]

theorem sameWvd_of_phases {x y : Vec ℂ} (hx : 1 ≤ x.len) (hl : y.len = x.len) (α β : ℂ) (hα : ‖α‖ = 1) (hβ : ‖β‖ = 1)
    (h : ∀ i < x.len, y.get i = (if i % 2 = 0 then α else β) * x.get i) : SameWvd x y := by
  have hr : roundEven (((2 * x.len : ℕ) : ℝ) / 2) = x.len := by
    rw [show (((2 * x.len : ℕ) : ℝ) / 2) = ((x.len : ℕ) : ℝ) by push_cast; ring, roundEven_natCast]
  obtain ⟨M, hM⟩ := (C32_returns_iff x (arange 0 x.len) (2 * x.len) (by omega)).2 ⟨by rw [arange_len]; omega, .inl (by rw [hr]; omega)⟩
  obtain ⟨M', hM'⟩ := (C32_returns_iff y (arange 0 x.len) (2 * x.len) (by omega)).2 ⟨by rw [arange_len]; omega, .inl (by rw [hr]; omega)⟩
  exact ⟨hl, 2 * x.len, arange 0 x.len, M, M', by omega, hM, hM', (C73_determines x y _ _ (by omega) hl M M' hM hM').2 ⟨α, β, hα, hβ, h⟩⟩

/-- A signal and the signal shifted by half of the sampling frequency have the same Wigner-Ville distribution, although the shift moves every row of the
spectrogram by half of the rows. -/
theorem C106_half_shift (x : Vec ℂ) (hx : 1 ≤ x.len) (m : ℕ) (hm : 1 ≤ m) :
    SameWvd x (modulateBins m (2 * m) x) ∧
    ∀ (ts : Vec ℤ) (L : ℕ) (h : Vec ℂ), h.len = 2 * L + 1 ∨ h.len = 2 * L + 2 → WindowOk h (2 * m) L x.len ts →
      ∃ X Y, SpectroReturns x ts (2 * m) h X ∧ SpectroReturns (modulateBins m (2 * m) x) ts (2 * m) h Y ∧
        ∀ k < m, ∀ c < ts.len, Y.get k c = X.get (k + m) c ∧ Y.get (k + m) c = X.get k c := by
  refine ⟨sameWvd_of_phases hx rfl 1 (-1) (by simp) (by simp) (fun i _ => modulateBins_half m hm x i), fun ts L h hh hw => ?_⟩
  obtain ⟨X, Y, h1, h2, h3⟩ := C31_modulation x ts (2 * m) L h hh (by omega) hw m
  refine ⟨X, Y, h1, h2, fun k hk c hc => ⟨?_, ?_⟩⟩
  · rw [h3 k (by omega) c hc]
    congr 1
    unfold rollRow
    rw [← Int.add_emod_right, Int.emod_eq_of_lt (by push_cast; omega) (by push_cast; omega)]
    push_cast
    omega
  · rw [h3 (k + m) (by omega) c hc]
    congr 1
    unfold rollRow
    rw [Int.emod_eq_of_lt (by push_cast; omega) (by push_cast; omega)]
    push_cast
    omega

/-- The tones of frequencies `f` and `f - 1/2` have the same Wigner-Ville distribution. -/
theorem C106_tones (n k : ℕ) (hk : k < n) (f : ℝ) (h0 : 0 ≤ f) (h1 : f ≤ 1 / 2) :
    ∃ X Y law law', FM.fmconst n f (some k) = .ok (X, law) ∧ FM.fmconst n (f - 1 / 2) (some k) = .ok (Y, law') ∧ SameWvd X Y := by
  refine ⟨_, _, _, _, FM.fmconst_ok n k f hk (by rw [abs_le]; constructor <;> linarith),
    FM.fmconst_ok n k (f - 1 / 2) hk (by rw [abs_le]; constructor <;> linarith), ?_⟩
  have hu : ‖expi (Real.pi * k)‖ = 1 := norm_expi _
  refine sameWvd_of_phases (by show 1 ≤ n; omega) rfl (expi (Real.pi * k)) (-expi (Real.pi * k)) hu (by rw [norm_neg, hu]) (fun i _ => ?_)
  show expi (2 * Real.pi * (f - 1 / 2) * ((i : ℝ) - k)) = _ * expi (2 * Real.pi * f * ((i : ℝ) - k))
  have e2 : expi (-(i * Real.pi)) = (-1) ^ i := by
    have : expi (-(i * Real.pi)) = (expi (-Real.pi)) ^ i := by
      unfold expi
      rw [← Complex.exp_nat_mul]
      congr 1
      push_cast
      ring
    rw [this]
    congr 1
    unfold expi
    rw [Complex.ofReal_neg, neg_mul, Complex.exp_neg, Complex.exp_pi_mul_I]
    norm_num
  have e : 2 * Real.pi * (f - 1 / 2) * ((i : ℝ) - k) = 2 * Real.pi * f * ((i : ℝ) - k) + (Real.pi * k + -(i * Real.pi)) := by ring
  rw [e, expi_add, expi_add, e2]
  rcases Nat.even_or_odd i with h | h
  · rw [h.neg_one_pow, if_pos (Nat.even_iff.1 h)]
    ring
  · rw [h.neg_one_pow, if_neg (by have := Nat.odd_iff.1 h; omega)]
    ring

/-- The other representations do tell such signals apart: for `(1, 1)` and `(1, -1)`, which have the same Wigner-Ville distribution, `locfreq` finds the centres
0 and -1/2, and the Margenau-Hill and Page distributions differ. -/
theorem C106_told_apart : ∃ x y : Vec ℂ, SameWvd x y ∧
    (∃ B B', TF.locfreq x = .ok (0, B) ∧ TF.locfreq y = .ok (-(1 / 2), B')) ∧
    (∃ X Y, MhReturns x (arange 0 2) 2 X ∧ MhReturns y (arange 0 2) 2 Y ∧ X.get 0 0 = 1 ∧ Y.get 0 0 = -1) ∧
    ∃ X Y, PageReturns x (arange 0 2) 2 X ∧ PageReturns y (arange 0 2) 2 Y ∧ X.get 0 0 = 2 ∧ Y.get 0 0 = 0 := by
  have hts : ∀ c < (arange 0 2).len, 0 ≤ (arange 0 2).get c ∧ (arange 0 2).get c < ((2 : ℕ) : ℤ) := by
    intro c hc
    rw [arange_len] at hc
    rw [arange_get]
    omega
  have hen : ∀ b : ℂ, ‖b‖ = 1 → energy ⟨2, fun i => if i = 0 then 1 else b⟩ ≠ 0 := by
    intro b hb
    unfold energy
    simp [Finset.sum_range_succ, hb]
  have hd : ∀ b : ℂ, dft ⟨2, fun i => if i = 0 then 1 else b⟩ 0 = 1 + b ∧ dft ⟨2, fun i => if i = 0 then 1 else b⟩ 1 = 1 - b := by
    intro b
    have e : rootPow 2 1 = -1 := by
      rw [rootPow_eq_exp, show ((-(2 * Real.pi * ((1 : ℤ) : ℝ) / ((2 : ℕ) : ℝ)) : ℝ) : ℂ) * Complex.I = -(Real.pi * Complex.I) by push_cast; ring,
        Complex.exp_neg, Complex.exp_pi_mul_I]
      norm_num
    rw [dft_eq_dftC, dft_eq_dftC]
    unfold dftC
    simp [Finset.sum_range_succ, e]
    ring
  have hb : binFreq 2 0 = 0 ∧ binFreq 2 1 = -(1 / 2) := by
    constructor <;> norm_num [binFreq]
  refine ⟨⟨2, fun i => if i = 0 then 1 else 1⟩, ⟨2, fun i => if i = 0 then 1 else -1⟩,
    sameWvd_of_phases (by norm_num) rfl 1 (-1) (by simp) (by simp) (fun i hi => ?_), ?_, ?_, ?_⟩
  · change i < 2 at hi
    rcases (by omega : i = 0 ∨ i = 1) with rfl | rfl <;> simp
  · have e1 : wmean 2 (binFreq 2) (fun k => ‖dft ⟨2, fun i => if i = 0 then 1 else 1⟩ k‖ ^ 2) = 0 := by
      unfold wmean
      simp only [Finset.sum_range_succ, Finset.sum_range_zero, (hd 1).1, (hd 1).2, hb.1]
      norm_num
    have e2 : wmean 2 (binFreq 2) (fun k => ‖dft ⟨2, fun i => if i = 0 then 1 else -1⟩ k‖ ^ 2) = -(1 / 2) := by
      unfold wmean
      simp only [Finset.sum_range_succ, Finset.sum_range_zero, (hd (-1)).1, (hd (-1)).2, hb.2]
      norm_num
    have l1 := C45_locfreq ⟨2, fun i => if i = 0 then 1 else 1⟩ (by show 2 % 4 ≠ 1; norm_num) (hen 1 (by simp))
    have l2 := C45_locfreq ⟨2, fun i => if i = 0 then 1 else -1⟩ (by show 2 % 4 ≠ 1; norm_num) (hen (-1) (by simp))
    dsimp only at l1 l2
    rw [e1] at l1
    rw [e2] at l2
    exact ⟨_, _, l1, l2⟩
  · obtain ⟨X, x1, -, -, x4⟩ := C38_margenau_hill ⟨2, fun i => if i = 0 then 1 else 1⟩ (arange 0 2) 2 (by norm_num) hts
    obtain ⟨Y, y1, -, -, y4⟩ := C38_margenau_hill ⟨2, fun i => if i = 0 then 1 else -1⟩ (arange 0 2) 2 (by norm_num) hts
    refine ⟨X, Y, x1, y1, ?_, ?_⟩
    · rw [x4 0 (by norm_num) 0 (by rw [arange_len]; norm_num)]
      simp [expi]
    · rw [y4 0 (by norm_num) 0 (by rw [arange_len]; norm_num)]
      simp [arange_get, expi]
  · obtain ⟨X, x1, -, -, x4⟩ := C39_page ⟨2, fun i => if i = 0 then 1 else 1⟩ (arange 0 2) 2 (by norm_num) hts
    obtain ⟨Y, y1, -, -, y4⟩ := C39_page ⟨2, fun i => if i = 0 then 1 else -1⟩ (arange 0 2) 2 (by norm_num) hts
    refine ⟨X, Y, x1, y1, ?_, ?_⟩
    · rw [x4 0 (by norm_num) 0 (by rw [arange_len]; norm_num)]
      simp [expi]
    · rw [y4 0 (by norm_num) 0 (by rw [arange_len]; norm_num)]
      simp [arange_get, expi, Finset.sum_range_succ]

/-! ## Concrete cases -/

/-- Three samples, the middle one with the other sign: same centre in time, same pseudo Wigner-Ville distribution with a window of three ones. -/
example : TF.loctime ⟨3, fun i => [1, -2, 3].getD i 0⟩ = TF.loctime ⟨3, fun i => [1, 2, 3].getD i 0⟩ ∧
    ∃ X Y, PwvdReturns ⟨3, fun i => [1, 2, 3].getD i 0⟩ (arange 0 3) 8 (some ⟨3, fun _ => 1⟩) X ∧
      PwvdReturns ⟨3, fun i => [1, -2, 3].getD i 0⟩ (arange 0 3) 8 (some ⟨3, fun _ => 1⟩) Y ∧ Y.get 5 1 = X.get 5 1 := by
  have hs : SameWvd ⟨3, fun i => [1, 2, 3].getD i 0⟩ ⟨3, fun i => [1, -2, 3].getD i 0⟩ := by
    refine sameWvd_of_phases (by norm_num) rfl 1 (-1) (by simp) (by simp) (fun i hi => ?_)
    change i < 3 at hi
    rcases (by omega : i = 0 ∨ i = 1 ∨ i = 2) with rfl | rfl | rfl <;> simp
  obtain ⟨X, Y, h1, h2, h3⟩ := C106_pwvd _ _ hs (arange 0 3) 8 ⟨3, fun _ => 1⟩ 1 rfl (by rw [roundEven_half]; norm_num)
  exact ⟨C106_loctime _ _ hs, X, Y, h1, h2, h3 5 (by norm_num) 1 (by simp [arange])⟩

/-- The tones of frequencies 0.1 and -0.4: `inst_freq` gives the same frequencies for both. -/
example : ∃ X Y law law', FM.fmconst 16 (1 / 10) (some ((8 : ℕ) : ℝ)) = .ok (X, law) ∧ FM.fmconst 16 (1 / 10 - 1 / 2) (some ((8 : ℕ) : ℝ)) = .ok (Y, law') ∧
    ∃ f g, TF.instFreq X (some ⟨1, fun _ => 5⟩) = .ok (f, ⟨1, fun _ => 5⟩) ∧ TF.instFreq Y (some ⟨1, fun _ => 5⟩) = .ok (g, ⟨1, fun _ => 5⟩) ∧
      g.get 0 = f.get 0 := by
  obtain ⟨X, Y, law, law', h1, h2, hs⟩ := C106_tones 16 8 (by norm_num) (1 / 10) (by norm_num) (by norm_num)
  have hX : X.len = 16 := by
    rw [FM.fmconst_ok 16 8 (1 / 10) (by norm_num) (by rw [abs_le]; constructor <;> norm_num)] at h1
    injection h1 with h1
    injection h1 with h1 _
    rw [← h1]
  obtain ⟨f, g, f1, g1, -, -, e⟩ := C106_inst_freq X Y hs ⟨1, fun _ => 5⟩ (fun j _ => by rw [hX]; constructor <;> norm_num)
  exact ⟨X, Y, law, law', h1, h2, f, g, f1, g1, e 0 (by norm_num)⟩

end Tftb.Props
