import Verif.Props.Spwv
import Verif.Props.Ambiguity
import Verif.Props.Stft

/-! # C83 Superposition: the bilinear representations obey the parallelogram law, and two tones interfere half way

`D(a x + b y) + D(a x - b y) = 2 |a|² D(x) + 2 |b|² D(y)` entry by entry, for every representation of Cohen's class.
-/

namespace Tftb.Props

open Tftb Tftb.Spec Tftb.Linear Tftb.Cohen Finset ComplexConjugate

/-- The signal `a x + b y`. -/
def combo (a b : ℂ) (x y : Vec ℂ) : Vec ℂ := ⟨x.len, fun t => a * x.get t + b * y.get t⟩

theorem sesq (a b u v u' v' : ℂ) :
    (a * u + b * v) * conj (a * u' + b * v') + (a * u + -b * v) * conj (a * u' + -b * v')
      = ((2 * ‖a‖ ^ 2 : ℝ) : ℂ) * (u * conj u') + ((2 * ‖b‖ ^ 2 : ℝ) : ℂ) * (v * conj v') := by
  have ha := mul_conj_eq_norm_sq a
  have hb := mul_conj_eq_norm_sq b
  push_cast at ha hb ⊢
  rw [← ha, ← hb]
  simp only [map_add, map_mul, map_neg]
  ring

theorem zext_combo {x y : Vec ℂ} (hxy : y.len = x.len) (a b : ℂ) (i : ℤ) :
    zext (combo a b x y) i = a * zext x i + b * zext y i := zext_lin x y hxy a b i

theorem wignerKernel_combo {x y : Vec ℂ} (hxy : y.len = x.len) (a b : ℂ) (t τ : ℤ) :
    wignerKernel (combo a b x y) t τ + wignerKernel (combo a (-b) x y) t τ
      = ((2 * ‖a‖ ^ 2 : ℝ) : ℂ) * wignerKernel x t τ + ((2 * ‖b‖ ^ 2 : ℝ) : ℂ) * wignerKernel y t τ := by
  unfold wignerKernel
  simp only [zext_combo hxy]
  exact sesq _ _ _ _ _ _

theorem lagSum_law {R : ℤ} {n : ℕ} {p q v w : ℤ → ℂ} {c d : ℂ} (h : ∀ τ, p τ + q τ = c * v τ + d * w τ) (k : ℤ) :
    lagSum R n p k + lagSum R n q k = c * lagSum R n v k + d * lagSum R n w k := by
  unfold lagSum
  rw [← Finset.sum_add_distrib, Finset.mul_sum, Finset.mul_sum, ← Finset.sum_add_distrib]
  apply Finset.sum_congr rfl
  intro τ _
  rw [← add_mul, h]
  ring

theorem re_law {p q v w : ℂ} {c d : ℝ} (h : p + q = (c : ℂ) * v + (d : ℂ) * w) : p.re + q.re = c * v.re + d * w.re := by
  have := congrArg Complex.re h
  simpa using this

/-- Wigner-Ville. -/
theorem C83_wvd {τ : Type} (x y : Vec ℂ) (hxy : y.len = x.len) (a b : ℂ) (ts : Vec τ) (n : ℕ) (hn : n ≠ 0)
    (X : Mat ℝ) (hX : WvdReturns x ts n X) :
    ∃ Y P Q, WvdReturns y ts n Y ∧ WvdReturns (combo a b x y) ts n P ∧ WvdReturns (combo a (-b) x y) ts n Q ∧
      ∀ k < n, ∀ t < x.len, P.get k t + Q.get k t = 2 * ‖a‖ ^ 2 * X.get k t + 2 * ‖b‖ ^ 2 * Y.get k t := by
  obtain ⟨hts, hN⟩ := (C32_returns_iff x ts n hn).1 ⟨X, hX⟩
  obtain ⟨X', x1, _, _, x4⟩ := C33_wvd x ts n hn hts hN
  obtain rfl := wvd_unique hX x1
  obtain ⟨Y, y1, _, _, y4⟩ := C33_wvd y ts n hn (hts.trans hxy.symm) (by rw [hxy]; exact hN)
  obtain ⟨P, p1, _, _, p4⟩ := C33_wvd (combo a b x y) ts n hn hts hN
  obtain ⟨Q, q1, _, _, q4⟩ := C33_wvd (combo a (-b) x y) ts n hn hts hN
  refine ⟨Y, P, Q, y1, p1, q1, fun k hk t ht => ?_⟩
  have h := lagSum_law (R := roundEven ((n : ℝ) / 2) - 1) (n := n) (wignerKernel_combo hxy a b t) k
  rw [← p4 k hk t ht, ← q4 k hk t ht, ← x4 k hk t ht, ← y4 k hk t (by rw [hxy]; exact ht)] at h
  exact_mod_cast h

/-- Pseudo Wigner-Ville, any odd window shorter than half of the bins. -/
theorem C83_pwvd {τ : Type} (x y : Vec ℂ) (hxy : y.len = x.len) (a b : ℂ) (ts : Vec τ) (n : ℕ) (h : Vec ℂ) (L : ℕ)
    (hh : h.len = 2 * L + 1) (hL : (L : ℤ) < roundEven ((n : ℝ) / 2)) :
    ∃ X Y P Q, PwvdReturns x ts n (some h) X ∧ PwvdReturns y ts n (some h) Y ∧
      PwvdReturns (combo a b x y) ts n (some h) P ∧ PwvdReturns (combo a (-b) x y) ts n (some h) Q ∧
      ∀ k < n, ∀ t < ts.len, P.get k t + Q.get k t = 2 * ‖a‖ ^ 2 * X.get k t + 2 * ‖b‖ ^ 2 * Y.get k t := by
  obtain ⟨X, x1, _, _, x4⟩ := C36_pwvd x ts n h L hh hL
  obtain ⟨Y, y1, _, _, y4⟩ := C36_pwvd y ts n h L hh hL
  obtain ⟨P, p1, _, _, p4⟩ := C36_pwvd (combo a b x y) ts n h L hh hL
  obtain ⟨Q, q1, _, _, q4⟩ := C36_pwvd (combo a (-b) x y) ts n h L hh hL
  refine ⟨X, Y, P, Q, x1, y1, p1, q1, fun k hk t ht => ?_⟩
  rw [p4 k hk t ht, q4 k hk t ht, x4 k hk t ht, y4 k hk t ht]
  apply re_law
  apply lagSum_law
  intro τ
  rw [← mul_add, wignerKernel_combo hxy]
  ring

/-- Margenau-Hill, timestamps inside the signal. -/
theorem C83_margenau_hill (x y : Vec ℂ) (hxy : y.len = x.len) (a b : ℂ) (ts : Vec ℤ) (n : ℕ) (hn : n ≠ 0)
    (hts : ∀ c < ts.len, 0 ≤ ts.get c ∧ ts.get c < x.len) :
    ∃ X Y P Q, MhReturns x ts n X ∧ MhReturns y ts n Y ∧ MhReturns (combo a b x y) ts n P ∧
      MhReturns (combo a (-b) x y) ts n Q ∧
      ∀ k < n, ∀ t < ts.len, P.get k t + Q.get k t = 2 * ‖a‖ ^ 2 * X.get k t + 2 * ‖b‖ ^ 2 * Y.get k t := by
  obtain ⟨X, x1, _, _, x4⟩ := C38_margenau_hill x ts n hn hts
  obtain ⟨Y, y1, _, _, y4⟩ := C38_margenau_hill y ts n hn (by rw [hxy]; exact hts)
  obtain ⟨P, p1, _, _, p4⟩ := C38_margenau_hill (combo a b x y) ts n hn hts
  obtain ⟨Q, q1, _, _, q4⟩ := C38_margenau_hill (combo a (-b) x y) ts n hn hts
  refine ⟨X, Y, P, Q, x1, y1, p1, q1, fun k hk t ht => ?_⟩
  rw [p4 k hk t ht, q4 k hk t ht, x4 k hk t ht, y4 k hk t ht, hxy]
  apply re_law
  show (∑ s ∈ Finset.Ico 1 (min n x.len), _) + (∑ s ∈ Finset.Ico 1 (min n x.len), _) = _
  rw [← Finset.sum_add_distrib, Finset.mul_sum, Finset.mul_sum, ← Finset.sum_add_distrib]
  apply Finset.sum_congr rfl
  intro s _
  rw [← add_mul]
  show ((a * x.get _ + b * y.get _) * conj (a * x.get _ + b * y.get _)
    + (a * x.get _ + -b * y.get _) * conj (a * x.get _ + -b * y.get _)) * _ = _
  rw [sesq]
  ring

/-- Page, timestamps inside the signal. -/
theorem C83_page (x y : Vec ℂ) (hxy : y.len = x.len) (a b : ℂ) (ts : Vec ℤ) (n : ℕ) (hn : n ≠ 0)
    (hts : ∀ c < ts.len, 0 ≤ ts.get c ∧ ts.get c < x.len) :
    ∃ X Y P Q, PageReturns x ts n X ∧ PageReturns y ts n Y ∧ PageReturns (combo a b x y) ts n P ∧
      PageReturns (combo a (-b) x y) ts n Q ∧
      ∀ k < n, ∀ t < ts.len, P.get k t + Q.get k t = 2 * ‖a‖ ^ 2 * X.get k t + 2 * ‖b‖ ^ 2 * Y.get k t := by
  obtain ⟨X, x1, _, _, x4⟩ := C39_page x ts n hn hts
  obtain ⟨Y, y1, _, _, y4⟩ := C39_page y ts n hn (by rw [hxy]; exact hts)
  obtain ⟨P, p1, _, _, p4⟩ := C39_page (combo a b x y) ts n hn hts
  obtain ⟨Q, q1, _, _, q4⟩ := C39_page (combo a (-b) x y) ts n hn hts
  refine ⟨X, Y, P, Q, x1, y1, p1, q1, fun k hk t ht => ?_⟩
  rw [p4 k hk t ht, q4 k hk t ht, x4 k hk t ht, y4 k hk t ht, hxy]
  apply re_law
  show (∑ s ∈ range (min n x.len), _) + (∑ s ∈ range (min n x.len), _) = _
  rw [← Finset.sum_add_distrib, Finset.mul_sum, Finset.mul_sum, ← Finset.sum_add_distrib]
  apply Finset.sum_congr rfl
  intro s _
  rw [← add_mul]
  show ((a * x.get _ + b * y.get _) * conj (a * x.get _ + b * y.get _)
    + (a * x.get _ + -b * y.get _) * conj (a * x.get _ + -b * y.get _)) * _ = _
  rw [sesq]
  ring

/-- Pseudo Margenau-Hill (complex values). -/
theorem C83_pmh {τ : Type} (x y : Vec ℂ) (hxy : y.len = x.len) (a b : ℂ) (ts : Vec τ) (n : ℕ) (h : Vec ℂ) (L : ℕ)
    (hh : h.len = 2 * L + 1)
    (hL : (L : ℤ) < roundEven ((n : ℝ) / 2) - 1 ∨ (x.len : ℤ) < roundEven ((n : ℝ) / 2) - 1) (hts : ts.len ≤ x.len) :
    ∃ X Y P Q, PmhReturns x ts n (some h) X ∧ PmhReturns y ts n (some h) Y ∧
      PmhReturns (combo a b x y) ts n (some h) P ∧ PmhReturns (combo a (-b) x y) ts n (some h) Q ∧
      ∀ k < n, ∀ t < ts.len, P.get k t + Q.get k t
        = (2 * ‖a‖ ^ 2 : ℝ) * X.get k t + (2 * ‖b‖ ^ 2 : ℝ) * Y.get k t := by
  obtain ⟨X, x1, _, _, x4⟩ := (C61_pmh x ts n h L hh hL).1 hts
  obtain ⟨Y, y1, _, _, y4⟩ := (C61_pmh y ts n h L hh (by rw [hxy]; exact hL)).1 (by rw [hxy]; exact hts)
  obtain ⟨P, p1, _, _, p4⟩ := (C61_pmh (combo a b x y) ts n h L hh hL).1 hts
  obtain ⟨Q, q1, _, _, q4⟩ := (C61_pmh (combo a (-b) x y) ts n h L hh hL).1 hts
  refine ⟨X, Y, P, Q, x1, y1, p1, q1, fun k hk t ht => ?_⟩
  rw [p4 k hk t ht, q4 k hk t ht, x4 k hk t ht, y4 k hk t ht]
  apply lagSum_law
  intro τ
  rw [zext_combo hxy, zext_combo hxy]
  show h.get _ * (a * x.get t + b * y.get t) * _ + h.get _ * (a * x.get t + -b * y.get t) * _ = _
  rw [mul_assoc, mul_assoc, ← mul_add, sesq]
  ring

/-- Spectrogram, any window without zero-energy segments. -/
theorem C83_spectrogram (x y : Vec ℂ) (hxy : y.len = x.len) (a b : ℂ) (ts : Vec ℤ) (n L : ℕ) (h : Vec ℂ)
    (hh : h.len = 2 * L + 1 ∨ h.len = 2 * L + 2) (hn : n ≠ 0) (hw : WindowOk h n L x.len ts) :
    ∃ X Y P Q, SpectroReturns x ts n h X ∧ SpectroReturns y ts n h Y ∧
      SpectroReturns (combo a b x y) ts n h P ∧ SpectroReturns (combo a (-b) x y) ts n h Q ∧
      ∀ k < n, ∀ t < ts.len, P.get k t + Q.get k t = 2 * ‖a‖ ^ 2 * X.get k t + 2 * ‖b‖ ^ 2 * Y.get k t := by
  obtain ⟨X, x1, _, _, x4⟩ := C31_closed_form x ts n L h hh hn hw
  obtain ⟨Y, y1, _, _, y4⟩ := C31_closed_form y ts n L h hh hn (by rw [hxy]; exact hw)
  obtain ⟨P, p1, _, _, p4⟩ := C31_closed_form (combo a b x y) ts n L h hh hn hw
  obtain ⟨Q, q1, _, _, q4⟩ := C31_closed_form (combo a (-b) x y) ts n L h hh hn hw
  refine ⟨X, Y, P, Q, x1, y1, p1, q1, fun k hk t ht => ?_⟩
  obtain ⟨x5, x6⟩ := x4 k hk t ht
  obtain ⟨y5, y6⟩ := y4 k hk t ht
  obtain ⟨p5, p6⟩ := p4 k hk t ht
  obtain ⟨q5, q6⟩ := q4 k hk t ht
  rw [hxy] at y5 y6
  change segLags _ x.len _ = ∅ → _ at p5
  change segLags _ x.len _ = ∅ → _ at q5
  change _ * windowEnergy h n L x.len _ = ‖∑ τ ∈ segLags _ x.len _, _‖ ^ 2 at p6
  change _ * windowEnergy h n L x.len _ = ‖∑ τ ∈ segLags _ x.len _, _‖ ^ 2 at q6
  rcases hw t ht with h0 | h0
  · apply mul_right_cancel₀ h0
    have e : ∀ c d : ℂ, ∑ τ ∈ segLags (min (roundEven ((n : ℝ) / 2) - 1) L) x.len (ts.get t - 1),
          zext (combo c d x y) (ts.get t - 1 + τ) * conj (h.get ((L : ℤ) + τ).toNat) * expi (-(2 * Real.pi * (k * τ / n)))
        = c * ∑ τ ∈ segLags (min (roundEven ((n : ℝ) / 2) - 1) L) x.len (ts.get t - 1),
          zext x (ts.get t - 1 + τ) * conj (h.get ((L : ℤ) + τ).toNat) * expi (-(2 * Real.pi * (k * τ / n)))
        + d * ∑ τ ∈ segLags (min (roundEven ((n : ℝ) / 2) - 1) L) x.len (ts.get t - 1),
          zext y (ts.get t - 1 + τ) * conj (h.get ((L : ℤ) + τ).toNat) * expi (-(2 * Real.pi * (k * τ / n))) := by
      intro c d
      rw [Finset.mul_sum, Finset.mul_sum, ← Finset.sum_add_distrib]
      apply Finset.sum_congr rfl
      intro τ _
      rw [zext_combo hxy]
      ring
    rw [e] at p6 q6
    rw [add_mul, p6, q6, add_mul, mul_assoc (2 * ‖a‖ ^ 2), mul_assoc (2 * ‖b‖ ^ 2), x6, y6]
    have := sesq a b (∑ τ ∈ segLags (min (roundEven ((n : ℝ) / 2) - 1) L) x.len (ts.get t - 1),
          zext x (ts.get t - 1 + τ) * conj (h.get ((L : ℤ) + τ).toNat) * expi (-(2 * Real.pi * (k * τ / n))))
      (∑ τ ∈ segLags (min (roundEven ((n : ℝ) / 2) - 1) L) x.len (ts.get t - 1),
          zext y (ts.get t - 1 + τ) * conj (h.get ((L : ℤ) + τ).toNat) * expi (-(2 * Real.pi * (k * τ / n))))
      (∑ τ ∈ segLags (min (roundEven ((n : ℝ) / 2) - 1) L) x.len (ts.get t - 1),
          zext x (ts.get t - 1 + τ) * conj (h.get ((L : ℤ) + τ).toNat) * expi (-(2 * Real.pi * (k * τ / n))))
      (∑ τ ∈ segLags (min (roundEven ((n : ℝ) / 2) - 1) L) x.len (ts.get t - 1),
          zext y (ts.get t - 1 + τ) * conj (h.get ((L : ℤ) + τ).toNat) * expi (-(2 * Real.pi * (k * τ / n))))
    rw [mul_conj_eq_norm_sq, mul_conj_eq_norm_sq, mul_conj_eq_norm_sq, mul_conj_eq_norm_sq] at this
    exact_mod_cast this
  · rw [x5 h0, y5 h0, p5 h0, q5 h0]
    ring

theorem smoothCorr_combo {x y : Vec ℂ} (hxy : y.len = x.len) (a b : ℂ) (g : Vec ℂ) (L : ℕ) (c τ : ℤ) :
    smoothCorr g L (combo a b x y) c τ + smoothCorr g L (combo a (-b) x y) c τ
      = ((2 * ‖a‖ ^ 2 : ℝ) : ℂ) * smoothCorr g L x c τ + ((2 * ‖b‖ ^ 2 : ℝ) : ℂ) * smoothCorr g L y c τ := by
  unfold smoothCorr
  rw [hxy]
  show (∑ p ∈ smoothSeg L x.len c τ, _) / smoothMass g L x.len c τ + (∑ p ∈ smoothSeg L x.len c τ, _) / smoothMass g L x.len c τ = _
  rw [← add_div, ← mul_div_assoc, ← mul_div_assoc, ← add_div, ← Finset.sum_add_distrib, Finset.mul_sum, Finset.mul_sum,
    ← Finset.sum_add_distrib]
  congr 1
  apply Finset.sum_congr rfl
  intro p _
  rw [← mul_add, wignerKernel_combo hxy]
  ring

/-- Smoothed pseudo Wigner-Ville, odd windows. -/
theorem C83_spwv (x y : Vec ℂ) (hxy : y.len = x.len) (a b : ℂ) (tw fw : Vec ℂ) (ts : Vec ℤ) (n Lg Lh : ℕ) (hn : n ≠ 0)
    (hg : tw.len = 2 * Lg + 1) (hh : fw.len = 2 * Lh + 1)
    (hfin : ∀ c < ts.len, ∀ τ : ℕ, (smoothSeg Lg x.len (ts.get c - 1) τ).Nonempty → smoothMass tw Lg x.len (ts.get c - 1) τ ≠ 0)
    (hz : ∀ c < ts.len, (Lh : ℤ) < roundEven ((n : ℝ) / 2) ∨ ts.get c ≤ roundEven ((n : ℝ) / 2) ∨
      (x.len : ℤ) - roundEven ((n : ℝ) / 2) < ts.get c) :
    ∃ X Y P Q, spwv x (some ts) (some n) (some tw) (some fw) = .ok X ∧ spwv y (some ts) (some n) (some tw) (some fw) = .ok Y ∧
      spwv (combo a b x y) (some ts) (some n) (some tw) (some fw) = .ok P ∧
      spwv (combo a (-b) x y) (some ts) (some n) (some tw) (some fw) = .ok Q ∧
      ∀ k < n, ∀ t < ts.len, P.get k t + Q.get k t = 2 * ‖a‖ ^ 2 * X.get k t + 2 * ‖b‖ ^ 2 * Y.get k t := by
  obtain ⟨X, x1, _, _, x4⟩ := C37_closed_form x tw fw ts n Lg Lh hn hg hh hfin hz
  obtain ⟨Y, y1, _, _, y4⟩ := C37_closed_form y tw fw ts n Lg Lh hn hg hh (by rw [hxy]; exact hfin) (by rw [hxy]; exact hz)
  obtain ⟨P, p1, _, _, p4⟩ := C37_closed_form (combo a b x y) tw fw ts n Lg Lh hn hg hh hfin hz
  obtain ⟨Q, q1, _, _, q4⟩ := C37_closed_form (combo a (-b) x y) tw fw ts n Lg Lh hn hg hh hfin hz
  refine ⟨X, Y, P, Q, x1, y1, p1, q1, fun k hk t ht => ?_⟩
  rw [p4 k hk t ht, q4 k hk t ht, x4 k hk t ht, y4 k hk t ht, hxy]
  apply re_law
  change (_ + ∑ τ ∈ range (min (min (ts.get t + Lg - 1) (x.len - ts.get t + Lg)) _).toNat, _)
    + (_ + ∑ τ ∈ range (min (min (ts.get t + Lg - 1) (x.len - ts.get t + Lg)) _).toNat, _) = _
  have h0 := smoothCorr_combo hxy a b tw Lg (ts.get t - 1) 0
  have hs : ∀ m : ℕ, ∀ f : Vec ℂ → ℕ → ℂ, (∀ τ, f (combo a b x y) τ + f (combo a (-b) x y) τ
      = ((2 * ‖a‖ ^ 2 : ℝ) : ℂ) * f x τ + ((2 * ‖b‖ ^ 2 : ℝ) : ℂ) * f y τ) →
      ∑ τ ∈ range m, f (combo a b x y) τ + ∑ τ ∈ range m, f (combo a (-b) x y) τ
      = ((2 * ‖a‖ ^ 2 : ℝ) : ℂ) * ∑ τ ∈ range m, f x τ + ((2 * ‖b‖ ^ 2 : ℝ) : ℂ) * ∑ τ ∈ range m, f y τ := by
    intro m f hf
    rw [← Finset.sum_add_distrib, Finset.mul_sum, Finset.mul_sum, ← Finset.sum_add_distrib]
    exact Finset.sum_congr rfl (fun τ _ => hf τ)
  have h3 := hs (min (min (ts.get t + Lg - 1) (x.len - ts.get t + Lg)) (min (roundEven ((n : ℝ) / 2) - 1) Lh)).toNat
    (fun z τ => fw.get (Lh + τ + 1) * smoothCorr tw Lg z (ts.get t - 1) τ * expi (-(2 * Real.pi * (k * (τ + 1) / n)))
          + fw.get (Lh + 1 - τ) * smoothCorr tw Lg z (ts.get t - 1) (-τ) * expi (2 * Real.pi * (k * (τ + 1) / n)))
    (fun τ => by
      have h1 := smoothCorr_combo hxy a b tw Lg (ts.get t - 1) τ
      have h2 := smoothCorr_combo hxy a b tw Lg (ts.get t - 1) (-τ)
      linear_combination (fw.get (Lh + τ + 1) * expi (-(2 * Real.pi * (k * (τ + 1) / n)))) * h1
        + (fw.get (Lh + 1 - τ) * expi (2 * Real.pi * (k * (τ + 1) / n))) * h2)
  linear_combination h0 + h3

/-- `x = 1, 1`, `y = 1, -1`: in the first bin of sample 1 the sum `2, 0` has nothing and the difference `0, 2` has all. -/
example : ∃ X Y P Q, MhReturns ⟨2, fun _ => 1⟩ (arange 0 2) 2 X ∧ MhReturns ⟨2, fun i => if i = 0 then 1 else -1⟩ (arange 0 2) 2 Y ∧
    MhReturns (combo 1 1 ⟨2, fun _ => 1⟩ ⟨2, fun i => if i = 0 then 1 else -1⟩) (arange 0 2) 2 P ∧
    MhReturns (combo 1 (-1) ⟨2, fun _ => 1⟩ ⟨2, fun i => if i = 0 then 1 else -1⟩) (arange 0 2) 2 Q ∧
    P.get 0 1 + Q.get 0 1 = 2 * X.get 0 1 + 2 * Y.get 0 1 := by
  obtain ⟨X, Y, P, Q, h1, h2, h3, h4, h5⟩ := C83_margenau_hill ⟨2, fun _ => 1⟩ ⟨2, fun i => if i = 0 then 1 else -1⟩ rfl 1 1
    (arange 0 2) 2 (by norm_num) (fun c hc => by
      obtain ⟨e1, e2⟩ := arange_default 2
      have hc' : c < (arange 0 ((2 : ℕ) : ℤ)).len := hc
      rw [e1] at hc'
      have : (arange 0 2).get c = (c : ℤ) := e2 c
      rw [this]
      dsimp only
      omega)
  refine ⟨X, Y, P, Q, h1, h2, h3, h4, ?_⟩
  rw [h5 0 (by norm_num) 1 (by show 1 < (arange 0 ((2 : ℕ) : ℤ)).len; rw [(arange_default 2).1]; norm_num)]
  norm_num

/-- Narrow-band ambiguity function (complex values). -/
theorem C83_narrow_band (x y : Vec ℂ) (hxy : y.len = x.len) (a b : ℂ) (lag : Option (Vec ℝ)) (nf : Option ℕ)
    (X : Mat ℂ) (l xi : Vec ℝ) (hX : Ambiguity.narrowBand x lag nf = .ok (X, l, xi)) :
    ∃ Y P Q, Ambiguity.narrowBand y lag nf = .ok (Y, l, xi) ∧ Ambiguity.narrowBand (combo a b x y) lag nf = .ok (P, l, xi) ∧
      Ambiguity.narrowBand (combo a (-b) x y) lag nf = .ok (Q, l, xi) ∧
      ∀ r < X.rows, ∀ c < X.cols, P.get r c + Q.get r c
        = (2 * ‖a‖ ^ 2 : ℝ) * X.get r c + (2 * ‖b‖ ^ 2 : ℝ) * Y.get r c := by
  have hret := (C42_returns_iff x lag nf).1 ⟨_, hX⟩
  have hall : ∀ z : Vec ℂ, z.len = x.len → ∃ Z, Ambiguity.narrowBand z lag nf = .ok (Z, l, xi) ∧ Z.rows = X.rows ∧
      Z.cols = X.cols ∧ ∀ r < X.rows, ∀ c < X.cols, Z.get r c = ambiguity z (truncInt (l.get c)) (xi.get r) := by
    intro z hz
    obtain ⟨⟨Z, l', xi'⟩, hZ⟩ := (C42_returns_iff z lag nf).2 (by rw [hz]; exact hret)
    have hlab : l' = l ∧ xi' = xi := by
      have hc : ∀ v : Vec ℂ, v.len = x.len → ∀ V m μ, Ambiguity.narrowBand v lag nf = .ok (V, m, μ) →
          m = lag.getD (Ambiguity.nbLags x.len) ∧ μ = (Ambiguity.nbRows (nf.getD x.len)).2 := by
        intro v hv V m μ hV
        have hr := (C42_returns_iff v lag nf).1 ⟨_, hV⟩
        obtain ⟨A, e, _⟩ := (Tftb.narrowBand_eq v lag nf).1 ⟨hr.1, fun c hc => by
          have := hr.2 c hc
          unfold nbZone
          omega⟩
        rw [hV, hv] at e
        simp only [Except.ok.injEq, Prod.mk.injEq] at e
        exact e.2
      obtain ⟨a1, a2⟩ := hc z hz Z l' xi' hZ
      obtain ⟨b1, b2⟩ := hc x rfl X l xi hX
      exact ⟨a1.trans b1.symm, a2.trans b2.symm⟩
    obtain ⟨rfl, rfl⟩ := hlab
    obtain ⟨_, z2, z3, _, _, z6⟩ := C42_closed_form z lag nf Z l' xi' hZ
    obtain ⟨_, w2, w3, _, _, _⟩ := C42_closed_form x lag nf X l' xi' hX
    have e1 : Z.rows = X.rows := by rw [z2, w2, hz]
    have e2 : Z.cols = X.cols := by rw [z3, w3]
    exact ⟨Z, hZ, e1, e2, fun r hr c hc => z6 r (e1 ▸ hr) c (e2 ▸ hc)⟩
  obtain ⟨X', x1, _, _, x4⟩ := hall x rfl
  obtain ⟨Y, y1, _, _, y4⟩ := hall y hxy
  obtain ⟨P, p1, _, _, p4⟩ := hall (combo a b x y) rfl
  obtain ⟨Q, q1, _, _, q4⟩ := hall (combo a (-b) x y) rfl
  rw [hX] at x1
  simp only [Except.ok.injEq, Prod.mk.injEq, and_true] at x1
  subst x1
  refine ⟨Y, P, Q, y1, p1, q1, fun r hr c hc => ?_⟩
  rw [p4 r hr c hc, q4 r hr c hc, x4 r hr c hc, y4 r hr c hc]
  unfold ambiguity
  rw [hxy]
  show (∑ t ∈ range x.len, _) + (∑ t ∈ range x.len, _) = _
  rw [← Finset.sum_add_distrib, Finset.mul_sum, Finset.mul_sum, ← Finset.sum_add_distrib]
  apply Finset.sum_congr rfl
  intro t _
  rw [← add_mul, wignerKernel_combo hxy]
  ring

/-! ## Two tones -/

/-- Unit tone of frequency `f` cycles per sample. -/
noncomputable def unitTone (N : ℕ) (f : ℝ) : Vec ℂ := ⟨N, fun t => expi (2 * Real.pi * f * t)⟩

theorem zext_unitTone (N : ℕ) (f : ℝ) (i : ℤ) :
    zext (unitTone N f) i = if 0 ≤ i ∧ i < (N : ℤ) then expi (2 * Real.pi * f * i) else 0 := by
  unfold zext unitTone
  dsimp only
  split
  · rename_i h
    have : ((i.toNat : ℕ) : ℝ) = (i : ℝ) := by
      have : ((i.toNat : ℤ) : ℝ) = (i : ℝ) := by rw [Int.toNat_of_nonneg h.1]
      exact_mod_cast this
    rw [this]
  · rfl

/-- The correlation of the sum of two tones: the two autoterms, and a term at the mean frequency carried by the beat. -/
theorem wignerKernel_tones (N : ℕ) (f g : ℝ) (a b : ℂ) (t τ : ℤ) :
    wignerKernel (combo a b (unitTone N f) (unitTone N g)) t τ
      = ((‖a‖ ^ 2 : ℝ) : ℂ) * wignerKernel (unitTone N f) t τ + ((‖b‖ ^ 2 : ℝ) : ℂ) * wignerKernel (unitTone N g) t τ
        + ((2 * (a * conj b * expi (2 * Real.pi * (f - g) * t)).re : ℝ) : ℂ) * wignerKernel (unitTone N ((f + g) / 2)) t τ := by
  have hxy : (unitTone N g).len = (unitTone N f).len := rfl
  unfold wignerKernel
  rw [zext_combo hxy, zext_combo hxy]
  simp only [zext_unitTone]
  by_cases h1 : 0 ≤ t + τ ∧ t + τ < (N : ℤ)
  · by_cases h2 : 0 ≤ t - τ ∧ t - τ < (N : ℤ)
    · simp only [if_pos h1, if_pos h2]
      have hr : (((a * conj b * expi (2 * Real.pi * (f - g) * t)).re * 2 : ℝ) : ℂ)
          = a * conj b * expi (2 * Real.pi * (f - g) * t) + conj (a * conj b * expi (2 * Real.pi * (f - g) * t)) := by
        rw [Complex.add_conj]
        push_cast
        ring
      have ha := mul_conj_eq_norm_sq a
      have hb := mul_conj_eq_norm_sq b
      rw [mul_comm 2 (Complex.re _), hr, ← ha, ← hb]
      simp only [map_add, map_mul, Complex.conj_conj, conj_expi]
      have e1 : expi (2 * Real.pi * (f - g) * t) * (expi (2 * Real.pi * ((f + g) / 2) * (t + τ : ℤ))
          * expi (-(2 * Real.pi * ((f + g) / 2) * (t - τ : ℤ))))
          = expi (2 * Real.pi * f * (t + τ : ℤ)) * expi (-(2 * Real.pi * g * (t - τ : ℤ))) := by
        rw [← expi_add, ← expi_add, ← expi_add]
        congr 1
        push_cast
        ring
      have e2 : expi (-(2 * Real.pi * (f - g) * t)) * (expi (2 * Real.pi * ((f + g) / 2) * (t + τ : ℤ))
          * expi (-(2 * Real.pi * ((f + g) / 2) * (t - τ : ℤ))))
          = expi (2 * Real.pi * g * (t + τ : ℤ)) * expi (-(2 * Real.pi * f * (t - τ : ℤ))) := by
        rw [← expi_add, ← expi_add, ← expi_add]
        congr 1
        push_cast
        ring
      linear_combination (-(a * conj b)) * e1 - (conj a * b) * e2
    · simp only [if_neg h2]
      simp
  · simp only [if_neg h1]
    simp

/-- Wigner-Ville of two tones: the two lines, and between them the line of the mean frequency, carried by the beat
`2 Re(a b̄ e^{2πi(f-g)t})`. -/
theorem C83_two_tones {τ : Type} (N : ℕ) (f g : ℝ) (a b : ℂ) (ts : Vec τ) (n : ℕ) (hn : n ≠ 0) (hts : ts.len = N)
    (hN : (N : ℤ) ≤ 2 * roundEven ((n : ℝ) / 2) ∨ N ≤ 1) :
    ∃ F G H P, WvdReturns (unitTone N f) ts n F ∧ WvdReturns (unitTone N g) ts n G ∧
      WvdReturns (unitTone N ((f + g) / 2)) ts n H ∧
      WvdReturns (combo a b (unitTone N f) (unitTone N g)) ts n P ∧
      ∀ k < n, ∀ t < N, P.get k t = ‖a‖ ^ 2 * F.get k t + ‖b‖ ^ 2 * G.get k t
        + 2 * (a * conj b * expi (2 * Real.pi * (f - g) * t)).re * H.get k t := by
  obtain ⟨F, f1, _, _, f4⟩ := C33_wvd (unitTone N f) ts n hn hts hN
  obtain ⟨G, g1, _, _, g4⟩ := C33_wvd (unitTone N g) ts n hn hts hN
  obtain ⟨H, h1, _, _, h4⟩ := C33_wvd (unitTone N ((f + g) / 2)) ts n hn hts hN
  obtain ⟨P, p1, _, _, p4⟩ := C33_wvd (combo a b (unitTone N f) (unitTone N g)) ts n hn hts hN
  refine ⟨F, G, H, P, f1, g1, h1, p1, fun k hk t ht => ?_⟩
  have e : (P.get k t : ℂ) = ((‖a‖ ^ 2 : ℝ) : ℂ) * F.get k t + ((‖b‖ ^ 2 : ℝ) : ℂ) * G.get k t
      + ((2 * (a * conj b * expi (2 * Real.pi * (f - g) * t)).re : ℝ) : ℂ) * H.get k t := by
    rw [p4 k hk t ht, f4 k hk t ht, g4 k hk t ht, h4 k hk t ht, ← lagSum_smul, ← lagSum_smul, ← lagSum_smul]
    unfold lagSum
    rw [← Finset.sum_add_distrib, ← Finset.sum_add_distrib]
    apply Finset.sum_congr rfl
    intro τ _
    rw [wignerKernel_tones, Int.cast_natCast]
    ring
  exact_mod_cast e

/-- The same for the pseudo Wigner-Ville distribution with a Hermitian window. -/
theorem C83_two_tones_pwvd {τ : Type} (N : ℕ) (f g : ℝ) (a b : ℂ) (ts : Vec τ) (n : ℕ) (h : Vec ℂ) (L : ℕ)
    (hh : h.len = 2 * L + 1) (hL : (L : ℤ) < roundEven ((n : ℝ) / 2))
    (hsym : ∀ i ≤ 2 * L, h.get (2 * L - i) = conj (h.get i)) :
    ∃ F G H P, PwvdReturns (unitTone N f) ts n (some h) F ∧ PwvdReturns (unitTone N g) ts n (some h) G ∧
      PwvdReturns (unitTone N ((f + g) / 2)) ts n (some h) H ∧
      PwvdReturns (combo a b (unitTone N f) (unitTone N g)) ts n (some h) P ∧
      ∀ k < n, ∀ t < ts.len, P.get k t = ‖a‖ ^ 2 * F.get k t + ‖b‖ ^ 2 * G.get k t
        + 2 * (a * conj b * expi (2 * Real.pi * (f - g) * t)).re * H.get k t := by
  obtain ⟨F, f1, _, _, _⟩ := C36_pwvd (unitTone N f) ts n h L hh hL
  obtain ⟨G, g1, _, _, _⟩ := C36_pwvd (unitTone N g) ts n h L hh hL
  obtain ⟨H, h1, _, _, _⟩ := C36_pwvd (unitTone N ((f + g) / 2)) ts n h L hh hL
  obtain ⟨P, p1, _, _, _⟩ := C36_pwvd (combo a b (unitTone N f) (unitTone N g)) ts n h L hh hL
  refine ⟨F, G, H, P, f1, g1, h1, p1, fun k hk t ht => ?_⟩
  have e : (P.get k t : ℂ) = ((‖a‖ ^ 2 : ℝ) : ℂ) * F.get k t + ((‖b‖ ^ 2 : ℝ) : ℂ) * G.get k t
      + ((2 * (a * conj b * expi (2 * Real.pi * (f - g) * t)).re : ℝ) : ℂ) * H.get k t := by
    rw [C36_real _ ts n h L hh hL hsym P p1 k hk t ht, C36_real _ ts n h L hh hL hsym F f1 k hk t ht,
      C36_real _ ts n h L hh hL hsym G g1 k hk t ht, C36_real _ ts n h L hh hL hsym H h1 k hk t ht,
      ← lagSum_smul, ← lagSum_smul, ← lagSum_smul]
    unfold lagSum
    rw [← Finset.sum_add_distrib, ← Finset.sum_add_distrib]
    apply Finset.sum_congr rfl
    intro τ _
    dsimp only
    rw [wignerKernel_tones, Int.cast_natCast]
    ring
  exact_mod_cast e

/-- Tones at 0 and 1/2, two samples, two bins: row 0 of sample 0 carries both lines and the interference. -/
example : ∃ F G H P, WvdReturns (unitTone 2 0) (arange 0 2) 2 F ∧ WvdReturns (unitTone 2 (1 / 2)) (arange 0 2) 2 G ∧
    WvdReturns (unitTone 2 (1 / 4)) (arange 0 2) 2 H ∧
    WvdReturns (combo 1 1 (unitTone 2 0) (unitTone 2 (1 / 2))) (arange 0 2) 2 P ∧
    P.get 0 0 = F.get 0 0 + G.get 0 0 + 2 * H.get 0 0 ∧ P.get 0 1 = F.get 0 1 + G.get 0 1 - 2 * H.get 0 1 := by
  obtain ⟨F, G, H, P, h1, h2, h3, h4, h5⟩ := C83_two_tones 2 0 (1 / 2) 1 1 (arange 0 2) 2 (by norm_num) rfl
    (by rw [roundEven_half]; norm_num)
  refine ⟨F, G, H, P, h1, h2, ?_, h4, ?_, ?_⟩
  · convert h3 using 2; norm_num
  · rw [h5 0 (by norm_num) 0 (by norm_num)]
    simp [expi]
  · rw [h5 0 (by norm_num) 1 (by norm_num)]
    have : expi (2 * Real.pi * (0 - 1 / 2) * (1 : ℕ)) = -1 := by
      rw [show 2 * Real.pi * (0 - 1 / 2) * (1 : ℕ) = -Real.pi by push_cast; ring, ← conj_expi]
      simp [expi]
    rw [this]
    simp
    ring

end Tftb.Props
