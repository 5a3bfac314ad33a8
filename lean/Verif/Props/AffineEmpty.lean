import Verif.Props.AffineClass
import Verif.Props.AffineBand

/-! # C82: the constructors of the affine class on their default band -/

namespace Tftb.Props

open Spec AffDist

theorem mk_form (kind : Kind) (newt : ℝ → Py ℝ) (x : Vec ℂ) (ts : Option (Vec ℤ)) (fmin fmax : Option ℝ) (nv : Option ℕ) {a b w R : ℝ}
    (hi : Aff.init x (ts.getD (arange 0 x.len)) fmin fmax = .ok (a, b, w, R)) :
    mk kind newt x ts fmin fmax nv = (umaxOf kind (newt (b / a)) a b >>= fun u => sizes kind fmax.isSome x.len ((x.len + x.len % 2) / 2) b u >>= fun s =>
      (match nv with | some k => (.ok k : Py ℕ) | none => getNVoices a b s.2) >>= fun k =>
        .ok ⟨kind, x, ts.getD (arange 0 x.len), a, b, u, (x.len + x.len % 2) / 2, s.1, k⟩) := by
  unfold mk
  simp only
  rw [hi, ok_bind]
  cases nv <;> rfl

/-- What the root finder of Unterberger's constructor is assumed to do: answer a zero. -/
def Finds (kind : Kind) (newt : ℝ → Py ℝ) (r : ℝ) : Prop := ∀ f, kind = .unterberger f → ∃ u, newt r = .ok u ∧ umaxunt r u = 0

/-- **Default band.**  When the band computed from the signal is `[a, b]` with `0 < a < b`, leaving it out or giving it is the same, provided that Bertrand's
ratio is at most `e⁴` and Newton's iteration converges. -/
theorem C82_default (kind : Kind) (newt : ℝ → Py ℝ) (x : Vec ℂ) (ts : Option (Vec ℤ)) (nv : Option ℕ) {a b w R : ℝ}
    (hi : Aff.init x (ts.getD (arange 0 x.len)) none none = .ok (a, b, w, R)) (h0 : 0 < a) (h1 : a < b) (hf : Finds kind newt (b / a))
    (hb : kind = .bertrand → b ≤ Real.exp 4 * a) :
    mk kind newt x ts none none nv = mk kind newt x ts (some a) (some b) nv := by
  obtain ⟨u, hu, hu0, -⟩ := umaxOf_ok kind (newt (b / a)) h0 h1 hf hb
  rw [mk_form kind newt x ts none none nv hi, mk_form kind newt x ts (some a) (some b) nv (init_given x _ (by linarith)), hu, ok_bind, ok_bind]
  have : sizes kind false x.len ((x.len + x.len % 2) / 2) b u = sizes kind true x.len ((x.len + x.len % 2) / 2) b u := by
    unfold sizes
    rw [if_neg (mul_pos (h0.trans h1) hu0).ne', if_neg (mul_pos (h0.trans h1) hu0).ne']
  rw [Option.isSome_none, Option.isSome_some, this]

/-- The largest dilation of an empty band is zero. -/
theorem umaxOf_empty (kind : Kind) (newt : ℝ → Py ℝ) {a : ℝ} (h0 : 0 < a) (hf : Finds kind newt 1) :
    umaxOf kind (newt (a / a)) a a = .ok 0 := by
  have e : a / a = 1 := div_self h0.ne'
  unfold umaxOf
  rw [if_neg h0.ne', e]
  cases kind with
  | unterberger f =>
    obtain ⟨u, hn, h⟩ := hf f rfl
    have : u = 0 := by
      unfold umaxunt at h
      simp only at h
      have hs : |u / 2| < Real.sqrt (1 + (u / 2) ^ 2) := by
        rw [← Real.sqrt_sq_eq_abs]
        exact Real.sqrt_lt_sqrt (sq_nonneg _) (by linarith)
      have hpos : 0 < Real.sqrt (1 + (u / 2) ^ 2) - u / 2 := by linarith [le_abs_self (u / 2)]
      rw [sub_eq_zero, div_eq_one_iff_eq hpos.ne'] at h
      linarith
    rw [this] at hn
    exact hn
  | dflandrin =>
    show umaxdflaSolve 1 = _
    rw [C67_value 1 zero_le_one]
    simp
  | bertrand =>
    simp only
    rw [if_neg (by rw [Real.exp_zero]; simp), Real.log_one]

/-- **Empty band**, both edges given and equal.  Bertrand's constructor raises `ZeroDivisionError`.  The two others raise `AttributeError` unless the number of voices
is given; then they return an object whose `run` raises: `ZeroDivisionError` for one voice, `ValueError` for any other number, whatever the spline routine. -/
theorem C82_empty_given (newt : ℝ → Py ℝ) (x : Vec ℂ) (ts : Option (Vec ℤ)) (a : ℝ) (h0 : 0 < a) :
    (∀ nv, mk .bertrand newt x ts (some a) (some a) nv = .error .zeroDivisionError) ∧
    ∀ kind, kind ≠ .bertrand → Finds kind newt 1 →
      mk kind newt x ts (some a) (some a) none = .error .attributeError ∧
      ∀ N : ℕ, ∃ o, mk kind newt x ts (some a) (some a) (some N) = .ok o ∧ o.umax = 0 ∧ o.nv = N ∧
        ∀ spline, run spline o = .error (if N = 1 then .zeroDivisionError else .valueError) := by
  have hi := init_given x (ts.getD (arange 0 x.len)) (a := a) (b := a) (by linarith)
  refine ⟨fun nv => ?_, fun kind hk hf => ⟨?_, fun N => ?_⟩⟩
  · rw [mk_form _ newt x ts _ _ nv hi, umaxOf_empty .bertrand newt h0 (by simp [Finds]), ok_bind]
    unfold sizes
    rw [if_pos (mul_zero a), if_pos ⟨rfl, rfl⟩]
    rfl
  · rw [mk_form _ newt x ts _ _ none hi, umaxOf_empty kind newt h0 hf, ok_bind]
    unfold sizes
    rw [if_pos (mul_zero a), if_neg (by tauto)]
    rfl
  · refine ⟨⟨kind, x, ts.getD (arange 0 x.len), a, a, 0, (x.len + x.len % 2) / 2, ((x.len + x.len % 2) / 2 : ℕ), N⟩, ?_, rfl, rfl, fun spline => ?_⟩
    · rw [mk_form _ newt x ts _ _ (some N) hi, umaxOf_empty kind newt h0 hf, ok_bind]
      unfold sizes
      rw [if_pos (mul_zero a), if_neg (by tauto)]
      rfl
    · unfold run tffr
      simp only
      by_cases h1 : N = 1
      · unfold geometricSample
        rw [if_pos (Or.inr h1), if_pos h1]
        rfl
      · unfold geometricSample
        rw [if_neg (by push Not; exact ⟨h0.ne', h1⟩), if_neg (by rw [div_self h0.ne']; norm_num), if_neg h1, ok_bind]
        simp only
        by_cases hN : N = 0
        · subst hN
          rfl
        · unfold ifft
          rw [if_neg (by show N + N ≠ 0; omega), ok_bind]
          unfold uAxis
          simp only [if_pos]
          rfl

/-- The largest dilation is at most the relative width of the band. -/
theorem umaxOf_le (kind : Kind) (newt : ℝ → Py ℝ) {a b u : ℝ} (h0 : 0 < a) (h1 : a ≤ b) (hf : Finds kind newt (b / a))
    (h : umaxOf kind (newt (b / a)) a b = .ok u) : u ≤ b / a - 1 := by
  have hr : 1 ≤ b / a := by rw [le_div_iff₀ h0]; linarith
  have hs1 : 1 ≤ Real.sqrt (b / a) := Real.one_le_sqrt.2 hr
  have hss : Real.sqrt (b / a) * Real.sqrt (b / a) = b / a := Real.mul_self_sqrt (by linarith)
  unfold umaxOf at h
  rw [if_neg h0.ne'] at h
  cases kind with
  | unterberger f =>
    obtain ⟨v, hn, hv⟩ := hf f rfl
    simp only at h
    rw [hn] at h
    cases h
    have hz := (C69_unterberger_root (b / a) u (by linarith)).1 hv
    rw [hz]
    have : 1 / Real.sqrt (b / a) * Real.sqrt (b / a) = 1 := by field_simp
    set s := Real.sqrt (b / a)
    have h1s : 0 < 1 / s := by positivity
    nlinarith
  | dflandrin =>
    simp only at h
    rw [C67_value _ (by linarith)] at h
    cases h
    set s := Real.sqrt (b / a)
    rw [abs_of_nonneg (by linarith), div_le_iff₀ (by linarith), ← hss]
    nlinarith [mul_nonneg (sub_nonneg.2 hs1) (sub_nonneg.2 hs1), mul_nonneg (mul_nonneg (sub_nonneg.2 hs1) (sub_nonneg.2 hs1)) (sub_nonneg.2 hs1)]
  | bertrand =>
    simp only at h
    split at h
    · cases h
    · cases h
      exact Real.log_le_sub_one_of_pos (by linarith)

/-- **Narrow bands.**  When the band is `[a, b]` with `b (b - a) ≤ a / 2` (and it was computed, or is not empty; Bertrand: `b ≤ e⁴ a`), the constructor without a number of voices raises
`AttributeError`. -/
theorem C82_narrow (kind : Kind) (newt : ℝ → Py ℝ) (x : Vec ℂ) (hx : 1 ≤ x.len) (ts : Option (Vec ℤ)) (fmin fmax : Option ℝ) {a b w R : ℝ}
    (hi : Aff.init x (ts.getD (arange 0 x.len)) fmin fmax = .ok (a, b, w, R)) (h0 : 0 < a) (h1 : a ≤ b) (hg : fmax = none ∨ a < b)
    (hf : Finds kind newt (b / a)) (hb4 : kind = .bertrand → b ≤ Real.exp 4 * a) (hn : b * (b - a) ≤ a / 2) : mk kind newt x ts fmin fmax none = .error .attributeError := by
  have hb0 : 0 < b := by linarith
  have hr : 1 ≤ b / a := by rw [le_div_iff₀ h0]; linarith
  have hratio : b / a - 1 = (b - a) / a := by field_simp
  rw [mk_form kind newt x ts fmin fmax none hi]
  rcases h1.eq_or_lt with rfl | hlt
  · rw [umaxOf_empty kind newt h0 (by rwa [div_self h0.ne'] at hf), ok_bind]
    unfold sizes
    have hnone : fmax = none := hg.resolve_right (lt_irrefl _)
    rw [if_pos (mul_zero a), if_neg (by simp [hnone])]
    rfl
  · obtain ⟨u, hu, hu0, -⟩ := umaxOf_ok kind (newt (b / a)) h0 hlt hf hb4
    have hle := umaxOf_le kind newt h0 h1 hf hu
    have hbu : b * u ≤ 1 / 2 := by
      have : b * u ≤ b * ((b - a) / a) := by rw [← hratio]; gcongr
      have h2 : b * ((b - a) / a) ≤ 1 / 2 := by
        rw [← mul_div_assoc, div_le_iff₀ h0]
        linarith
      linarith
    obtain ⟨-, -, s3, s4⟩ := sizes_eq kind fmax.isSome (n := x.len) (m := (x.len + x.len % 2) / 2) (by omega) hx hb0 hu0
    have hs : sizes kind fmax.isSome x.len ((x.len + x.len % 2) / 2) b u = .ok ((((x.len + x.len % 2) / 2 : ℕ) : ℤ), none) := by
      by_cases hk : kind = .bertrand
      · refine s4 hk ?_
        have : (x.len : ℝ) ≤ 2 * ((x.len + x.len % 2) / 2 : ℕ) := by exact_mod_cast (by omega : x.len ≤ 2 * ((x.len + x.len % 2) / 2))
        nlinarith [mul_pos hb0 hu0]
      · exact s3 (Or.inl hk) hbu
    rw [hu, ok_bind, hs, ok_bind]
    rfl

/-- **Tones.**  None of the three distributions can be constructed with its default band and number of voices for a complex exponential at a frequency of the
discrete Fourier transform below 1/2: `AttributeError`. -/
theorem C82_tone (kind : Kind) (newt : ℝ → Py ℝ) (x : Vec ℂ) (k : ℕ) (hk : 0 < k) (hkn : k < halfBins x.len) (A : ℂ) (hA : A ≠ 0)
    (hx : ∀ t < x.len, x.get t = A * expi (2 * Real.pi * (k / x.len) * t)) (hf : ∀ r, 0 < r → Finds kind newt r) :
    mk kind newt x none none none none = .error .attributeError := by
  obtain ⟨R, hi⟩ := C58_tone x k hk hkn A hA hx
  have hlen : 1 ≤ x.len := by
    by_contra hc
    have : x.len = 0 := by omega
    rw [this] at hkn
    exact absurd hkn (by unfold halfBins; simp)
  have hh : (0 : ℝ) < halfBins x.len := by exact_mod_cast (by omega : 0 < halfBins x.len)
  have hk0 : (0 : ℝ) < k := by exact_mod_cast hk
  set v : ℝ := 10 * (k : ℝ) / halfBins x.len with hv
  have hv0 : 0 < v := by positivity
  have hQ1 : (1 : ℤ) ≤ ⌈v⌉ := Int.one_le_ceil_iff.2 hv0
  have hP0 : 0 ≤ ⌊v⌋ := Int.floor_nonneg.2 hv0.le
  have hQP : ⌈v⌉ ≤ ⌊v⌋ + 1 := Int.ceil_le_floor_add_one v
  have hPQ : ⌊v⌋ ≤ ⌈v⌉ := Int.floor_le_ceil v
  have hQR : (1 : ℝ) ≤ (⌈v⌉ : ℝ) := by exact_mod_cast hQ1
  have hQPR : (⌈v⌉ : ℝ) ≤ ⌊v⌋ + 1 := by exact_mod_cast hQP
  have hPQR : (⌊v⌋ : ℝ) ≤ ⌈v⌉ := by exact_mod_cast hPQ
  have ha0 : (0 : ℝ) < max (1 / 100) ((⌊v⌋ : ℝ) / 20) := lt_of_lt_of_le (by norm_num) (le_max_left _ _)
  refine C82_narrow kind newt x hlen none none none (by exact hi) ha0 (max_le (by linarith) (by linarith)) (Or.inl rfl)
    (hf _ (div_pos (by linarith) ha0)) (fun _ => ?_) ?_
  · have he : 5 ≤ Real.exp 4 := by have := Real.add_one_le_exp (4 : ℝ); linarith
    rcases hP0.eq_or_lt with h | h
    · rw [← h] at hQPR
      norm_num at hQPR
      have := le_max_left (1 / 100 : ℝ) ((⌊v⌋ : ℝ) / 20)
      nlinarith
    · have hP1 : (1 : ℝ) ≤ (⌊v⌋ : ℝ) := by exact_mod_cast h
      rw [max_eq_right (by linarith)]
      nlinarith
  rcases hP0.eq_or_lt with h | h
  · rw [← h] at hQPR ⊢
    norm_num at hQPR ⊢
    have : (⌈v⌉ : ℝ) = 1 := le_antisymm hQPR hQR
    rw [this]
    norm_num
  · have hP1 : (1 : ℝ) ≤ (⌊v⌋ : ℝ) := by exact_mod_cast h
    rw [max_eq_right (by linarith)]
    nlinarith

/-- **Constant signals.**  The default band of a constant is reversed (`fmin = 0.01`, `fmax = 0`): D-Flandrin's constructor raises `AttributeError` without a number of voices,
Bertrand's `ValueError`, and no number satisfies Unterberger's equation. -/
theorem C82_constant (newt : ℝ → Py ℝ) (x : Vec ℂ) (hn : 2 ≤ x.len) (c : ℝ) (hc : c ≠ 0) (hx : ∀ t < x.len, (x.get t).re = c) :
    mk .dflandrin newt x none none none none = .error .attributeError ∧ (∀ nv, mk .bertrand newt x none none none nv = .error .valueError) ∧
      ∀ u, umaxunt (0 / (1 / 100)) u ≠ 0 := by
  obtain ⟨R, hi⟩ := C58_constant x hn c hc hx
  refine ⟨?_, fun nv => ?_, fun u h => ?_⟩
  · rw [mk_form _ newt x none none none none (by exact hi)]
    unfold umaxOf
    rw [if_neg (by norm_num)]
    simp only
    rw [C67_value _ (by norm_num), ok_bind]
    unfold sizes
    rw [if_pos (zero_mul _), if_neg (by simp)]
    rfl
  · rw [mk_form _ newt x none none none nv (by exact hi)]
    unfold umaxOf
    rw [if_neg (by norm_num)]
    simp only
    rw [if_pos (by rw [Real.exp_zero]; simp; positivity)]
    rfl
  · unfold umaxunt at h
    simp only at h
    have hs : |u / 2| < Real.sqrt (1 + (u / 2) ^ 2) := by
      rw [← Real.sqrt_sq_eq_abs]
      exact Real.sqrt_lt_sqrt (sq_nonneg _) (by linarith)
    obtain ⟨h1, h2⟩ := abs_lt.1 hs
    have : 0 < (Real.sqrt (1 + (u / 2) ^ 2) + u / 2) / (Real.sqrt (1 + (u / 2) ^ 2) - u / 2) := div_pos (by linarith) (by linarith)
    rw [zero_div] at h
    linarith

/-- **Impulses** of at least 22 samples: the default band is `[0.01, 0.5]`, and the three constructors do the same as when it is given (so that C69 describes what
they return). -/
theorem C82_impulse (kind : Kind) (newt : ℝ → Py ℝ) (x : Vec ℂ) (hn : 22 ≤ x.len) (p : ℕ) (hp : p < x.len) (c : ℝ) (hc : c ≠ 0)
    (hx : ∀ t < x.len, (x.get t).re = if t = p then c else 0) (nv : Option ℕ) (hf : Finds kind newt 50) :
    mk kind newt x none none none nv = mk kind newt x none (some (1 / 100)) (some (1 / 2)) nv := by
  have hd : ∀ k : ℕ, ‖dft ((realPart x).map Complex.ofReal) k‖ ^ 2 = c ^ 2 := fun k => by
    have : dft ((realPart x).map Complex.ofReal) k = (c : ℂ) * rootPow x.len ((p : ℤ) * (k : ℤ)) := by
      rw [dft_eq_dftC]
      unfold dftC
      rw [show ((realPart x).map Complex.ofReal).len = x.len from rfl, Finset.sum_eq_single_of_mem p (Finset.mem_range.2 hp)]
      · show (((x.get p).re : ℝ) : ℂ) * _ = _
        rw [hx p hp, if_pos rfl]
      · intro t ht hne
        show (((x.get t).re : ℝ) : ℂ) * _ = _
        rw [hx t (Finset.mem_range.1 ht), if_neg hne]
        simp
    rw [this, norm_mul, norm_rootPow, mul_one, Complex.norm_real, Real.norm_eq_abs, sq_abs]
  have hc2 : 0 < c ^ 2 := by positivity
  have hstr : ∀ k < halfBins x.len, Strong (realPart x) k := fun k hk => ⟨hk, fun j _ => by rw [hd, hd]; linarith⟩
  have hh : 11 ≤ halfBins x.len := by unfold halfBins; split <;> omega
  obtain ⟨fmin, fmax, lo, hi, h, hr, e1, e2, -⟩ := C58_band x (by omega) ⟨0, by omega, fun h => by
    have := hd 0
    rw [h, norm_zero] at this
    nlinarith⟩
  have hlo : lo = 0 := by have := (hr.bounds 0 (hstr 0 (by omega))).1; omega
  have hhi : hi + 1 = halfBins x.len := by
    have h1 := (hr.bounds (halfBins x.len - 1) (hstr _ (by omega))).2
    have h2 : hi < halfBins x.len := hr.hi_strong.1
    omega
  have hhR : (11 : ℝ) ≤ halfBins x.len := by exact_mod_cast hh
  have hhiR : (hi : ℝ) = halfBins x.len - 1 := by
    have : ((hi + 1 : ℕ) : ℝ) = halfBins x.len := by rw [hhi]
    push_cast at this
    linarith
  have hce : ⌈10 * (hi : ℝ) / halfBins x.len⌉ = 10 := by
    rw [Int.ceil_eq_iff, hhiR]
    constructor
    · rw [lt_div_iff₀ (by linarith)]
      push_cast
      linarith
    · rw [div_le_iff₀ (by linarith)]
      push_cast
      linarith
  have hfl : ⌊10 * (lo : ℝ) / halfBins x.len⌋ = 0 := by rw [hlo]; simp
  rw [hfl] at e1
  rw [hce] at e2
  norm_num at e1 e2
  subst e1
  subst e2
  refine C82_default kind newt x none nv (by exact h) (by norm_num) (by norm_num) (by norm_num; exact hf) (fun _ => ?_)
  have he : (2.7 : ℝ) < Real.exp 1 := lt_trans (by norm_num) Real.exp_one_gt_d9
  have : Real.exp 4 = Real.exp 1 ^ 4 := by rw [← Real.exp_nat_mul]; norm_num
  rw [this]
  have h4 : (2.7 : ℝ) ^ 4 ≤ Real.exp 1 ^ 4 := by gcongr
  norm_num at h4 ⊢
  linarith

/-- 128 samples of a tone at bin 10. -/
example (kind : Kind) : mk kind (fun r => .ok (Real.sqrt r - 1 / Real.sqrt r)) ⟨128, fun t => 1 * expi (2 * Real.pi * (((10 : ℕ) : ℝ) / ((128 : ℕ) : ℝ)) * t)⟩
    none none none none = .error .attributeError :=
  C82_tone kind _ _ 10 (by norm_num) (by norm_num [halfBins]) 1 one_ne_zero (fun t _ => rfl)
    (fun r hr _ _ => ⟨_, rfl, (C69_unterberger_root r _ hr).2 rfl⟩)

/-- **A band from zero.**  Given edges of which the lower is zero, or of which the sum is zero, make the three constructors raise `ZeroDivisionError`, whatever the
signal, the instants, the root finder and the number of voices. -/
theorem C82_zero_edge (kind : Kind) (newt : ℝ → Py ℝ) (x : Vec ℂ) (ts : Option (Vec ℤ)) (nv : Option ℕ) (a b : ℝ) (h : a = 0 ∨ a + b = 0) :
    mk kind newt x ts (some a) (some b) nv = .error .zeroDivisionError := by
  by_cases hs : a + b = 0
  · have : Aff.init x (ts.getD (arange 0 x.len)) (some a) (some b) = .error .zeroDivisionError := by
      unfold Aff.init Aff.band
      simp [bind, Except.bind, hs]
    unfold mk
    simp only
    rw [this]
    rfl
  · have ha : a = 0 := h.resolve_right hs
    rw [mk_form kind newt x ts (some a) (some b) nv (init_given x _ hs)]
    unfold umaxOf
    rw [if_pos ha]
    rfl

/-- Ten samples analysed between 0 and 1/4. -/
example : mk .dflandrin (fun r => .ok r) ⟨10, fun t => (t : ℂ)⟩ none (some 0) (some (1 / 4)) (some 8) = .error .zeroDivisionError :=
  C82_zero_edge _ _ _ _ _ _ _ (.inl rfl)

end Tftb.Props
