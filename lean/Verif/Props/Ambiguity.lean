import Verif.Lemmas.Ambiguity
import Verif.Lemmas.Utils
import Verif.Lemmas.TimeFreq

/-! # Properties C42, C43: narrow-band ambiguity function -/

namespace Tftb

open Finset ComplexConjugate Spec Ambiguity

/-- Without `lag` the lags are the integers from `-⌊(N-1)/2⌋` to `⌊(N-1)/2⌋`. -/
theorem C42_default_lags (N : ℕ) (hN : 1 ≤ N) : (nbLags N).len = 2 * ((N - 1) / 2) + 1 ∧
    ∀ c, (nbLags N).get c = (((c : ℤ) - ((N - 1) / 2 : ℕ) : ℤ) : ℝ) := by
  unfold nbLags
  split
  case isTrue h =>
    obtain ⟨m, rfl⟩ : ∃ m, N = 2 * m := ⟨N / 2, by omega⟩
    have e1 : (2 * m - 1) / 2 = m - 1 := by omega
    rw [e1]
    refine ⟨?_, fun c => ?_⟩
    · show (⌈((2 * m : ℕ) : ℝ) / 2 - (-((2 * m : ℕ) : ℝ) / 2 + 1)⌉).toNat = _
      have e : ((2 * m : ℕ) : ℝ) / 2 - (-((2 * m : ℕ) : ℝ) / 2 + 1) = ((2 * m - 1 : ℤ) : ℝ) := by push_cast; ring
      rw [e, Int.ceil_intCast]; omega
    · show -((2 * m : ℕ) : ℝ) / 2 + 1 + c = _
      have e2 : ((m - 1 : ℕ) : ℤ) = (m : ℤ) - 1 := by omega
      rw [e2]; push_cast; ring
  case isFalse h =>
    obtain ⟨m, rfl⟩ : ∃ m, N = 2 * m + 1 := ⟨N / 2, by omega⟩
    have e1 : (2 * m + 1 - 1) / 2 = m := by omega
    rw [e1]
    refine ⟨?_, fun c => ?_⟩
    · show (⌈(((2 * m + 1 : ℕ) : ℝ) + 1) / 2 - -(((2 * m + 1 : ℕ) : ℝ) - 1) / 2⌉).toNat = _
      have e : (((2 * m + 1 : ℕ) : ℝ) + 1) / 2 - -(((2 * m + 1 : ℕ) : ℝ) - 1) / 2 = ((2 * m + 1 : ℤ) : ℝ) := by
        push_cast; ring
      rw [e, Int.ceil_intCast]; omega
    · show -(((2 * m + 1 : ℕ) : ℝ) - 1) / 2 + c = _
      push_cast; ring

/-- `narrow_band` returns exactly when there is at least one bin and every lag whose products exist fits in the bins; otherwise it raises. -/
theorem C42_returns_iff (x : Vec ℂ) (lag : Option (Vec ℝ)) (nf : Option ℕ) :
    (∃ R, narrowBand x lag nf = .ok R) ↔ nf.getD x.len ≠ 0 ∧ ∀ c < (lag.getD (nbLags x.len)).len,
      (x.len : ℤ) ≤ 2 * |truncInt ((lag.getD (nbLags x.len)).get c)| ∨
      (x.len : ℤ) - |truncInt ((lag.getD (nbLags x.len)).get c)| ≤ nf.getD x.len := by
  obtain ⟨h1, h2, h3⟩ := narrowBand_eq x lag nf
  have hz : ∀ τ : ℤ, ¬ nbZone x.len (nf.getD x.len) τ ↔ (x.len : ℤ) ≤ 2 * |τ| ∨ (x.len : ℤ) - |τ| ≤ nf.getD x.len := by
    intro τ
    unfold nbZone
    omega
  simp only [← hz]
  constructor
  · rintro ⟨R, hR⟩
    by_cases hc : ∃ c < (lag.getD (nbLags x.len)).len,
        nbZone x.len (nf.getD x.len) (truncInt ((lag.getD (nbLags x.len)).get c))
    · rw [h2 hc] at hR; cases hR
    · push Not at hc
      refine ⟨fun h0 => ?_, hc⟩
      rw [h3 h0 hc] at hR; cases hR
  · intro h
    obtain ⟨A, hA, _⟩ := h1 h
    exact ⟨_, hA⟩

/-- With the default lags, fewer bins than samples raise `IndexError`. -/
theorem C42_few_bins (x : Vec ℂ) (n : ℕ) (hn : n < x.len) : narrowBand x none (some n) = .error .indexError := by
  obtain ⟨_, h2, _⟩ := narrowBand_eq x none (some n)
  apply h2
  obtain ⟨e1, e2⟩ := C42_default_lags x.len (by omega)
  refine ⟨(x.len - 1) / 2, ?_, ?_⟩
  · show _ < (nbLags x.len).len
    omega
  · show nbZone x.len n (truncInt ((nbLags x.len).get _))
    rw [e2, Utils.truncInt_intCast, sub_self]
    unfold nbZone
    rw [abs_zero]
    omega

/-- Closed form: entry `(r, c)` is the ambiguity function at the returned labels, which are the given lags and the Doppler grid
`(r - ⌊n/2⌋)/n`. -/
theorem C42_closed_form (x : Vec ℂ) (lag : Option (Vec ℝ)) (nf : Option ℕ) (A : Mat ℂ) (l xi : Vec ℝ)
    (h : narrowBand x lag nf = .ok (A, l, xi)) :
    l = lag.getD (nbLags x.len) ∧ A.rows = nf.getD x.len ∧ A.cols = l.len ∧ xi.len = A.rows ∧
    (∀ r < A.rows, xi.get r = ((r : ℝ) - (A.rows / 2 : ℕ)) / A.rows) ∧
    ∀ r < A.rows, ∀ c < A.cols, A.get r c = ambiguity x (truncInt (l.get c)) (xi.get r) := by
  obtain ⟨h0, hz⟩ := (C42_returns_iff x lag nf).1 ⟨_, h⟩
  have hz' : ∀ c < (lag.getD (nbLags x.len)).len,
      ¬ nbZone x.len (nf.getD x.len) (truncInt ((lag.getD (nbLags x.len)).get c)) := by
    intro c hc
    have := hz c hc
    unfold nbZone
    omega
  obtain ⟨A', e, e1, e2, e3⟩ := (narrowBand_eq x lag nf).1 ⟨h0, hz'⟩
  rw [h] at e
  simp only [Except.ok.injEq, Prod.mk.injEq] at e
  obtain ⟨rfl, rfl, rfl⟩ := e
  have hxi : ∀ r < A.rows, (nbRows (nf.getD x.len)).2.get r = ((r : ℝ) - (A.rows / 2 : ℕ)) / A.rows := by
    intro r hr
    obtain ⟨k, _, _, _, k4⟩ := nbRows_get (nf.getD x.len) r (by omega)
    rw [k4, e1, Int.cast_sub, Int.cast_natCast, Int.cast_natCast]
  refine ⟨rfl, e1, e2, by rw [(nbRows_len _).2, e1], hxi, ?_⟩
  intro r hr c hc
  rw [e3 r hr c hc, sum_kernel x _ _ (hz' c (by omega)) (fun t => rootPow (nf.getD x.len)
    ((t : ℤ) * ((r : ℤ) - (nf.getD x.len / 2 : ℕ))))]
  unfold ambiguity
  apply Finset.sum_congr rfl
  intro t _
  rw [hxi r hr, rootPow_eq_expi, e1]
  congr 3
  rw [Int.cast_mul, Int.cast_sub, Int.cast_natCast, Int.cast_natCast, Int.cast_natCast]
  ring

theorem truncInt_neg (a : ℝ) : truncInt (-a) = -truncInt a := by
  unfold truncInt
  by_cases h : 0 ≤ a
  · by_cases h' : 0 ≤ -a
    · have : a = 0 := by linarith
      subst this
      simp
    · rw [if_neg h', if_pos h, Int.ceil_neg]
  · rw [if_pos (by linarith), if_neg h, Int.floor_neg]

/-- Opposite lag and opposite Doppler give the conjugate. -/
theorem C42_hermitian (x : Vec ℂ) (lag : Option (Vec ℝ)) (nf : Option ℕ) (A : Mat ℂ) (l xi : Vec ℝ)
    (h : narrowBand x lag nf = .ok (A, l, xi)) {r r' c c' : ℕ} (hr : r < A.rows) (hr' : r' < A.rows) (hc : c < A.cols)
    (hc' : c' < A.cols) (hl : l.get c' = -l.get c) (hx : xi.get r' = -xi.get r) : A.get r' c' = conj (A.get r c) := by
  obtain ⟨_, _, _, _, _, e⟩ := C42_closed_form x lag nf A l xi h
  rw [e r' hr' c' hc', e r hr c hc, hl, hx, truncInt_neg]
  unfold ambiguity
  rw [map_sum]
  apply Finset.sum_congr rfl
  intro t _
  rw [map_mul, conj_expi]
  congr 1
  · unfold wignerKernel
    rw [map_mul, Complex.conj_conj, mul_comm, sub_neg_eq_add, ← sub_eq_add_neg]
  · congr 1
    ring

/-- Sums of the products at any lag are bounded by the energy. -/
theorem sum_norm_kernel_le (x : Vec ℂ) (τ : ℤ) : ∑ t ∈ range x.len, ‖wignerKernel x t τ‖ ≤ energy x := by
  have hshift : ∀ σ : ℤ, ∑ t ∈ range x.len, ‖zext x ((t : ℤ) + σ)‖ ^ 2 ≤ energy x := by
    intro σ
    unfold energy
    rw [← Finset.sum_filter_add_sum_filter_not (range x.len) (fun t : ℕ => 0 ≤ (t : ℤ) + σ ∧ (t : ℤ) + σ < x.len)]
    rw [Finset.sum_eq_zero (s := filter (fun t : ℕ => ¬ (0 ≤ (t : ℤ) + σ ∧ (t : ℤ) + σ < x.len)) (range x.len)), add_zero]
    · have e : ∑ t ∈ filter (fun t : ℕ => 0 ≤ (t : ℤ) + σ ∧ (t : ℤ) + σ < x.len) (range x.len), ‖zext x ((t : ℤ) + σ)‖ ^ 2
          = ∑ t ∈ (filter (fun t : ℕ => 0 ≤ (t : ℤ) + σ ∧ (t : ℤ) + σ < x.len) (range x.len)).image
              (fun t : ℕ => ((t : ℤ) + σ).toNat), ‖x.get t‖ ^ 2 := by
        rw [Finset.sum_image]
        · apply Finset.sum_congr rfl
          intro t ht
          rw [Finset.mem_filter] at ht
          rw [zext_of_mem ht.2.1 ht.2.2]
        · intro a ha b hb hab
          simp only [Finset.coe_filter, Set.mem_ofPred_eq] at ha hb
          simp only at hab
          omega
      rw [e]
      apply Finset.sum_le_sum_of_subset_of_nonneg
      · intro i hi
        rw [Finset.mem_image] at hi
        obtain ⟨t, ht, rfl⟩ := hi
        rw [Finset.mem_filter] at ht
        rw [Finset.mem_range]
        omega
      · intros; positivity
    · intro t ht
      rw [Finset.mem_filter] at ht
      rw [zext_of_not_mem ht.2]
      simp
  have h1 := hshift τ
  have h2 := hshift (-τ)
  have h3 : ∑ t ∈ range x.len, ‖wignerKernel x t τ‖
      ≤ ∑ t ∈ range x.len, (‖zext x ((t : ℤ) + τ)‖ ^ 2 / 2 + ‖zext x ((t : ℤ) + -τ)‖ ^ 2 / 2) := by
    apply Finset.sum_le_sum
    intro t _
    unfold wignerKernel
    rw [norm_mul, RCLike.norm_conj, ← sub_eq_add_neg]
    nlinarith [sq_nonneg (‖zext x ((t : ℤ) + τ)‖ - ‖zext x ((t : ℤ) - τ)‖)]
  rw [Finset.sum_add_distrib, ← Finset.sum_div, ← Finset.sum_div] at h3
  linarith

/-- The modulus is at most the energy, and the energy is the value at the origin. -/
theorem C42_max_at_origin (x : Vec ℂ) (lag : Option (Vec ℝ)) (nf : Option ℕ) (A : Mat ℂ) (l xi : Vec ℝ)
    (h : narrowBand x lag nf = .ok (A, l, xi)) {r c : ℕ} (hr : r < A.rows) (hc : c < A.cols) :
    ‖A.get r c‖ ≤ energy x ∧ (l.get c = 0 → xi.get r = 0 → A.get r c = (energy x : ℂ)) := by
  obtain ⟨_, _, _, _, _, e⟩ := C42_closed_form x lag nf A l xi h
  rw [e r hr c hc]
  constructor
  · refine le_trans ?_ (sum_norm_kernel_le x (truncInt (l.get c)))
    unfold ambiguity
    refine le_trans (norm_sum_le _ _) (le_of_eq ?_)
    apply Finset.sum_congr rfl
    intro t _
    rw [norm_mul, norm_expi, mul_one]
  · intro hl hx
    rw [hl, hx]
    have h0 : truncInt 0 = 0 := by unfold truncInt; simp
    rw [h0]
    unfold ambiguity energy
    push_cast
    apply Finset.sum_congr rfl
    intro t ht
    rw [Finset.mem_range] at ht
    unfold wignerKernel
    rw [add_zero, sub_zero, zext_of_mem (by omega) (by omega), Int.toNat_natCast, mul_conj_eq_norm_sq]
    simp

/-- With default arguments `narrow_band` returns for every non-empty signal, and row `⌊N/2⌋`, column `⌊(N-1)/2⌋` is the origin. -/
theorem C42_default (x : Vec ℂ) (hx : 1 ≤ x.len) : ∃ A l xi, narrowBand x none none = .ok (A, l, xi) ∧
    A.rows = x.len ∧ A.cols = 2 * ((x.len - 1) / 2) + 1 ∧ A.get (x.len / 2) ((x.len - 1) / 2) = (energy x : ℂ) := by
  obtain ⟨e1, e2⟩ := C42_default_lags x.len hx
  obtain ⟨⟨A, l, xi⟩, hR⟩ := (C42_returns_iff x none none).2 ⟨by show x.len ≠ 0; omega, fun c _ => Or.inr (by
    show (x.len : ℤ) - |_| ≤ (x.len : ℕ)
    have := abs_nonneg (truncInt (((none : Option (Vec ℝ)).getD (nbLags x.len)).get c))
    omega)⟩
  obtain ⟨f1, f2, f3, f4, f5, f6⟩ := C42_closed_form x none none A l xi hR
  have f1' : l = nbLags x.len := f1
  have f2' : A.rows = x.len := f2
  refine ⟨A, l, xi, hR, f2, by rw [f3, f1']; exact e1, ?_⟩
  refine (C42_max_at_origin x none none A l xi hR (r := x.len / 2) (c := (x.len - 1) / 2) (by omega)
    (by rw [f3, f1', e1]; omega)).2 ?_ ?_
  · rw [f1', e2]; simp
  · rw [f5 _ (by omega), f2']; simp

example : ∃ A l xi, narrowBand ⟨3, fun _ => 1⟩ none none = .ok (A, l, xi) ∧ A.rows = 3 ∧ A.cols = 3 ∧
    A.get 1 1 = ((energy ⟨3, fun _ => 1⟩ : ℝ) : ℂ) := C42_default ⟨3, fun _ => 1⟩ (by norm_num)

/-! ## C43 volume -/

/-- Products of two samples of equal parity, once each. -/
theorem sum_kernel_sq (x : Vec ℂ) (R : ℤ) (hR : (x.len : ℤ) ≤ 2 * R + 2) :
    ∑ τ ∈ Finset.Icc (-R) R, ∑ t ∈ range x.len, ‖wignerKernel x t τ‖ ^ 2 = energyEven x ^ 2 + energyOdd x ^ 2 := by
  have hEO : energyEven x ^ 2 + energyOdd x ^ 2
      = ∑ p ∈ (range x.len ×ˢ range x.len).filter (fun p => p.1 % 2 = p.2 % 2), ‖x.get p.1‖ ^ 2 * ‖x.get p.2‖ ^ 2 := by
    unfold energyEven energyOdd
    rw [sq, sq, Finset.sum_mul_sum, Finset.sum_mul_sum, ← Finset.sum_product', ← Finset.sum_product',
      ← Finset.sum_union]
    · apply Finset.sum_congr
      · ext p
        simp only [Finset.mem_union, Finset.mem_product, Finset.mem_filter, Finset.mem_range]
        omega
      · intros; rfl
    · rw [Finset.disjoint_left]
      intro p
      simp only [Finset.mem_product, Finset.mem_filter]
      omega
  rw [hEO, ← Finset.sum_product']
  symm
  apply Finset.sum_bij_ne_zero (fun p _ _ => ((((p.1 : ℕ) : ℤ) - p.2) / 2, (p.1 + p.2) / 2))
  · intro p hp _
    simp only [Finset.mem_filter, Finset.mem_product, Finset.mem_range] at hp
    simp only [Finset.mem_product, Finset.mem_range, Finset.mem_Icc]
    omega
  · intro p hp _ q hq _ e
    simp only [Finset.mem_filter, Finset.mem_product, Finset.mem_range] at hp hq
    simp only [Prod.mk.injEq] at e
    ext <;> omega
  · rintro ⟨τ, t⟩ ht hne
    have hin : (0 ≤ (t : ℤ) + τ ∧ (t : ℤ) + τ < x.len) ∧ 0 ≤ (t : ℤ) - τ ∧ (t : ℤ) - τ < x.len := by
      by_contra hcon
      apply hne
      have : wignerKernel x t τ = 0 := by
        unfold wignerKernel
        by_cases h1 : 0 ≤ (t : ℤ) + τ ∧ (t : ℤ) + τ < x.len
        · rw [zext_of_not_mem (x := x) (i := (t : ℤ) - τ) (fun h2 => hcon ⟨h1, h2⟩)]; simp
        · rw [zext_of_not_mem h1, zero_mul]
      simp [this]
    refine ⟨(((t : ℤ) + τ).toNat, ((t : ℤ) - τ).toNat), ?_, ?_, ?_⟩
    · simp only [Finset.mem_filter, Finset.mem_product, Finset.mem_range]
      omega
    · simp only at hne ⊢
      unfold wignerKernel at hne
      rw [zext_of_mem hin.1.1 hin.1.2, zext_of_mem hin.2.1 hin.2.2, norm_mul, RCLike.norm_conj, mul_pow] at hne
      exact hne
    · simp only [Prod.mk.injEq]
      omega
  · intro p hp _
    simp only [Finset.mem_filter, Finset.mem_product, Finset.mem_range] at hp
    simp only
    unfold wignerKernel
    have e1 : ((((p.1 + p.2) / 2 : ℕ)) : ℤ) + ((p.1 : ℤ) - p.2) / 2 = p.1 := by omega
    have e2 : ((((p.1 + p.2) / 2 : ℕ)) : ℤ) - ((p.1 : ℤ) - p.2) / 2 = p.2 := by omega
    rw [e1, e2, zext_of_mem (x := x) (by omega) (by omega), zext_of_mem (x := x) (by omega) (by omega), norm_mul,
      RCLike.norm_conj, mul_pow, Int.toNat_natCast, Int.toNat_natCast]

/-- Volume under the squared modulus: the number of bins times the sum of the squared energies of the even and of the odd samples. -/
theorem C43_volume (x : Vec ℂ) (hx : 1 ≤ x.len) (nf : Option ℕ) (A : Mat ℂ) (l xi : Vec ℝ)
    (h : narrowBand x none nf = .ok (A, l, xi)) :
    energy2 A = A.rows * (energyEven x ^ 2 + energyOdd x ^ 2) := by
  obtain ⟨e1, e2⟩ := C42_default_lags x.len hx
  obtain ⟨h0, hz⟩ := (C42_returns_iff x none nf).1 ⟨_, h⟩
  have hz' : ∀ c < (nbLags x.len).len, ¬ nbZone x.len (nf.getD x.len) (truncInt ((nbLags x.len).get c)) := by
    intro c hc
    have := hz c hc
    unfold nbZone
    simp only [Option.getD_none] at this
    omega
  obtain ⟨A', e, f1, f2, f3⟩ := (narrowBand_eq x none nf).1 ⟨h0, hz'⟩
  rw [h] at e
  simp only [Except.ok.injEq, Prod.mk.injEq] at e
  obtain ⟨rfl, rfl, rfl⟩ := e
  simp only [Option.getD_none] at f2 f3
  set n := nf.getD x.len with hn
  have hpar : ∀ c < A.cols, ∑ r ∈ range n, ‖A.get r c‖ ^ 2
      = n * ∑ t ∈ range x.len, ‖wignerKernel x t (truncInt ((nbLags x.len).get c))‖ ^ 2 := by
    intro c hc
    set τ := truncInt ((nbLags x.len).get c) with hτ
    have hA : ∀ r < n, A.get r c = dftC n (fun t => wignerKernel x t τ) (((r + (n - n / 2)) % n : ℕ) : ℤ) := by
      intro r hr
      rw [f3 r (by omega) c hc]
      unfold dftC
      apply Finset.sum_congr rfl
      intro t _
      congr 1
      apply rootPow_congr h0
      rw [← mul_sub]
      apply Dvd.dvd.mul_left
      have := Nat.mod_add_div (r + (n - n / 2)) n
      have h5 : (((r + (n - n / 2)) % n : ℕ) : ℤ) = (r : ℤ) + (n - (n / 2 : ℕ)) - n * ((r + (n - n / 2)) / n : ℕ) := by
        have h6 : (((r + (n - n / 2)) % n + n * ((r + (n - n / 2)) / n) : ℕ) : ℤ) = ((r + (n - n / 2) : ℕ) : ℤ) := by
          rw [this]
        push_cast [Nat.cast_sub (Nat.div_le_self n 2)] at h6 ⊢
        linarith
      refine ⟨((r + (n - n / 2)) / n : ℕ) - 1, ?_⟩
      rw [h5]
      push_cast
      ring
    have hsum : ∑ r ∈ range n, ‖A.get r c‖ ^ 2
        = ∑ r ∈ range n, ‖dftC n (fun t => wignerKernel x t τ) (((r + (n - n / 2)) % n : ℕ) : ℤ)‖ ^ 2 :=
      Finset.sum_congr rfl (fun r hr => by rw [hA r (Finset.mem_range.1 hr)])
    rw [hsum, sum_rotate (n - n / 2) (fun r => ‖dftC n (fun t => wignerKernel x t τ) (r : ℤ)‖ ^ 2), parseval h0]
    congr 1
    have hsk := sum_kernel x n τ (hz' c (by omega)) (fun t => conj (wignerKernel x t τ))
    simp only [mul_conj_eq_norm_sq] at hsk
    exact_mod_cast hsk
  unfold energy2
  rw [Finset.sum_comm, f1]
  rw [Finset.sum_congr rfl (fun c hc => hpar c (Finset.mem_range.1 hc)), ← Finset.mul_sum]
  congr 1
  rw [← sum_kernel_sq x (((x.len - 1) / 2 : ℕ) : ℤ) (by omega), ← sum_arange]
  have e3 : A.cols = ((((x.len - 1) / 2 : ℕ) : ℤ) + 1 - -(((x.len - 1) / 2 : ℕ) : ℤ)).toNat := by
    rw [f2, e1]; omega
  rw [e3]
  apply Finset.sum_congr rfl
  intro c _
  rw [e2, Utils.truncInt_intCast]
  apply Finset.sum_congr rfl
  intro t _
  congr 3
  ring

example : ∃ A l xi, narrowBand ⟨2, fun _ => 1⟩ none none = .ok (A, l, xi) ∧ energy2 A = 4 := by
  obtain ⟨A, l, xi, h, h1, _⟩ := C42_default ⟨2, fun _ => 1⟩ (by norm_num)
  refine ⟨A, l, xi, h, ?_⟩
  rw [C43_volume _ (by norm_num) none A l xi h, h1]
  have e0 : (range 2).filter (fun i => i % 2 = 0) = {0} := by decide
  have e1 : (range 2).filter (fun i => i % 2 = 1) = {1} := by decide
  simp only [energyEven, energyOdd, e0, e1]
  norm_num

/-- The energy splits over the parities. -/
theorem energy_parity (x : Vec ℂ) : energy x = energyEven x + energyOdd x := by
  unfold energy energyEven energyOdd
  rw [← Finset.sum_filter_add_sum_filter_not (range x.len) (fun i => i % 2 = 0)]
  congr 1
  apply Finset.sum_congr _ (fun _ _ => rfl)
  ext i
  simp only [Finset.mem_filter, Finset.mem_range]
  omega

/-- The volume is `n E² / 2` exactly when even and odd samples carry the same energy. -/
theorem C43_half_iff (x : Vec ℂ) (hx : 1 ≤ x.len) (nf : Option ℕ) (A : Mat ℂ) (l xi : Vec ℝ)
    (h : narrowBand x none nf = .ok (A, l, xi)) :
    energy2 A = A.rows / 2 * energy x ^ 2 ↔ energyEven x = energyOdd x := by
  have h0 : (A.rows : ℝ) ≠ 0 := by
    have h1 := ((C42_returns_iff x none nf).1 ⟨_, h⟩).1
    have h2 := (C42_closed_form x none nf A l xi h).2.1
    rw [h2]
    exact_mod_cast h1
  rw [C43_volume x hx nf A l xi h, energy_parity]
  constructor
  · intro e
    have e2 : (A.rows : ℝ) * (energyEven x - energyOdd x) ^ 2 = 0 := by linarith
    have e3 := (mul_eq_zero.1 e2).resolve_left h0
    exact sub_eq_zero.1 (pow_eq_zero_iff (two_ne_zero) |>.1 e3)
  · intro e
    rw [e]
    ring

end Tftb
