import Verif.Props.Cohen
import Verif.Lemmas.WvdInverse

/-! # What the Margenau-Hill distributions and the Page representation keep of the signal (C114) -/

namespace Tftb.Props

open Tftb Tftb.Spec Tftb.Linear Tftb.Cohen Finset ComplexConjugate

/-- What the bins of one column of the Margenau-Hill distribution say about the products of its sample: a product and the conjugate of the product at the opposite lag come added. -/
noncomputable def mhPair (x : Vec ℂ) (n t s : ℕ) : ℂ :=
  x.get t * conj (x.get s) + ∑ u ∈ Finset.Ico 1 x.len, if (n : ℤ) ∣ u + s - 2 * t then conj (x.get t) * x.get u else 0

theorem mh_pair_sum (x : Vec ℂ) (n t s : ℕ) (hn : x.len ≤ n) (hs : 1 ≤ s) (hsx : s < x.len) :
    ∑ k ∈ range n, (((∑ u ∈ Finset.Ico 1 x.len, x.get t * conj (x.get u) * rootPow n (((t : ℤ) - u) * k)).re : ℝ) : ℂ) * rootPow n (-(((t : ℤ) - s) * k))
      = n / 2 * mhPair x n t s := by
  have hn0 : n ≠ 0 := by omega
  have hk : ∀ k ∈ range n, (((∑ u ∈ Finset.Ico 1 x.len, x.get t * conj (x.get u) * rootPow n (((t : ℤ) - u) * k)).re : ℝ) : ℂ) * rootPow n (-(((t : ℤ) - s) * k))
      = 1 / 2 * (∑ u ∈ Finset.Ico 1 x.len, x.get t * conj (x.get u) * rootPow n (((s : ℤ) - u) * k)
        + ∑ u ∈ Finset.Ico 1 x.len, conj (x.get t) * x.get u * rootPow n (((u : ℤ) + s - 2 * t) * k)) := by
    intro k _
    rw [Complex.re_eq_add_conj, map_sum, div_mul_eq_mul_div, add_mul, Finset.sum_mul, Finset.sum_mul, one_div, inv_mul_eq_div]
    congr 2
    · refine Finset.sum_congr rfl fun u _ => ?_
      rw [mul_assoc, ← rootPow_add]
      congr 2
      ring
    · refine Finset.sum_congr rfl fun u _ => ?_
      rw [map_mul, map_mul, Complex.conj_conj, conj_rootPow, mul_assoc, ← rootPow_add]
      congr 2
      ring
  rw [Finset.sum_congr rfl hk, ← Finset.mul_sum, Finset.sum_add_distrib, Finset.sum_comm, Finset.sum_comm (s := range n)]
  have e1 : ∑ u ∈ Finset.Ico 1 x.len, ∑ k ∈ range n, x.get t * conj (x.get u) * rootPow n (((s : ℤ) - u) * k) = n * (x.get t * conj (x.get s)) := by
    rw [Finset.sum_eq_single s]
    · rw [← Finset.mul_sum, sum_rootPow hn0, if_pos (by simp)]
      ring
    · intro u hu hus
      rw [Finset.mem_Ico] at hu
      rw [← Finset.mul_sum, sum_rootPow hn0, if_neg, mul_zero]
      intro hd
      have := Int.le_of_dvd (show 0 < |(s : ℤ) - u| from abs_pos.2 (by omega)) ((dvd_abs _ _).2 hd)
      have h5 : |(s : ℤ) - u| ≤ x.len - 2 := abs_le.2 ⟨by omega, by omega⟩
      omega
    · intro hu
      rw [Finset.mem_Ico] at hu
      omega
  have e2 : ∑ u ∈ Finset.Ico 1 x.len, ∑ k ∈ range n, conj (x.get t) * x.get u * rootPow n (((u : ℤ) + s - 2 * t) * k)
      = n * ∑ u ∈ Finset.Ico 1 x.len, if (n : ℤ) ∣ u + s - 2 * t then conj (x.get t) * x.get u else 0 := by
    rw [Finset.mul_sum]
    refine Finset.sum_congr rfl fun u _ => ?_
    rw [← Finset.mul_sum, sum_rootPow hn0]
    split
    · ring
    · simp
  rw [e1, e2]
  unfold mhPair
  ring

/-- Column `t` of the Margenau-Hill distribution, in the form used here. -/
theorem mh_column (x : Vec ℂ) (n : ℕ) (hx : x.len ≠ 0) (hn : x.len ≤ n) (M : Mat ℝ) (hM : MhReturns x (arange 0 x.len) n M) :
    ∀ k < n, ∀ t < x.len, M.get k t = (∑ u ∈ Finset.Ico 1 x.len, x.get t * conj (x.get u) * rootPow n (((t : ℤ) - u) * k)).re := by
  obtain ⟨hl, hg⟩ := arange_default x.len
  obtain ⟨M', h1, _, _, h4⟩ := C38_margenau_hill x (arange 0 x.len) n (by omega) (fun c hc => by rw [hl] at hc; rw [hg]; omega)
  obtain rfl := mh_unique hM h1
  intro k hk t ht
  rw [h4 k hk t (by rw [hl]; exact ht), hg, min_eq_right hn, Int.toNat_natCast]
  congr 1
  refine Finset.sum_congr rfl fun u _ => ?_
  rw [rootPow_eq_expi]
  congr 2
  push_cast
  ring

/-- Equal columns mean equal pairs. -/
theorem mh_pair_eq (x y : Vec ℂ) (hlen : y.len = x.len) (n : ℕ) (hx : x.len ≠ 0) (hn : x.len ≤ n) (M M' : Mat ℝ) (hM : MhReturns x (arange 0 x.len) n M)
    (hM' : MhReturns y (arange 0 x.len) n M') (t : ℕ) (ht : t < x.len) (he : ∀ k < n, M.get k t = M'.get k t) (s : ℕ) (hs : 1 ≤ s) (hsx : s < x.len) :
    mhPair x n t s = mhPair y n t s := by
  have hn0 : (n : ℂ) / 2 ≠ 0 := div_ne_zero (by exact_mod_cast (by omega : n ≠ 0)) two_ne_zero
  apply mul_left_cancel₀ hn0
  rw [← mh_pair_sum x n t s hn hs hsx, ← mh_pair_sum y n t s (by omega) hs (by omega)]
  refine Finset.sum_congr rfl fun k hk => ?_
  have hk := Finset.mem_range.1 hk
  rw [← mh_column x n hx hn M hM k hk t ht, ← mh_column y n (by omega) (by omega) M' (by rw [hlen]; exact hM') k hk t (by omega), he k hk]

/-- The matrix does not change when the signal is multiplied by a phase factor. -/
theorem mh_phase (x y : Vec ℂ) (hlen : y.len = x.len) (n : ℕ) (hx : x.len ≠ 0) (hn : x.len ≤ n) (M M' : Mat ℝ) (hM : MhReturns x (arange 0 x.len) n M)
    (hM' : MhReturns y (arange 0 x.len) n M') (α : ℂ) (hα : ‖α‖ = 1) (t : ℕ) (ht : t < x.len) (hyt : y.get t = α * x.get t) (hy : ∀ i, 1 ≤ i → i < x.len → y.get i = α * x.get i) :
    ∀ k < n, M.get k t = M'.get k t := by
  intro k hk
  rw [mh_column x n hx hn M hM k hk t ht, mh_column y n (by omega) (by omega) M' (by rw [hlen]; exact hM') k hk t (by omega), hlen]
  congr 1
  refine Finset.sum_congr rfl fun u hu => ?_
  rw [Finset.mem_Ico] at hu
  have hu1 : α * conj α = 1 := by
    rw [Complex.mul_conj, Complex.normSq_eq_norm_sq, hα]
    simp
  rw [hyt, hy u hu.1 hu.2, map_mul]
  linear_combination (-(x.get t * conj (x.get u) * rootPow n (((t : ℤ) - u) * k))) * hu1

theorem unit_of_norm {a b : ℂ} (hb : b ≠ 0) (h : ‖a‖ = ‖b‖) : ‖a / b‖ = 1 := by
  rw [norm_div, h, div_self (norm_ne_zero_iff.2 hb)]

theorem factor_step {a b α u v : ℂ} (ha : a ≠ 0) (hα : ‖α‖ = 1) (hu : u = α * a) (h : conj u * v = conj a * b) : v = α * b := by
  have h1 : α * conj α = 1 := by
    rw [Complex.mul_conj, Complex.normSq_eq_norm_sq, hα]
    simp
  have hc : conj a ≠ 0 := by simpa using ha
  apply mul_left_cancel₀ hc
  rw [hu, map_mul] at h
  linear_combination α * h - (conj a * v) * h1

theorem norm_of_double {a b : ℂ} (h : a * conj a + conj a * a = b * conj b + conj b * b) : ‖b‖ = ‖a‖ := by
  have e : ((‖a‖ ^ 2 : ℝ) : ℂ) = ((‖b‖ ^ 2 : ℝ) : ℂ) := by
    rw [← Complex.normSq_eq_norm_sq, ← Complex.normSq_eq_norm_sq, ← Complex.mul_conj, ← Complex.mul_conj]
    linear_combination h / 2
  have e2 := Complex.ofReal_injective e
  exact (pow_left_inj₀ (norm_nonneg _) (norm_nonneg _) two_ne_zero).1 e2.symm

/-- With twice as many bins as samples (less one) the Margenau-Hill distribution determines a signal whose sample 1 is not zero, up to one constant phase factor. -/
theorem C114_margenau_hill (x y : Vec ℂ) (hlen : y.len = x.len) (hx : 2 ≤ x.len) (hx1 : x.get 1 ≠ 0) (n : ℕ) (hn : 2 * x.len - 1 ≤ n) (M M' : Mat ℝ)
    (hM : MhReturns x (arange 0 x.len) n M) (hM' : MhReturns y (arange 0 x.len) n M') :
    (∀ k < n, ∀ t < x.len, M.get k t = M'.get k t) ↔ ∃ α : ℂ, ‖α‖ = 1 ∧ ∀ i < x.len, y.get i = α * x.get i := by
  constructor
  · intro he
    have pair := fun t ht s hs hsx => mh_pair_eq x y hlen n (by omega) (by omega) M M' hM hM' t ht (fun k hk => he k hk t ht) s hs hsx
    have zero : ∀ z : Vec ℂ, z.len = x.len → ∀ t s : ℕ, (∀ u : ℕ, 1 ≤ u → u < x.len → 0 < (u : ℤ) + s - 2 * t ∧ (u : ℤ) + s - 2 * t < n) →
        mhPair z n t s = z.get t * conj (z.get s) := by
      intro z hz t s h
      unfold mhPair
      rw [Finset.sum_eq_zero, add_zero]
      intro u hu
      rw [Finset.mem_Ico] at hu
      obtain ⟨h1, h2⟩ := h u hu.1 (by omega)
      rw [if_neg]
      intro hd
      have := Int.le_of_dvd h1 hd
      omega
    have p11 : x.get 1 * conj (x.get 1) + conj (x.get 1) * x.get 1 = y.get 1 * conj (y.get 1) + conj (y.get 1) * y.get 1 := by
      have e := pair 1 (by omega) 1 le_rfl (by omega)
      have one : ∀ z : Vec ℂ, z.len = x.len → mhPair z n 1 1 = z.get 1 * conj (z.get 1) + conj (z.get 1) * z.get 1 := by
        intro z hz
        unfold mhPair
        rw [Finset.sum_eq_single 1]
        · rw [if_pos (by simp)]
        · intro u hu hu1
          rw [Finset.mem_Ico] at hu
          rw [if_neg]
          intro hd
          have := Int.le_of_dvd (by push_cast; omega) hd
          push_cast at this
          omega
        · intro h
          rw [Finset.mem_Ico] at h
          omega
      rw [one x rfl, one y hlen] at e
      exact e
    have hα := unit_of_norm hx1 (norm_of_double p11)
    have hy1 : y.get 1 = y.get 1 / x.get 1 * x.get 1 := by rw [div_mul_cancel₀ _ hx1]
    refine ⟨y.get 1 / x.get 1, hα, fun i hi => ?_⟩
    rcases (by omega : i = 0 ∨ i = 1 ∨ 2 ≤ i) with rfl | rfl | h2
    · have e := pair 0 (by omega) 1 le_rfl (by omega)
      rw [zero x rfl 0 1 (fun u h1 h2 => by push_cast; omega), zero y hlen 0 1 (fun u h1 h2 => by push_cast; omega)] at e
      exact factor_step hx1 hα hy1 (by linear_combination -e)
    · exact hy1
    · have e := pair 1 (by omega) i (by omega) hi
      rw [zero x rfl 1 i (fun u h1 h2 => by push_cast; omega), zero y hlen 1 i (fun u h1 h2 => by push_cast; omega)] at e
      have e' := congrArg conj e
      rw [map_mul, map_mul, Complex.conj_conj, Complex.conj_conj] at e'
      exact factor_step hx1 hα hy1 e'.symm
  · rintro ⟨α, hα, hy⟩ k hk t ht
    exact mh_phase x y hlen n (by omega) (by omega) M M' hM hM' α hα t ht (hy t ht) (fun i _ h => hy i h) k hk

theorem mhPair_of (z : Vec ℂ) {t s u : ℕ} (hu : 1 ≤ u) (huz : u < z.len) (hd : (z.len : ℤ) ∣ u + s - 2 * t) :
    mhPair z z.len t s = z.get t * conj (z.get s) + conj (z.get t) * z.get u := by
  unfold mhPair
  rw [Finset.sum_eq_single u, if_pos hd]
  · intro v hv hvu
    rw [Finset.mem_Ico] at hv
    rw [if_neg]
    intro hd2
    have hd3 := dvd_sub hd2 hd
    rw [show (v : ℤ) + s - 2 * t - (u + s - 2 * t) = v - u by ring] at hd3
    have := Int.le_of_dvd (show 0 < |(v : ℤ) - u| from abs_pos.2 (by omega)) ((dvd_abs _ _).2 hd3)
    have h5 : |(v : ℤ) - u| ≤ z.len - 2 := abs_le.2 ⟨by omega, by omega⟩
    omega
  · intro h
    rw [Finset.mem_Ico] at h
    omega

theorem mhPair_alone (z : Vec ℂ) {t s : ℕ} (hd : (z.len : ℤ) ∣ s - 2 * t) : mhPair z z.len t s = z.get t * conj (z.get s) := by
  unfold mhPair
  rw [Finset.sum_eq_zero, add_zero]
  intro u hu
  rw [Finset.mem_Ico] at hu
  rw [if_neg]
  intro hd2
  have hd3 := dvd_sub hd2 hd
  rw [show (u : ℤ) + s - 2 * t - (s - 2 * t) = u by ring] at hd3
  have := Int.le_of_dvd (by omega) hd3
  omega

/-- Default arguments: without zero samples from sample 1 on, the distribution determines those samples up to one constant phase factor. Sample 0, which takes part in column 0 only, is
determined up to the numbers `z` which all the pairs of samples `s` and `N - s` miss. -/
theorem C114_default (x y : Vec ℂ) (hlen : y.len = x.len) (hx : 2 ≤ x.len) (hx1 : ∀ i, 1 ≤ i → i < x.len → x.get i ≠ 0) (M M' : Mat ℝ)
    (hM : MhReturns x (arange 0 x.len) x.len M) (hM' : MhReturns y (arange 0 y.len) y.len M') :
    (∀ k < x.len, ∀ t < x.len, M.get k t = M'.get k t) ↔
      ∃ α z : ℂ, ‖α‖ = 1 ∧ (∀ i, 1 ≤ i → i < x.len → y.get i = α * x.get i) ∧ y.get 0 = α * (x.get 0 + z) ∧
        ∀ s, 1 ≤ s → s < x.len → z * conj (x.get s) + conj z * x.get (x.len - s) = 0 := by
  rw [hlen] at hM'
  constructor
  · intro he
    have pair := fun t ht s hs hsx => mh_pair_eq x y hlen x.len (by omega) le_rfl M M' hM hM' t ht (fun k hk => he k hk t ht) s hs hsx
    rw [show mhPair y x.len = mhPair y y.len by rw [hlen]] at pair
    have hnorm : ∀ t, 1 ≤ t → t < x.len → ‖y.get t‖ = ‖x.get t‖ := by
      intro t h1 h2
      have e := pair t h2 t h1 h2
      rw [mhPair_of x h1 h2 (by simp [two_mul]), mhPair_of y h1 (by omega) (by simp [two_mul])] at e
      exact norm_of_double e
    have hnext : ∀ j, 1 ≤ j → j + 1 < x.len → conj (y.get j) * y.get (j + 1) = conj (x.get j) * x.get (j + 1) := by
      intro j
      induction j with
      | zero => intro h; omega
      | succ j ih =>
        intro _ hj
        by_cases h0 : j = 0
        · subst h0
          have e := pair 1 (by omega) 2 (by omega) (by omega)
          rw [mhPair_alone x (by simp), mhPair_alone y (by simp)] at e
          have e' := congrArg conj e
          rw [map_mul, map_mul, Complex.conj_conj, Complex.conj_conj] at e'
          exact e'.symm
        · have e := pair (j + 1) (by omega) j (by omega) (by omega)
          rw [mhPair_of x (u := j + 1 + 1) (by omega) hj (by push_cast; ring_nf; simp), mhPair_of y (u := j + 1 + 1) (by omega) (by omega) (by push_cast; ring_nf; simp)] at e
          have i1 := ih (by omega) (by omega)
          linear_combination -i1 - e
    have hα := unit_of_norm (hx1 1 le_rfl (by omega)) (hnorm 1 le_rfl (by omega))
    have hall : ∀ i, 1 ≤ i → i < x.len → y.get i = y.get 1 / x.get 1 * x.get i := by
      intro i
      induction i with
      | zero => intro h; omega
      | succ i ih =>
        intro _ hi
        by_cases h0 : i = 0
        · subst h0
          rw [div_mul_cancel₀ _ (hx1 1 le_rfl (by omega))]
        · exact factor_step (hx1 i (by omega) (by omega)) hα (ih (by omega) (by omega)) (hnext i (by omega) hi)
    set α := y.get 1 / x.get 1 with hαdef
    have h1 : α * conj α = 1 := by
      rw [Complex.mul_conj, Complex.normSq_eq_norm_sq, hα]
      simp
    have hy0 : y.get 0 = α * (x.get 0 + (conj α * y.get 0 - x.get 0)) := by linear_combination (-(y.get 0)) * h1
    refine ⟨α, conj α * y.get 0 - x.get 0, hα, hall, hy0, fun s hs hsx => ?_⟩
    have e := pair 0 (by omega) s hs hsx
    rw [mhPair_of x (u := x.len - s) (by omega) (by omega) ⟨1, by push_cast; omega⟩, mhPair_of y (u := x.len - s) (by omega) (by omega) ⟨1, by push_cast; omega⟩,
      hall s hs hsx, hall (x.len - s) (by omega) (by omega), map_mul] at e
    rw [map_sub, map_mul, Complex.conj_conj]
    linear_combination -e
  · rintro ⟨α, z, hα, hy, hy0, hz⟩ k hk t ht
    by_cases h0 : t = 0
    · subst h0
      have h1 : α * conj α = 1 := by
        rw [Complex.mul_conj, Complex.normSq_eq_norm_sq, hα]
        simp
      rw [mh_column x x.len (by omega) le_rfl M hM k hk 0 ht, mh_column y x.len (by omega) (by omega) M' (by rw [hlen]; exact hM') k hk 0 (by omega), hlen, ← sub_eq_zero, ← Complex.sub_re,
        ← Finset.sum_sub_distrib]
      set S := ∑ u ∈ Finset.Ico 1 x.len, z * conj (x.get u) * rootPow x.len (((0 : ℕ) - (u : ℤ)) * k) with hS
      have e1 : ∑ u ∈ Finset.Ico 1 x.len, (x.get 0 * conj (x.get u) * rootPow x.len (((0 : ℕ) - (u : ℤ)) * k) - y.get 0 * conj (y.get u) * rootPow x.len (((0 : ℕ) - (u : ℤ)) * k)) = -S := by
        rw [hS, ← Finset.sum_neg_distrib]
        refine Finset.sum_congr rfl fun u hu => ?_
        rw [Finset.mem_Ico] at hu
        rw [hy0, hy u hu.1 hu.2, map_mul]
        linear_combination (-((x.get 0 + z) * conj (x.get u) * rootPow x.len (((0 : ℕ) - (u : ℤ)) * k))) * h1
      have e2 : S = -conj S := by
        rw [hS, map_sum, ← Finset.sum_neg_distrib]
        refine Finset.sum_bij (fun u _ => x.len - u) ?_ ?_ ?_ ?_
        · intro u hu
          rw [Finset.mem_Ico] at hu ⊢
          omega
        · intro u hu v hv h
          rw [Finset.mem_Ico] at hu hv
          omega
        · intro u hu
          rw [Finset.mem_Ico] at hu
          exact ⟨x.len - u, by rw [Finset.mem_Ico]; omega, by omega⟩
        · intro u hu
          rw [Finset.mem_Ico] at hu
          have hw : rootPow x.len (((0 : ℕ) - (u : ℤ)) * k) = conj (rootPow x.len (((0 : ℕ) - ((x.len - u : ℕ) : ℤ)) * k)) := by
            rw [conj_rootPow, show -((((0 : ℕ) : ℤ) - ((x.len - u : ℕ) : ℤ)) * (k : ℤ)) = (((0 : ℕ) : ℤ) - u) * k + x.len * k by push_cast [show u ≤ x.len by omega]; ring,
              rootPow_add, rootPow_self_mul (by omega), mul_one]
          rw [map_mul, map_mul, Complex.conj_conj, ← hw]
          have hzu := hz u hu.1 hu.2
          linear_combination (rootPow x.len (((0 : ℕ) - (u : ℤ)) * k)) * hzu
      rw [e1, Complex.neg_re, neg_eq_zero]
      have e3 := congrArg Complex.re e2
      rw [Complex.neg_re, Complex.conj_re] at e3
      linarith
    · exact mh_phase x y hlen x.len (by omega) le_rfl M M' hM hM' α hα t ht (hy t (by omega) ht) hy k hk

/-- The pseudo Margenau-Hill distribution, whose lags are one off, determines a signal without zero samples up to one constant phase factor, provided the window is not zero at its middle and
at the sample before. -/
theorem C114_pseudo {τ : Type} (x y : Vec ℂ) (hlen : y.len = x.len) (hx1 : 1 ≤ x.len) (hx : ∀ i < x.len, x.get i ≠ 0) (ts : Vec τ) (hts : ts.len = x.len) (n : ℕ) (h : Vec ℂ) (L : ℕ)
    (hh : h.len = 2 * L + 1) (hL : 1 ≤ L) (hLn : (L : ℤ) < roundEven ((n : ℝ) / 2) - 1) (h0 : h.get L ≠ 0) (h1 : h.get (L - 1) ≠ 0) (F G : Mat ℂ)
    (hF : PmhReturns x ts n (some h) F) (hG : PmhReturns y ts n (some h) G) :
    (∀ k < n, ∀ c < x.len, F.get k c = G.get k c) ↔ ∃ α : ℂ, ‖α‖ = 1 ∧ ∀ i < x.len, y.get i = α * x.get i := by
  have h2L : 2 * (L : ℤ) + 1 ≤ n := by
    rw [roundEven_half] at hLn
    split at hLn <;> omega
  have hn : n ≠ 0 := by omega
  have hn0 : (n : ℂ) ≠ 0 := by exact_mod_cast hn
  obtain ⟨F', f1, -, -, f4⟩ := (C61_pmh x ts n h L hh (.inl hLn)).1 (by omega)
  obtain ⟨G', g1, -, -, g4⟩ := (C61_pmh y ts n h L hh (.inl hLn)).1 (by omega)
  obtain rfl := pmh_unique hF f1
  obtain rfl := pmh_unique hG g1
  rw [hts] at f4 g4
  constructor
  · intro he
    have prod : ∀ c < x.len, ∀ σ : ℤ, (σ = 0 ∨ σ = -1) → x.get c * conj (zext x ((c : ℤ) - 1 - σ)) = y.get c * conj (zext y ((c : ℤ) - 1 - σ)) := by
      intro c hc σ hσ
      have ex := lagSum_inv hn h2L (fun τ => h.get ((L : ℤ) + τ).toNat * x.get c * conj (zext x ((c : ℤ) - 1 - τ))) (σ := σ) (by omega) (by omega)
      have ey := lagSum_inv hn h2L (fun τ => h.get ((L : ℤ) + τ).toNat * y.get c * conj (zext y ((c : ℤ) - 1 - τ))) (σ := σ) (by omega) (by omega)
      have es : ∑ k ∈ range n, lagSum L n (fun τ => h.get ((L : ℤ) + τ).toNat * x.get c * conj (zext x ((c : ℤ) - 1 - τ))) k * rootPow n (-(σ * k))
          = ∑ k ∈ range n, lagSum L n (fun τ => h.get ((L : ℤ) + τ).toNat * y.get c * conj (zext y ((c : ℤ) - 1 - τ))) k * rootPow n (-(σ * k)) := by
        refine Finset.sum_congr rfl fun k hk => ?_
        have hk := Finset.mem_range.1 hk
        rw [← f4 k hk c hc, ← g4 k hk c hc, he k hk c hc]
      rw [ex, ey] at es
      have e := mul_left_cancel₀ hn0 es
      have hne : h.get ((L : ℤ) + σ).toNat ≠ 0 := by
        rcases hσ with rfl | rfl
        · rwa [show ((L : ℤ) + 0).toNat = L by omega]
        · rwa [show ((L : ℤ) + -1).toNat = L - 1 by omega]
      rw [mul_assoc, mul_assoc] at e
      exact mul_left_cancel₀ hne e
    have hnorm : ∀ i < x.len, ‖y.get i‖ = ‖x.get i‖ := by
      intro i hi
      have e := prod i hi (-1) (.inr rfl)
      rw [show (i : ℤ) - 1 - -1 = i by ring, zext_of_mem (by omega) (by omega), zext_of_mem (by omega) (by omega), Int.toNat_natCast] at e
      exact norm_of_double (by rw [mul_comm (conj (x.get i)), mul_comm (conj (y.get i)), e])
    have hα := unit_of_norm (hx 0 (by omega)) (hnorm 0 (by omega))
    refine ⟨y.get 0 / x.get 0, hα, fun i => ?_⟩
    induction i with
    | zero => intro h; rw [div_mul_cancel₀ _ (hx 0 h)]
    | succ i ih =>
      intro hi
      have e := prod (i + 1) hi 0 (.inl rfl)
      rw [show ((i + 1 : ℕ) : ℤ) - 1 - 0 = i by push_cast; ring, zext_of_mem (by omega) (by omega), zext_of_mem (by omega) (by omega), Int.toNat_natCast] at e
      exact factor_step (hx i (by omega)) hα (ih (by omega)) (by linear_combination -e)
  · rintro ⟨α, hα, hy⟩ k hk c hc
    rw [f4 k hk c hc, g4 k hk c hc]
    refine lagSum_congr (fun σ _ _ => ?_) _
    have h1 : α * conj α = 1 := by
      rw [Complex.mul_conj, Complex.normSq_eq_norm_sq, hα]
      simp
    have hz : zext y ((c : ℤ) - 1 - σ) = α * zext x ((c : ℤ) - 1 - σ) := by
      by_cases hi : 0 ≤ (c : ℤ) - 1 - σ ∧ (c : ℤ) - 1 - σ < x.len
      · rw [zext_of_mem hi.1 (by omega), zext_of_mem hi.1 hi.2, hy _ (by omega)]
      · rw [zext_of_not_mem hi, zext_of_not_mem (by omega), mul_zero]
    rw [hz, hy c hc, map_mul]
    linear_combination (-(h.get ((L : ℤ) + σ).toNat * x.get c * conj (zext x ((c : ℤ) - 1 - σ)))) * h1

/-! ## Page representation -/

/-- What the bins of the column of sample 0 of the Page representation say: with more than twice as many bins as samples the products and their conjugates come at different lags. -/
theorem page_pair_sum (x : Vec ℂ) (n s : ℕ) (hn : 2 * x.len < n) (hsx : s < x.len) :
    ∑ k ∈ range n, (((∑ u ∈ range x.len, x.get 0 * conj (x.get u) * rootPow n ((-1 - (u : ℤ)) * k)).re : ℝ) : ℂ) * rootPow n ((1 + (s : ℤ)) * k)
      = n / 2 * (x.get 0 * conj (x.get s)) := by
  have hn0 : n ≠ 0 := by omega
  have hk : ∀ k ∈ range n, (((∑ u ∈ range x.len, x.get 0 * conj (x.get u) * rootPow n ((-1 - (u : ℤ)) * k)).re : ℝ) : ℂ) * rootPow n ((1 + (s : ℤ)) * k)
      = 1 / 2 * (∑ u ∈ range x.len, x.get 0 * conj (x.get u) * rootPow n (((s : ℤ) - u) * k)
        + ∑ u ∈ range x.len, conj (x.get 0) * x.get u * rootPow n (((u : ℤ) + s + 2) * k)) := by
    intro k _
    rw [Complex.re_eq_add_conj, map_sum, div_mul_eq_mul_div, add_mul, Finset.sum_mul, Finset.sum_mul, one_div, inv_mul_eq_div]
    congr 2
    · refine Finset.sum_congr rfl fun u _ => ?_
      rw [mul_assoc, ← rootPow_add]
      congr 2
      ring
    · refine Finset.sum_congr rfl fun u _ => ?_
      rw [map_mul, map_mul, Complex.conj_conj, conj_rootPow, mul_assoc, ← rootPow_add]
      congr 2
      ring
  rw [Finset.sum_congr rfl hk, ← Finset.mul_sum, Finset.sum_add_distrib, Finset.sum_comm, Finset.sum_comm (s := range n)]
  have e1 : ∑ u ∈ range x.len, ∑ k ∈ range n, x.get 0 * conj (x.get u) * rootPow n (((s : ℤ) - u) * k) = n * (x.get 0 * conj (x.get s)) := by
    rw [Finset.sum_eq_single s]
    · rw [← Finset.mul_sum, sum_rootPow hn0, if_pos (by simp)]
      ring
    · intro u hu hus
      rw [Finset.mem_range] at hu
      rw [← Finset.mul_sum, sum_rootPow hn0, if_neg, mul_zero]
      intro hd
      have := Int.le_of_dvd (show 0 < |(s : ℤ) - u| from abs_pos.2 (by omega)) ((dvd_abs _ _).2 hd)
      have h5 : |(s : ℤ) - u| ≤ x.len := abs_le.2 ⟨by omega, by omega⟩
      omega
    · intro hu
      rw [Finset.mem_range] at hu
      omega
  have e2 : ∑ u ∈ range x.len, ∑ k ∈ range n, conj (x.get 0) * x.get u * rootPow n (((u : ℤ) + s + 2) * k) = 0 := by
    refine Finset.sum_eq_zero fun u hu => ?_
    rw [Finset.mem_range] at hu
    rw [← Finset.mul_sum, sum_rootPow hn0, if_neg, mul_zero]
    intro hd
    have := Int.le_of_dvd (by omega) hd
    omega
  rw [e1, e2]
  ring

/-- With more than twice as many bins as samples the column of sample 0 of the Page representation, which is made of products with all the samples, determines a signal whose sample 0
is not zero, up to one constant phase factor, whatever the other instants. -/
theorem C114_page (x y : Vec ℂ) (hlen : y.len = x.len) (hx : x.len ≠ 0) (hx0 : x.get 0 ≠ 0) (n : ℕ) (hn : 2 * x.len < n) (ts : Vec ℤ)
    (hts : ∀ c < ts.len, 0 ≤ ts.get c ∧ ts.get c < x.len) (c0 : ℕ) (hc0 : c0 < ts.len) (h0 : ts.get c0 = 0) (M M' : Mat ℝ)
    (hM : PageReturns x ts n M) (hM' : PageReturns y ts n M') :
    ((∀ k < n, M.get k c0 = M'.get k c0) ↔ ∃ α : ℂ, ‖α‖ = 1 ∧ ∀ i < x.len, y.get i = α * x.get i) ∧
    ((∀ k < n, ∀ c < ts.len, M.get k c = M'.get k c) ↔ ∃ α : ℂ, ‖α‖ = 1 ∧ ∀ i < x.len, y.get i = α * x.get i) := by
  have col : ∀ (z : Vec ℂ) (P : Mat ℝ), z.len = x.len → PageReturns z ts n P → ∀ k < n, ∀ c < ts.len,
      P.get k c = (∑ u ∈ range z.len, z.get (ts.get c).toNat * conj (z.get u) * rootPow n ((ts.get c - 1 - (u : ℤ)) * k)).re := by
    intro z P hz hP k hk c hc
    obtain ⟨P', p1, -, -, p4⟩ := C39_page z ts n (by omega) (fun c hc => by rw [hz]; exact hts c hc)
    obtain rfl := page_unique hP p1
    rw [p4 k hk c hc, min_eq_right (by omega)]
    congr 1
    refine Finset.sum_congr rfl fun u _ => ?_
    rw [rootPow_eq_expi]
    congr 2
    push_cast
    ring
  have fwd : (∀ k < n, M.get k c0 = M'.get k c0) → ∃ α : ℂ, ‖α‖ = 1 ∧ ∀ i < x.len, y.get i = α * x.get i := by
    intro he
    have hn0 : (n : ℂ) / 2 ≠ 0 := div_ne_zero (by exact_mod_cast (by omega : n ≠ 0)) two_ne_zero
    have pair : ∀ s < x.len, x.get 0 * conj (x.get s) = y.get 0 * conj (y.get s) := by
      intro s hs
      apply mul_left_cancel₀ hn0
      rw [← page_pair_sum x n s hn hs, ← page_pair_sum y n s (by omega) (by omega)]
      refine Finset.sum_congr rfl fun k hk => ?_
      have hk := Finset.mem_range.1 hk
      have h1 := col x M rfl hM k hk c0 hc0
      have h2 := col y M' hlen hM' k hk c0 hc0
      rw [h0] at h1 h2
      have hz : ∀ u : ℕ, (0 : ℤ) - 1 - u = -1 - u := fun u => by ring
      simp only [Int.toNat_zero, hz] at h1 h2
      rw [← h1, ← h2, he k hk]
    have h00 := pair 0 (by omega)
    have hnorm : ‖y.get 0‖ = ‖x.get 0‖ := norm_of_double (by linear_combination 2 * h00)
    refine ⟨y.get 0 / x.get 0, unit_of_norm hx0 hnorm, fun i hi => ?_⟩
    have hu : y.get 0 = y.get 0 / x.get 0 * x.get 0 := by rw [div_mul_cancel₀ _ hx0]
    refine factor_step hx0 (unit_of_norm hx0 hnorm) hu ?_
    have := congrArg conj (pair i hi)
    rw [map_mul, map_mul, Complex.conj_conj, Complex.conj_conj] at this
    exact this.symm
  have bwd : (∃ α : ℂ, ‖α‖ = 1 ∧ ∀ i < x.len, y.get i = α * x.get i) → ∀ k < n, ∀ c < ts.len, M.get k c = M'.get k c := by
    rintro ⟨α, hα, hy⟩ k hk c hc
    rw [col x M rfl hM k hk c hc, col y M' hlen hM' k hk c hc, hlen]
    congr 1
    refine Finset.sum_congr rfl fun u hu => ?_
    rw [Finset.mem_range] at hu
    have hu1 : α * conj α = 1 := by
      rw [Complex.mul_conj, Complex.normSq_eq_norm_sq, hα]
      simp
    have := hts c hc
    rw [hy _ (by omega), hy u hu, map_mul]
    linear_combination (-(x.get (ts.get c).toNat * conj (x.get u) * rootPow n ((ts.get c - 1 - (u : ℤ)) * k))) * hu1
  exact ⟨⟨fwd, fun h k hk => bwd h k hk c0 hc0⟩, ⟨fun h => fwd fun k hk => h k hk c0 hc0, bwd⟩⟩

/-- With the default arguments it does not: two signals of two samples, not proportional, have the same Page representation. -/
theorem C114_page_default : ∃ (x y : Vec ℂ) (M M' : Mat ℝ), x.len = 2 ∧ y.len = 2 ∧ x.get 0 ≠ 0 ∧ x.get 1 ≠ 0 ∧ PageReturns x (arange 0 2) 2 M ∧ PageReturns y (arange 0 2) 2 M' ∧
    (∀ k < 2, ∀ t < 2, M.get k t = M'.get k t) ∧ ¬ ∃ α : ℂ, y.get 0 = α * x.get 0 ∧ y.get 1 = α * x.get 1 := by
  obtain ⟨M, m1, -, -, m4⟩ := C39_default ⟨2, fun i => if i = 0 then 1 else Complex.I⟩ (by norm_num)
  obtain ⟨M', m1', -, -, m4'⟩ := C39_default ⟨2, fun i => if i = 0 then 1 else -Complex.I⟩ (by norm_num)
  refine ⟨_, _, M, M', rfl, rfl, by simp, by simp, m1, m1', fun k hk t ht => ?_, ?_⟩
  · rw [m4 k hk t ht, m4' k hk t ht]
    have hp : expi Real.pi = -1 := by unfold expi; exact Complex.exp_pi_mul_I
    have hm : expi (-Real.pi) = -1 := by rw [expi_neg, hp]; norm_num
    have hd : ∀ (z : ℂ) (k : ℕ), dft ⟨2, fun i => if i = 0 then 1 else z⟩ k = 1 + z * expi (-(Real.pi * k)) := by
      intro z k
      have e : expi (-(2 * Real.pi * ((k : ℝ) / 2) * 1)) = expi (-(Real.pi * k)) := by congr 1; ring
      simp only [dft, dtft, Finset.sum_range_succ, Finset.sum_range_zero]
      simp [← e]
    have hk' : k = 0 ∨ k = 1 := by omega
    have ht' : t = 0 ∨ t = 1 := by omega
    rw [hd, hd]
    clear m1 m4 m1' m4' hd
    have e : -(2 * Real.pi * ((1 : ℕ) / (2 : ℕ) : ℝ) * (((0 : ℕ) : ℝ) - 1)) = Real.pi := by push_cast; ring
    rcases hk' with rfl | rfl <;> rcases ht' with rfl | rfl
    · simp
    · simp
    · rw [e, hp]; simp [hm]
    · simp [hm]
  · rintro ⟨α, h1, h2⟩
    simp at h1 h2
    rw [← h1] at h2
    have := congrArg Complex.im h2
    simp at this
    linarith

/-! ## Concrete cases -/

/-- Default arguments, three samples: the imaginary part of sample 0 of `1 ± i, 1, 1` has no influence on the distribution. -/
example : ∃ M M', MhReturns ⟨3, fun i => if i = 0 then 1 + Complex.I else 1⟩ (arange 0 (3 : ℕ)) 3 M ∧ MhReturns ⟨3, fun i => if i = 0 then 1 - Complex.I else 1⟩ (arange 0 (3 : ℕ)) 3 M' ∧
    ∀ k < 3, ∀ t < 3, M.get k t = M'.get k t := by
  obtain ⟨M, m1, -⟩ := C38_default ⟨3, fun i => if i = 0 then 1 + Complex.I else 1⟩ (by norm_num)
  obtain ⟨M', m1', -⟩ := C38_default ⟨3, fun i => if i = 0 then 1 - Complex.I else 1⟩ (by norm_num)
  refine ⟨M, M', m1, m1', (C114_default ⟨3, fun i => if i = 0 then 1 + Complex.I else 1⟩ ⟨3, fun i => if i = 0 then 1 - Complex.I else 1⟩ rfl (by norm_num) (fun i h _ => ?_) M M' m1 m1').2 ⟨1, -2 * Complex.I, by simp, fun i h _ => ?_, ?_, fun s h h' => ?_⟩⟩
  · dsimp only
    rw [if_neg (by omega)]
    exact one_ne_zero
  · dsimp only
    rw [if_neg (by omega), if_neg (by omega), mul_one]
  · dsimp only
    rw [if_pos rfl, if_pos rfl]
    ring
  · dsimp only at h' ⊢
    rw [if_neg (by omega), if_neg (by omega)]
    rw [map_one, mul_one, mul_one, map_mul, map_neg, Complex.conj_ofNat, Complex.conj_I]
    ring

/-- With five bins for the three samples it has. -/
example : ∃ M M', MhReturns ⟨3, fun i => if i = 0 then 1 + Complex.I else 1⟩ (arange 0 (3 : ℕ)) 5 M ∧ MhReturns ⟨3, fun i => if i = 0 then 1 - Complex.I else 1⟩ (arange 0 (3 : ℕ)) 5 M' ∧
    ∃ k < 5, ∃ t < 3, M.get k t ≠ M'.get k t := by
  obtain ⟨hl, hg⟩ := arange_default 3
  obtain ⟨M, m1, -⟩ := C38_margenau_hill ⟨3, fun i => if i = 0 then 1 + Complex.I else 1⟩ (arange 0 (3 : ℕ)) 5 (by norm_num) (fun c hc => by rw [hl] at hc; rw [hg]; exact ⟨by omega, by exact_mod_cast hc⟩)
  obtain ⟨M', m1', -⟩ := C38_margenau_hill ⟨3, fun i => if i = 0 then 1 - Complex.I else 1⟩ (arange 0 (3 : ℕ)) 5 (by norm_num) (fun c hc => by rw [hl] at hc; rw [hg]; exact ⟨by omega, by exact_mod_cast hc⟩)
  refine ⟨M, M', m1, m1', ?_⟩
  by_contra hcon
  push Not at hcon
  obtain ⟨α, -, e⟩ := (C114_margenau_hill ⟨3, fun i => if i = 0 then 1 + Complex.I else 1⟩ ⟨3, fun i => if i = 0 then 1 - Complex.I else 1⟩ rfl (by norm_num) (by norm_num) 5 (by norm_num) M M' m1 m1').1 hcon
  have e0 := e 0 (by norm_num)
  have e1 := e 1 (by norm_num)
  norm_num at e0 e1
  rw [← e1] at e0
  have := congrArg Complex.im e0
  norm_num at this

/-- Pseudo Margenau-Hill: eight equal samples, and the same with sample 5 negated, are told apart by a window of three samples. -/
example : ∃ F G, PmhReturns ⟨8, fun _ => 1⟩ (arange 0 8) 8 (some ⟨3, fun _ => 1⟩) F ∧ PmhReturns ⟨8, fun i => if i = 5 then -1 else 1⟩ (arange 0 8) 8 (some ⟨3, fun _ => 1⟩) G ∧
    ∃ k < 8, ∃ c < 8, F.get k c ≠ G.get k c := by
  have hr : ((1 : ℕ) : ℤ) < roundEven (((8 : ℕ) : ℝ) / 2) - 1 := by rw [roundEven_half]; norm_num
  have hl : (arange 0 8).len = 8 := by rw [arange_len]; rfl
  obtain ⟨F, f1, -⟩ := (C61_pmh ⟨8, fun _ => 1⟩ (arange 0 8) 8 ⟨3, fun _ => 1⟩ 1 rfl (.inl hr)).1 hl.le
  obtain ⟨G, g1, -⟩ := (C61_pmh ⟨8, fun i => if i = 5 then -1 else 1⟩ (arange 0 8) 8 ⟨3, fun _ => 1⟩ 1 rfl (.inl hr)).1 hl.le
  refine ⟨F, G, f1, g1, ?_⟩
  by_contra hcon
  push Not at hcon
  obtain ⟨α, -, e⟩ := (C114_pseudo ⟨8, fun _ => 1⟩ ⟨8, fun i => if i = 5 then -1 else 1⟩ rfl (by norm_num) (fun _ _ => one_ne_zero) (arange 0 8) hl 8 ⟨3, fun _ => 1⟩ 1 rfl le_rfl hr one_ne_zero
    one_ne_zero F G f1 g1).1 hcon
  have e0 := e 0 (by norm_num)
  have e5 := e 5 (by norm_num)
  norm_num at e0 e5
  rw [← e0] at e5
  norm_num at e5

/-- Page representation: `1, i` and `1, -i`, which two bins do not tell apart, differ in the column of sample 0 with five bins. -/
example : ∃ M M', PageReturns ⟨2, fun i => if i = 0 then 1 else Complex.I⟩ (arange 0 (2 : ℕ)) 5 M ∧ PageReturns ⟨2, fun i => if i = 0 then 1 else -Complex.I⟩ (arange 0 (2 : ℕ)) 5 M' ∧
    ∃ k < 5, M.get k 0 ≠ M'.get k 0 := by
  obtain ⟨hl, hg⟩ := arange_default 2
  have hb : ∀ c < (arange 0 (2 : ℕ)).len, 0 ≤ (arange 0 (2 : ℕ)).get c ∧ (arange 0 (2 : ℕ)).get c < ((2 : ℕ) : ℤ) :=
    fun c hc => by rw [hl] at hc; rw [hg]; exact ⟨by omega, by exact_mod_cast hc⟩
  obtain ⟨M, m1, -⟩ := C39_page ⟨2, fun i => if i = 0 then 1 else Complex.I⟩ (arange 0 (2 : ℕ)) 5 (by norm_num) hb
  obtain ⟨M', m1', -⟩ := C39_page ⟨2, fun i => if i = 0 then 1 else -Complex.I⟩ (arange 0 (2 : ℕ)) 5 (by norm_num) hb
  refine ⟨M, M', m1, m1', ?_⟩
  by_contra hcon
  push Not at hcon
  obtain ⟨α, -, h⟩ := (C114_page ⟨2, fun i => if i = 0 then 1 else Complex.I⟩ ⟨2, fun i => if i = 0 then 1 else -Complex.I⟩ rfl (by norm_num) (by simp) 5 (by norm_num)
    (arange 0 (2 : ℕ)) hb 0 (by rw [hl]; norm_num) (by rw [hg]; rfl) M M' m1 m1').1.1 hcon
  have h1 := h 0 (by norm_num)
  have h2 := h 1 (by norm_num)
  simp at h1 h2
  rw [← h1] at h2
  have := congrArg Complex.im h2
  simp at this
  linarith

end Tftb.Props
