import Verif.Lemmas.Spwv
import Verif.Model.Ambiguity

/-! # Helper lemmas: narrow-band ambiguity function -/

namespace Tftb

open Finset ComplexConjugate Spec Ambiguity

/-- Storing at increasing positions `a, a+1, …` of a zero column. -/
theorem put_arange {n : ℕ} (a b : ℤ) (ha : 0 ≤ a) (hb : a ≤ b → b < n) {v : Vec ℂ} (w : ℤ → ℂ)
    (hv : v.len = (b + 1 - a).toNat) (hw : ∀ j < (b + 1 - a).toNat, v.get j = w (a + j)) :
    (⟨n, fun _ => 0⟩ : Vec ℂ).put (arange a (b + 1)) v
      = .ok ⟨n, fun r => if a ≤ (r : ℤ) ∧ (r : ℤ) ≤ b then w r else 0⟩ := by
  rw [Vec.put_ok]
  · congr 2
    funext r
    have hinj : ∀ i < (arange a (b + 1)).len, ∀ i' < (arange a (b + 1)).len,
        wrapIdx n ((arange a (b + 1)).get i) = wrapIdx n ((arange a (b + 1)).get i') → i = i' := by
      intro i _ i' _ h
      rw [arange_get, arange_get, wrapIdx_of_nonneg (by omega), wrapIdx_of_nonneg (by omega)] at h
      omega
    by_cases hr : a ≤ (r : ℤ) ∧ (r : ℤ) ≤ b
    · rw [if_pos hr]
      have hj : r = wrapIdx n ((arange a (b + 1)).get ((r : ℤ) - a).toNat) := by
        rw [arange_get, wrapIdx_of_nonneg (by omega)]; omega
      have hjl : ((r : ℤ) - a).toNat < (arange a (b + 1)).len := by rw [arange_len]; omega
      have h2 := Vec.scatter_mem (g := fun _ => (0 : ℂ)) (val := v.get) hjl hinj
      rw [← hj] at h2
      show Vec.scatter (fun _ => (0 : ℂ)) _ _ _ r = _
      rw [h2, hw _ (by omega)]
      congr 1; omega
    · rw [if_neg hr]
      show Vec.scatter (fun _ => (0 : ℂ)) _ _ _ r = _
      rw [Vec.scatter_not_mem]
      intro j hj h
      rw [arange_len] at hj
      rw [arange_get, wrapIdx_of_nonneg (by omega)] at h
      omega
  · intro j hj
    rw [arange_len] at hj
    rw [arange_get]
    simp only
    omega
  · rw [hv]; rfl

theorem wignerKernel_zero {x : Vec ℂ} {t τ : ℤ} (h : ¬ (|τ| ≤ t ∧ t < (x.len : ℤ) - |τ|)) : wignerKernel x t τ = 0 := by
  unfold wignerKernel
  by_cases h1 : 0 ≤ t + τ ∧ t + τ < x.len
  · rw [zext_of_not_mem (x := x) (i := t - τ)]
    · simp
    · rcases abs_cases τ with ⟨h2, _⟩ | ⟨h2, _⟩ <;> rw [h2] at h <;> omega
  · rw [zext_of_not_mem h1, zero_mul]

/-- The products at lag `τ` do not fit in a column of `n` rows. -/
def nbZone (N n : ℕ) (τ : ℤ) : Prop := |τ| < (N : ℤ) - |τ| ∧ (n : ℤ) < (N : ℤ) - |τ|

instance (N n : ℕ) (τ : ℤ) : Decidable (nbZone N n τ) := by unfold nbZone; infer_instance

/-- One column of the narrow-band ambiguity function. -/
theorem nbCol_eq (x : Vec ℂ) (lag : Vec ℝ) (n : ℕ) (c : ℕ) (hc : c < lag.len) :
    nbCol x lag c ⟨n, fun _ => 0⟩ = if nbZone x.len n (truncInt (lag.get c)) then .error .indexError
      else .ok ⟨n, fun r => wignerKernel x r (truncInt (lag.get c))⟩ := by
  set τ := truncInt (lag.get c) with hτ
  have hτ1 : -|τ| ≤ τ ∧ τ ≤ |τ| := ⟨neg_abs_le τ, le_abs_self τ⟩
  have hτ0 : 0 ≤ |τ| := abs_nonneg τ
  have hb : ∀ t, |τ| ≤ t → t ≤ (x.len : ℤ) - |τ| - 1 →
      (0 ≤ t + τ ∧ t + τ < x.len) ∧ (0 ≤ t - τ ∧ t - τ < x.len) := by
    intro t h1 h2
    omega
  obtain ⟨va, a1, a2, a3⟩ := take_range (x := x) |τ| ((x.len : ℤ) - |τ| - 1) (fun t => t + τ) (fun t h1 h2 => (hb t h1 h2).1)
  obtain ⟨vb, b1, b2, b3⟩ := take_range (x := x) |τ| ((x.len : ℤ) - |τ| - 1) (fun t => t - τ) (fun t h1 h2 => (hb t h1 h2).2)
  have e : arange |τ| ((x.len : ℤ) - |τ|) = arange |τ| ((x.len : ℤ) - |τ| - 1 + 1) := by rw [sub_add_cancel]
  unfold nbCol
  rw [ts_item hc, ok_bind]
  simp only [← hτ]
  rw [e, a1, ok_bind, b1, ok_bind, Vec.bcast_ok (by rw [a2, b2]), ok_bind]
  by_cases h : nbZone x.len n τ
  · rw [if_pos h]
    unfold nbZone at h
    unfold Vec.put
    rw [if_pos]
    intro hall
    have h1 := hall ((x.len : ℤ) - |τ| - 1 - |τ|).toNat (by rw [arange_len]; omega)
    rw [arange_get] at h1
    unfold IdxOk at h1
    simp only at h1
    omega
  · rw [if_neg h]
    unfold nbZone at h
    rw [put_arange |τ| ((x.len : ℤ) - |τ| - 1) hτ0 (by omega) (v := ⟨va.len, fun i => va.get i * conj (vb.get i)⟩)
      (fun t => wignerKernel x t τ) a2 (fun j hj => by simp only; rw [a3 j hj, b3 j hj]; rfl)]
    congr 2
    funext r
    split
    · rfl
    · rw [wignerKernel_zero (by omega)]

theorem nbRows_len (n : ℕ) : (nbRows n).1.len = n ∧ (nbRows n).2.len = n := by
  unfold nbRows
  simp only [Vec.append, Vec.map_len, arange_len]
  omega

theorem nbRows_get (n r : ℕ) (hr : r < n) :
    ∃ k : ℕ, (nbRows n).1.get r = (k : ℤ) ∧ k < n ∧ (n : ℤ) ∣ (k : ℤ) - ((r : ℤ) - (n / 2 : ℕ)) ∧
      (nbRows n).2.get r = (((r : ℤ) - (n / 2 : ℕ) : ℤ) : ℝ) / n := by
  have e : (-((n : ℤ) - (n : ℤ) % 2)) / 2 + (r : ℤ) = (r : ℤ) - (n / 2 : ℕ) := by omega
  have e2 : (nbRows n).2.get r = (((r : ℤ) - (n / 2 : ℕ) : ℤ) : ℝ) / n := by
    show (((-((n : ℤ) - (n : ℤ) % 2)) / 2 + (r : ℤ) : ℤ) : ℝ) / n = _
    rw [e]
  have e1 : (nbRows n).1.get r = if r < ((n : ℤ) - ((n : ℤ) + (n : ℤ) % 2) / 2).toNat then ((n : ℤ) + (n : ℤ) % 2) / 2 + r
      else 0 + ((r - ((n : ℤ) - ((n : ℤ) + (n : ℤ) % 2) / 2).toNat : ℕ) : ℤ) := rfl
  rw [e1, e2]
  split
  case isTrue h =>
    exact ⟨((((n : ℤ) + (n : ℤ) % 2) / 2) + r).toNat, by omega, by omega, ⟨1, by omega⟩, rfl⟩
  case isFalse h =>
    exact ⟨r - ((n : ℤ) - ((n : ℤ) + (n : ℤ) % 2) / 2).toNat, by omega, by omega, ⟨0, by omega⟩, rfl⟩

/-- The products at lag `τ`, transformed over the rows. -/
theorem sum_kernel (x : Vec ℂ) (n : ℕ) (τ : ℤ) (hz : ¬ nbZone x.len n τ) (f : ℕ → ℂ) :
    ∑ t ∈ range n, wignerKernel x t τ * f t = ∑ t ∈ range x.len, wignerKernel x t τ * f t := by
  unfold nbZone at hz
  have hτ0 : 0 ≤ |τ| := abs_nonneg τ
  have h1 : ∀ t : ℕ, (n ≤ t ∨ x.len ≤ t) → wignerKernel x t τ = 0 := by
    intro t ht
    apply wignerKernel_zero
    omega
  rw [Finset.sum_subset (Finset.range_mono (Nat.le_max_left n x.len)),
    Finset.sum_subset (Finset.range_mono (Nat.le_max_right n x.len))]
  · intro t _ ht
    rw [h1 t (Or.inr (by simpa using ht)), zero_mul]
  · intro t _ ht
    rw [h1 t (Or.inl (by simpa using ht)), zero_mul]

/-- `narrow_band` in closed form. -/
theorem narrowBand_eq (x : Vec ℂ) (lag : Option (Vec ℝ)) (nf : Option ℕ) :
    ((nf.getD x.len ≠ 0 ∧ ∀ c < (lag.getD (nbLags x.len)).len,
        ¬ nbZone x.len (nf.getD x.len) (truncInt ((lag.getD (nbLags x.len)).get c))) →
      ∃ A, narrowBand x lag nf = .ok (A, lag.getD (nbLags x.len), (nbRows (nf.getD x.len)).2) ∧
        A.rows = nf.getD x.len ∧ A.cols = (lag.getD (nbLags x.len)).len ∧
        ∀ r < A.rows, ∀ c < A.cols, A.get r c = ∑ t ∈ range (nf.getD x.len),
          wignerKernel x t (truncInt ((lag.getD (nbLags x.len)).get c))
            * rootPow (nf.getD x.len) ((t : ℤ) * ((r : ℤ) - (nf.getD x.len / 2 : ℕ)))) ∧
    ((∃ c < (lag.getD (nbLags x.len)).len,
        nbZone x.len (nf.getD x.len) (truncInt ((lag.getD (nbLags x.len)).get c))) →
      narrowBand x lag nf = .error .indexError) ∧
    (nf.getD x.len = 0 → (∀ c < (lag.getD (nbLags x.len)).len,
        ¬ nbZone x.len (nf.getD x.len) (truncInt ((lag.getD (nbLags x.len)).get c))) →
      narrowBand x lag nf = .error .valueError) := by
  set l := lag.getD (nbLags x.len) with hl
  set n := nf.getD x.len with hn
  have hloop : (∀ c < l.len, ¬ nbZone x.len n (truncInt (l.get c))) →
      (Mat.zeros n l.len : Mat ℂ).forCols l.len (nbCol x l)
        = .ok ⟨n, l.len, fun r c => if c < l.len then wignerKernel x r (truncInt (l.get c)) else 0⟩ := by
    intro h
    exact Mat.forCols_ok (M := Mat.zeros n l.len) (g := fun c => ⟨n, fun r => wignerKernel x r (truncInt (l.get c))⟩)
      le_rfl (fun c hc => by
        show nbCol x l c ⟨n, fun _ => 0⟩ = _
        rw [nbCol_eq x l n c hc, if_neg (h c hc)])
  refine ⟨?_, ?_, ?_⟩
  · rintro ⟨h0, h⟩
    obtain ⟨k1, k2⟩ := nbRows_len n
    have hrow : ∀ j < (nbRows n).1.len, IdxOk n ((nbRows n).1.get j) := by
      intro j hj
      obtain ⟨k, e1, e2, _⟩ := nbRows_get n j (by omega)
      rw [e1]
      exact idxOk_of_lt (by omega) (by omega)
    have hok : narrowBand x lag nf = .ok (⟨(nbRows n).1.len, l.len, fun r c =>
        ∑ j ∈ range n, (if c < l.len then wignerKernel x j (truncInt (l.get c)) else 0)
          * rootPow n ((j : ℤ) * (wrapIdx n ((nbRows n).1.get r) : ℕ))⟩, l, (nbRows n).2) := by
      unfold narrowBand
      simp only [← hl, ← hn]
      rw [hloop h, ok_bind]
      unfold Mat.fft0
      rw [if_neg h0, ok_bind]
      unfold Mat.takeRows
      rw [if_pos hrow, ok_bind]
    refine ⟨_, hok, k1, rfl, ?_⟩
    intro r hr c hc
    simp only at hr hc ⊢
    obtain ⟨k, e1, e2, e3, _⟩ := nbRows_get n r (by omega)
    rw [e1, wrapIdx_natCast]
    apply Finset.sum_congr rfl
    intro t _
    rw [if_pos (show c < l.len from hc)]
    congr 1
    apply rootPow_congr h0
    rw [← mul_sub]
    exact e3.mul_left _
  · rintro ⟨c, hc, hz⟩
    obtain ⟨c0, ⟨hc0, hz0⟩, hmin⟩ : ∃ c0, (c0 < l.len ∧ nbZone x.len n (truncInt (l.get c0))) ∧
        ∀ c' < c0, ¬ (c' < l.len ∧ nbZone x.len n (truncInt (l.get c'))) := by
      classical
      have hex : ∃ c, c < l.len ∧ nbZone x.len n (truncInt (l.get c)) := ⟨c, hc, hz⟩
      exact ⟨Nat.find hex, Nat.find_spec hex, fun c' hc' => Nat.find_min hex hc'⟩
    unfold narrowBand
    simp only [← hl, ← hn]
    rw [Mat.forCols_error (M := Mat.zeros n l.len) (T := l.len) (e := .indexError) (c0 := c0)
      (g := fun c => ⟨n, fun r => wignerKernel x r (truncInt (l.get c))⟩) le_rfl hc0, error_bind]
    · intro c' hc'
      show nbCol x l c' ⟨n, fun _ => 0⟩ = _
      rw [nbCol_eq x l n c' (by omega), if_neg]
      intro hz'
      exact hmin c' hc' ⟨by omega, hz'⟩
    · show nbCol x l c0 ⟨n, fun _ => 0⟩ = _
      rw [nbCol_eq x l n c0 hc0, if_pos hz0]
  · intro h0 h
    unfold narrowBand
    simp only [← hl, ← hn]
    rw [hloop h, ok_bind]
    unfold Mat.fft0
    rw [if_pos h0]
    rfl

end Tftb
