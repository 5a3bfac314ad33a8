import Verif.Lemmas.Reassigned
import Verif.Lemmas.Wvd

/-! # Helper lemmas: the reassigned pseudo Wigner-Ville distribution -/

namespace Tftb

open Finset Spec ProcUtils Reassigned ComplexConjugate

/-- Windowed lag sum around sample `t - 1`: `Σ_{|τ| ≤ L} g(L + τ) x(t - 1 + τ) conj x(t - 1 - τ) e^{-2πikτ/n}`, samples outside the
signal being zero. -/
noncomputable def pwvSum (x : Vec ℂ) (g : ℕ → ℝ) (n L : ℕ) (t : ℤ) (k : ℤ) : ℂ :=
  lagSum L n (fun τ => (g ((L : ℤ) + τ).toNat : ℂ) * wignerKernel x (t - 1) τ) k

/-- Mean power of the samples `a, …, b` that exist. -/
noncomputable def slicePower (x : Vec ℂ) (a b : ℤ) : ℝ :=
  (∑ t ∈ Finset.Icc a (min b ((x.len : ℤ) - 1)), ‖zext x t‖ ^ 2) / (min (b : ℝ) ((x.len : ℝ) - 1) + 1 - a)

open Classical in
/-- Row to which the reassignment moves bin `k`: `A` is the distribution there, `D` the imaginary part of the sum with the derived window. -/
noncomputable def pwvDest (n : ℕ) (thr A D : ℝ) (k : ℕ) : ℤ :=
  if thr < |A| then ((k : ℤ) - roundEven (n / (2 * Real.pi) * (D / A)) - 1) % n else k

/-- Largest lag of a column. -/
noncomputable def pwvMax (N L : ℕ) (t : ℤ) : ℤ := min (min (t - 1) ((N : ℤ) - t)) L

theorem half_sub_one (n : ℕ) : 2 * (roundEven ((n : ℝ) / 2) - 1) + 1 ≤ (n : ℤ) := by
  rw [roundEven_half]; split_ifs <;> omega

theorem pwvCol_ok {x : Vec ℂ} {n L : ℕ} {g : Vec ℝ} {ts : Vec ℤ} (hn : n ≠ 0) (hg : g.len = 2 * L + 1) {c : ℕ} (hc : c < ts.len)
    (hr : ¬(roundEven ((n : ℝ) / 2) - 1 < ts.get c - 1 ∧ roundEven ((n : ℝ) / 2) - 1 < (x.len : ℤ) - ts.get c ∧
      roundEven ((n : ℝ) / 2) - 1 ≤ (L : ℤ))) :
    pwvCol x n (L : ℤ) g ts c ⟨n, fun _ => 0⟩ = .ok ⟨n, lagCol n (-(pwvMax x.len L (ts.get c))) (pwvMax x.len L (ts.get c))
      (fun t => (g.get ((L : ℤ) + t).toNat : ℂ) * wignerKernel x (ts.get c - 1) t)⟩ := by
  set ti := ts.get c with hti
  set m := pwvMax x.len L ti with hm
  have hmin : min (min (ti - 1) ((x.len : ℤ) - ti)) (min (roundEven ((n : ℝ) / 2) - 1) (L : ℤ)) = m := by
    rw [hm]; unfold pwvMax; omega
  have hb : ∀ j < (m + 1 - -m).toNat, (0 ≤ ti + (-m + (j : ℤ)) - 1 ∧ ti + (-m + (j : ℤ)) - 1 < x.len) ∧
      (0 ≤ ti - (-m + (j : ℤ)) - 1 ∧ ti - (-m + (j : ℤ)) - 1 < x.len) ∧
      (0 ≤ (L : ℤ) + (-m + (j : ℤ)) ∧ (L : ℤ) + (-m + (j : ℤ)) < 2 * L + 1) := by
    intro j hj
    simp only [hm, pwvMax] at hj ⊢
    omega
  unfold pwvCol
  rw [ts_item hc, ok_bind]
  norm_num only [Nat.cast_ofNat] at hr ⊢
  simp only [← hti]
  rw [if_neg hr, hmin, Vec.take_ok (fun j hj => by have := hb j hj; rw [hg]; push_cast; exact this.2.2), ok_bind,
    Vec.take_ok (fun j hj => (hb j hj).1), ok_bind, Vec.take_ok (fun j hj => (hb j hj).2.1), ok_bind, Vec.bcast_ok (by rfl), ok_bind,
    Vec.bcast_ok (by rfl), ok_bind]
  rw [put_lags_zero hn (-m) m (fun t => (g.get ((L : ℤ) + t).toNat : ℂ) * wignerKernel x (ti - 1) t) rfl ?_, ok_bind]
  · rw [if_neg (by omega)]
  · intro j hj
    have h := hb j hj
    simp only [Vec.map, arange]
    rw [wrapIdx_of_nonneg h.1.1, wrapIdx_of_nonneg h.2.1.1, wrapIdx_of_nonneg h.2.2.1, mul_assoc]
    unfold wignerKernel zext
    rw [if_pos (by omega), if_pos (by omega), show ti - 1 + (-m + (j : ℤ)) = ti + (-m + (j : ℤ)) - 1 by ring,
      show ti - 1 - (-m + (j : ℤ)) = ti - (-m + (j : ℤ)) - 1 by ring]

theorem wignerKernel_outside {x : Vec ℂ} {t τ : ℤ} (h : min (t - 1) ((x.len : ℤ) - t) < |τ|) : wignerKernel x (t - 1) τ = 0 := by
  unfold wignerKernel zext
  by_cases h1 : 0 ≤ t - 1 + τ ∧ t - 1 + τ < x.len
  · rw [if_neg (c := 0 ≤ t - 1 - τ ∧ t - 1 - τ < x.len) (by
      intro h2
      rcases abs_cases τ with ⟨e, -⟩ | ⟨e, -⟩ <;> omega), map_zero, mul_zero]
  · rw [if_neg h1, zero_mul]

theorem dft_pwvCol {x : Vec ℂ} {n L : ℕ} (hn : n ≠ 0) (g : Vec ℝ) (ti : ℤ)
    (hr : ¬(roundEven ((n : ℝ) / 2) - 1 < ti - 1 ∧ roundEven ((n : ℝ) / 2) - 1 < (x.len : ℤ) - ti ∧
      roundEven ((n : ℝ) / 2) - 1 ≤ (L : ℤ))) (k : ℕ) :
    dftC n (lagCol n (-(pwvMax x.len L ti)) (pwvMax x.len L ti)
      (fun t => (g.get ((L : ℤ) + t).toNat : ℂ) * wignerKernel x (ti - 1) t)) k = pwvSum x g.get n L ti k := by
  have hmr : pwvMax x.len L ti ≤ roundEven ((n : ℝ) / 2) - 1 := by unfold pwvMax; omega
  have := half_sub_one n
  rw [dftC_lagCol_symm hn (by omega)]
  unfold pwvSum lagSum
  refine Finset.sum_subset (fun τ hτ => ?_) (fun τ hτ hτ' => ?_)
  · rw [Finset.mem_Icc] at hτ ⊢
    unfold pwvMax at hτ
    omega
  · rw [Finset.mem_Icc] at hτ hτ'
    simp only
    rw [wignerKernel_outside, mul_zero, zero_mul]
    unfold pwvMax at hτ'
    rcases abs_cases τ with ⟨e, h0⟩ | ⟨e, h0⟩ <;> omega

theorem pwvThreshold_eq {x : Vec ℂ} {a b : ℤ} (h0 : 0 ≤ a) (hab : a ≤ b) (h1 : a < x.len) :
    pwvThreshold x a b = some (1e-6 * slicePower x a b) := by
  have ha : Vec.clampIdx x.len a = a.toNat := by unfold Vec.clampIdx; rw [if_neg (by omega)]; omega
  have hb : Vec.clampIdx x.len (b + 1) = min x.len (b + 1).toNat := by unfold Vec.clampIdx; rw [if_neg (by omega)]
  unfold pwvThreshold
  simp only [Vec.slice, ha, hb]
  rw [if_neg (by omega)]
  congr 2
  · norm_num
  · unfold slicePower Vec.sum
    congr 1
    · rw [← sum_arange]
      simp only [Vec.map]
      have : (min b ((x.len : ℤ) - 1) + 1 - a).toNat = min x.len (b + 1).toNat - a.toNat := by omega
      rw [this]
      refine Finset.sum_congr rfl (fun j hj => ?_)
      rw [Finset.mem_range] at hj
      unfold zext
      rw [if_pos (by omega), show (a + (j : ℤ)).toNat = a.toNat + j by omega]
    · have : (((min x.len (b + 1).toNat - a.toNat : ℕ) : ℤ)) = min b ((x.len : ℤ) - 1) + 1 - a := by omega
      have := congrArg (fun z : ℤ => (z : ℝ)) this
      push_cast at this
      exact this

theorem pwvRow_eq {n k : ℕ} (a d : ℝ) :
    pwvRow n k a d = ((k : ℤ) - roundEven (n / (2 * Real.pi) * (d / a)) - 1) % n := by
  unfold pwvRow
  have : d * ((n : ℝ) / a / (2 * Real.pi)) = n / (2 * Real.pi) * (d / a) := by ring
  simp only [this]
  rw [Int.add_emod_right, Int.emod_emod_of_dvd _ (dvd_refl _)]

/-- Up to the transform. -/
theorem pwv_columns {x : Vec ℂ} {n L : ℕ} {ts : Vec ℤ} {g : Vec ℝ} (hn : n ≠ 0) (hg : g.len = 2 * L + 1)
    (hr : ∀ c < ts.len, ¬(roundEven ((n : ℝ) / 2) - 1 < ts.get c - 1 ∧ roundEven ((n : ℝ) / 2) - 1 < (x.len : ℤ) - ts.get c ∧
      roundEven ((n : ℝ) / 2) - 1 ≤ (L : ℤ))) :
    ∃ A F : Mat ℂ, (Mat.zeros n ts.len : Mat ℂ).forCols ts.len (pwvCol x n (L : ℤ) g ts) = .ok A ∧ A.fft0 = .ok F ∧
      F.rows = n ∧ F.cols = ts.len ∧ ∀ k : ℕ, ∀ c < ts.len, F.get k c = pwvSum x g.get n L (ts.get c) k := by
  set col : ℕ → Vec ℂ := fun c => ⟨n, lagCol n (-(pwvMax x.len L (ts.get c))) (pwvMax x.len L (ts.get c))
      (fun t => (g.get ((L : ℤ) + t).toNat : ℂ) * wignerKernel x (ts.get c - 1) t)⟩ with hcol
  refine ⟨⟨n, ts.len, fun r c => if c < ts.len then (col c).get r else 0⟩,
    ⟨n, ts.len, fun k c => dftC n (fun r => if c < ts.len then (col c).get r else 0) k⟩,
    Mat.forCols_ok (M := Mat.zeros n ts.len) (T := ts.len) (le_refl _) (fun c hc => pwvCol_ok hn hg hc (hr c hc)),
    fft0_ok (M := ⟨n, ts.len, fun r c => if c < ts.len then (col c).get r else 0⟩) hn, rfl, rfl, ?_⟩
  intro k c hc
  simp only [if_pos hc]
  exact dft_pwvCol hn g (ts.get c) (hr c hc) k

/-- The reassigned pseudo Wigner-Ville distribution, in closed form. -/
theorem pwv_ok {x : Vec ℂ} {ts? : Option (Vec ℤ)} {n? : Option ℕ} {w? : Option (Vec ℝ)} {ts : Vec ℤ} {n L : ℕ} {w dw : Vec ℝ}
    (e1 : ts?.getD (arange 0 x.len) = ts) (e2 : n?.getD x.len = n) (e3 : w?.getD (hamming (defaultLength n)) = w)
    (hn : n ≠ 0) (hw : w.len = 2 * L + 1) (hmid : w.get L ≠ 0) (hdw : deriveWindow (w.map (· / w.get L)) = .ok dw) (hdl : dw.len = w.len)
    {a b : ℤ} (hab : IsRange ts a b) (h0 : 0 ≤ a) (h1 : a < x.len)
    (hr : ∀ c < ts.len, ¬(roundEven ((n : ℝ) / 2) - 1 < ts.get c - 1 ∧ roundEven ((n : ℝ) / 2) - 1 < (x.len : ℤ) - ts.get c ∧
      roundEven ((n : ℝ) / 2) - 1 ≤ (L : ℤ))) :
    ∃ tfr rtfr v, pseudoWignerVille x ts? n? w? = .ok (tfr, rtfr, v) ∧ tfr.rows = n ∧ tfr.cols = ts.len ∧
      rtfr.rows = n ∧ rtfr.cols = ts.len ∧ v.rows = n ∧ v.cols = ts.len ∧
      (∀ k : ℕ, ∀ c < ts.len, tfr.get k c = (pwvSum x (fun j => w.get j / w.get L) n L (ts.get c) k).re) ∧
      (∀ k < n, ∀ c < ts.len, v.get k c = if 1e-6 * slicePower x a b < |tfr.get k c| then
        some (((pwvDest n (1e-6 * slicePower x a b) (tfr.get k c) (pwvSum x dw.get n L (ts.get c) k).im k : ℤ) : ℂ) + 1) else none) ∧
      ∀ p, ∀ c < ts.len, rtfr.get p c = ∑ k ∈ range n,
        if pwvDest n (1e-6 * slicePower x a b) (tfr.get k c) (pwvSum x dw.get n L (ts.get c) k).im k = (p : ℤ) then tfr.get k c else 0 := by
  have hle : a ≤ b := by obtain ⟨⟨c, hc, e⟩, -, hr⟩ := hab; have := (hr c hc).2; omega
  set thr := 1e-6 * slicePower x a b with hthr
  set w' : Vec ℝ := w.map (· / w.get L) with hw'
  obtain ⟨A, F, hA, hF, f1, f2, f3⟩ := pwv_columns (x := x) (g := w') hn (by rw [hw', Vec.map_len, hw]) hr
  obtain ⟨D, H, hD, hH, g1, g2, g3⟩ := pwv_columns (x := x) (g := dw) hn (by rw [hdl, hw]) hr
  set tfr : Mat ℝ := F.map Complex.re with htfr
  have htv : ∀ k c : ℕ, c < ts.len → tfr.get k c = (pwvSum x (fun j => w.get j / w.get L) n L (ts.get c) k).re := by
    intro k c hc
    show (F.get k c).re = _
    rw [f3 k c hc]
    rfl
  have htarget : ∀ k c : ℕ, c < ts.len → pwvTarget n (some thr) tfr (fun r c => .ok (H.get r c)) k c
      = .ok (pwvDest n thr (tfr.get k c) (pwvSum x dw.get n L (ts.get c) k).im k, (c : ℤ)) := by
    intro k c hc
    unfold pwvTarget pwvDest
    by_cases h : thr < |tfr.get k c|
    · rw [if_pos (above_iff.2 h), if_pos h, ok_bind, pwvRow_eq, g3 k c hc]
    · rw [if_neg (fun h' => h (above_iff.1 h')), if_neg h]
  have hrange : ∀ k < n, ∀ A D : ℝ, 0 ≤ pwvDest n thr A D k ∧ pwvDest n thr A D k < n := by
    intro k hk A D
    unfold pwvDest
    split_ifs
    · exact ⟨Int.emod_nonneg _ (by omega), Int.emod_lt_of_pos _ (by omega)⟩
    · omega
  have hok : ∀ j < tfr.rows, ∀ i < tfr.cols, TargetOk tfr (pwvTarget n (some thr) tfr (fun r c => .ok (H.get r c))) j i := by
    intro j hj i hi
    have hj' : j < n := f1 ▸ hj
    have hi' : i < ts.len := f2 ▸ hi
    have := hrange j hj' (tfr.get j i) (pwvSum x dw.get n L (ts.get i) j).im
    refine ⟨_, _, htarget j i hi', idxOk_of_lt this.1 ?_, idxOk_of_lt (by omega) (by exact_mod_cast hi)⟩
    show _ < ((F.rows : ℕ) : ℤ)
    rw [f1]; exact this.2
  obtain ⟨R, hR, r1, r2, r3⟩ := scatterAdd_ok hok
  have hlh : ((w.len : ℤ) - 1) / 2 = (L : ℤ) := by rw [hw]; push_cast; omega
  have hdw' : deriveWindow? w' = .ok (some dw) := by unfold deriveWindow?; rw [hdw]
  have hitem : w.item (L : ℤ) = .ok (w.get L) := by rw [Vec.item_ok (by omega) (by omega)]; simp
  refine ⟨tfr, R, ⟨n, ts.len, fun r c =>
    if above (some thr) (tfr.get r c) then
      match pwvTarget n (some thr) tfr (fun r c => .ok (H.get r c)) r c with
      | .ok (r', _) => some ((r' : ℂ) + 1)
      | .error _ => none
    else none⟩, ?_, f1, f2, r1.trans f1, r2.trans f2, rfl, rfl, htv, ?_, ?_⟩
  · unfold pseudoWignerVille
    simp only [e1, e2, e3]
    rw [if_neg (by rw [hw]; omega), hlh, hitem, ok_bind, if_neg hmid, ← hw', hdw', ok_bind, hA, ok_bind]
    simp only
    rw [hD, ok_bind]
    unfold pwvFinish
    rw [hF, ok_bind, derived_ok hH, ok_bind, amin_range hab, ok_bind, amax_range hab, ok_bind, Int.floor_intCast, Int.floor_intCast,
      pwvThreshold_eq h0 hle h1]
    show (scatterAdd tfr (pwvTarget n (some thr) tfr (fun r c => .ok (H.get r c))) >>= _) = _
    rw [hR, ok_bind]
    rfl
  · intro k hk c hc
    show (if above (some thr) (tfr.get k c) = true then _ else _) = _
    by_cases h : thr < |tfr.get k c|
    · rw [if_pos (above_iff.2 h), if_pos h]
      show (match pwvTarget n (some thr) tfr (fun r c => .ok (H.get r c)) k c with
        | .ok (r', _) => some ((r' : ℂ) + 1)
        | .error _ => none) = _
      rw [htarget k c hc]
    · rw [if_neg (fun h' => h (above_iff.1 h')), if_neg h]
  · intro p q hq
    rw [r3, show tfr.cols = ts.len from f2, show tfr.rows = n from f1, Finset.sum_eq_single_of_mem q (Finset.mem_range.2 hq)]
    · refine Finset.sum_congr rfl (fun k hk => ?_)
      rw [Finset.mem_range] at hk
      unfold hit
      rw [htarget k q hq]
      simp only
      have hh := hrange k hk (tfr.get k q) (pwvSum x dw.get n L (ts.get q) k).im
      rw [wrapIdx_of_nonneg hh.1, wrapIdx_natCast]
      by_cases h : pwvDest n thr (tfr.get k q) (pwvSum x dw.get n L (ts.get q) k).im k = (p : ℤ)
      · rw [if_pos h, if_pos (by rw [h]; simp)]
      · rw [if_neg h, if_neg (fun h' => h (by omega))]
    · intro c hc hcq
      refine Finset.sum_eq_zero (fun k hk => ?_)
      rw [Finset.mem_range] at hc
      unfold hit
      rw [htarget k c hc]
      simp only
      rw [if_neg]
      rintro ⟨-, h2⟩
      rw [wrapIdx_natCast] at h2
      exact hcq h2.symm

end Tftb
