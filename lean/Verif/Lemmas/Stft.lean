import Verif.Model.Cohen
import Verif.Lemmas.Column

/-! # Helper lemmas for the short-time Fourier transform and the spectrogram -/

namespace Tftb

open Finset ComplexConjugate Spec Linear Cohen

theorem zext_of_mem {x : Vec ℂ} {i : ℤ} (h0 : 0 ≤ i) (h1 : i < x.len) : zext x i = x.get i.toNat := by
  unfold zext; rw [if_pos ⟨h0, h1⟩]

theorem zext_of_not_mem {x : Vec ℂ} {i : ℤ} (h : ¬ (0 ≤ i ∧ i < (x.len : ℤ))) : zext x i = 0 := by
  unfold zext; rw [if_neg h]

/-- Reading an affine function of an integer range. -/
theorem take_range {x : Vec ℂ} (a b : ℤ) (f : ℤ → ℤ) (h : ∀ t, a ≤ t → t ≤ b → 0 ≤ f t ∧ f t < x.len) :
    ∃ v : Vec ℂ, x.take ((arange a (b + 1)).map f) = .ok v ∧ v.len = (b + 1 - a).toNat ∧
      ∀ j < (b + 1 - a).toNat, v.get j = zext x (f (a + j)) := by
  refine ⟨_, Vec.take_ok ?_, rfl, ?_⟩
  · intro j hj
    rw [Vec.map_len, arange_len] at hj
    rw [Vec.map_get, arange_get]; exact h _ (by omega) (by omega)
  · intro j hj
    have := h (a + j) (by omega) (by omega)
    rw [zext_of_mem this.1 this.2]
    show x.get (wrapIdx _ (((arange a (b + 1)).map f).get j)) = _
    rw [Vec.map_get, arange_get, wrapIdx_of_nonneg this.1]

/-- As `take_range`, on the conjugated array. -/
theorem take_range_conj {x : Vec ℂ} (a b : ℤ) (f : ℤ → ℤ)
    (h : ∀ t, a ≤ t → t ≤ b → 0 ≤ f t ∧ f t < x.len) :
    ∃ v : Vec ℂ, (x.map (starRingEnd ℂ)).take ((arange a (b + 1)).map f) = .ok v ∧
      v.len = (b + 1 - a).toNat ∧ ∀ j < (b + 1 - a).toNat, v.get j = conj (zext x (f (a + j))) := by
  obtain ⟨v, h1, h2, h3⟩ := take_range (x := x.map (starRingEnd ℂ)) a b f h
  refine ⟨v, h1, h2, fun j hj => ?_⟩
  have := h (a + j) (by omega) (by omega)
  rw [h3 j hj, zext_of_mem this.1 this.2, zext_of_mem (x := x.map (starRingEnd ℂ)) this.1 this.2,
    Vec.map_get]

/-- Storing at lags in a zero column. -/
theorem put_lags_zero {n : ℕ} (hn : n ≠ 0) (a b : ℤ) {v : Vec ℂ} (w : ℤ → ℂ)
    (hv : v.len = (b + 1 - a).toNat) (hw : ∀ j < (b + 1 - a).toNat, v.get j = w (a + j)) :
    (⟨n, fun _ => 0⟩ : Vec ℂ).put ((arange a (b + 1)).map (fun t => ((n : ℤ) + t) % (n : ℤ))) v
      = .ok ⟨n, lagCol n a b w⟩ := by
  rw [put_lags hn a b rfl hv]
  congr 2
  exact Vec.scatter_congr rfl (fun _ _ => rfl) hw

/-- First lag of column `c` of the STFT. -/
noncomputable def stftLo (n : ℕ) (lh : ℤ) (c : ℤ) : ℤ := -(min (min (roundEven ((n : ℝ) / 2)) lh) (c - 1))
/-- Last lag of column `c` of the STFT. -/
noncomputable def stftHi (n N : ℕ) (lh : ℤ) (c : ℤ) : ℤ := min (min (roundEven ((n : ℝ) / 2)) lh) ((N : ℤ) - c)

theorem ts_item {τ : Type} {ts : Vec τ} {c : ℕ} (hc : c < ts.len) : ts.item (c : ℤ) = .ok (ts.get c) := by
  rw [Vec.item_ok (by omega) (by omega)]; simp

/-- One column of the STFT before the transform. -/
theorem stftCol_ok {τ : Type} (mkw : ℕ → Vec ℂ) (x : Vec ℂ) (ts : Vec τ) (n : ℕ) (h : Vec ℂ) (hn : n ≠ 0)
    (c : ℕ) (hc : c < ts.len) :
    stftCol (TFR.init mkw x ts n (some h)) c ⟨n, fun _ => 0⟩
      = .ok ⟨n, lagCol n (stftLo n (((h.len : ℤ) - 1) / 2) c) (stftHi n x.len (((h.len : ℤ) - 1) / 2) c)
          (fun t => zext x (c + t - 1) * conj (zext h (((h.len : ℤ) - 1) / 2 + t)))⟩ := by
  set lh : ℤ := ((h.len : ℤ) - 1) / 2 with hlh
  have hb : ∀ t, stftLo n lh c ≤ t → t ≤ stftHi n x.len lh c →
      (0 ≤ (c : ℤ) + t - 1 ∧ (c : ℤ) + t - 1 < x.len) ∧ (0 ≤ lh + t ∧ lh + t < h.len) := by
    intro t h1 h2
    unfold stftLo at h1; unfold stftHi at h2
    omega
  obtain ⟨va, a1, a2, a3⟩ := take_range (x := x) (stftLo n lh c) (stftHi n x.len lh c)
    (fun t => (c : ℤ) + t - 1) (fun t h1 h2 => (hb t h1 h2).1)
  obtain ⟨vb, b1, b2, b3⟩ := take_range_conj (x := h) (stftLo n lh c) (stftHi n x.len lh c)
    (fun t => lh + t) (fun t h1 h2 => (hb t h1 h2).2)
  simp only [stftCol, TFR.init, Option.getD_some, ts_item hc, ok_bind]
  show (x.take ((arange (stftLo n lh c) (stftHi n x.len lh c + 1)).map _) >>= _) = _
  rw [a1, ok_bind]
  show ((h.map (starRingEnd ℂ)).take ((arange (stftLo n lh c) (stftHi n x.len lh c + 1)).map _) >>= _) = _
  rw [b1, ok_bind, Vec.bcast_ok (by rw [a2, b2]), ok_bind]
  exact put_lags_zero hn (stftLo n lh c) (stftHi n x.len lh c) _ a2
    (fun j hj => by simp only; rw [a3 j hj, b3 j hj])

/-- The STFT of a fresh object. -/
theorem stftRun_fresh {τ : Type} (mkw : ℕ → Vec ℂ) (x : Vec ℂ) (ts : Vec τ) (n : ℕ) (h : Vec ℂ) (hn : n ≠ 0) :
    ∃ M : Mat ℂ, stftRun (TFR.init mkw x ts n (some h))
        = .ok { TFR.init mkw x ts n (some h) with tfr := .cplx M } ∧ M.rows = n ∧ M.cols = ts.len ∧
      ∀ k, ∀ c < ts.len, M.get k c = dftC n
        (lagCol n (stftLo n (((h.len : ℤ) - 1) / 2) c) (stftHi n x.len (((h.len : ℤ) - 1) / 2) c)
          (fun t => zext x (c + t - 1) * conj (zext h (((h.len : ℤ) - 1) / 2 + t)))) k := by
  have hok : stftRun (TFR.init mkw x ts n (some h)) = .ok { TFR.init mkw x ts n (some h) with
      tfr := .cplx ⟨n, ts.len, fun k c => dftC n (fun r => if c < ts.len then
        lagCol n (stftLo n (((h.len : ℤ) - 1) / 2) c) (stftHi n x.len (((h.len : ℤ) - 1) / 2) c)
          (fun t => zext x (c + t - 1) * conj (zext h (((h.len : ℤ) - 1) / 2 + t))) r else 0) k⟩ } := by
    unfold stftRun
    show ((Store.cplx (Mat.zeros n ts.len)).forCols ts.len _ >>= _) = _
    rw [forCols_fresh (fun c hc => stftCol_ok mkw x ts n h hn c hc), ok_bind, fresh_fft hn, ok_bind]
  refine ⟨_, hok, rfl, rfl, fun k c hc => ?_⟩
  simp only [if_pos hc]


/-! ## Spectrogram -/

/-- First lag of a spectrogram column. -/
noncomputable def spLo (n : ℕ) (lh : ℤ) (ti : ℤ) : ℤ := -(min (min (roundEven ((n : ℝ) / 2) - 1) lh) (ti - 1))
/-- Last lag of a spectrogram column. -/
noncomputable def spHi (n N : ℕ) (lh : ℤ) (ti : ℤ) : ℤ := min (min (roundEven ((n : ℝ) / 2) - 1) lh) ((N : ℤ) - ti)

/-- The number of lags of a spectrogram column never exceeds the number of bins. -/
theorem sp_count (n N : ℕ) (lh ti : ℤ) : spHi n N lh ti + 1 - spLo n lh ti ≤ n := by
  unfold spHi spLo
  rw [roundEven_half]
  split <;> omega

/-- Norm of the part of the window used in a column. -/
noncomputable def spNorm (n N : ℕ) (h : Vec ℂ) (ti : ℤ) : ℝ :=
  Real.sqrt (∑ t ∈ Finset.Icc (spLo n (((h.len : ℤ) - 1) / 2) ti) (spHi n N (((h.len : ℤ) - 1) / 2) ti),
    ‖zext h (((h.len : ℤ) - 1) / 2 + t)‖ ^ 2)

/-- One column of the spectrogram before the transform. -/
theorem spectroCol_ok (mkw : ℕ → Vec ℂ) (x : Vec ℂ) (ts : Vec ℤ) (n : ℕ) (h : Vec ℂ) (hn : n ≠ 0)
    (c : ℕ) (hc : c < ts.len)
    (hw : spNorm n x.len h (ts.get c) ≠ 0 ∨
      spHi n x.len (((h.len : ℤ) - 1) / 2) (ts.get c) < spLo n (((h.len : ℤ) - 1) / 2) (ts.get c)) :
    spectroCol (TFR.init mkw x ts n (some h)) c ⟨n, fun _ => 0⟩
      = .ok ⟨n, lagCol n (spLo n (((h.len : ℤ) - 1) / 2) (ts.get c))
          (spHi n x.len (((h.len : ℤ) - 1) / 2) (ts.get c))
          (fun t => zext x (ts.get c + t - 1) * conj (zext h (((h.len : ℤ) - 1) / 2 + t))
            / (spNorm n x.len h (ts.get c) : ℂ))⟩ := by
  set lh : ℤ := ((h.len : ℤ) - 1) / 2 with hlh
  set ti := ts.get c with hti
  have hb : ∀ t, spLo n lh ti ≤ t → t ≤ spHi n x.len lh ti →
      (0 ≤ ti + t - 1 ∧ ti + t - 1 < x.len) ∧ (0 ≤ lh + t ∧ lh + t < h.len) := by
    intro t h1 h2
    unfold spLo at h1; unfold spHi at h2
    omega
  obtain ⟨va, a1, a2, a3⟩ := take_range (x := x) (spLo n lh ti) (spHi n x.len lh ti)
    (fun t => ti + t - 1) (fun t h1 h2 => (hb t h1 h2).1)
  obtain ⟨vb, b1, b2, b3⟩ := take_range_conj (x := h) (spLo n lh ti) (spHi n x.len lh ti)
    (fun t => lh + t) (fun t h1 h2 => (hb t h1 h2).2)
  obtain ⟨vw, w1, w2, w3⟩ := take_range (x := h) (spLo n lh ti) (spHi n x.len lh ti)
    (fun t => lh + t) (fun t h1 h2 => (hb t h1 h2).2)
  have hnorm : vw.norm = spNorm n x.len h ti := by
    unfold Vec.norm spNorm
    congr 1
    rw [w2, ← hlh, ← sum_arange]
    exact Finset.sum_congr rfl (fun j hj => by rw [w3 j (Finset.mem_range.1 hj)])
  simp only [spectroCol, TFR.init, Option.getD_some, ts_item hc, ok_bind, ← hti]
  show (x.take ((arange (spLo n lh ti) (spHi n x.len lh ti + 1)).map _) >>= _) = _
  rw [a1, ok_bind]
  show ((h.map (starRingEnd ℂ)).take ((arange (spLo n lh ti) (spHi n x.len lh ti + 1)).map _) >>= _) = _
  rw [b1, ok_bind]
  show (h.take ((arange (spLo n lh ti) (spHi n x.len lh ti + 1)).map _) >>= _) = _
  rw [w1, ok_bind, if_neg, Vec.bcast_ok (by rw [a2, b2]), ok_bind, hnorm]
  · exact put_lags_zero hn (spLo n lh ti) (spHi n x.len lh ti) _ a2
      (fun j hj => by simp only; rw [a3 j hj, b3 j hj])
  · rintro ⟨h1, h2⟩
    rw [hnorm] at h1
    rw [w2] at h2
    rcases hw with h | h
    · exact h h1
    · omega

/-- The spectrogram of a fresh object. -/
theorem spectroRun_fresh (mkw : ℕ → Vec ℂ) (x : Vec ℂ) (ts : Vec ℤ) (n : ℕ) (h : Vec ℂ) (hn : n ≠ 0)
    (hw : ∀ c < ts.len, spNorm n x.len h (ts.get c) ≠ 0 ∨
      spHi n x.len (((h.len : ℤ) - 1) / 2) (ts.get c) < spLo n (((h.len : ℤ) - 1) / 2) (ts.get c)) :
    ∃ M : Mat ℝ, spectroRun (TFR.init mkw x ts n (some h))
        = .ok { TFR.init mkw x ts n (some h) with tfr := .real M } ∧ M.rows = n ∧ M.cols = ts.len ∧
      ∀ k, ∀ c < ts.len, M.get k c = ‖dftC n (lagCol n (spLo n (((h.len : ℤ) - 1) / 2) (ts.get c))
          (spHi n x.len (((h.len : ℤ) - 1) / 2) (ts.get c))
          (fun t => zext x (ts.get c + t - 1) * conj (zext h (((h.len : ℤ) - 1) / 2 + t))
            / (spNorm n x.len h (ts.get c) : ℂ))) k‖ ^ 2 := by
  have hok : spectroRun (TFR.init mkw x ts n (some h)) = .ok { TFR.init mkw x ts n (some h) with
      tfr := .real ⟨n, ts.len, fun k c => ‖dftC n (fun r => if c < ts.len then
        lagCol n (spLo n (((h.len : ℤ) - 1) / 2) (ts.get c))
          (spHi n x.len (((h.len : ℤ) - 1) / 2) (ts.get c))
          (fun t => zext x (ts.get c + t - 1) * conj (zext h (((h.len : ℤ) - 1) / 2 + t))
            / (spNorm n x.len h (ts.get c) : ℂ)) r else 0) k‖ ^ 2⟩ } := by
    unfold spectroRun
    show ((Store.cplx (Mat.zeros n ts.len)).forCols ts.len _ >>= _) = _
    rw [forCols_fresh (fun c hc => spectroCol_ok mkw x ts n h hn c hc (hw c hc)), ok_bind, fresh_fft hn,
      ok_bind]
    rfl
  refine ⟨_, hok, rfl, rfl, fun k c hc => ?_⟩
  simp only [if_pos hc]

end Tftb
