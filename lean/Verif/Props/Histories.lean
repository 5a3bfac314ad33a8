import Verif.Lemmas.Spwv
import Verif.Props.Wvd

/-! # Histories of calls on one object: repeated `run()` (C40) and repeated `plot()` (C41) -/

namespace Tftb.Props

open Tftb Tftb.Spec Tftb.Linear Tftb.Cohen Finset ComplexConjugate

/-! ## C40 repeated runs -/

/-- A Wigner-Ville column on an arbitrary previous content of the column. -/
theorem wvdCol_on {τ : Type} (o : TFR τ) (hn : o.nf ≠ 0) (c : ℕ) (hz : ¬ wvZone o.nf o.signal.len c)
    (v : Vec ℂ) (hv : v.len = o.nf) :
    wvdCol o c v = .ok ⟨o.nf, Vec.scatter v.get (lagPos o.nf (-(wvT o.nf o.signal.len c)))
      (fun j => wignerKernel o.signal c (-(wvT o.nf o.signal.len c) + j))
      (wvT o.nf o.signal.len c + 1 - -(wvT o.nf o.signal.len c)).toNat⟩ := by
  set n := o.nf with hnn
  set x := o.signal with hx
  have hb : ∀ t, -(wvT n x.len c) ≤ t → t ≤ wvT n x.len c →
      (0 ≤ (c : ℤ) + t ∧ (c : ℤ) + t < x.len) ∧ (0 ≤ (c : ℤ) - t ∧ (c : ℤ) - t < x.len) := by
    intro t h1 h2
    unfold wvT at h1 h2
    omega
  obtain ⟨va, a1, a2, a3⟩ := take_range (x := x) (-(wvT n x.len c)) (wvT n x.len c)
    (fun t => (c : ℤ) + t) (fun t h1 h2 => (hb t h1 h2).1)
  obtain ⟨vb, b1, b2, b3⟩ := take_range_conj (x := x) (-(wvT n x.len c)) (wvT n x.len c)
    (fun t => (c : ℤ) - t) (fun t h1 h2 => (hb t h1 h2).2)
  simp only [wvdCol, ← hnn, ← hx]
  show (x.take ((arange (-(wvT n x.len c)) (wvT n x.len c + 1)).map _) >>= _) = _
  rw [a1, ok_bind]
  show ((x.map (starRingEnd ℂ)).take ((arange (-(wvT n x.len c)) (wvT n x.len c + 1)).map _) >>= _) = _
  rw [b1, ok_bind, Vec.bcast_ok (by rw [a2, b2]), ok_bind]
  show (v.put ((arange (-(wvT n x.len c)) (wvT n x.len c + 1)).map _) _ >>= _) = _
  rw [put_lags hn (-(wvT n x.len c)) (wvT n x.len c) (v := ⟨va.len, fun i => va.get i * vb.get i⟩) hv a2, ok_bind]
  show (if wvZone n x.len c then _ else _) = _
  rw [if_neg hz]
  congr 2
  exact Vec.scatter_congr rfl (fun _ _ => rfl) (fun j hj => by simp only; rw [a3 j hj, b3 j hj]; rfl)

/-- A run on an object that already holds a real matrix. -/
theorem wvdRun_again {τ : Type} (o : TFR τ) (hn : o.nf ≠ 0) (hts : o.ts.len = o.signal.len)
    (hz : ∀ c < o.signal.len, ¬ wvZone o.nf o.signal.len c) (M : Mat ℝ) (hM : o.tfr = .real M)
    (hr : M.rows = o.nf) (hc : M.cols = o.ts.len) :
    ∃ M' : Mat ℝ, wvdRun o = .ok { o with
        tfr := .real M', freqs := ⟨o.nf, fun k => 0.5 * (k : ℝ) / (o.nf : ℝ)⟩ } ∧
      M'.rows = o.nf ∧ M'.cols = o.ts.len ∧ ∀ k : ℕ, ∀ c < o.ts.len, M'.get k c =
        (dftC o.nf (fun r => (((Vec.scatter (fun r => (M.get r c : ℂ)) (lagPos o.nf (-(wvT o.nf o.signal.len c)))
      (fun j => wignerKernel o.signal c (-(wvT o.nf o.signal.len c) + j))
      (wvT o.nf o.signal.len c + 1 - -(wvT o.nf o.signal.len c)).toNat r).re : ℝ) : ℂ)) k).re := by
  obtain ⟨S, hf, s1, s2, s3⟩ : ∃ S : Mat ℝ, (Store.real M).forCols o.ts.len (wvdCol o) = .ok (.real S) ∧
      S.rows = o.nf ∧ S.cols = o.ts.len ∧ ∀ r, ∀ c < o.ts.len, S.get r c =
        (Vec.scatter (fun r => (M.get r c : ℂ)) (lagPos o.nf (-(wvT o.nf o.signal.len c)))
          (fun j => wignerKernel o.signal c (-(wvT o.nf o.signal.len c) + j))
          (wvT o.nf o.signal.len c + 1 - -(wvT o.nf o.signal.len c)).toNat r).re := by
    refine ⟨_, forCols_real hr hc (body := wvdCol o)
      (fun c hc => wvdCol_on o hn c (hz c (hts ▸ hc)) ⟨o.nf, fun r => (M.get r c : ℂ)⟩ rfl), rfl, rfl, ?_⟩
    intro r c hc
    simp only [if_pos hc]
  have hok : wvdRun o = .ok { o with
      tfr := .real ⟨S.rows, S.cols, fun k c => (dftC S.rows (fun r => (S.get r c : ℂ)) k).re⟩
      freqs := ⟨o.nf, fun k => 0.5 * (k : ℝ) / (o.nf : ℝ)⟩ } := by
    unfold wvdRun
    rw [if_neg (not_not.2 hts), hM, hf, ok_bind,
      fft0_ok (M := (Store.real S).asC) (show S.rows ≠ 0 by rw [s1]; exact hn), ok_bind]
    rfl
  refine ⟨_, hok, s1, s2, fun k c hc => ?_⟩
  show (dftC S.rows _ k).re = _
  rw [s1]
  congr 1
  apply dftC_congr
  intro r _
  rw [s3 r c hc]

/-- Running `WignerVilleDistribution.run` twice on the same object does **not** give the same matrix: for every signal of at
least two samples whose first sample is not zero the first run has `|x[0]|²` in entry `(0, 0)`, the second `n |x[0]|²`. -/
theorem C40_wvd_not_repeatable {τ : Type} (x : Vec ℂ) (ts : Vec τ) (n : ℕ) (hn : 2 ≤ n) (hx : x.len ≠ 0)
    (hx0 : x.get 0 ≠ 0) (o₁ : TFR τ) (h₁ : wvdRun (TFR.init makeWindow x ts n none) = .ok o₁) :
    ∃ (M₁ M₂ : Mat ℝ) (o₂ : TFR τ), o₁.tfr = .real M₁ ∧ wvdRun o₁ = .ok o₂ ∧ o₂.tfr = .real M₂ ∧
      M₁.get 0 0 = ‖x.get 0‖ ^ 2 ∧ M₂.get 0 0 = n * ‖x.get 0‖ ^ 2 ∧ M₂.get 0 0 ≠ M₁.get 0 0 := by
  have hn0 : n ≠ 0 := by omega
  have hret : ∃ M, WvdReturns x ts n M := by
    by_contra hcon
    rw [C32_returns_iff x ts n hn0] at hcon
    have hr := C32_raises x ts n hn0
    by_cases hts : ts.len = x.len
    · rw [hr.2 hts (fun h => hcon ⟨hts, h⟩)] at h₁; cases h₁
    · rw [hr.1 hts] at h₁; cases h₁
  obtain ⟨hts, hN⟩ := (C32_returns_iff x ts n hn0).1 hret
  have hz : ∀ c < x.len, ¬ wvZone n x.len c := fun c hc hzc => ((wvZone_iff n x.len).1 ⟨c, hc, hzc⟩) hN
  obtain ⟨M₁, e1, e2, e3, e4⟩ := wvdRun_fresh makeWindow x ts n none hn0 hts hz
  rw [e1] at h₁
  injection h₁ with h₁
  have hT0 : wvT n x.len 0 = 0 := by
    unfold wvT; rw [roundEven_half]; split <;> omega
  have hk0 : wignerKernel x ((0 : ℕ) : ℤ) 0 = ((‖x.get 0‖ ^ 2 : ℝ) : ℂ) := by
    unfold wignerKernel
    rw [add_zero, sub_zero, zext_of_mem (by omega) (by omega), mul_conj_eq_norm_sq]
    rfl
  have hcol0 : ∀ k, M₁.get k 0 = ‖x.get 0‖ ^ 2 := by
    intro k
    rw [e4 k 0 (Nat.pos_of_ne_zero hx), hT0, lagSum_eq]
    simp only [neg_zero, Finset.Icc_self, Finset.sum_singleton, zero_mul]
    rw [hk0, rootPow_zero, mul_one, Complex.ofReal_re]
  subst h₁
  obtain ⟨M₂, f1, _, _, f4⟩ := wvdRun_again
    { TFR.init makeWindow x ts n none with tfr := .real M₁, freqs := ⟨n, fun k => 0.5 * (k : ℝ) / (n : ℝ)⟩ }
    hn0 hts hz M₁ rfl e2 e3
  have h2 : M₂.get 0 0 = n * ‖x.get 0‖ ^ 2 := by
    have hTT : 0 < ts.len := by omega
    refine (f4 0 0 hTT).trans ?_
    show (dftC n (fun r => (((Vec.scatter (fun r => (M₁.get r 0 : ℂ)) (lagPos n (-(wvT n x.len 0)))
      (fun j => wignerKernel x ((0 : ℕ) : ℤ) (-(wvT n x.len 0) + j))
      (wvT n x.len 0 + 1 - -(wvT n x.len 0)).toNat r).re : ℝ) : ℂ)) _).re = _
    have : dftC n (fun r => (((Vec.scatter (fun r => (M₁.get r 0 : ℂ)) (lagPos n (-(wvT n x.len 0)))
      (fun j => wignerKernel x ((0 : ℕ) : ℤ) (-(wvT n x.len 0) + j))
      (wvT n x.len 0 + 1 - -(wvT n x.len 0)).toNat r).re : ℝ) : ℂ)) ((0 : ℕ) : ℤ)
        = ((n * ‖x.get 0‖ ^ 2 : ℝ) : ℂ) := by
      rw [dftC_congr (y := fun _ => ((‖x.get 0‖ ^ 2 : ℝ) : ℂ))]
      · unfold dftC
        simp [rootPow_zero]
      · intro r _
        rw [hT0]
        have h1 : ((0 : ℤ) + 1 - -0).toNat = 1 := rfl
        rw [h1, Vec.scatter_succ, Vec.scatter_zero]
        by_cases hr : r = lagPos n (-0) 0
        · subst hr
          rw [Function.update_self]
          have : wignerKernel x ((0 : ℕ) : ℤ) (-0 + ((0 : ℕ) : ℤ)) = ((‖x.get 0‖ ^ 2 : ℝ) : ℂ) := hk0
          rw [this, Complex.ofReal_re]
        · rw [Function.update_of_ne hr, Complex.ofReal_re, hcol0]
    rw [this, Complex.ofReal_re]
  refine ⟨M₁, M₂, _, rfl, f1, rfl, hcol0 0, h2, ?_⟩
  rw [h2, hcol0]
  have hpos : 0 < ‖x.get 0‖ ^ 2 := by have := norm_pos_iff.2 hx0; positivity
  have hn2 : (2 : ℝ) ≤ n := by exact_mod_cast hn
  nlinarith

/-- An STFT column on an arbitrary previous content of the column. -/
theorem stftCol_on {τ : Type} (o : TFR τ) (hn : o.nf ≠ 0) (c : ℕ) (hc : c < o.ts.len)
    (v : Vec ℂ) (hv : v.len = o.nf) :
    stftCol o c v = .ok ⟨o.nf, Vec.scatter v.get (lagPos o.nf (stftLo o.nf (((o.fwindow.len : ℤ) - 1) / 2) c))
      (fun j => zext o.signal (c + (stftLo o.nf (((o.fwindow.len : ℤ) - 1) / 2) c + j) - 1)
        * conj (zext o.fwindow (((o.fwindow.len : ℤ) - 1) / 2 + (stftLo o.nf (((o.fwindow.len : ℤ) - 1) / 2) c + j))))
      (stftHi o.nf o.signal.len (((o.fwindow.len : ℤ) - 1) / 2) c + 1
        - stftLo o.nf (((o.fwindow.len : ℤ) - 1) / 2) c).toNat⟩ := by
  set n := o.nf with hnn
  set x := o.signal with hx
  set h := o.fwindow with hh
  set lh : ℤ := ((h.len : ℤ) - 1) / 2 with hlh
  have hb : ∀ t, stftLo n lh c ≤ t → t ≤ stftHi n x.len lh c →
      (0 ≤ (c : ℤ) + t - 1 ∧ (c : ℤ) + t - 1 < x.len) ∧ (0 ≤ lh + t ∧ lh + t < h.len) := by
    intro t h1 h2
    unfold stftLo at h1; unfold stftHi at h2
    omega
  obtain ⟨va, a1, a2, a3⟩ := take_range (x := x) (stftLo n lh c) (stftHi n x.len lh c)
    (fun t => (c : ℤ) + t - 1) (fun t h1 h2 => (hb t h1 h2).1)
  obtain ⟨vb, b1, b2, b3⟩ := take_range_conj (x := h) (stftLo n lh c) (stftHi n x.len lh c)
    (fun t => lh + t) (fun t h1 h2 => (hb t h1 h2).2)
  simp only [stftCol, ts_item hc, ok_bind, ← hnn, ← hx, ← hh]
  show (x.take ((arange (stftLo n lh c) (stftHi n x.len lh c + 1)).map _) >>= _) = _
  rw [a1, ok_bind]
  show ((h.map (starRingEnd ℂ)).take ((arange (stftLo n lh c) (stftHi n x.len lh c + 1)).map _) >>= _) = _
  rw [b1, ok_bind, Vec.bcast_ok (by rw [a2, b2]), ok_bind]
  show v.put ((arange (stftLo n lh c) (stftHi n x.len lh c + 1)).map _) _ = _
  rw [put_lags hn (stftLo n lh c) (stftHi n x.len lh c) (v := ⟨va.len, fun i => va.get i * vb.get i⟩) hv a2]
  congr 2
  exact Vec.scatter_congr rfl (fun _ _ => rfl) (fun j hj => by simp only; rw [a3 j hj, b3 j hj])

/-- The unit impulse at time 0. -/
def impulse (N : ℕ) : Vec ℂ := ⟨N, fun i => if i = 0 then 1 else 0⟩

theorem zext_impulse (N : ℕ) (hN : N ≠ 0) (i : ℤ) : zext (impulse N) i = if i = 0 then 1 else 0 := by
  by_cases h : 0 ≤ i ∧ i < (N : ℤ)
  · rw [zext_of_mem (x := impulse N) h.1 h.2]
    show (if i.toNat = 0 then (1 : ℂ) else 0) = _
    have : i.toNat = 0 ↔ i = 0 := by omega
    simp only [this]
  · rw [zext_of_not_mem (x := impulse N) h, if_neg (by omega)]

/-- The STFT is not repeatable either: whatever the length, the number of bins and the window (odd, fitting in the bins, with a
non-zero middle sample) the second run on the unit impulse differs from the first. -/
theorem C40_stft_not_repeatable {τ : Type} (N : ℕ) (hN : N ≠ 0) (ts : Vec τ) (hts : 2 ≤ ts.len) (n L : ℕ) (hn : 2 ≤ n)
    (h : Vec ℂ) (hh : h.len = 2 * L + 1) (hL : 2 * L < n) (hc : h.get L ≠ 0) :
    ∃ (o₁ o₂ : TFR τ) (M₁ M₂ : Mat ℂ), stftRun (TFR.init makeWindow (impulse N) ts n (some h)) = .ok o₁ ∧
      o₁.tfr = .cplx M₁ ∧ stftRun o₁ = .ok o₂ ∧ o₂.tfr = .cplx M₂ ∧ M₁.rows = n ∧ M₂.rows = n ∧
      M₂.get 0 1 ≠ M₁.get 0 1 := by
  have hn0 : n ≠ 0 := by omega
  obtain ⟨M₁, e1, e2, e3, e4⟩ := stftRun_fresh makeWindow (impulse N) ts n h hn0
  have hlh : ((h.len : ℤ) - 1) / 2 = L := by omega
  have hlo : stftLo n L ((1 : ℕ) : ℤ) = 0 := by
    unfold stftLo; rw [roundEven_half]; split <;> omega
  have hhi : stftHi n N L ((1 : ℕ) : ℤ) = min (L : ℤ) ((N : ℤ) - 1) := by
    unfold stftHi; rw [roundEven_half]; split <;> omega
  set b : ℕ := min L (N - 1) with hbdef
  have hhi' : stftHi n N L ((1 : ℕ) : ℤ) = b := by rw [hhi, hbdef]; omega
  have hval : ∀ t : ℤ, 0 ≤ t → t ≤ b → zext (impulse N) (((1 : ℕ) : ℤ) + t - 1) * conj (zext h (L + t))
      = if t = 0 then conj (h.get L) else 0 := by
    intro t h1 h2
    rw [zext_impulse N hN]
    by_cases ht : t = 0
    · subst ht
      rw [if_pos (by norm_num), if_pos rfl, one_mul, zext_of_mem (by omega) (by omega)]; simp
    · rw [if_neg (by omega), if_neg ht, zero_mul]
  have hcol1 : ∀ k : ℕ, M₁.get k 1 = conj (h.get L) := by
    intro k
    rw [e4 k 1 (by omega), hlh]
    show dftC n (lagCol n (stftLo n L ((1 : ℕ) : ℤ)) (stftHi n N L ((1 : ℕ) : ℤ)) _) _ = _
    rw [hlo, hhi', dftC_lagCol hn0 (by omega), Finset.sum_eq_single 0]
    · rw [hval 0 le_rfl (by omega)]; simp
    · intro t ht ht0
      rw [Finset.mem_Icc] at ht
      rw [hval t ht.1 ht.2, if_neg ht0, zero_mul]
    · intro h0; exact absurd (Finset.mem_Icc.2 ⟨le_rfl, by omega⟩) h0
  set o₁ : TFR τ := { TFR.init makeWindow (impulse N) ts n (some h) with tfr := .cplx M₁ } with ho
  obtain ⟨S, hf, s1, s2, s3⟩ : ∃ S : Mat ℂ, (Store.cplx M₁).forCols M₁.cols (stftCol o₁) = .ok (.cplx S) ∧
      S.rows = n ∧ S.cols = ts.len ∧ ∀ r, S.get r 1 =
        Vec.scatter (fun r => M₁.get r 1) (lagPos n (stftLo n (((h.len : ℤ) - 1) / 2) ((1 : ℕ) : ℤ)))
          (fun j => zext (impulse N) (((1 : ℕ) : ℤ) + (stftLo n (((h.len : ℤ) - 1) / 2) ((1 : ℕ) : ℤ) + j) - 1)
            * conj (zext h (((h.len : ℤ) - 1) / 2 + (stftLo n (((h.len : ℤ) - 1) / 2) ((1 : ℕ) : ℤ) + j))))
          (stftHi n N (((h.len : ℤ) - 1) / 2) ((1 : ℕ) : ℤ) + 1
            - stftLo n (((h.len : ℤ) - 1) / 2) ((1 : ℕ) : ℤ)).toNat r := by
    rw [e3]
    refine ⟨_, forCols_cplx e2 e3 (body := stftCol o₁)
      (fun c hc => stftCol_on o₁ hn0 c hc ⟨n, fun r => M₁.get r c⟩ rfl), rfl, rfl, ?_⟩
    intro r
    have : 1 < ts.len := by omega
    simp only [if_pos this]
    rfl
  have hok : stftRun o₁ = .ok { o₁ with
      tfr := .cplx ⟨S.rows, S.cols, fun k c => dftC S.rows (fun r => S.get r c) k⟩ } := by
    unfold stftRun
    show ((Store.cplx M₁).forCols M₁.cols _ >>= _) = _
    rw [hf, ok_bind, fft0_ok (M := (Store.cplx S).asC) (show S.rows ≠ 0 by rw [s1]; exact hn0), ok_bind]
    rfl
  refine ⟨o₁, _, M₁, _, e1, rfl, hok, rfl, e2, s1, ?_⟩
  show dftC S.rows (fun r => S.get r 1) ((0 : ℕ) : ℤ) ≠ _
  have hS : ∀ r < n, S.get r 1 = if 1 ≤ r ∧ r ≤ b then 0 else conj (h.get L) := by
    intro r hr
    rw [s3 r, hlh, hlo, hhi']
    have hcount : ((b : ℤ) + 1 - 0).toNat = b + 1 := by omega
    rw [hcount]
    have hpos : ∀ j : ℕ, j < n → lagPos n 0 j = j := by
      intro j hj
      have := lagPos_cast hn0 0 j
      rw [zero_add, Int.emod_eq_of_lt (by omega) (by omega)] at this
      exact_mod_cast this
    by_cases hrb : r ≤ b
    · have h1 := Vec.scatter_mem (g := fun r => M₁.get r 1) (pos := lagPos n 0)
        (val := fun j : ℕ => zext (impulse N) (((1 : ℕ) : ℤ) + (0 + (j : ℤ)) - 1) * conj (zext h (L + (0 + (j : ℤ)))))
        (L := b + 1) (j := r) (by omega) (fun i hi i' hi' hii => by
          rw [hpos i (by omega), hpos i' (by omega)] at hii; exact hii)
      rw [hpos r hr] at h1
      rw [h1]
      have := hval (0 + (r : ℤ)) (by omega) (by omega)
      rw [this]
      by_cases hr0 : r = 0
      · subst hr0; rw [if_pos (by simp), if_neg (by omega)]
      · rw [if_neg (by omega), if_pos (by omega)]
    · rw [Vec.scatter_not_mem, if_neg (by omega), hcol1]
      intro j hj
      rw [hpos j (by omega)]; omega
  rw [s1, hcol1]
  have hsum : dftC n (fun r => S.get r 1) ((0 : ℕ) : ℤ) = ((n - b : ℕ) : ℂ) * conj (h.get L) := by
    rw [dftC_congr hS]
    unfold dftC
    simp only [Nat.cast_zero, mul_zero, rootPow_zero, mul_one]
    rw [Finset.sum_ite, Finset.sum_const_zero, zero_add, Finset.sum_const, nsmul_eq_mul]
    congr 2
    have : Finset.filter (fun r => ¬ (1 ≤ r ∧ r ≤ b)) (Finset.range n)
        = insert 0 (Finset.Ico (b + 1) n) := by
      ext r
      simp only [Finset.mem_filter, Finset.mem_range, Finset.mem_insert, Finset.mem_Ico]
      omega
    rw [this, Finset.card_insert_of_notMem (by simp), Nat.card_Ico]
    omega
  rw [hsum]
  intro hcontra
  have hne : conj (h.get L) ≠ 0 := by simpa using hc
  have h1 : ((n - b : ℕ) : ℂ) = 1 := by
    apply mul_right_cancel₀ hne
    rw [hcontra, one_mul]
  have h2 : n - b = 1 := by exact_mod_cast h1
  omega

/-! ## C41 repeated plots -/

/-- Call `f` repeatedly, `k` times. -/
def times {σ : Type} (f : σ → Py σ) : ℕ → σ → Py σ
  | 0, s => .ok s
  | k + 1, s => f s >>= times f k

theorem times_fixed {σ : Type} {f : σ → Py σ} {s : σ} (h : f s = .ok s) (k : ℕ) : times f k s = .ok s := by
  induction k with
  | zero => rfl
  | succ k ih => unfold times; rw [h, ok_bind, ih]

/-- Largest entry of a matrix. -/
def IsMax (M : Mat ℝ) (mx : ℝ) : Prop :=
  (∀ r < M.rows, ∀ c < M.cols, M.get r c ≤ mx) ∧ ∃ r < M.rows, ∃ c < M.cols, M.get r c = mx

theorem IsMax.unique {M : Mat ℝ} {a b : ℝ} (ha : IsMax M a) (hb : IsMax M b) : a = b := by
  obtain ⟨r, hr, c, hc, e⟩ := ha.2
  obtain ⟨r', hr', c', hc', e'⟩ := hb.2
  have h1 := hb.1 r hr c hc
  have h2 := ha.1 r' hr' c' hc'
  linarith

theorem thresholded_ok {M : Mat ℝ} (h : ¬ (M.rows = 0 ∨ M.cols = 0)) (thr : ℝ) :
    ∃ mx, IsMax M mx ∧ thresholded M thr = .ok (M.map (fun a => if a ≤ mx * thr then 0 else a)) := by
  have hne : (Finset.range M.rows ×ˢ Finset.range M.cols).Nonempty :=
    ⟨(0, 0), by simp only [Finset.mem_product, Finset.mem_range]; omega⟩
  refine ⟨(Finset.range M.rows ×ˢ Finset.range M.cols).sup' hne (fun p => M.get p.1 p.2), ⟨?_, ?_⟩, ?_⟩
  · intro r hr c hc
    exact Finset.le_sup' (fun p : ℕ × ℕ => M.get p.1 p.2) (b := (r, c))
      (by simp only [Finset.mem_product, Finset.mem_range]; exact ⟨hr, hc⟩)
  · obtain ⟨p, hp, he⟩ := Finset.exists_mem_eq_sup' hne (fun p : ℕ × ℕ => M.get p.1 p.2)
    simp only [Finset.mem_product, Finset.mem_range] at hp
    exact ⟨p.1, hp.1, p.2, hp.2, he.symm⟩
  · unfold thresholded; rw [dif_neg h]

/-- The matrix a plot of the non-negative matrix `A` stores: entries at most `thr` times the largest one become 0. -/
def PlotOf (A : Mat ℝ) (thr : ℝ) (B : Mat ℝ) : Prop :=
  B.rows = A.rows ∧ B.cols = A.cols ∧
    ∃ mx, IsMax A mx ∧ ∀ r < A.rows, ∀ c < A.cols, B.get r c = if A.get r c ≤ mx * thr then 0 else A.get r c

theorem ite_le_zero {w : ℝ} (h : 0 ≤ w) : (if w ≤ 0 then 0 else w) = w := by
  split
  · linarith
  · rfl

theorem ite_le_twice (a t : ℝ) : (if (if a ≤ t then 0 else a) ≤ t then 0 else (if a ≤ t then 0 else a))
    = if a ≤ t then 0 else a := by
  split_ifs <;> rfl

/-- Thresholding a thresholded non-negative matrix again (same threshold) changes nothing. -/
theorem thresholded_idem {A B : Mat ℝ} {thr : ℝ} (hA : ∀ r c, 0 ≤ A.get r c)
    (h : thresholded A thr = .ok B) : thresholded B thr = .ok B ∧ (∀ r c, 0 ≤ B.get r c) ∧ PlotOf A thr B := by
  by_cases he : A.rows = 0 ∨ A.cols = 0
  · unfold thresholded at h; rw [dif_pos he] at h; cases h
  obtain ⟨mx, hmx, h1⟩ := thresholded_ok he thr
  rw [h1] at h
  injection h with h
  subst h
  have hB : ∀ r c, 0 ≤ (A.map (fun a => if a ≤ mx * thr then 0 else a)).get r c := by
    intro r c
    show 0 ≤ (if A.get r c ≤ mx * thr then 0 else A.get r c)
    split
    · exact le_rfl
    · exact hA r c
  refine ⟨?_, hB, rfl, rfl, mx, hmx, fun r _ c _ => rfl⟩
  obtain ⟨mx', hmx', h2⟩ := thresholded_ok (M := A.map (fun a => if a ≤ mx * thr then 0 else a)) he thr
  rw [h2]
  congr 1
  simp only [Mat.map]
  congr 1
  funext r c
  obtain ⟨r0, hr0, c0, hc0, e0⟩ := hmx.2
  have hmx0 : 0 ≤ mx := e0 ▸ hA r0 c0
  -- the new maximum is the old one or everything vanished
  by_cases hkeep : mx ≤ mx * thr
  · have hz : ∀ r c, r < A.rows → c < A.cols → (if A.get r c ≤ mx * thr then 0 else A.get r c) = (0 : ℝ) := by
      intro r c hr hc
      rw [if_pos (le_trans (hmx.1 r hr c hc) hkeep)]
    have hm0 : mx' = 0 := by
      obtain ⟨r1, hr1, c1, hc1, e1⟩ := hmx'.2
      rw [← e1]; exact hz r1 c1 hr1 hc1
    rw [hm0, zero_mul]
    exact ite_le_zero (hB r c)
  · have hm : mx' = mx := by
      apply hmx'.unique
      refine ⟨fun r hr c hc => ?_, r0, hr0, c0, hc0, ?_⟩
      · show (if A.get r c ≤ mx * thr then 0 else A.get r c) ≤ mx
        split
        · exact hmx0
        · exact hmx.1 r hr c hc
      · show (if A.get r0 c0 ≤ mx * thr then 0 else A.get r0 c0) = mx
        rw [e0, if_neg hkeep]
    rw [hm]
    exact ite_le_twice _ _

theorem thresholded_bind {σ : Type} {A : Mat ℝ} {thr : ℝ} {f : Mat ℝ → σ} {s : σ}
    (h : (thresholded A thr >>= fun B => (Except.ok (f B) : Py σ)) = .ok s) :
    ∃ B, thresholded A thr = .ok B ∧ s = f B := by
  cases e : thresholded A thr with
  | error e' => rw [e] at h; cases h
  | ok B =>
    rw [e, ok_bind] at h
    injection h with h
    exact ⟨B, rfl, h.symm⟩

/-- `WignerVilleDistribution.plot` (default `sqmod = False`): the stored matrix becomes the thresholded modulus, and any number of
further plots with the same threshold leave the object exactly as it is. -/
theorem C41_wvd_plot {τ : Type} (o o' : TFR τ) (thr : ℝ) (h : wvdPlot o false thr = .ok o') :
    (∃ B, o'.tfr = .real B ∧ (∀ r c, 0 ≤ B.get r c) ∧
      PlotOf ⟨o.tfr.asC.rows, o.tfr.asC.cols, fun r c => ‖o.tfr.asC.get r c‖⟩ thr B) ∧
    o'.signal = o.signal ∧ o'.ts = o.ts ∧ o'.nf = o.nf ∧ o'.fwindow = o.fwindow ∧ o'.freqs = o.freqs ∧
    ∀ k, times (fun s => wvdPlot s false thr) k o' = .ok o' := by
  unfold wvdPlot at h
  obtain ⟨B, hB, rfl⟩ := thresholded_bind h
  obtain ⟨h1, h2, h3⟩ := thresholded_idem (A := o.tfr.modulus) (fun r c => norm_nonneg _) hB
  refine ⟨⟨B, rfl, h2, h3⟩, rfl, rfl, rfl, rfl, rfl, fun k => times_fixed ?_ k⟩
  unfold wvdPlot
  have hBabs : (Store.real B).modulus = B := by
    simp only [Store.modulus, Store.asC, Mat.map, Complex.norm_real, Real.norm_eq_abs]
    congr 1
    funext r c
    exact abs_of_nonneg (h2 r c)
  show (thresholded (Store.real B).modulus thr >>= _) = _
  rw [hBabs, h1, ok_bind]

theorem truncInt_half (n : ℕ) : (truncInt ((n : ℝ) / 2)).toNat = n / 2 := by
  unfold truncInt
  rw [if_pos (by positivity)]
  have : ⌊(n : ℝ) / 2⌋ = ((n / 2 : ℕ) : ℤ) := by
    rw [Int.floor_eq_iff]
    have h1 : ((n / 2 : ℕ) : ℝ) ≤ (n : ℝ) / 2 := by
      have : 2 * (n / 2) ≤ n := by omega
      have : (2 : ℝ) * ((n / 2 : ℕ) : ℝ) ≤ n := by exact_mod_cast this
      linarith
    have h2 : (n : ℝ) / 2 < ((n / 2 : ℕ) : ℝ) + 1 := by
      have : n < 2 * (n / 2) + 2 := by omega
      have : (n : ℝ) < (2 : ℝ) * ((n / 2 : ℕ) : ℝ) + 2 := by exact_mod_cast this
      linarith
    exact ⟨by exact_mod_cast h1, by exact_mod_cast h2⟩
  rw [this, Int.toNat_natCast]

theorem slice_zero (v : Vec ℝ) (k : ℕ) : v.slice 0 (k : ℤ) = ⟨min k v.len, fun i => v.get i⟩ := by
  have h1 : Vec.clampIdx v.len 0 = 0 := by unfold Vec.clampIdx; simp
  have h2 : Vec.clampIdx v.len (k : ℤ) = min k v.len := by unfold Vec.clampIdx; rw [if_neg (by omega), Int.toNat_natCast, min_comm]
  unfold Vec.slice
  rw [h1, h2]
  simp

theorem plotStore_sq (S : Store) (k : ℕ) (thr : ℝ) :
    plotStore S true k thr = (thresholded (topRows S.modulusSq k) thr >>= fun B => .ok (.real B)) := by cases S <;> rfl

theorem plotStore_real (M : Mat ℝ) (k : ℕ) (thr : ℝ) :
    plotStore (.real M) false k thr = (thresholded (topRows M k) thr >>= fun B => .ok (.real B)) := rfl

theorem thresholded_dims {A B : Mat ℝ} {thr : ℝ} (h : thresholded A thr = .ok B) : B.rows = A.rows ∧ B.cols = A.cols := by
  unfold thresholded at h
  split at h
  · cases h
  · injection h with h
    rw [← h]; exact ⟨rfl, rfl⟩

theorem thresholdedC_dims {A B : Mat ℂ} {thr : ℝ} (h : thresholdedC A thr = .ok B) : B.rows = A.rows ∧ B.cols = A.cols := by
  unfold thresholdedC at h
  split at h
  · cases h
  · injection h with h
    rw [← h]; exact ⟨rfl, rfl⟩

/-- Whatever the dtype, `plot` keeps the number of columns and at most `k` rows. -/
theorem plotStore_dims {S S' : Store} {sqmod : Bool} {k : ℕ} {thr : ℝ} (h : plotStore S sqmod k thr = .ok S') :
    S'.asC.rows = min k S.asC.rows ∧ S'.asC.cols = S.asC.cols := by
  unfold plotStore at h
  split at h
  all_goals
    simp only [bind_eq_ok] at h
    obtain ⟨B, hB, h⟩ := h
    injection h with h
    subst h
  · have := thresholdedC_dims hB; exact this
  · have := thresholded_dims hB; exact this
  · have := thresholded_dims hB; exact this

theorem values_real (M : Mat ℝ) : (Store.real M).values = M := by
  simp only [Store.values, Store.asC, Mat.map, Complex.ofReal_re]

/-- `Spectrogram.plot` after a run (a non-negative real matrix): the stored matrix and the labels are cropped to the first half of
the bins and thresholded, and any number of further plots with the same threshold leave the object as it is. -/
theorem C41_spectrogram_plot (o o' : TFR ℤ) (thr : ℝ) (M : Mat ℝ) (hM : o.tfr = .real M)
    (hpos : ∀ r c, 0 ≤ M.get r c) (h : spectroPlot o thr = .ok o') :
    (∃ B, o'.tfr = .real B ∧ (∀ r c, 0 ≤ B.get r c) ∧ PlotOf ⟨min (o.nf / 2) M.rows, M.cols, M.get⟩ thr B) ∧
    o'.freqs.len = min (o.nf / 2) o.freqs.len ∧ (∀ k, o'.freqs.get k = o.freqs.get k) ∧
    o'.signal = o.signal ∧ o'.ts = o.ts ∧ o'.nf = o.nf ∧ o'.fwindow = o.fwindow ∧
    ∀ k, times (fun s => spectroPlot s thr) k o' = .ok o' := by
  unfold spectroPlot stftPlot at h
  simp only [hM, truncInt_half, slice_zero, plotStore_real, bind_assoc, ok_bind] at h
  obtain ⟨B, hB, rfl⟩ := thresholded_bind h
  obtain ⟨h1, h2, h3⟩ := thresholded_idem (A := topRows M (o.nf / 2)) (fun r c => hpos r c) hB
  refine ⟨⟨B, rfl, h2, h3⟩, rfl, fun _ => rfl, rfl, rfl, rfl, rfl, fun k => times_fixed ?_ k⟩
  unfold spectroPlot stftPlot
  simp only [truncInt_half, slice_zero, plotStore_real, bind_assoc, ok_bind]
  have hBr : B.rows = min (o.nf / 2) M.rows := h3.1
  have hBt : topRows B (o.nf / 2) = B := by
    unfold topRows
    have : min (o.nf / 2) B.rows = B.rows := by rw [hBr]; omega
    rw [this]
  rw [hBt, h1, ok_bind]
  congr 3
  omega

/-- Every run of the spectrogram leaves an object to which the previous theorem applies. -/
theorem C41_spectrogram_after_run (o o' : TFR ℤ) (h : spectroRun o = .ok o') :
    ∃ M : Mat ℝ, o'.tfr = .real M ∧ ∀ r c, 0 ≤ M.get r c := C31_nonneg o o' h

/-- `MargenauHillDistribution.plot` halves the number of stored rows at every call. -/
theorem C41_mh_plot_halves (o o' : TFR ℤ) (sqmod : Bool) (thr : ℝ) (h : mhPlot o sqmod thr = .ok o') :
    o'.tfr.asC.rows = o.tfr.asC.rows / 2 ∧ o'.tfr.asC.cols = o.tfr.asC.cols := by
  unfold mhPlot at h
  simp only [bind_eq_ok] at h
  obtain ⟨S, hS, h⟩ := h
  injection h with h
  subst h
  obtain ⟨h1, h2⟩ := plotStore_dims hS
  exact ⟨by rw [h1]; omega, h2⟩

/-- Hence after `k` calls only `rows / 2 ^ k` rows are left. -/
theorem C41_mh_plot_iterated (k : ℕ) (o o' : TFR ℤ) (sqmod : Bool) (thr : ℝ)
    (h : times (fun s => mhPlot s sqmod thr) k o = .ok o') : o'.tfr.asC.rows = o.tfr.asC.rows / 2 ^ k := by
  induction k generalizing o with
  | zero => injection h with h; subst h; simp
  | succ k ih =>
    unfold times at h
    cases e : mhPlot o sqmod thr with
    | error e' => simp only [e] at h; cases h
    | ok s =>
      simp only [e, ok_bind] at h
      rw [ih s h, (C41_mh_plot_halves o s sqmod thr e).1, Nat.div_div_eq_div_mul, pow_succ, mul_comm]

/-- With the default threshold the plot of a Wigner-Ville object does change the stored matrix: a negative entry becomes
non-negative. -/
theorem C41_wvd_plot_changes {τ : Type} (o o' : TFR τ) (thr : ℝ) (M : Mat ℝ) (hM : o.tfr = .real M) (r c : ℕ)
    (hneg : M.get r c < 0) (h : wvdPlot o false thr = .ok o') : o'.tfr ≠ o.tfr := by
  obtain ⟨⟨B, h1, h2, _⟩, _⟩ := C41_wvd_plot o o' thr h
  intro e
  rw [h1, hM] at e
  injection e with e
  have := h2 r c
  rw [e] at this
  linarith

example : ∃ o', wvdPlot (TFR.init makeWindow ⟨2, fun _ => 1⟩ (arange 0 2) 2 none) false 0.05 = .ok o' := by
  obtain ⟨mx, _, h⟩ := thresholded_ok (M := (Store.cplx (Mat.zeros 2 2)).modulus)
    (by simp [Store.modulus, Store.asC, Mat.map, Mat.zeros]) 0.05
  have h2 : wvdPlot (TFR.init makeWindow ⟨2, fun _ => 1⟩ (arange 0 2) 2 none) false 0.05 =
      (thresholded (Store.cplx (Mat.zeros 2 2)).modulus 0.05 >>= fun M =>
        .ok { TFR.init makeWindow ⟨2, fun _ => 1⟩ (arange 0 2) 2 none with tfr := .real M }) := rfl
  rw [h2, h, ok_bind]
  exact ⟨_, rfl⟩

end Tftb.Props
