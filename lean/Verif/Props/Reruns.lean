import Verif.Lemmas.Hilbert
import Verif.Props.Stft
import Verif.Props.PageRuns

/-! # What a further `run()` computes on an object that has already been run (C88) -/

namespace Tftb.Props

open Tftb Tftb.Spec Tftb.Linear Tftb.Cohen Finset ComplexConjugate

/-- Rows of an `n`-row column that none of the lags `S` (modulo `n`) reaches: a run leaves there what the column held before. -/
def staleRows (n : ℕ) (S : Finset ℤ) : Finset ℕ :=
  (range n).filter (fun p => ∀ t ∈ S, ¬ (n : ℤ) ∣ (p : ℤ) - t)

theorem lagPos_dvd {n : ℕ} (hn : n ≠ 0) (a : ℤ) (j : ℕ) : (n : ℤ) ∣ (lagPos n a j : ℤ) - (a + j) := by
  rw [lagPos_cast hn]
  exact Int.dvd_of_emod_eq_zero (by rw [Int.sub_emod, Int.emod_emod, sub_self, Int.zero_emod])

/-- The transform of a column written over an arbitrary content. -/
theorem dftC_over {n : ℕ} (hn : n ≠ 0) {a b : ℤ} (g : ℕ → ℂ) (v : ℤ → ℂ) (k : ℤ) :
    dftC n (Vec.scatter g (lagPos n a) (fun j => v (a + j)) (b + 1 - a).toNat) k
      = dftC n (lagCol n a b v) k + ∑ p ∈ staleRows n (Icc a b), g p * rootPow n (p * k) := by
  have hp : ∀ p < n, Vec.scatter g (lagPos n a) (fun j => v (a + j)) (b + 1 - a).toNat p
      = lagCol n a b v p + if p ∈ staleRows n (Icc a b) then g p else 0 := by
    intro p hp
    by_cases hs : p ∈ staleRows n (Icc a b)
    · rw [if_pos hs]
      have hne : ∀ j < (b + 1 - a).toNat, lagPos n a j ≠ p := by
        rintro j hj rfl
        exact (mem_filter.1 hs).2 (a + j) (mem_Icc.2 ⟨by omega, by omega⟩) (lagPos_dvd hn a j)
      unfold lagCol
      rw [Vec.scatter_not_mem hne, Vec.scatter_not_mem hne, zero_add]
    · rw [if_neg hs, add_zero]
      unfold lagCol
      apply scatter_covered
      have : ∃ t ∈ Icc a b, (n : ℤ) ∣ (p : ℤ) - t := by
        by_contra hcon
        exact hs (mem_filter.2 ⟨mem_range.2 hp, fun t ht hd => hcon ⟨t, ht, hd⟩⟩)
      obtain ⟨t, ht, hd⟩ := this
      rw [mem_Icc] at ht
      refine ⟨(t - a).toNat, by omega, ?_⟩
      have h1 : ((lagPos n a (t - a).toNat : ℕ) : ℤ) = p := by
        rw [lagPos_cast hn, Int.toNat_of_nonneg (by omega), add_sub_cancel]
        have h2 : t % n = p % n := Int.modEq_iff_dvd.2 hd
        rw [h2]
        exact Int.emod_eq_of_lt (by omega) (by omega)
      exact_mod_cast h1
  rw [dftC_congr hp, dftC_add]
  congr 1
  unfold dftC
  simp only [ite_mul, zero_mul]
  rw [← Finset.sum_filter]
  apply Finset.sum_congr ?_ (fun _ _ => rfl)
  ext p
  simp only [mem_filter, mem_range, staleRows]
  tauto

/-! ## Pseudo Wigner-Ville -/

theorem pwvdCol_on {τ : Type} (o : TFR τ) (hn : o.nf ≠ 0) (c : ℕ) (hz : ¬ pwvZone o.nf o.signal.len (midIdx o.fwindow) c)
    (v : Vec ℂ) (hv : v.len = o.nf) :
    pwvdCol o c v = .ok ⟨o.nf, Vec.scatter v.get (lagPos o.nf (-(pwvT o.nf o.signal.len (midIdx o.fwindow) c)))
      (fun j => (fun t => zext o.fwindow (midIdx o.fwindow + t) * wignerKernel o.signal c t)
        (-(pwvT o.nf o.signal.len (midIdx o.fwindow) c) + j))
      (pwvT o.nf o.signal.len (midIdx o.fwindow) c + 1 - -(pwvT o.nf o.signal.len (midIdx o.fwindow) c)).toNat⟩ := by
  set n := o.nf with hnn
  set x := o.signal with hx
  set h := o.fwindow with hh
  set T := pwvT n x.len (midIdx h) c with hT
  have hb : ∀ t, -T ≤ t → t ≤ T → (0 ≤ midIdx h + t ∧ midIdx h + t < h.len) ∧
      (0 ≤ (c : ℤ) + t ∧ (c : ℤ) + t < x.len) ∧ (0 ≤ (c : ℤ) - t ∧ (c : ℤ) - t < x.len) := by
    intro t h1 h2
    rw [hT] at h1 h2
    unfold pwvT midIdx at h1 h2
    unfold midIdx
    omega
  obtain ⟨vw, w1, w2, w3⟩ := take_range (x := h) (-T) T (fun t => midIdx h + t) (fun t h1 h2 => (hb t h1 h2).1)
  obtain ⟨va, a1, a2, a3⟩ := take_range (x := x) (-T) T (fun t => (c : ℤ) + t) (fun t h1 h2 => (hb t h1 h2).2.1)
  obtain ⟨vb, b1, b2, b3⟩ := take_range (x := x) (-T) T (fun t => (c : ℤ) - t) (fun t h1 h2 => (hb t h1 h2).2.2)
  simp only [pwvdCol, ← hnn, ← hx, ← hh]
  show (h.take ((arange (-T) (T + 1)).map (fun t => midIdx h + t)) >>= _) = _
  rw [w1, ok_bind]
  show (x.take ((arange (-T) (T + 1)).map _) >>= _) = _
  rw [a1, ok_bind]
  show (x.take ((arange (-T) (T + 1)).map _) >>= _) = _
  rw [b1, ok_bind, Vec.bcast_ok (by rw [a2, w2]), ok_bind, Vec.bcast_ok (by simp only; rw [b2, w2]), ok_bind]
  show (v.put ((arange (-T) (T + 1)).map _) _ >>= _) = _
  rw [put_lags hn (-T) T (v := ⟨vw.len, fun i => vw.get i * va.get i * conj (vb.get i)⟩) hv w2, ok_bind]
  show (if pwvZone n x.len (midIdx h) c then _ else _) = _
  rw [if_neg hz]
  congr 2
  exact Vec.scatter_congr rfl (fun _ _ => rfl)
    (fun j hj => by simp only; rw [a3 j hj, b3 j hj, w3 j hj, mul_assoc]; rfl)

/-- Every run of the pseudo Wigner-Ville distribution on an object whose stored matrix has the right shape: the new stored matrix is
the fresh one plus the transform of the rows that were not written. -/
theorem C88_pwvd_any_run {τ : Type} (o : TFR τ) (F : Mat ℂ) (L : ℕ) (hF : o.tfr = .cplx F) (hr : F.rows = o.nf)
    (hc : F.cols = o.ts.len) (hh : o.fwindow.len = 2 * L + 1) (hL : (L : ℤ) < roundEven ((o.nf : ℝ) / 2)) :
    ∃ G : Mat ℂ, pwvdRun o = .ok ({ o with tfr := .cplx G }, G.map Complex.re) ∧ G.rows = o.nf ∧ G.cols = o.ts.len ∧
      ∀ k < o.nf, ∀ c < o.ts.len, G.get k c =
        lagSum L o.nf (fun τ => o.fwindow.get ((L : ℤ) + τ).toNat * wignerKernel o.signal c τ) k
        + ∑ p ∈ staleRows o.nf ((Icc (-(L : ℤ)) L).filter (fun τ : ℤ => τ ≤ c ∧ -τ ≤ c ∧ (c : ℤ) + τ < o.signal.len ∧ (c : ℤ) - τ < o.signal.len)),
            F.get p c * expi (-(2 * Real.pi * (k * p / o.nf))) := by
  have hn : o.nf ≠ 0 := by
    intro h0
    rw [h0, roundEven_half] at hL
    simp at hL
    omega
  have hmid : midIdx o.fwindow = L := midIdx_odd hh
  obtain ⟨S, hf, s1, s2, s3⟩ : ∃ S : Mat ℂ, (Store.cplx F).forCols o.ts.len (pwvdCol o) = .ok (.cplx S) ∧
      S.rows = o.nf ∧ S.cols = o.ts.len ∧ ∀ r, ∀ c < o.ts.len, S.get r c =
        Vec.scatter (fun r => F.get r c) (lagPos o.nf (-(pwvT o.nf o.signal.len (midIdx o.fwindow) c)))
      (fun j => (fun t => zext o.fwindow (midIdx o.fwindow + t) * wignerKernel o.signal c t)
        (-(pwvT o.nf o.signal.len (midIdx o.fwindow) c) + j))
      (pwvT o.nf o.signal.len (midIdx o.fwindow) c + 1 - -(pwvT o.nf o.signal.len (midIdx o.fwindow) c)).toNat r := by
    refine ⟨_, forCols_cplx hr hc (body := pwvdCol o) (fun c hc => pwvdCol_on o hn c
      (pwvZone_empty (by rw [hmid]; exact hL) c) ⟨o.nf, fun r => F.get r c⟩ rfl), rfl, rfl, ?_⟩
    intro r c hc
    simp only [if_pos hc]
  have hok : pwvdRun o = .ok ({ o with
      tfr := .cplx ⟨S.rows, S.cols, fun k c => dftC S.rows (fun r => S.get r c) k⟩ },
      (⟨S.rows, S.cols, fun k c => dftC S.rows (fun r => S.get r c) k⟩ : Mat ℂ).map Complex.re) := by
    unfold pwvdRun
    rw [hF, hf, ok_bind, fft0_ok (M := (Store.cplx S).asC) (show S.rows ≠ 0 by rw [s1]; exact hn), ok_bind]
    rfl
  refine ⟨_, hok, s1, s2, fun k _ c hc => ?_⟩
  show dftC S.rows _ k = _
  rw [s1, dftC_congr (fun r _ => s3 r c hc)]
  set T := pwvT o.nf o.signal.len (midIdx o.fwindow) c with hT
  have hTeq : T = min (min (c : ℤ) ((o.signal.len : ℤ) - c - 1)) L := by
    rw [hT, hmid]; unfold pwvT; omega
  have hTn : 2 * T + 1 ≤ o.nf := by
    have := hL
    rw [roundEven_half] at this
    split at this <;> omega
  have key := dftC_over hn (a := -T) (b := T) (fun r => F.get r c)
    (fun t => zext o.fwindow (midIdx o.fwindow + t) * wignerKernel o.signal c t) k
  refine key.trans ?_
  congr 1
  · rw [dftC_lagCol_symm hn hTn]
    unfold lagSum
    have hsub : Icc (-T) T ⊆ Icc (-(L : ℤ)) L := by
      intro t ht
      rw [mem_Icc] at ht ⊢
      omega
    rw [← Finset.sum_subset hsub]
    · apply Finset.sum_congr rfl
      intro t ht
      have := hsub ht
      rw [mem_Icc] at this
      simp only
      rw [hmid, zext_of_mem (i := (L : ℤ) + t) (by omega) (by omega)]
    · intro t ht ht'
      rw [mem_Icc] at ht ht'
      have : wignerKernel o.signal c t = 0 := by
        unfold wignerKernel
        by_cases h1 : 0 ≤ (c : ℤ) + t ∧ (c : ℤ) + t < o.signal.len
        · rw [zext_of_not_mem (i := (c : ℤ) - t), map_zero, mul_zero]
          omega
        · rw [zext_of_not_mem h1, zero_mul]
      simp only
      rw [this, mul_zero, zero_mul]
  · have hset : Icc (-T) T = (Icc (-(L : ℤ)) L).filter
        (fun τ : ℤ => τ ≤ c ∧ -τ ≤ c ∧ (c : ℤ) + τ < o.signal.len ∧ (c : ℤ) - τ < o.signal.len) := by
      ext t
      rw [mem_filter, mem_Icc, mem_Icc]
      omega
    rw [hset]
    apply Finset.sum_congr rfl
    intro p _
    rw [rootPow_eq_expi]
    push_cast
    rw [mul_comm (p : ℝ)]

theorem staleRows_zero {n : ℕ} : staleRows n {0} = Ico 1 n := by
  ext p
  simp only [staleRows, mem_filter, mem_range, mem_singleton, forall_eq, sub_zero, mem_Ico]
  constructor
  · rintro ⟨h1, h2⟩
    refine ⟨?_, h1⟩
    by_contra h
    exact h2 (by rw [show p = 0 by omega]; simp)
  · rintro ⟨h1, h2⟩
    refine ⟨h2, fun hd => ?_⟩
    have := Nat.le_of_dvd (by omega) (by exact_mod_cast hd : n ∣ p)
    omega

theorem times_succ' {σ : Type} (f : σ → Py σ) (k : ℕ) (s : σ) : times f (k + 1) s = times f k s >>= f := by
  induction k generalizing s with
  | zero =>
    show (f s >>= fun r => .ok r) = f s
    cases f s <;> rfl
  | succ k ih =>
    show (f s >>= times f (k + 1)) = (f s >>= times f k) >>= f
    cases f s with
    | error e => rfl
    | ok s' => exact ih s'

/-- The object left behind by `PseudoWignerVilleDistribution.run`. -/
noncomputable def pwvdStep {τ : Type} (o : TFR τ) : Py (TFR τ) := pwvdRun o >>= fun r => .ok r.1

/-- The pseudo Wigner-Ville distribution never settles.  With `a = h(0) |x[0]|²`, after an odd number of runs the column of sample 0
is `a, a, …, a`; after an even number of runs it is `n a, 0, …, 0`. -/
theorem C88_pwvd_alternates {τ : Type} (x : Vec ℂ) (ts : Vec τ) (n : ℕ) (h : Vec ℂ) (L : ℕ) (hh : h.len = 2 * L + 1)
    (hL : (L : ℤ) < roundEven ((n : ℝ) / 2)) (hx : x.len ≠ 0) (hts : ts.len ≠ 0) (j : ℕ) :
    ∃ (o : TFR τ) (F : Mat ℂ), times pwvdStep (j + 1) (TFR.init makeWindow x ts n (some h)) = .ok o ∧ o.tfr = .cplx F ∧
      F.rows = n ∧ F.cols = ts.len ∧ ∀ k < n, F.get k 0 =
        if j % 2 = 0 then h.get L * (‖x.get 0‖ ^ 2 : ℝ) else if k = 0 then n * (h.get L * (‖x.get 0‖ ^ 2 : ℝ)) else 0 := by
  have hn : n ≠ 0 := by
    rintro rfl
    rw [roundEven_half] at hL
    simp at hL
    omega
  have hts' : 0 < ts.len := Nat.pos_of_ne_zero hts
  set a : ℂ := h.get L * (‖x.get 0‖ ^ 2 : ℝ) with ha
  have hk0 : wignerKernel x ((0 : ℕ) : ℤ) 0 = ((‖x.get 0‖ ^ 2 : ℝ) : ℂ) := by
    unfold wignerKernel
    rw [add_zero, sub_zero, zext_of_mem (by omega) (by omega), mul_conj_eq_norm_sq]
    rfl
  -- one run, seen on the first column
  have step : ∀ (o : TFR τ) (F : Mat ℂ), o.signal = x → o.ts = ts → o.nf = n → o.fwindow = h → o.tfr = .cplx F →
      F.rows = n → F.cols = ts.len → ∃ G : Mat ℂ, pwvdStep o = .ok { o with tfr := .cplx G } ∧ G.rows = n ∧ G.cols = ts.len ∧
        ∀ k < n, G.get k 0 = a + ∑ p ∈ Ico 1 n, F.get p 0 * rootPow n (p * k) := by
    intro o F e1 e2 e3 e4 e5 e6 e7
    obtain ⟨G, g1, g2, g3, g4⟩ := C88_pwvd_any_run o F L e5 (by rw [e3]; exact e6) (by rw [e2]; exact e7)
      (by rw [e4]; exact hh) (by rw [e3]; exact hL)
    rw [e3] at g2 g4
    rw [e2] at g3 g4
    rw [e1, e4] at g4
    refine ⟨G, by unfold pwvdStep; rw [g1]; rfl, g2, g3, fun k hk => ?_⟩
    rw [g4 k hk 0 hts']
    have hset : (Icc (-(L : ℤ)) L).filter (fun τ : ℤ => τ ≤ ((0 : ℕ) : ℤ) ∧ -τ ≤ ((0 : ℕ) : ℤ) ∧ ((0 : ℕ) : ℤ) + τ < x.len ∧
        ((0 : ℕ) : ℤ) - τ < x.len) = {0} := by
      ext t
      rw [mem_filter, mem_Icc, mem_singleton]
      omega
    rw [hset, staleRows_zero]
    congr 1
    · unfold lagSum
      rw [Finset.sum_eq_single 0]
      · simp only
        rw [hk0, add_zero, Int.toNat_natCast, ha]
        simp [expi]
      · intro t _ ht0
        have : wignerKernel x ((0 : ℕ) : ℤ) t = 0 := by
          unfold wignerKernel
          by_cases h1 : 0 ≤ t
          · rw [zext_of_not_mem (i := ((0 : ℕ) : ℤ) - t) (by omega), map_zero, mul_zero]
          · rw [zext_of_not_mem (i := ((0 : ℕ) : ℤ) + t) (by omega), zero_mul]
        simp only
        rw [this, mul_zero, zero_mul]
      · intro h0
        exact absurd (mem_Icc.2 ⟨by omega, by omega⟩) h0
    · apply Finset.sum_congr rfl
      intro p _
      rw [rootPow_eq_expi]
      push_cast
      rw [mul_comm (p : ℝ)]
  have hroot : ∀ k < n, ∑ p ∈ Ico 1 n, rootPow n ((p : ℤ) * k) = (if k = 0 then (n : ℂ) else 0) - 1 := by
    intro k hk
    have h1 := sum_rootPow' hn (k : ℤ)
    rw [Finset.range_eq_Ico, Finset.sum_eq_sum_Ico_succ_bot (Nat.pos_of_ne_zero hn)] at h1
    have h2 : ((n : ℤ) ∣ (k : ℤ)) ↔ k = 0 := by
      constructor
      · intro hd
        by_contra hne
        have := Nat.le_of_dvd (by omega) (by exact_mod_cast hd : n ∣ k)
        omega
      · rintro rfl; simp
    simp only [h2, Nat.cast_zero, zero_mul, rootPow_zero, zero_add] at h1
    rw [← h1, add_sub_cancel_left]
  have hmain : ∀ j, ∃ (o : TFR τ) (F : Mat ℂ), times pwvdStep (j + 1) (TFR.init makeWindow x ts n (some h)) = .ok o ∧
      (o.signal = x ∧ o.ts = ts ∧ o.nf = n ∧ o.fwindow = h) ∧ o.tfr = .cplx F ∧
      F.rows = n ∧ F.cols = ts.len ∧ ∀ k < n, F.get k 0 = if j % 2 = 0 then a else if k = 0 then n * a else 0 := by
    intro j
    induction j with
    | zero =>
      obtain ⟨G, g1, g2, g3, g4⟩ := step (TFR.init makeWindow x ts n (some h)) (Mat.zeros n ts.len) rfl rfl rfl rfl rfl rfl rfl
      refine ⟨_, G, by unfold times times; rw [g1]; rfl, ⟨rfl, rfl, rfl, rfl⟩, rfl, g2, g3, fun k hk => ?_⟩
      rw [g4 k hk]
      simp [Mat.zeros]
    | succ j ih =>
      obtain ⟨o, F, f1, ⟨f2, f3, f4, f5⟩, f6, f7, f8, f9⟩ := ih
      obtain ⟨G, g1, g2, g3, g4⟩ := step o F f2 f3 f4 f5 f6 f7 f8
      refine ⟨{ o with tfr := .cplx G }, G, ?_, ⟨f2, f3, f4, f5⟩, rfl, g2, g3, fun k hk => ?_⟩
      · rw [times_succ', f1, ok_bind, g1]
      · rw [g4 k hk]
        by_cases hj : j % 2 = 0
        · rw [if_neg (by omega)]
          have : ∑ p ∈ Ico 1 n, F.get p 0 * rootPow n (p * k) = a * ∑ p ∈ Ico 1 n, rootPow n ((p : ℤ) * k) := by
            rw [Finset.mul_sum]
            apply Finset.sum_congr rfl
            intro p hp
            rw [f9 p (mem_Ico.1 hp).2, if_pos hj]
          rw [this, hroot k hk]
          split_ifs <;> ring
        · rw [if_pos (by omega)]
          have : ∑ p ∈ Ico 1 n, F.get p 0 * rootPow n (p * k) = 0 := by
            apply Finset.sum_eq_zero
            intro p hp
            rw [mem_Ico] at hp
            rw [f9 p hp.2, if_neg hj, if_neg (by omega), zero_mul]
          rw [this, add_zero]
  obtain ⟨o, F, f1, _, f2, f3⟩ := hmain j
  exact ⟨o, F, f1, f2, f3⟩

/-! ## Margenau-Hill -/

theorem mhCol_on (o : TFR ℤ) (hn : o.nf ≠ 0) (c : ℕ) (hc : c < o.ts.len) (h0 : 0 ≤ o.ts.get c)
    (h1 : o.ts.get c < o.signal.len) (v : Vec ℂ) (hv : v.len = o.nf) :
    mhCol o c v = .ok ⟨o.nf, Vec.scatter v.get (lagPos o.nf (o.ts.get c - min (o.nf : ℤ) o.signal.len + 1))
      (fun j => (fun t => o.signal.get (o.ts.get c).toNat * conj (zext o.signal (o.ts.get c - t)))
        (o.ts.get c - min (o.nf : ℤ) o.signal.len + 1 + j))
      (o.ts.get c - 1 + 1 - (o.ts.get c - min (o.nf : ℤ) o.signal.len + 1)).toNat⟩ := by
  simp only [mhCol]
  set n := o.nf with hnn
  set x := o.signal with hx
  rw [ts_item hc, ok_bind, Vec.item_ok h0 h1, ok_bind]
  have e1 : -(min ((n : ℤ) - o.ts.get c) ((x.len : ℤ) - o.ts.get c)) + 1 = o.ts.get c - min (n : ℤ) x.len + 1 := by omega
  have e2 : arange (o.ts.get c - min (n : ℤ) x.len + 1) (o.ts.get c)
      = arange (o.ts.get c - min (n : ℤ) x.len + 1) (o.ts.get c - 1 + 1) := by rw [sub_add_cancel]
  obtain ⟨b, b1, b2, b3⟩ := take_range (x := x) (o.ts.get c - min (n : ℤ) x.len + 1) (o.ts.get c - 1)
    (fun t => o.ts.get c - t) (fun t h1 h2 => by omega)
  rw [e1, e2, b1, ok_bind, put_lags hn _ _ (v := b.map (fun z => x.get (o.ts.get c).toNat * conj z)) hv b2]
  congr 2
  exact Vec.scatter_congr rfl (fun _ _ => rfl) (fun j hj => by rw [Vec.map_get, b3 j hj])

theorem scatter_real {g : ℕ → ℂ} {pos : ℕ → ℕ} {val : ℕ → ℂ} {L p : ℕ} (hg : (g p).im = 0) (hv : ∀ j < L, (val j).im = 0) :
    (((Vec.scatter g pos val L p).re : ℝ) : ℂ) = Vec.scatter g pos val L p := by
  have : (Vec.scatter g pos val L p).im = 0 := by
    induction L with
    | zero => exact hg
    | succ L ih =>
      rw [Vec.scatter_succ]
      by_cases hp : p = pos L
      · subst hp; simp [hv L (Nat.lt_succ_self _)]
      · rw [Function.update_of_ne hp]; exact ih (fun j hj => hv j (by omega))
  exact Complex.ext (by simp) (by simp [this])

theorem zext_im {x : Vec ℂ} (hreal : ∀ i < x.len, (x.get i).im = 0) (i : ℤ) : (zext x i).im = 0 := by
  unfold zext
  split
  · exact hreal _ (by omega)
  · rfl

theorem re_expi (a : ℝ) : (expi (-a)).re = Real.cos a := by
  unfold expi
  rw [Complex.exp_ofReal_mul_I_re, Real.cos_neg]

/-- Every run of the Margenau-Hill distribution of a real signal on an object that holds a real matrix of the right shape. -/
theorem C88_mh_any_run (o : TFR ℤ) (M : Mat ℝ) (hM : o.tfr = .real M) (hn : o.nf ≠ 0) (hr : M.rows = o.nf)
    (hc : M.cols = o.ts.len) (hreal : ∀ i < o.signal.len, (o.signal.get i).im = 0)
    (hts : ∀ c < o.ts.len, 0 ≤ o.ts.get c ∧ o.ts.get c < o.signal.len) :
    ∃ G : Mat ℝ, mhRun o = .ok { o with tfr := .real G } ∧ G.rows = o.nf ∧ G.cols = o.ts.len ∧
      ∀ k < o.nf, ∀ c < o.ts.len, G.get k c =
        ∑ s ∈ Ico 1 (min o.nf o.signal.len), (o.signal.get (o.ts.get c).toNat).re * (o.signal.get s).re
            * Real.cos (2 * Real.pi * (k * (o.ts.get c - s) / o.nf))
        + ∑ p ∈ staleRows o.nf (Icc (o.ts.get c - min (o.nf : ℤ) o.signal.len + 1) (o.ts.get c - 1)),
            M.get p c * Real.cos (2 * Real.pi * (k * p / o.nf)) := by
  obtain ⟨S, hf, s1, s2, s3⟩ : ∃ S : Mat ℝ, (Store.real M).forCols o.ts.len (mhCol o) = .ok (.real S) ∧
      S.rows = o.nf ∧ S.cols = o.ts.len ∧ ∀ r, ∀ c < o.ts.len, S.get r c =
        (Vec.scatter (fun r => (M.get r c : ℂ)) (lagPos o.nf (o.ts.get c - min (o.nf : ℤ) o.signal.len + 1))
      (fun j => (fun t => o.signal.get (o.ts.get c).toNat * conj (zext o.signal (o.ts.get c - t)))
        (o.ts.get c - min (o.nf : ℤ) o.signal.len + 1 + j))
      (o.ts.get c - 1 + 1 - (o.ts.get c - min (o.nf : ℤ) o.signal.len + 1)).toNat r).re := by
    refine ⟨_, forCols_real hr hc (body := mhCol o) (fun c hc => mhCol_on o hn c hc (hts c hc).1 (hts c hc).2
      ⟨o.nf, fun r => (M.get r c : ℂ)⟩ rfl), rfl, rfl, ?_⟩
    intro r c hc
    simp only [if_pos hc]
  have hok : mhRun o = .ok { o with
      tfr := .real ⟨S.rows, S.cols, fun k c => (dftC S.rows (fun r => (S.get r c : ℂ)) k).re⟩ } := by
    unfold mhRun
    rw [hM, hf, ok_bind, fft0_ok (M := (Store.real S).asC) (show S.rows ≠ 0 by rw [s1]; exact hn), ok_bind]
    rfl
  refine ⟨_, hok, s1, s2, fun k _ c hc => ?_⟩
  obtain ⟨t0, t1⟩ := hts c hc
  have him : (o.signal.get (o.ts.get c).toNat).im = 0 := hreal _ (by omega)
  show (dftC S.rows (fun r => (S.get r c : ℂ)) k).re = _
  have hS : ∀ r < o.nf, ((S.get r c : ℝ) : ℂ) =
      Vec.scatter (fun r => (M.get r c : ℂ)) (lagPos o.nf (o.ts.get c - min (o.nf : ℤ) o.signal.len + 1))
      (fun j => (fun t => o.signal.get (o.ts.get c).toNat * conj (zext o.signal (o.ts.get c - t)))
        (o.ts.get c - min (o.nf : ℤ) o.signal.len + 1 + j))
      (o.ts.get c - 1 + 1 - (o.ts.get c - min (o.nf : ℤ) o.signal.len + 1)).toNat r := by
    intro r _
    rw [s3 r c hc]
    apply scatter_real (Complex.ofReal_im _)
    intro j _
    simp only
    rw [Complex.mul_im, Complex.conj_im, Complex.conj_re, zext_im hreal, him]
    ring
  rw [s1, dftC_congr hS]
  have key := dftC_over hn (a := o.ts.get c - min (o.nf : ℤ) o.signal.len + 1) (b := o.ts.get c - 1)
    (fun r => (M.get r c : ℂ)) (fun t => o.signal.get (o.ts.get c).toNat * conj (zext o.signal (o.ts.get c - t))) k
  refine (congrArg Complex.re key).trans ?_
  rw [Complex.add_re]
  congr 1
  · rw [dftC_lagCol hn (by omega), sum_reflect (o.ts.get c) (min (o.nf : ℤ) o.signal.len) 1 _ (min o.nf o.signal.len)
      (by omega) 1 rfl, Complex.re_sum]
    apply Finset.sum_congr rfl
    intro s hs
    rw [mem_Ico] at hs
    have e1 : zext o.signal (o.ts.get c - (o.ts.get c - s)) = o.signal.get s := by
      rw [sub_sub_cancel, zext_of_mem (by omega) (by omega), Int.toNat_natCast]
    have e2 : o.signal.get (o.ts.get c).toNat * conj (o.signal.get s)
        = (((o.signal.get (o.ts.get c).toNat).re * (o.signal.get s).re : ℝ) : ℂ) := by
      have h2 := hreal s (by omega)
      apply Complex.ext
      · simp [him, h2]
      · simp [him, h2]
    rw [e1, e2, Complex.re_ofReal_mul, rootPow_eq_expi, re_expi]
    push_cast
    rw [mul_comm (k : ℝ)]
  · rw [Complex.re_sum]
    apply Finset.sum_congr rfl
    intro p _
    rw [Complex.re_ofReal_mul, rootPow_eq_expi, re_expi]
    push_cast
    rw [mul_comm (p : ℝ)]

/-- The one row that a default Margenau-Hill run does not write. -/
theorem staleRows_mh {N : ℕ} {c : ℕ} (hc : c < N) : staleRows N (Icc ((c : ℤ) - min (N : ℤ) N + 1) ((c : ℤ) - 1)) = {c} := by
  ext p
  simp only [staleRows, mem_filter, mem_range, mem_singleton, mem_Icc, min_self]
  constructor
  · rintro ⟨h1, h2⟩
    by_contra hne
    by_cases hp : p < c
    · exact h2 p ⟨by omega, by omega⟩ (by simp)
    · exact h2 ((p : ℤ) - N) ⟨by omega, by omega⟩ (by simp)
  · rintro rfl
    refine ⟨hc, fun t ht hd => ?_⟩
    have := Int.le_of_dvd (by omega) hd
    omega

/-- The Margenau-Hill distribution of a real signal, default times and bins, drifts from run to run: the row of the column's own
sample is never written, so run `j + 1` adds a cosine weighted by what run `j` left there.  In the column of sample 0 this means
that every further run adds the same constant `M₁(0, 0)`. -/
theorem C88_mh_drifts (x : Vec ℂ) (hx : x.len ≠ 0) (hreal : ∀ i < x.len, (x.get i).im = 0) :
    ∃ M : ℕ → Mat ℝ, (∀ j, ∃ o, times mhRun (j + 1) (TFR.init makeWindow x (arange 0 x.len) x.len none) = .ok o ∧
        o.tfr = .real (M j)) ∧
      (∀ j, (M j).rows = x.len ∧ (M j).cols = x.len) ∧
      (∀ j, ∀ k < x.len, ∀ c < x.len, (M (j + 1)).get k c =
        (M 0).get k c + (M j).get c c * Real.cos (2 * Real.pi * (k * c / x.len))) ∧
      ∀ j, ∀ k < x.len, (M j).get k 0 = (M 0).get k 0 + j * (M 0).get 0 0 := by
  obtain ⟨hl, hg⟩ := arange_default x.len
  have hts : ∀ c < (arange 0 x.len).len, 0 ≤ (arange 0 (x.len : ℤ)).get c ∧ (arange 0 (x.len : ℤ)).get c < x.len := by
    intro c hc
    rw [hl] at hc
    rw [hg]
    omega
  set A : ℕ → ℕ → ℝ := fun k c => ∑ s ∈ Ico 1 x.len, (x.get c).re * (x.get s).re
            * Real.cos (2 * Real.pi * (k * ((c : ℝ) - s) / x.len)) with hA
  obtain ⟨M₀, m1, m2, m3, m4⟩ := (mhRun_spec makeWindow x (arange 0 x.len) x.len none hx).1
    (fun c hc => idxOk_of_lt (hts c hc).1 (hts c hc).2)
  rw [hl] at m3
  have hM0 : ∀ k < x.len, ∀ c < x.len, M₀.get k c = A k c := by
    intro k hk c hc
    obtain ⟨M', n1, _, _, n4⟩ := C38_margenau_hill x (arange 0 x.len) x.len hx hts
    obtain ⟨o', n1, n1'⟩ := n1
    rw [m1] at n1
    injection n1 with n1
    subst n1
    injection n1' with n1'
    subst n1'
    rw [n4 k hk c (by rw [hl]; exact hc), hg, min_self, Int.toNat_natCast, Complex.re_sum]
    apply Finset.sum_congr rfl
    intro s hs
    rw [mem_Ico] at hs
    have e2 : x.get c * conj (x.get s) = (((x.get c).re * (x.get s).re : ℝ) : ℂ) := by
      have h1 := hreal c hc
      have h2 := hreal s (by omega)
      apply Complex.ext
      · simp [h1, h2]
      · simp [h1, h2]
    rw [e2, Complex.re_ofReal_mul, re_expi]
    push_cast
    rfl
  have step : ∀ (o : TFR ℤ) (F : Mat ℝ), o.signal = x → o.ts = arange 0 x.len → o.nf = x.len → o.tfr = .real F →
      F.rows = x.len → F.cols = x.len → ∃ G : Mat ℝ, mhRun o = .ok { o with tfr := .real G } ∧ G.rows = x.len ∧
        G.cols = x.len ∧ ∀ k < x.len, ∀ c < x.len, G.get k c = A k c + F.get c c * Real.cos (2 * Real.pi * (k * c / x.len)) := by
    intro o F e1 e2 e3 e4 e5 e6
    obtain ⟨G, g1, g2, g3, g4⟩ := C88_mh_any_run o F e4 (by rw [e3]; exact hx) (by rw [e3]; exact e5)
      (by rw [e2, hl]; exact e6) (by rw [e1]; exact hreal) (by rw [e1, e2]; exact hts)
    rw [e2, hl] at g3
    refine ⟨G, g1, by rw [g2, e3], g3, fun k hk c hc => ?_⟩
    rw [g4 k (by rw [e3]; exact hk) c (by rw [e2, hl]; exact hc), e1, e2, e3, hg, staleRows_mh hc, sum_singleton, min_self,
      Int.toNat_natCast]
    push_cast
    rfl
  have hall : ∀ j, ∃ (F : Mat ℝ) (o : TFR ℤ), times mhRun (j + 1) (TFR.init makeWindow x (arange 0 x.len) x.len none) = .ok o ∧
      o.tfr = .real F ∧ (o.signal = x ∧ o.ts = arange 0 x.len ∧ o.nf = x.len) ∧ F.rows = x.len ∧ F.cols = x.len := by
    intro j
    induction j with
    | zero =>
      refine ⟨M₀, { TFR.init makeWindow x (arange 0 x.len) x.len none with tfr := .real M₀ }, ?_, rfl, ⟨rfl, rfl, rfl⟩, m2, m3⟩
      unfold times times
      rw [m1]
      rfl
    | succ j ih =>
      obtain ⟨F, o, f1, f2, ⟨f3, f4, f5⟩, f6, f7⟩ := ih
      obtain ⟨G, g1, g2, g3, _⟩ := step o F f3 f4 f5 f2 f6 f7
      exact ⟨G, { o with tfr := .real G }, by rw [times_succ', f1, ok_bind, g1], rfl, ⟨f3, f4, f5⟩, g2, g3⟩
  choose M o h1 h2 h3 h4 h5 using hall
  have hz : M 0 = M₀ := by
    have h := h1 0
    unfold times times at h
    rw [m1] at h
    have h : (.ok { TFR.init makeWindow x (arange 0 x.len) x.len none with tfr := .real M₀ } : Py (TFR ℤ)) = .ok (o 0) := h
    injection h with h
    have h' := h2 0
    rw [← h] at h'
    injection h' with h'
    exact h'.symm
  have hstep : ∀ j, ∀ k < x.len, ∀ c < x.len, (M (j + 1)).get k c =
        (M 0).get k c + (M j).get c c * Real.cos (2 * Real.pi * (k * c / x.len)) := by
    intro j k hk c hc
    obtain ⟨G, g1, _, _, g4⟩ := step (o j) (M j) (h3 j).1 (h3 j).2.1 (h3 j).2.2 (h2 j) (h4 j) (h5 j)
    have h := h1 (j + 1)
    rw [times_succ', h1 j, ok_bind, g1] at h
    injection h with h
    have h' := h2 (j + 1)
    rw [← h] at h'
    injection h' with h'
    rw [← h', g4 k hk c hc, hz, hM0 k hk c hc]
  refine ⟨M, fun j => ⟨o j, h1 j, h2 j⟩, fun j => ⟨h4 j, h5 j⟩, hstep, ?_⟩
  have hcol : ∀ j, ∀ k < x.len, (M (j + 1)).get k 0 = (M 0).get k 0 + (M j).get 0 0 := by
    intro j k hk
    rw [hstep j k hk 0 (Nat.pos_of_ne_zero hx)]
    simp
  intro j
  induction j with
  | zero => intro k _; simp
  | succ j ih =>
    intro k hk
    rw [hcol j k hk, ih 0 (Nat.pos_of_ne_zero hx)]
    push_cast
    ring

/-! ## Spectrogram -/

theorem spectroCol_on (o : TFR ℤ) (hn : o.nf ≠ 0) (c : ℕ) (hc : c < o.ts.len)
    (hw : spNorm o.nf o.signal.len o.fwindow (o.ts.get c) ≠ 0 ∨
      spHi o.nf o.signal.len (((o.fwindow.len : ℤ) - 1) / 2) (o.ts.get c)
        < spLo o.nf (((o.fwindow.len : ℤ) - 1) / 2) (o.ts.get c)) (v : Vec ℂ) (hv : v.len = o.nf) :
    spectroCol o c v
      = .ok ⟨o.nf, Vec.scatter v.get (lagPos o.nf (spLo o.nf (((o.fwindow.len : ℤ) - 1) / 2) (o.ts.get c)))
          (fun j => (fun t => zext o.signal (o.ts.get c + t - 1) * conj (zext o.fwindow (((o.fwindow.len : ℤ) - 1) / 2 + t))
            / (spNorm o.nf o.signal.len o.fwindow (o.ts.get c) : ℂ)) (spLo o.nf (((o.fwindow.len : ℤ) - 1) / 2) (o.ts.get c) + j))
          (spHi o.nf o.signal.len (((o.fwindow.len : ℤ) - 1) / 2) (o.ts.get c) + 1
            - spLo o.nf (((o.fwindow.len : ℤ) - 1) / 2) (o.ts.get c)).toNat⟩ := by
  simp only [spectroCol, ts_item hc, ok_bind]
  set n := o.nf with hnn
  set x := o.signal with hx
  set h := o.fwindow with hh
  set lh : ℤ := ((h.len : ℤ) - 1) / 2 with hlh
  set ti := o.ts.get c with hti
  have hb : ∀ t, spLo n lh ti ≤ t → t ≤ spHi n x.len lh ti →
      (0 ≤ ti + t - 1 ∧ ti + t - 1 < x.len) ∧ (0 ≤ lh + t ∧ lh + t < h.len) := by
    intro t h1 h2
    unfold spLo at h1; unfold spHi at h2
    omega
  obtain ⟨va, a1, a2, a3⟩ := take_range (x := x) (spLo n lh ti) (spHi n x.len lh ti)
    (fun t => ti + t - 1) (fun t h1 h2 => (hb t h1 h2).1)
  obtain ⟨vb, b1, b2, b3⟩ := take_range_conj (x := h) (spLo n lh ti) (spHi n x.len lh ti)
    (fun t => lh + t) (fun t h1 h2 => (hb t h1 h2).2)
  obtain ⟨vw, w1, w2, w3⟩ := take_range (x := h) (spLo n lh ti) (spHi n x.len lh ti)
    (fun t => lh + t) (fun t h1 h2 => (hb t h1 h2).2)
  have hnorm : vw.norm = spNorm n x.len h ti := by
    unfold Vec.norm spNorm
    congr 1
    rw [w2, ← hlh, ← sum_arange]
    exact Finset.sum_congr rfl (fun j hj => by rw [w3 j (Finset.mem_range.1 hj)])
  show (x.take ((arange (spLo n lh ti) (spHi n x.len lh ti + 1)).map _) >>= _) = _
  rw [a1, ok_bind]
  show ((h.map (starRingEnd ℂ)).take ((arange (spLo n lh ti) (spHi n x.len lh ti + 1)).map _) >>= _) = _
  rw [b1, ok_bind]
  show (h.take ((arange (spLo n lh ti) (spHi n x.len lh ti + 1)).map _) >>= _) = _
  rw [w1, ok_bind, if_neg, Vec.bcast_ok (by rw [a2, b2]), ok_bind, hnorm]
  · show v.put ((arange (spLo n lh ti) (spHi n x.len lh ti + 1)).map _) _ = _
    rw [put_lags hn (spLo n lh ti) (spHi n x.len lh ti)
      (v := ⟨va.len, fun i => va.get i * vb.get i / (spNorm n x.len h ti : ℂ)⟩) hv a2]
    congr 2
    exact Vec.scatter_congr rfl (fun _ _ => rfl) (fun j hj => by simp only; rw [a3 j hj, b3 j hj])
  · rintro ⟨h1, h2⟩
    rw [hnorm] at h1
    rw [w2] at h2
    rcases hw with h | h
    · exact h h1
    · omega

/-- The windowed segment of a real signal around sample `c`, transformed at bin `k` and divided by the norm of the part of the window
in use; the fresh spectrogram is its squared modulus. -/
noncomputable def segTransform (x h : Vec ℂ) (n L : ℕ) (c : ℤ) (k : ℕ) : ℂ :=
  ∑ τ ∈ segLags (min (roundEven ((n : ℝ) / 2) - 1) L) x.len c,
    zext x (c + τ) * conj (h.get ((L : ℤ) + τ).toNat) / (Real.sqrt (windowEnergy h n L x.len c) : ℂ)
      * expi (-(2 * Real.pi * (k * τ / n)))

theorem segTransform_eq {x h : Vec ℂ} {n L : ℕ} (hn : n ≠ 0) (hh : h.len = 2 * L + 1 ∨ h.len = 2 * L + 2) (ti : ℤ) (k : ℕ) :
    dftC n (lagCol n (spLo n (((h.len : ℤ) - 1) / 2) ti) (spHi n x.len (((h.len : ℤ) - 1) / 2) ti)
          (fun t => zext x (ti + t - 1) * conj (zext h (((h.len : ℤ) - 1) / 2 + t)) / (spNorm n x.len h ti : ℂ))) k
      = segTransform x h n L (ti - 1) k := by
  have hlh : ((h.len : ℤ) - 1) / 2 = L := by omega
  rw [dftC_lagCol hn (sp_count _ _ _ _), hlh, sp_seg, spNorm_eq hh]
  unfold segTransform
  apply Finset.sum_congr rfl
  intro t ht
  have h1 : (0 : ℤ) ≤ L + t ∧ (L : ℤ) + t < h.len := by
    unfold segLags at ht
    rw [mem_filter, mem_Icc] at ht
    omega
  rw [zext_of_mem (x := h) h1.1 h1.2, rootPow_eq_expi, show ti + t - 1 = ti - 1 + t by ring]
  push_cast
  rw [mul_comm (t : ℝ)]

/-- Every run of the spectrogram of a real signal with a real window on an object that holds a real matrix of the right shape. -/
theorem C88_spectrogram_any_run (o : TFR ℤ) (M : Mat ℝ) (L : ℕ) (hM : o.tfr = .real M) (hn : o.nf ≠ 0) (hr : M.rows = o.nf)
    (hc : M.cols = o.ts.len) (hh : o.fwindow.len = 2 * L + 1 ∨ o.fwindow.len = 2 * L + 2)
    (hw : WindowOk o.fwindow o.nf L o.signal.len o.ts)
    (hx : ∀ i < o.signal.len, (o.signal.get i).im = 0) (hwin : ∀ i < o.fwindow.len, (o.fwindow.get i).im = 0) :
    ∃ G : Mat ℝ, spectroRun o = .ok { o with tfr := .real G } ∧ G.rows = o.nf ∧ G.cols = o.ts.len ∧
      ∀ k < o.nf, ∀ m < o.ts.len, G.get k m = ‖segTransform o.signal o.fwindow o.nf L (o.ts.get m - 1) k
        + ∑ p ∈ staleRows o.nf (segLags (min (roundEven ((o.nf : ℝ) / 2) - 1) L) o.signal.len (o.ts.get m - 1)),
            M.get p m * expi (-(2 * Real.pi * (k * p / o.nf)))‖ ^ 2 := by
  have hlh : ((o.fwindow.len : ℤ) - 1) / 2 = L := by omega
  have hw' := spOk hh hw
  obtain ⟨S, hf, s1, s2, s3⟩ : ∃ S : Mat ℝ, (Store.real M).forCols o.ts.len (spectroCol o) = .ok (.real S) ∧
      S.rows = o.nf ∧ S.cols = o.ts.len ∧ ∀ r, ∀ c < o.ts.len, S.get r c =
        (Vec.scatter (fun r => (M.get r c : ℂ)) (lagPos o.nf (spLo o.nf (((o.fwindow.len : ℤ) - 1) / 2) (o.ts.get c)))
          (fun j => (fun t => zext o.signal (o.ts.get c + t - 1) * conj (zext o.fwindow (((o.fwindow.len : ℤ) - 1) / 2 + t))
            / (spNorm o.nf o.signal.len o.fwindow (o.ts.get c) : ℂ)) (spLo o.nf (((o.fwindow.len : ℤ) - 1) / 2) (o.ts.get c) + j))
          (spHi o.nf o.signal.len (((o.fwindow.len : ℤ) - 1) / 2) (o.ts.get c) + 1
            - spLo o.nf (((o.fwindow.len : ℤ) - 1) / 2) (o.ts.get c)).toNat r).re := by
    refine ⟨_, forCols_real hr hc (body := spectroCol o) (fun c hc => spectroCol_on o hn c hc (hw' c hc)
      ⟨o.nf, fun r => (M.get r c : ℂ)⟩ rfl), rfl, rfl, ?_⟩
    intro r c hc
    simp only [if_pos hc]
  have hok : spectroRun o = .ok { o with
      tfr := .real ⟨S.rows, S.cols, fun k c => ‖dftC S.rows (fun r => (S.get r c : ℂ)) k‖ ^ 2⟩ } := by
    unfold spectroRun
    rw [hM]
    show ((Store.real M).forCols M.cols _ >>= _) = _
    rw [hc, hf, ok_bind, fft0_ok (M := (Store.real S).asC) (show S.rows ≠ 0 by rw [s1]; exact hn), ok_bind]
    rfl
  refine ⟨_, hok, s1, s2, fun k _ m hm => ?_⟩
  show ‖dftC S.rows (fun r => (S.get r m : ℂ)) k‖ ^ 2 = _
  rw [s1]
  have hS : ∀ r < o.nf, ((S.get r m : ℝ) : ℂ) =
      Vec.scatter (fun r => (M.get r m : ℂ)) (lagPos o.nf (spLo o.nf (((o.fwindow.len : ℤ) - 1) / 2) (o.ts.get m)))
          (fun j => (fun t => zext o.signal (o.ts.get m + t - 1) * conj (zext o.fwindow (((o.fwindow.len : ℤ) - 1) / 2 + t))
            / (spNorm o.nf o.signal.len o.fwindow (o.ts.get m) : ℂ)) (spLo o.nf (((o.fwindow.len : ℤ) - 1) / 2) (o.ts.get m) + j))
          (spHi o.nf o.signal.len (((o.fwindow.len : ℤ) - 1) / 2) (o.ts.get m) + 1
            - spLo o.nf (((o.fwindow.len : ℤ) - 1) / 2) (o.ts.get m)).toNat r := by
    intro r _
    rw [s3 r m hm]
    apply scatter_real (Complex.ofReal_im _)
    intro j _
    simp only
    rw [Complex.div_ofReal_im, Complex.mul_im, Complex.conj_im, Complex.conj_re, zext_im hx, zext_im hwin]
    simp
  rw [dftC_congr hS]
  have key := dftC_over hn (a := spLo o.nf (((o.fwindow.len : ℤ) - 1) / 2) (o.ts.get m))
    (b := spHi o.nf o.signal.len (((o.fwindow.len : ℤ) - 1) / 2) (o.ts.get m))
    (fun r => (M.get r m : ℂ)) (fun t => zext o.signal (o.ts.get m + t - 1)
      * conj (zext o.fwindow (((o.fwindow.len : ℤ) - 1) / 2 + t))
            / (spNorm o.nf o.signal.len o.fwindow (o.ts.get m) : ℂ)) k
  rw [segTransform_eq hn hh, hlh, sp_seg] at key
  rw [hlh]
  refine congrArg (fun z : ℂ => ‖z‖ ^ 2) (key.trans ?_)
  congr 1
  apply Finset.sum_congr rfl
  intro p _
  rw [rootPow_eq_expi]
  push_cast
  rw [mul_comm (p : ℝ)]

/-- The spectrogram of a non-negative signal with a non-negative window grows when it is run again: the square root of the zero
frequency row of the second run is that of the first plus the sum of the rows the run did not overwrite. -/
theorem C88_spectrogram_grows (x : Vec ℂ) (ts : Vec ℤ) (n L : ℕ) (h : Vec ℂ) (hh : h.len = 2 * L + 1 ∨ h.len = 2 * L + 2)
    (hn : n ≠ 0) (hw : WindowOk h n L x.len ts)
    (hx : ∀ i < x.len, ∃ r : ℝ, 0 ≤ r ∧ x.get i = r) (hwin : ∀ i < h.len, ∃ r : ℝ, 0 ≤ r ∧ h.get i = r) :
    ∃ (o₁ o₂ : TFR ℤ) (M₁ M₂ : Mat ℝ), spectroRun (TFR.init makeWindow x ts n (some h)) = .ok o₁ ∧ o₁.tfr = .real M₁ ∧
      spectroRun o₁ = .ok o₂ ∧ o₂.tfr = .real M₂ ∧ (∀ k m, m < ts.len → 0 ≤ M₁.get k m) ∧
      ∀ m < ts.len, Real.sqrt (M₂.get 0 m) = Real.sqrt (M₁.get 0 m)
        + ∑ p ∈ staleRows n (segLags (min (roundEven ((n : ℝ) / 2) - 1) L) x.len (ts.get m - 1)), M₁.get p m := by
  obtain ⟨M₁, e1, e2, e3, e4⟩ := spectroRun_fresh makeWindow x ts n h hn (spOk hh hw)
  set o₁ : TFR ℤ := { TFR.init makeWindow x ts n (some h) with tfr := .real M₁ } with ho
  obtain ⟨M₂, f1, _, _, f4⟩ := C88_spectrogram_any_run o₁ M₁ L rfl hn e2 e3 hh hw
    (fun i hi => by obtain ⟨r, _, e⟩ := hx i hi; show (x.get i).im = 0; rw [e]; simp)
    (fun i hi => by obtain ⟨r, _, e⟩ := hwin i hi; show (h.get i).im = 0; rw [e]; simp)
  have h0 : ∀ k m, m < ts.len → 0 ≤ M₁.get k m := fun k m hm => by rw [e4 k m hm]; positivity
  refine ⟨o₁, _, M₁, M₂, e1, rfl, f1, rfl, h0, fun m hm => ?_⟩
  -- the transform at frequency zero is a non-negative real number
  have hA : ∃ a : ℝ, 0 ≤ a ∧ segTransform x h n L (ts.get m - 1) 0 = a := by
    unfold segTransform
    refine ⟨∑ τ ∈ segLags (min (roundEven ((n : ℝ) / 2) - 1) L) x.len (ts.get m - 1),
      (zext x (ts.get m - 1 + τ) * conj (h.get ((L : ℤ) + τ).toNat)).re
        / Real.sqrt (windowEnergy h n L x.len (ts.get m - 1)), ?_, ?_⟩
    all_goals
      have hz : ∀ τ ∈ segLags (min (roundEven ((n : ℝ) / 2) - 1) L) x.len (ts.get m - 1),
          ∃ r : ℝ, 0 ≤ r ∧ zext x (ts.get m - 1 + τ) * conj (h.get ((L : ℤ) + τ).toNat) = r := by
        intro τ hτ
        unfold segLags at hτ
        rw [mem_filter, mem_Icc] at hτ
        obtain ⟨r, r0, er⟩ := hx (ts.get m - 1 + τ).toNat (by omega)
        obtain ⟨q, q0, eq⟩ := hwin ((L : ℤ) + τ).toNat (by omega)
        refine ⟨r * q, mul_nonneg r0 q0, ?_⟩
        rw [zext_of_mem hτ.2.1 hτ.2.2, er, eq, Complex.conj_ofReal, Complex.ofReal_mul]
    · apply Finset.sum_nonneg
      intro τ hτ
      obtain ⟨r, r0, er⟩ := hz τ hτ
      rw [er, Complex.ofReal_re]
      positivity
    · rw [Complex.ofReal_sum]
      apply Finset.sum_congr rfl
      intro τ hτ
      obtain ⟨r, r0, er⟩ := hz τ hτ
      rw [er, Complex.ofReal_re, Complex.ofReal_div]
      simp [expi]
  obtain ⟨a, a0, ha⟩ := hA
  have g1 : M₁.get 0 m = a ^ 2 := by
    rw [e4 0 m hm, segTransform_eq hn hh, ha, Complex.norm_real, Real.norm_eq_abs, sq_abs]
  have g2 : M₂.get 0 m = (a + ∑ p ∈ staleRows n (segLags (min (roundEven ((n : ℝ) / 2) - 1) L) x.len (ts.get m - 1)),
      M₁.get p m) ^ 2 := by
    have := f4 0 (Nat.pos_of_ne_zero hn) m hm
    refine this.trans ?_
    show ‖segTransform x h n L (ts.get m - 1) 0 + ∑ p ∈ staleRows n (segLags (min (roundEven ((n : ℝ) / 2) - 1) L) x.len
      (ts.get m - 1)), M₁.get p m * expi (-(2 * Real.pi * (((0 : ℕ) : ℝ) * p / n)))‖ ^ 2 = _
    rw [ha]
    have hs : ∑ p ∈ staleRows n (segLags (min (roundEven ((n : ℝ) / 2) - 1) L) x.len
      (ts.get m - 1)), (M₁.get p m : ℂ) * expi (-(2 * Real.pi * (((0 : ℕ) : ℝ) * p / n)))
        = ((∑ p ∈ staleRows n (segLags (min (roundEven ((n : ℝ) / 2) - 1) L) x.len (ts.get m - 1)), M₁.get p m : ℝ) : ℂ) := by
      rw [Complex.ofReal_sum]
      apply Finset.sum_congr rfl
      intro p _
      simp [expi]
    rw [hs, ← Complex.ofReal_add, Complex.norm_real, Real.norm_eq_abs, sq_abs]
  rw [g1, g2, Real.sqrt_sq a0, Real.sqrt_sq]
  exact add_nonneg a0 (Finset.sum_nonneg (fun p _ => h0 p m hm))

/-- A concrete drift: the signal `(1, 1)` has Margenau-Hill entries 1, 2, 3, … at `(0, 0)` in successive runs. -/
example : ∃ M : ℕ → Mat ℝ, (∀ j, ∃ o, times mhRun (j + 1)
      (TFR.init makeWindow (⟨2, fun _ => 1⟩ : Vec ℂ) (arange 0 2) 2 none) = .ok o ∧ o.tfr = .real (M j)) ∧
    ∀ j, (M j).get 0 0 = j + 1 := by
  obtain ⟨M, h1, _, _, h4⟩ := C88_mh_drifts (⟨2, fun _ => 1⟩ : Vec ℂ) (by norm_num) (fun i _ => by simp)
  refine ⟨M, h1, fun j => ?_⟩
  have hts : ∀ c < (arange 0 2).len, 0 ≤ (arange 0 2).get c ∧ (arange 0 2).get c < ((⟨2, fun _ => 1⟩ : Vec ℂ).len : ℤ) := by
    intro c hc
    obtain ⟨hl, hg⟩ := arange_default 2
    have hg := hg c
    have hc : c < 2 := by rw [← hl]; exact hc
    show 0 ≤ (arange 0 ((2 : ℕ) : ℤ)).get c ∧ (arange 0 ((2 : ℕ) : ℤ)).get c < ((2 : ℕ) : ℤ)
    rw [hg]
    omega
  obtain ⟨M', ⟨o', n1, n2⟩, _, _, n4⟩ := C38_margenau_hill (⟨2, fun _ => 1⟩ : Vec ℂ) (arange 0 2) 2 (by norm_num) hts
  obtain ⟨o, k1, k2⟩ := h1 0
  have k1 : (mhRun (TFR.init makeWindow (⟨2, fun _ => 1⟩ : Vec ℂ) (arange 0 2) 2 none) >>= fun r => .ok r) = .ok o := k1
  rw [n1] at k1
  have k1 : (.ok o' : Py (TFR ℤ)) = .ok o := k1
  injection k1 with k1
  subst k1
  rw [k2] at n2
  injection n2 with n2
  have h00 : (M 0).get 0 0 = 1 := by
    rw [n2, n4 0 (by norm_num) 0 (by obtain ⟨hl, _⟩ := arange_default 2; exact hl ▸ (by norm_num))]
    simp [expi]
  rw [h4 j 0 (by norm_num), h00]
  ring

end Tftb.Props
