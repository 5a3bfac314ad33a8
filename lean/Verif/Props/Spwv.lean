import Verif.Lemmas.Spwv
import Verif.Props.Cohen

/-! # Smoothed pseudo Wigner-Ville (C37) -/

namespace Tftb.Props

open Tftb Tftb.Spec Tftb.Linear Tftb.Cohen Finset ComplexConjugate

/-- Explicit windows of even length are refused. -/
theorem C37_even_window (x : Vec ℂ) (ts : Option (Vec ℤ)) (n : Option ℕ) (w : Option (Vec ℂ)) (h : Vec ℂ)
    (he : Even h.len) :
    spwv x ts n w (some h) = .error .valueError ∧
    ((w = none ∨ ∃ h', w = some h' ∧ Odd h'.len) → spwv x ts n (some h) w = .error .valueError) := by
  have h0 : h.len % 2 = 0 := Nat.even_iff.1 he
  constructor
  · unfold spwv spwvWindow
    simp only
    rw [if_pos h0]; rfl
  · rintro (rfl | ⟨h', rfl, ho⟩)
    · unfold spwv spwvWindow
      simp only
      rw [if_pos h0]; rfl
    · have h1 : ¬ h'.len % 2 = 0 := by rw [Nat.odd_iff] at ho; omega
      unfold spwv spwvWindow
      simp only
      rw [if_pos h0, if_neg h1]; rfl

/-- The call with explicit odd windows. -/
theorem spwv_explicit (x tw fw : Vec ℂ) (ts : Vec ℤ) (n Lg Lh : ℕ) (hg : tw.len = 2 * Lg + 1) (hh : fw.len = 2 * Lh + 1) :
    spwv x (some ts) (some n) (some tw) (some fw)
      = ((Mat.zeros n ts.len).forCols ts.len (spwvCol x tw fw ts n) >>= fun S => S.fft0 >>= fun F =>
          .ok (F.map Complex.re)) := by
  unfold spwv spwvWindow
  simp only [Option.getD_some]
  rw [if_neg (show ¬ fw.len % 2 = 0 by omega), if_neg (show ¬ tw.len % 2 = 0 by omega)]
  rfl

/-- Closed form.  Note the shifts: the correlation at lag `τ` is stored in row `τ + 1`, and the window value of the negative side is
that of lag `1 - τ`. -/
theorem C37_closed_form (x tw fw : Vec ℂ) (ts : Vec ℤ) (n Lg Lh : ℕ) (hn : n ≠ 0) (hg : tw.len = 2 * Lg + 1)
    (hh : fw.len = 2 * Lh + 1)
    (hfin : ∀ c < ts.len, ∀ τ : ℕ, (smoothSeg Lg x.len (ts.get c - 1) τ).Nonempty → smoothMass tw Lg x.len (ts.get c - 1) τ ≠ 0)
    (hz : ∀ c < ts.len, (Lh : ℤ) < roundEven ((n : ℝ) / 2) ∨ ts.get c ≤ roundEven ((n : ℝ) / 2) ∨
      (x.len : ℤ) - roundEven ((n : ℝ) / 2) < ts.get c) :
    ∃ M, spwv x (some ts) (some n) (some tw) (some fw) = .ok M ∧ M.rows = n ∧ M.cols = ts.len ∧
      ∀ k < n, ∀ c < ts.len, M.get k c = (smoothCorr tw Lg x (ts.get c - 1) 0 +
        ∑ τ ∈ range (min (min (ts.get c + Lg - 1) (x.len - ts.get c + Lg)) (min (roundEven ((n : ℝ) / 2) - 1) Lh)).toNat,
          (fw.get (Lh + τ + 1) * smoothCorr tw Lg x (ts.get c - 1) τ * expi (-(2 * Real.pi * (k * (τ + 1) / n)))
          + fw.get (Lh + 1 - τ) * smoothCorr tw Lg x (ts.get c - 1) (-τ) * expi (2 * Real.pi * (k * (τ + 1) / n)))).re := by
  have hcol : ∀ c, ∃ col : Vec ℂ, c < ts.len → spwvCol x tw fw ts n c ⟨n, fun _ => 0⟩ = .ok col ∧ col.len = n ∧
      ∀ k : ℤ, dftC n col.get k = smoothCorr tw Lg x (ts.get c - 1) 0
        + ∑ τ ∈ range (spwvT n x.len Lg Lh (ts.get c)), spwvTerm x tw fw Lg Lh n (ts.get c - 1) k τ := by
    intro c
    by_cases hc : c < ts.len
    · obtain ⟨col, h1⟩ := spwvCol_ok x tw fw ts Lg Lh n hn hg hh c hc
        (fun τ _ hb => hfin c hc τ hb.2 hb.1)
        (fun hzc => by
          unfold SpwvZone at hzc
          have := hz c hc
          omega)
      exact ⟨col, fun _ => h1⟩
    · exact ⟨⟨0, fun _ => 0⟩, fun h => absurd h hc⟩
  choose g hgc using hcol
  have hok : spwv x (some ts) (some n) (some tw) (some fw) = .ok
      ⟨n, ts.len, fun k c => (dftC n (fun r => if c < ts.len then (g c).get r else 0) k).re⟩ := by
    rw [spwv_explicit x tw fw ts n Lg Lh hg hh,
      Mat.forCols_ok (M := Mat.zeros n ts.len) (T := ts.len) (le_refl _) (fun c hc => (hgc c hc).1), ok_bind,
      fft0_ok hn, ok_bind]
    rfl
  refine ⟨_, hok, rfl, rfl, fun k _ c hc => ?_⟩
  simp only [if_pos hc]
  rw [(hgc c hc).2.2 k]
  congr 2
  apply Finset.sum_congr rfl
  intro τ _
  unfold spwvTerm
  rw [rootPow_eq_expi, rootPow_eq_expi]
  congr 3
  · push_cast; ring_nf
  · push_cast; ring_nf

/-- Loop steps leave row 0 alone. -/
theorem spwvLag_row0 {x tw fw : Vec ℂ} {n : ℕ} {ti : ℤ} {col col' : Vec ℂ} {τ : ℕ} (hl : col.len = n)
    (h : spwvLag x tw fw n ti col τ = .ok col') : col'.len = n ∧ col'.get 0 = col.get 0 := by
  unfold spwvLag at h
  simp only [bind_eq_ok] at h
  obtain ⟨g2, _, R, _, w, _, c1, h1, R', _, w', _, h2⟩ := h
  obtain ⟨i1, l1, u1⟩ := setItem_inv h1
  obtain ⟨i2, l2, u2⟩ := setItem_inv h2
  refine ⟨by rw [l2, l1, hl], ?_⟩
  unfold IdxOk at i1 i2
  have p1 : wrapIdx col.len (1 + τ) ≠ 0 := by rw [wrapIdx_of_nonneg (by omega)]; omega
  have p2 : wrapIdx c1.len ((n : ℤ) - τ - 1) ≠ 0 := by
    rw [wrapIdx_of_nonneg (by omega)]; omega
  rw [u2, Function.update_of_ne (Ne.symm p2), u1, Function.update_of_ne (Ne.symm p1)]

theorem spwv_loop_row0 {x tw fw : Vec ℂ} {n : ℕ} {ti : ℤ} {col col' : Vec ℂ} (T : ℕ) (hl : col.len = n)
    (h : (List.range T).foldlM (spwvLag x tw fw n ti) col = .ok col') : col'.len = n ∧ col'.get 0 = col.get 0 := by
  induction T generalizing col' with
  | zero => injection h with h; subst h; exact ⟨hl, rfl⟩
  | succ T ih =>
    rw [foldlM_range_succ, bind_eq_ok] at h
    obtain ⟨s, h1, h2⟩ := h
    obtain ⟨i1, i2⟩ := ih h1
    obtain ⟨j1, j2⟩ := spwvLag_row0 i1 h2
    exact ⟨j1, by rw [j2, i2]⟩

/-- Whenever the function returns, the column of timestamp `ti` sums to `n` times the real part of the average of `|x|²` around
sample `ti - 1`, weighted by the time window (renormalised over the samples that exist). -/
theorem C37_time_marginal (x tw fw : Vec ℂ) (ts : Vec ℤ) (n Lg Lh : ℕ) (hn : n ≠ 0) (hg : tw.len = 2 * Lg + 1)
    (hh : fw.len = 2 * Lh + 1) (M : Mat ℝ) (hM : spwv x (some ts) (some n) (some tw) (some fw) = .ok M) :
    ∀ c < ts.len, ∑ k ∈ range n, M.get k c = n * ((∑ p ∈ (Finset.Icc (-(Lg : ℤ)) Lg).filter
        (fun p => 0 ≤ ts.get c - 1 - p ∧ ts.get c - 1 - p < x.len),
          tw.get ((Lg : ℤ) + p).toNat * ((‖x.get (ts.get c - 1 - p).toNat‖ ^ 2 : ℝ) : ℂ))
      / ∑ p ∈ (Finset.Icc (-(Lg : ℤ)) Lg).filter (fun p => 0 ≤ ts.get c - 1 - p ∧ ts.get c - 1 - p < x.len),
          tw.get ((Lg : ℤ) + p).toNat).re := by
  intro c hc
  rw [spwv_explicit x tw fw ts n Lg Lh hg hh, bind_eq_ok] at hM
  obtain ⟨S, hS, hM⟩ := hM
  obtain ⟨r1, r2, r3, _⟩ := Mat.forCols_inv hS
  obtain ⟨v, v1, v2⟩ := r3 c hc
  rw [fft0_ok (show S.rows ≠ 0 by rw [r1]; exact hn), ok_bind] at hM
  injection hM with hM
  subst hM
  show ∑ k ∈ range n, (dftC S.rows (fun r => S.get r c) k).re = _
  rw [show S.rows = n from r1, ← Complex.re_sum, sum_dftC hn, v2 0]
  have hv0 : v.get 0 = smoothCorr tw Lg x (ts.get c - 1) 0 := by
    unfold spwvCol at v1
    simp only [bind_eq_ok, mid_odd hg, mid_odd hh] at v1
    obtain ⟨ti, hti, g2, hg2, R, hR, col, hcol, col', hcol', hfinal⟩ := v1
    rw [ts_item hc] at hti
    injection hti with hti
    subst hti
    split at hfinal
    · cases hfinal
    · injection hfinal with hfinal
      subst hfinal
      have hstep := spwv_step x tw Lg hg (ts.get c) 0
      simp only [Nat.cast_zero, sub_zero, add_zero] at hstep
      by_cases hb : SmoothBad tw Lg x.len (ts.get c - 1) 0
      · rw [hstep.1 hb] at hg2; cases hg2
      · obtain ⟨g2', e1, e2, _⟩ := hstep.2 hb
        rw [e1] at hg2
        injection hg2 with hg2
        subst hg2
        rw [e2] at hR
        injection hR with hR
        subst hR
        obtain ⟨i1, l1, u1⟩ := setItem_inv hcol
        obtain ⟨_, e3⟩ := spwv_loop_row0 (n := n) _ (by rw [l1]; rfl) hcol'
        rw [e3, u1, wrapIdx_of_nonneg (le_refl _)]
        simp
  have hseg : smoothSeg Lg x.len (ts.get c - 1) 0 = (Finset.Icc (-(Lg : ℤ)) Lg).filter
        (fun p => 0 ≤ ts.get c - 1 - p ∧ ts.get c - 1 - p < x.len) := by
    unfold smoothSeg; simp
  rw [hv0]
  unfold smoothCorr smoothMass
  rw [hseg, ← Complex.ofReal_natCast, Complex.re_ofReal_mul]
  congr 3
  apply Finset.sum_congr rfl
  intro p hp
  rw [Finset.mem_filter] at hp
  unfold wignerKernel
  rw [add_zero, sub_zero, zext_of_mem hp.2.1 hp.2.2, mul_conj_eq_norm_sq]

theorem hamming_pos (M i : ℕ) : 0 < (hamming M).get i := by
  simp only [hamming]
  split
  · norm_num
  · have := Real.cos_le_one (2 * Real.pi * (i : ℝ) / ((M : ℝ) - 1))
    nlinarith

/-- With default windows and at least two bins the function returns for all timestamps, and each column sums to `n` times a
weighted average of `|x|²` around sample `ti - 1`, with positive weights. -/
theorem C37_default (x : Vec ℂ) (ts : Vec ℤ) (n : ℕ) (hn : 2 ≤ n) :
    ∃ (M : Mat ℝ) (L : ℕ), spwv x (some ts) (some n) none none = .ok M ∧ M.rows = n ∧ M.cols = ts.len ∧ 20 * L ≤ n ∧
      ∀ c < ts.len, ∑ k ∈ range n, M.get k c = n * ((∑ p ∈ (Finset.Icc (-(L : ℤ)) L).filter
        (fun p => 0 ≤ ts.get c - 1 - p ∧ ts.get c - 1 - p < x.len),
          (hamming (2 * L + 1)).get ((L : ℤ) + p).toNat * ‖x.get (ts.get c - 1 - p).toNat‖ ^ 2)
      / ∑ p ∈ (Finset.Icc (-(L : ℤ)) L).filter (fun p => 0 ≤ ts.get c - 1 - p ∧ ts.get c - 1 - p < x.len),
          (hamming (2 * L + 1)).get ((L : ℤ) + p).toNat) := by
  obtain ⟨Lg, hLg⟩ : ∃ Lg, n / 10 + 1 - n / 10 % 2 = 2 * Lg + 1 := ⟨(n / 10) / 2, by omega⟩
  obtain ⟨Lh, hLh⟩ : ∃ Lh, n / 4 + 1 - n / 4 % 2 = 2 * Lh + 1 := ⟨(n / 4) / 2, by omega⟩
  set tw : Vec ℂ := (hamming (2 * Lg + 1)).map (fun a : ℝ => (a : ℂ)) with htw
  set fw : Vec ℂ := (hamming (2 * Lh + 1)).map (fun a : ℝ => (a : ℂ)) with hfw
  have hg : tw.len = 2 * Lg + 1 := rfl
  have hh : fw.len = 2 * Lh + 1 := rfl
  have hsame : spwv x (some ts) (some n) none none = spwv x (some ts) (some n) (some tw) (some fw) := by
    rw [spwv_explicit x tw fw ts n Lg Lh hg hh]
    unfold spwv spwvWindow
    simp only [Option.getD_some, ok_bind, hLg, hLh, ← htw, ← hfw]
  obtain ⟨M, h1, h2, h3, _⟩ := C37_closed_form x tw fw ts n Lg Lh (by omega) hg hh
    (fun c _ τ hne => by
      have e : smoothMass tw Lg x.len (ts.get c - 1) τ
          = ((∑ p ∈ smoothSeg Lg x.len (ts.get c - 1) τ, (hamming (2 * Lg + 1)).get ((Lg : ℤ) + p).toNat : ℝ) : ℂ) := by
        rw [Complex.ofReal_sum]; rfl
      rw [e]
      have : 0 < ∑ p ∈ smoothSeg Lg x.len (ts.get c - 1) τ, (hamming (2 * Lg + 1)).get ((Lg : ℤ) + p).toNat :=
        Finset.sum_pos (fun p _ => hamming_pos _ _) hne
      exact_mod_cast this.ne')
    (fun c _ => Or.inl (by rw [roundEven_half]; split <;> omega))
  refine ⟨M, Lg, by rw [hsame]; exact h1, h2, h3, by omega, fun c hc => ?_⟩
  rw [C37_time_marginal x tw fw ts n Lg Lh (by omega) hg hh M h1 c hc]
  congr 1
  have e1 : ∀ p : ℤ, tw.get ((Lg : ℤ) + p).toNat = (((hamming (2 * Lg + 1)).get ((Lg : ℤ) + p).toNat : ℝ) : ℂ) := fun _ => rfl
  simp only [e1, ← Complex.ofReal_mul, ← Complex.ofReal_sum, ← Complex.ofReal_div, Complex.ofReal_re]

example : ∃ M, spwv ⟨4, fun _ => 1⟩ (some (arange 0 4)) (some 4) none none = .ok M := by
  obtain ⟨M, _, h, _⟩ := C37_default ⟨4, fun _ => 1⟩ (arange 0 4) 4 (by norm_num)
  exact ⟨M, h⟩

end Tftb.Props
