import Verif.Props.Misc
import Verif.Props.TimeFreq
import Verif.Props.Stft
import Verif.Props.Spwv
import Verif.Props.Reassigned

/-! # C23, C31, C37, C46, C63: exactly when a quotient by zero is formed -/

namespace Tftb.Props

open Tftb Tftb.Spec Tftb.Linear Tftb.Cohen Tftb.TF Tftb.Misc Finset ComplexConjugate

/-- **Doppler.**  For arguments that are not refused, a NaN or an infinity is computed exactly for a zero sampling frequency or a zero wave velocity. -/
theorem C23_undefined (n : ℕ) (s f0 d v t0 c : ℝ) (hs : 0 ≤ s) (hd : 0 < d) (ht1 : 1 ≤ t0) (htn : t0 ≤ n) (hf0 : 0 ≤ f0) (hf1 : f0 ≤ s / 2)
    (hv : 0 ≤ v) : doppler n s f0 d v (some t0) c = .error .nonFinite ↔ s = 0 ∨ c = 0 := by
  unfold doppler
  simp only [Option.getD_some]
  rw [if_neg (by linarith), if_neg (by linarith), if_neg (by push Not; exact ⟨ht1, by exact_mod_cast htn⟩), if_neg (by push Not; exact ⟨hf0, hf1⟩),
    if_neg (by linarith)]
  by_cases h : s = 0 ∨ c = 0
  · rw [if_pos h]; simp [h]
  · rw [if_neg h]; simp [h]

/-- **Group delay, default frequencies.**  It is undefined exactly when a bin of the spectrum vanishes. -/
theorem C46_undefined (x : Vec ℂ) (hn : x.len ≠ 0) : groupDelay x = .error .nonFinite ↔ ∃ k < x.len, dft x k = 0 := by
  constructor
  · intro h
    by_contra hc
    push Not at hc
    obtain ⟨g, hg, _⟩ := C46_group_delay x hn hc
    rw [hg] at h
    cases h
  · rintro ⟨k, hk, h⟩
    have hl : (arange 1 ((x.len : ℤ) + 1)).len = x.len := by rw [arange_len]; omega
    have hb : Vec.bcast (fun (z : ℂ) (k : ℤ) => z * (k : ℂ)) x (arange 1 ((x.len : ℤ) + 1))
        = .ok ⟨x.len, fun j => x.get j * ((1 + (j : ℤ) : ℤ) : ℂ)⟩ := by
      rw [Vec.bcast_ok hl.symm]; rfl
    simp only [groupDelay, hb, ok_bind]
    rw [fft_ok (v := ⟨x.len, fun j => x.get j * ((1 + (j : ℤ) : ℤ) : ℂ)⟩) hn, ok_bind, fft_ok hn, ok_bind,
      if_pos ⟨k, hk, by rw [dft_eq_dftC] at h; exact h⟩]

/-- **Group delay at given frequencies.**  Undefined exactly when the spectrum vanishes at one of them. -/
theorem C46_undefined_at (x : Vec ℂ) (f : Vec ℝ) : groupDelayAt x f = .error .nonFinite ↔ ∃ k < f.len, dtft x (f.get k) = 0 := by
  constructor
  · intro h
    by_contra hc
    push Not at hc
    obtain ⟨g, hg, _⟩ := C46_group_delay_at x f hc
    rw [hg] at h
    cases h
  · rintro ⟨k, hk, h⟩
    have hden : ∀ v : ℝ, ∑ j ∈ range x.len, Complex.exp (-Complex.I * 2.0 * Real.pi * v * j) * x.get j = dtft x v := by
      intro v; unfold dtft
      refine Finset.sum_congr rfl (fun j _ => ?_)
      rw [mul_comm]; congr 1
      unfold expi; congr 1; push_cast; norm_num; ring
    simp only [groupDelayAt, Vec.map_len, Vec.map_get, hden]
    rw [if_pos ⟨k, hk, h⟩]

/-- **Spectrogram.**  A fresh object returns exactly when no column in use has a window of zero energy; otherwise a NaN is computed. -/
theorem C31_undefined (x : Vec ℂ) (ts : Vec ℤ) (n L : ℕ) (h : Vec ℂ) (hh : h.len = 2 * L + 1 ∨ h.len = 2 * L + 2) (hn : n ≠ 0) :
    ((∃ M, SpectroReturns x ts n h M) ↔ WindowOk h n L x.len ts) ∧
    (¬ WindowOk h n L x.len ts → spectroRun (TFR.init makeWindow x ts n (some h)) = .error .nonFinite) := by
  have key : ¬ WindowOk h n L x.len ts → spectroRun (TFR.init makeWindow x ts n (some h)) = .error .nonFinite := by
    classical
    intro hw
    have hlh : ((h.len : ℤ) - 1) / 2 = L := by omega
    let bad : ℕ → Prop := fun m => m < ts.len ∧ windowEnergy h n L x.len (ts.get m - 1) = 0 ∧
      segLags (min (roundEven ((n : ℝ) / 2) - 1) L) x.len (ts.get m - 1) ≠ ∅
    have hex : ∃ m, bad m := by
      unfold WindowOk at hw
      push Not at hw
      obtain ⟨m, hm, h1, h2⟩ := hw
      exact ⟨m, hm, h1, Finset.nonempty_iff_ne_empty.1 (by simpa [Finset.nonempty_iff_ne_empty] using h2)⟩
    obtain ⟨hc, he, hs⟩ := Nat.find_spec hex
    have hmin : ∀ c < Nat.find hex, spNorm n x.len h (ts.get c) ≠ 0 ∨
        spHi n x.len (((h.len : ℤ) - 1) / 2) (ts.get c) < spLo n (((h.len : ℤ) - 1) / 2) (ts.get c) := by
      intro c hlt
      have hnb := Nat.find_min hex hlt
      by_cases h1 : windowEnergy h n L x.len (ts.get c - 1) = 0
      · right
        have h2 : segLags (min (roundEven ((n : ℝ) / 2) - 1) L) x.len (ts.get c - 1) = ∅ := by
          by_contra h3
          exact hnb ⟨lt_trans hlt hc, h1, h3⟩
        rw [← sp_seg, Finset.Icc_eq_empty_iff, not_le] at h2
        rw [hlh]; exact h2
      · left
        rw [spNorm_eq hh]
        exact (Real.sqrt_pos.2 (lt_of_le_of_ne (windowEnergy_nonneg _ _ _ _ _) (Ne.symm h1))).ne'
    set c0 := Nat.find hex with hc0
    have hcol : spectroCol (TFR.init makeWindow x ts n (some h)) c0 ⟨n, fun _ => 0⟩ = .error .nonFinite := by
      set ti := ts.get c0 with hti
      have hb : ∀ t, spLo n L ti ≤ t → t ≤ spHi n x.len L ti →
          (0 ≤ ti + t - 1 ∧ ti + t - 1 < x.len) ∧ (0 ≤ (L : ℤ) + t ∧ (L : ℤ) + t < h.len) := by
        intro t h1 h2
        unfold spLo at h1; unfold spHi at h2
        omega
      obtain ⟨va, a1, a2, a3⟩ := take_range (x := x) (spLo n L ti) (spHi n x.len L ti)
        (fun t => ti + t - 1) (fun t h1 h2 => (hb t h1 h2).1)
      obtain ⟨vb, b1, b2, b3⟩ := take_range_conj (x := h) (spLo n L ti) (spHi n x.len L ti)
        (fun t => (L : ℤ) + t) (fun t h1 h2 => (hb t h1 h2).2)
      obtain ⟨vw, w1, w2, w3⟩ := take_range (x := h) (spLo n L ti) (spHi n x.len L ti)
        (fun t => (L : ℤ) + t) (fun t h1 h2 => (hb t h1 h2).2)
      have hnorm : vw.norm = spNorm n x.len h ti := by
        unfold Vec.norm spNorm
        congr 1
        rw [w2, hlh, ← sum_arange]
        exact Finset.sum_congr rfl (fun j hj => by rw [w3 j (Finset.mem_range.1 hj)])
      simp only [spectroCol, TFR.init, Option.getD_some, ts_item hc, ok_bind, ← hti, hlh]
      show (x.take ((arange (spLo n L ti) (spHi n x.len L ti + 1)).map _) >>= _) = _
      rw [a1, ok_bind]
      show ((h.map (starRingEnd ℂ)).take ((arange (spLo n L ti) (spHi n x.len L ti + 1)).map _) >>= _) = _
      rw [b1, ok_bind]
      show (h.take ((arange (spLo n L ti) (spHi n x.len L ti + 1)).map _) >>= _) = _
      rw [w1, ok_bind, if_pos]
      refine ⟨by rw [hnorm, spNorm_eq hh, he, Real.sqrt_zero], ?_⟩
      rw [w2]
      rw [← sp_seg, ne_eq, Finset.Icc_eq_empty_iff, not_not] at hs
      omega
    unfold spectroRun
    show ((Store.cplx (Mat.zeros n ts.len)).forCols ts.len _ >>= _) = _
    rw [forCols_fresh_error hc (fun c hlt => spectroCol_ok makeWindow x ts n h hn c (lt_trans hlt hc) (hmin c hlt)) hcol]
    rfl
  refine ⟨⟨fun ⟨M, o, ho, _⟩ => ?_, fun hw => ?_⟩, key⟩
  · by_contra hw
    rw [key hw] at ho
    cases ho
  · obtain ⟨M, hM, _⟩ := C31_closed_form x ts n L h hh hn hw
    exact ⟨M, hM⟩

/-- **Smoothed pseudo Wigner-Ville.**  When the available part of the time window has zero sum at the first instant, a NaN is computed. -/
theorem C37_undefined (x tw fw : Vec ℂ) (ts : Vec ℤ) (n Lg Lh : ℕ) (hg : tw.len = 2 * Lg + 1) (hh : fw.len = 2 * Lh + 1) (ht : 0 < ts.len)
    (hs : (smoothSeg Lg x.len (ts.get 0 - 1) 0).Nonempty) (hm : smoothMass tw Lg x.len (ts.get 0 - 1) 0 = 0) :
    spwv x (some ts) (some n) (some tw) (some fw) = .error .nonFinite := by
  set ti := ts.get 0 with hti
  have hlg : ((tw.len : ℤ) - 1) / 2 = Lg := by omega
  have hseg : Finset.Icc (-(min (Lg : ℤ) ((x.len : ℤ) - ti))) (min (Lg : ℤ) (ti - 1)) = smoothSeg Lg x.len (ti - 1) 0 := by
    ext p
    unfold smoothSeg
    rw [Finset.mem_filter, Finset.mem_Icc, Finset.mem_Icc, abs_zero]
    omega
  have hcol : spwvCol x tw fw ts n 0 ⟨n, fun _ => 0⟩ = .error .nonFinite := by
    simp only [spwvCol, ts_item ht, ok_bind, ← hti, hlg]
    rw [(spwvWeights_eq tw Lg (-(min (Lg : ℤ) ((x.len : ℤ) - ti))) (min (Lg : ℤ) (ti - 1)) (fun p h1 h2 => by omega)).1]
    · rfl
    · rw [hseg]
      constructor
      · rw [← hm]
        unfold smoothMass
        refine Finset.sum_congr rfl (fun p hp => ?_)
        unfold smoothSeg at hp
        rw [Finset.mem_filter, Finset.mem_Icc] at hp
        exact zext_of_mem (by omega) (by omega)
      · rw [← hseg, Finset.nonempty_Icc] at hs
        exact hs
  rw [spwv_explicit x tw fw ts n Lg Lh hg hh,
    Mat.forCols_error (M := Mat.zeros n ts.len) (T := ts.len) (g := fun _ => ⟨0, fun _ => 0⟩) (le_refl _) ht (fun c hc => absurd hc (by omega)) hcol]
  rfl

/-- **Long frequency windows.**  With time weights of non-zero sum, `smoothed_pseudo_wigner_ville` returns exactly when no instant is in the zone of the last lag
(the window reaches half the bins, and so do the samples on both sides of the instant); otherwise it raises `IndexError`. -/
theorem C37_long_window (x tw fw : Vec ℂ) (ts : Vec ℤ) (n Lg Lh : ℕ) (hn : n ≠ 0) (hg : tw.len = 2 * Lg + 1) (hh : fw.len = 2 * Lh + 1)
    (hfin : ∀ c < ts.len, ∀ τ : ℕ, (smoothSeg Lg x.len (ts.get c - 1) τ).Nonempty → smoothMass tw Lg x.len (ts.get c - 1) τ ≠ 0) :
    let H := roundEven ((n : ℝ) / 2)
    ((∃ M, spwv x (some ts) (some n) (some tw) (some fw) = .ok M) ↔
      ∀ c < ts.len, (Lh : ℤ) < H ∨ ts.get c ≤ H ∨ (x.len : ℤ) - H < ts.get c) ∧
    ((∃ c < ts.len, H ≤ Lh ∧ H < ts.get c ∧ ts.get c ≤ x.len - H) → spwv x (some ts) (some n) (some tw) (some fw) = .error .indexError) := by
  classical
  intro H
  have key : (∃ c < ts.len, H ≤ Lh ∧ H < ts.get c ∧ ts.get c ≤ x.len - H) →
      spwv x (some ts) (some n) (some tw) (some fw) = .error .indexError := by
    intro hex
    have hex' : ∃ c, c < ts.len ∧ SpwvZone n x.len Lh (ts.get c) := by
      obtain ⟨c, hc, h1, h2, h3⟩ := hex
      exact ⟨c, hc, h3, by omega, h1⟩
    obtain ⟨hc, hz⟩ := Nat.find_spec hex'
    have hmin : ∀ c < Nat.find hex', ¬ SpwvZone n x.len Lh (ts.get c) := fun c hlt hzc =>
      Nat.find_min hex' hlt ⟨lt_trans hlt hc, hzc⟩
    set c0 := Nat.find hex' with hc0
    have hcols : ∀ c, ∃ col : Vec ℂ, c < c0 → spwvCol x tw fw ts n c ⟨n, fun _ => 0⟩ = .ok col := by
      intro c
      by_cases hlt : c < c0
      · obtain ⟨col, h1, _⟩ := spwvCol_ok x tw fw ts Lg Lh n hn hg hh c (lt_trans hlt hc)
          (fun τ _ hb => hfin c (lt_trans hlt hc) τ hb.2 hb.1) (hmin c hlt)
        exact ⟨col, fun _ => h1⟩
      · exact ⟨⟨0, fun _ => 0⟩, fun h => absurd h hlt⟩
    choose g hgc using hcols
    have hcol : spwvCol x tw fw ts n c0 ⟨n, fun _ => 0⟩ = .error .indexError := by
      set ti := ts.get c0 with hti
      have hT1 : spwvT n x.len Lg Lh ti ≤ Lh := by unfold spwvT; omega
      have hT2 : 2 * spwvT n x.len Lg Lh ti + 1 ≤ n := by
        unfold spwvT; rw [roundEven_half]; split <;> omega
      have hfin' : ∀ τ : ℕ, ¬ SmoothBad tw Lg x.len (ti - 1) τ := fun τ hb => hfin c0 hc τ hb.2 hb.1
      obtain ⟨col, h1, _, _, _⟩ := spwv_loop x tw fw Lg Lh n hg hh ti (spwvT n x.len Lg Lh ti) hT1 hT2
        (smoothCorr tw Lg x (ti - 1) 0) (fun τ _ => hfin' τ)
      obtain ⟨g2, w1, w2, _⟩ := (spwv_step x tw Lg hg ti 0).2 (hfin' 0)
      simp only [Nat.cast_zero, sub_zero, add_zero] at w1 w2
      unfold spwvCol
      simp only [mid_odd hg, mid_odd hh]
      rw [ts_item hc, ok_bind, ← hti, w1, ok_bind, w2, ok_bind, setItem_ok (by omega) (by simp only; omega), ok_bind]
      show ((List.range (spwvT n x.len Lg Lh ti)).foldlM _ _ >>= _) = _
      simp only [Int.toNat_zero]
      rw [h1, ok_bind]
      show (if SpwvZone n x.len Lh ti then _ else _) = _
      rw [if_pos hz]
    rw [spwv_explicit x tw fw ts n Lg Lh hg hh,
      Mat.forCols_error (M := Mat.zeros n ts.len) (T := ts.len) (le_refl _) hc (fun c hlt => hgc c hlt) hcol]
    rfl
  refine ⟨⟨fun ⟨M, hM⟩ c hc => ?_, fun hz => ?_⟩, key⟩
  · by_contra hno
    push Not at hno
    rw [key ⟨c, hc, hno.1, hno.2.1, hno.2.2⟩] at hM
    cases hM
  · obtain ⟨M, hM, _⟩ := C37_closed_form x tw fw ts n Lg Lh hn hg hh hfin hz
    exact ⟨M, hM⟩

/-- Two bins, a frequency window of three samples, instant 2 of four samples: the call raises. -/
example : spwv ⟨4, fun _ => 1⟩ (some ⟨1, fun _ => 2⟩) (some 2) (some ⟨1, fun _ => 1⟩) (some ⟨3, fun _ => 1⟩) = .error .indexError := by
  refine (C37_long_window ⟨4, fun _ => 1⟩ ⟨1, fun _ => 1⟩ ⟨3, fun _ => 1⟩ ⟨1, fun _ => 2⟩ 2 0 1 (by norm_num) rfl rfl (fun c _ τ hne => ?_)).2
    ⟨0, by norm_num, ?_⟩
  · unfold smoothMass
    simp only [Finset.sum_const, nsmul_eq_mul, mul_one]
    exact_mod_cast (Finset.card_pos.2 hne).ne'
  · rw [roundEven_half]
    norm_num

/-- **Reassigned spectrogram.**  It computes a NaN as soon as the window vanishes on the whole of a segment in use. -/
theorem C63_undefined (x : Vec ℂ) (ts : Vec ℤ) (n L : ℕ) (w : Vec ℝ) (hn : 2 ≤ n) (hx : 1 ≤ x.len) (hw : w.len = 2 * L + 1) (hL : 1 ≤ L)
    (hreg : Regular ts) (c0 : ℕ) (hc0 : c0 < ts.len) (hbefore : ∀ c < c0, reassignMass w.get n L x.len (ts.get c) ≠ 0)
    (hs : (reassignLags n L x.len (ts.get c0)).Nonempty) (hm : reassignMass w.get n L x.len (ts.get c0) = 0) :
    Reassigned.spectrogram x (some ts) (some n) (some w) = .error .nonFinite := by
  obtain ⟨dw, hdw, -, -⟩ := deriveWindow_eq w (by omega)
  have hlh : ((w.len : ℤ) - 1) / 2 = L := by omega
  have hcol : Reassigned.specCol x n (L : ℤ) w w ts c0 ⟨n, fun _ => 0⟩ = .error .nonFinite := by
    set ti := ts.get c0 with hti
    set lo := rLo n L ti with hlo
    set hi := rHi n L x.len ti with hhi
    have hle : lo ≤ hi := by rw [reassignLags_eq, Finset.nonempty_Icc] at hs; exact hs
    have hb : ∀ j < (hi + 1 - lo).toNat, (-1 ≤ ti + (lo + (j : ℤ)) - 1 ∧ ti + (lo + (j : ℤ)) - 1 < x.len) ∧
        (0 ≤ (L : ℤ) + (lo + (j : ℤ)) ∧ (L : ℤ) + (lo + (j : ℤ)) < 2 * L + 1) := by
      intro j hj
      simp only [hlo, hhi, rLo, rHi] at hj ⊢
      omega
    have tk : w.take ((arange lo (hi + 1)).map (fun t => (L : ℤ) + t))
        = .ok ⟨(hi + 1 - lo).toNat, fun j => w.get (wrapIdx w.len ((L : ℤ) + (lo + (j : ℤ))))⟩ :=
      Vec.take_ok (fun j hj => by have := hb j hj; rw [hw]; push_cast; exact this.2)
    have tx : x.take ((arange lo (hi + 1)).map (fun t => ti + t - 1))
        = .ok ⟨(hi + 1 - lo).toNat, fun j => x.get (wrapIdx x.len (ti + (lo + (j : ℤ)) - 1))⟩ := by
      unfold Vec.take
      rw [if_pos]
      · rfl
      · intro j hj
        have := hb j hj
        unfold IdxOk
        simp only [Vec.map, arange]
        omega
    have hnorm : (Vec.map (fun a : ℝ => (a : ℂ)) ⟨(hi + 1 - lo).toNat, fun j => w.get (wrapIdx w.len ((L : ℤ) + (lo + (j : ℤ))))⟩).norm = 0 := by
      have e : (Vec.map (fun a : ℝ => (a : ℂ)) ⟨(hi + 1 - lo).toNat, fun j => w.get (wrapIdx w.len ((L : ℤ) + (lo + (j : ℤ))))⟩).norm
          = Real.sqrt (reassignMass w.get n L x.len ti) := by
        unfold Vec.norm reassignMass
        congr 1
        rw [reassignLags_eq, ← hlo, ← hhi, ← sum_arange]
        refine Finset.sum_congr rfl (fun j hj => ?_)
        simp only [Vec.map]
        rw [wrapIdx_of_nonneg (hb j (Finset.mem_range.1 hj)).2.1]
        simp
      rw [e, hm, Real.sqrt_zero]
    unfold Reassigned.specCol
    rw [ts_item hc0, ok_bind, ← hti]
    show (w.take ((arange lo (hi + 1)).map _) >>= _) = _
    rw [tk, ok_bind]
    show (x.take ((arange lo (hi + 1)).map _) >>= _) = _
    rw [tx, ok_bind]
    show (w.take ((arange lo (hi + 1)).map _) >>= _) = _
    rw [tk, ok_bind, Vec.bcast_ok (by rfl), ok_bind, hnorm, if_pos]
    refine ⟨rfl, ?_⟩
    show (hi + 1 - lo).toNat ≠ 0
    omega
  unfold Reassigned.spectrogram Reassigned.deriveWindow?
  simp only [Option.getD_some]
  rw [if_neg (fun h => h.2 (regular_iff.1 hreg)), if_neg (by omega), hdw, hlh,
    Vec.bcast_ok (by rw [arange_len, hw]; omega), ok_bind]
  simp only [ok_bind]
  rw [Mat.forCols_error (M := Mat.zeros n ts.len) (T := ts.len) (le_refl _) hc0
    (fun c hc => specCol_ok hn hx hw hw (lt_trans hc hc0) (hbefore c hc)) hcol]
  rfl

/-- The reassigned spectrogram with a silent window of three samples. -/
example : Reassigned.spectrogram ⟨4, fun _ => 1⟩ (some ⟨1, fun _ => 2⟩) (some 4) (some ⟨3, fun _ => 0⟩) = .error .nonFinite := by
  refine C63_undefined ⟨4, fun _ => 1⟩ ⟨1, fun _ => 2⟩ 4 1 ⟨3, fun _ => 0⟩ (by norm_num) (by norm_num) rfl (by norm_num) ?_ 0 (by norm_num)
    (fun c hc => absurd hc (by omega)) ⟨0, ?_⟩ ?_
  · intro i hi
    dsimp only at hi
    omega
  · rw [reassignLags_eq, Finset.mem_Icc]
    unfold rLo rHi
    rw [roundEven_half]
    norm_num
  · unfold reassignMass; simp

/-- Two equal samples have no group delay in their second bin; a Doppler signal without wave velocity is undefined. -/
example : groupDelay (⟨2, fun _ => 1⟩ : Vec ℂ) = .error .nonFinite ∧ doppler 8 1 (1 / 4) 1 1 (some 4) 0 = .error .nonFinite := by
  refine ⟨(C46_undefined _ (by norm_num)).2 ⟨1, by norm_num, ?_⟩, (C23_undefined 8 1 (1 / 4) 1 1 4 0 (by norm_num) (by norm_num) (by norm_num) (by norm_num)
    (by norm_num) (by norm_num) (by norm_num)).2 (Or.inr rfl)⟩
  have e : expi (-(2 * Real.pi * (((1 : ℕ) : ℝ) / ((2 : ℕ) : ℝ)) * ((1 : ℕ) : ℝ))) = -1 := by
    unfold expi
    rw [← Complex.exp_neg_pi_mul_I]
    congr 1; push_cast; ring
  unfold dft dtft
  dsimp only
  rw [Finset.sum_range_succ, Finset.sum_range_one, e]
  unfold expi
  simp

/-- A spectrogram with a silent window of one sample and a smoothed pseudo Wigner-Ville distribution with one are undefined. -/
example : spectroRun (TFR.init makeWindow ⟨4, fun _ => 1⟩ ⟨1, fun _ => 2⟩ 4 (some ⟨1, fun _ => 0⟩)) = .error .nonFinite ∧
    spwv ⟨4, fun _ => 1⟩ (some ⟨1, fun _ => 2⟩) (some 4) (some ⟨1, fun _ => 0⟩) (some ⟨1, fun _ => 1⟩) = .error .nonFinite := by
  constructor
  · refine (C31_undefined ⟨4, fun _ => 1⟩ ⟨1, fun _ => 2⟩ 4 0 ⟨1, fun _ => 0⟩ (Or.inl rfl) (by norm_num)).2 (fun hw => ?_)
    rcases hw 0 (by norm_num) with h | h
    · exact h (by unfold windowEnergy; simp)
    · have : (0 : ℤ) ∈ segLags (min (roundEven (((4 : ℕ) : ℝ) / 2) - 1) ((0 : ℕ) : ℤ)) 4 ((2 : ℤ) - 1) := by
        rw [roundEven_half]
        unfold segLags
        simp
      rw [h] at this
      exact absurd this (Finset.notMem_empty _)
  · refine C37_undefined ⟨4, fun _ => 1⟩ ⟨1, fun _ => 0⟩ ⟨1, fun _ => 1⟩ ⟨1, fun _ => 2⟩ 4 0 0 rfl rfl (by norm_num) ⟨0, ?_⟩ ?_
    · unfold smoothSeg; simp
    · unfold smoothMass; simp

end Tftb.Props
