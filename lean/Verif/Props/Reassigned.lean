import Verif.Lemmas.Reassigned
import Verif.Props.ProcUtils

/-! # Property C54: reassignment conserves energy -/

namespace Tftb

open Finset Spec ProcUtils Reassigned

theorem specFinish_inv {x : Vec ℂ} {n : ℕ} {ts : Vec ℤ} {A B : Mat ℂ} {D : Option (Mat ℂ)} {tfr rtfr : Mat ℝ} {v : Mat (Option ℂ)}
    (h : specFinish x n ts A B D = .ok (tfr, rtfr, v)) :
    tfr.rows = A.rows ∧ tfr.cols = A.cols ∧ (∀ k c, 0 ≤ tfr.get k c) ∧ (∃ target, scatterAdd tfr target = .ok rtfr) ∧
      v.rows = n ∧ v.cols = ts.len := by
  unfold specFinish at h
  obtain ⟨F, hF, h⟩ := bind_eq_ok.1 h
  obtain ⟨G, hG, h⟩ := bind_eq_ok.1 h
  obtain ⟨tf3, -, h⟩ := bind_eq_ok.1 h
  obtain ⟨tmin, -, h⟩ := bind_eq_ok.1 h
  obtain ⟨tmax, -, h⟩ := bind_eq_ok.1 h
  obtain ⟨s, -, h⟩ := bind_eq_ok.1 h
  obtain ⟨m, -, h⟩ := bind_eq_ok.1 h
  obtain ⟨R, hR, h⟩ := bind_eq_ok.1 h
  injection h with h
  simp only [Prod.mk.injEq] at h
  obtain ⟨h1, h2, h3⟩ := h
  subst h1 h2 h3
  have hr : F.rows = A.rows ∧ F.cols = A.cols := by
    unfold Mat.fft0 at hF
    split_ifs at hF
    injection hF with hF
    subst hF
    exact ⟨rfl, rfl⟩
  exact ⟨hr.1, hr.2, fun k c => sq_nonneg _, ⟨_, hR⟩, rfl, rfl⟩

theorem spectrogram_inv {x : Vec ℂ} {ts? : Option (Vec ℤ)} {n? : Option ℕ} {w? : Option (Vec ℝ)} {tfr rtfr : Mat ℝ}
    {v : Mat (Option ℂ)} (h : Reassigned.spectrogram x ts? n? w? = .ok (tfr, rtfr, v)) :
    tfr.rows = n?.getD x.len ∧ tfr.cols = (ts?.getD (arange 0 x.len)).len ∧ (∀ k c, 0 ≤ tfr.get k c) ∧
      (∃ target, scatterAdd tfr target = .ok rtfr) ∧ v.rows = n?.getD x.len ∧ v.cols = (ts?.getD (arange 0 x.len)).len := by
  unfold Reassigned.spectrogram at h
  simp only at h
  split_ifs at h with c1 c2
  obtain ⟨th, -, h⟩ := bind_eq_ok.1 h
  obtain ⟨dw, -, h⟩ := bind_eq_ok.1 h
  obtain ⟨A, hA, h⟩ := bind_eq_ok.1 h
  obtain ⟨B, -, h⟩ := bind_eq_ok.1 h
  obtain ⟨a1, a2, -⟩ := Mat.forCols_inv hA
  cases dw with
  | none =>
    obtain ⟨b1, b2, b3⟩ := specFinish_inv h
    exact ⟨b1.trans a1, b2.trans a2, b3⟩
  | some dw =>
    obtain ⟨D, -, h⟩ := bind_eq_ok.1 h
    obtain ⟨b1, b2, b3⟩ := specFinish_inv h
    exact ⟨b1.trans a1, b2.trans a2, b3⟩

/-- Whenever the reassigned spectrogram returns, the two matrices have one row per bin and one column per instant, no entry is negative,
and both have the same total: reassignment moves energy, it neither creates nor loses any. -/
theorem C54_spectrogram_total (x : Vec ℂ) (ts? : Option (Vec ℤ)) (n? : Option ℕ) (w? : Option (Vec ℝ)) (tfr rtfr : Mat ℝ)
    (v : Mat (Option ℂ)) (h : Reassigned.spectrogram x ts? n? w? = .ok (tfr, rtfr, v)) :
    tfr.rows = n?.getD x.len ∧ rtfr.rows = tfr.rows ∧ tfr.cols = (ts?.getD (arange 0 x.len)).len ∧ rtfr.cols = tfr.cols ∧
    (∀ r < tfr.rows, ∀ c < tfr.cols, 0 ≤ tfr.get r c ∧ 0 ≤ rtfr.get r c) ∧
    ∑ r ∈ range rtfr.rows, ∑ c ∈ range rtfr.cols, rtfr.get r c = ∑ r ∈ range tfr.rows, ∑ c ∈ range tfr.cols, tfr.get r c := by
  obtain ⟨h1, h2, h3, ⟨target, h4⟩, -, -⟩ := spectrogram_inv h
  obtain ⟨-, i1, i2, -⟩ := scatterAdd_inv h4
  exact ⟨h1, i1, h2, i2, fun r _ c _ => ⟨h3 r c, scatterAdd_nonneg h4 (fun j _ i _ => h3 j i) r c⟩, scatterAdd_total h4⟩

theorem pwvFinish_inv {x : Vec ℂ} {n : ℕ} {ts : Vec ℤ} {A : Mat ℂ} {D : Option (Mat ℂ)} {tfr rtfr : Mat ℝ} {v : Mat (Option ℂ)}
    (h : pwvFinish x n ts A D = .ok (tfr, rtfr, v)) :
    tfr.rows = A.rows ∧ tfr.cols = A.cols ∧ (∃ target, scatterAdd tfr target = .ok rtfr ∧
      ∀ j i r c, target j i = .ok (r, c) → c = (i : ℤ)) ∧ v.rows = n ∧ v.cols = ts.len := by
  unfold pwvFinish at h
  obtain ⟨F, hF, h⟩ := bind_eq_ok.1 h
  obtain ⟨tf2, -, h⟩ := bind_eq_ok.1 h
  obtain ⟨tmin, -, h⟩ := bind_eq_ok.1 h
  obtain ⟨tmax, -, h⟩ := bind_eq_ok.1 h
  obtain ⟨R, hR, h⟩ := bind_eq_ok.1 h
  injection h with h
  simp only [Prod.mk.injEq] at h
  obtain ⟨h1, h2, h3⟩ := h
  subst h1 h2 h3
  have hr : F.rows = A.rows ∧ F.cols = A.cols := by
    unfold Mat.fft0 at hF
    split_ifs at hF
    injection hF with hF
    subst hF
    exact ⟨rfl, rfl⟩
  refine ⟨hr.1, hr.2, ⟨_, hR, ?_⟩, rfl, rfl⟩
  intro j i r c e
  unfold pwvTarget at e
  split_ifs at e
  · obtain ⟨d, -, e⟩ := bind_eq_ok.1 e
    injection e with e
    exact (Prod.mk.injEq _ _ _ _ ▸ e).2.symm
  · injection e with e
    exact (Prod.mk.injEq _ _ _ _ ▸ e).2.symm

theorem pwv_inv {x : Vec ℂ} {ts? : Option (Vec ℤ)} {n? : Option ℕ} {w? : Option (Vec ℝ)} {tfr rtfr : Mat ℝ}
    {v : Mat (Option ℂ)} (h : pseudoWignerVille x ts? n? w? = .ok (tfr, rtfr, v)) :
    tfr.rows = n?.getD x.len ∧ tfr.cols = (ts?.getD (arange 0 x.len)).len ∧ (∃ target, scatterAdd tfr target = .ok rtfr ∧
      ∀ j i r c, target j i = .ok (r, c) → c = (i : ℤ)) := by
  unfold pseudoWignerVille at h
  simp only at h
  split_ifs at h with c1
  obtain ⟨mid, -, h⟩ := bind_eq_ok.1 h
  split_ifs at h with c2
  obtain ⟨dh, -, h⟩ := bind_eq_ok.1 h
  obtain ⟨A, hA, h⟩ := bind_eq_ok.1 h
  obtain ⟨a1, a2, -⟩ := Mat.forCols_inv hA
  cases dh with
  | none =>
    obtain ⟨b1, b2, b3, -⟩ := pwvFinish_inv h
    exact ⟨b1.trans a1, b2.trans a2, b3⟩
  | some dh =>
    obtain ⟨D, -, h⟩ := bind_eq_ok.1 h
    obtain ⟨b1, b2, b3, -⟩ := pwvFinish_inv h
    exact ⟨b1.trans a1, b2.trans a2, b3⟩

/-- Whenever the reassigned pseudo Wigner-Ville distribution returns, every column keeps its sum: reassignment is along frequency
only. -/
theorem C54_pwv_column_sums (x : Vec ℂ) (ts? : Option (Vec ℤ)) (n? : Option ℕ) (w? : Option (Vec ℝ)) (tfr rtfr : Mat ℝ)
    (v : Mat (Option ℂ)) (h : pseudoWignerVille x ts? n? w? = .ok (tfr, rtfr, v)) :
    tfr.rows = n?.getD x.len ∧ rtfr.rows = tfr.rows ∧ tfr.cols = (ts?.getD (arange 0 x.len)).len ∧ rtfr.cols = tfr.cols ∧
    ∀ c < tfr.cols, ∑ r ∈ range rtfr.rows, rtfr.get r c = ∑ r ∈ range tfr.rows, tfr.get r c := by
  obtain ⟨h1, h2, target, h4, h5⟩ := pwv_inv h
  obtain ⟨-, i1, i2, -⟩ := scatterAdd_inv h4
  exact ⟨h1, i1, h2, i2, fun c hc => scatterAdd_colsum h4 h5 hc⟩


/-! ## Where the energy goes -/

theorem half_ge {n : ℕ} (hn : 2 ≤ n) : 0 ≤ roundEven ((n : ℝ) / 2) - 1 := by
  rw [roundEven_half]
  split <;> omega

theorem reassignMass_ne_zero {w : ℕ → ℝ} {n L N : ℕ} {t : ℤ} (hn : 2 ≤ n) (hw : w L ≠ 0) (h0 : 0 ≤ t) (h1 : t ≤ N) :
    reassignMass w n L N t ≠ 0 := by
  have hmem : (0 : ℤ) ∈ reassignLags n L N t := by
    have := half_ge hn
    rw [reassignLags_eq]
    unfold rLo rHi
    rw [Finset.mem_Icc]
    omega
  have hle : w ((L : ℤ) + 0).toNat ^ 2 ≤ reassignMass w n L N t :=
    Finset.single_le_sum (f := fun τ : ℤ => w ((L : ℤ) + τ).toNat ^ 2) (fun _ _ => sq_nonneg _) hmem
  have : ((L : ℤ) + 0).toNat = L := by omega
  rw [this] at hle
  have : 0 < w L ^ 2 := by positivity
  linarith

/-- The reassigned spectrogram in closed form, for regularly spaced instants between `0` and the number of samples and an odd window of three
samples or more with a non-zero middle sample: cell `(k, c)` of the spectrogram is the normalised squared short-time sum around sample `t_c - 1`
(index `-1` being the last sample), and cell `(p, q)` of the reassigned one collects the cells whose destination is `(p, q)`. -/
theorem C63_spectrogram_closed (x : Vec ℂ) (ts : Vec ℤ) (n L : ℕ) (w dw : Vec ℝ) (hn : 2 ≤ n) (hx : 1 ≤ x.len)
    (hw : w.len = 2 * L + 1) (hL : 1 ≤ L) (hmid : w.get L ≠ 0) (hdw : deriveWindow w = .ok dw) (hreg : Regular ts) (a b : ℤ)
    (hab : IsRange ts a b) (h0 : 0 ≤ a) (h1 : b ≤ x.len) :
    ∃ tfr rtfr v, Reassigned.spectrogram x (some ts) (some n) (some w) = .ok (tfr, rtfr, v) ∧ tfr.rows = n ∧ tfr.cols = ts.len ∧
      rtfr.rows = n ∧ rtfr.cols = ts.len ∧
      (∀ k < n, ∀ c < ts.len,
        tfr.get k c = ‖reassignSum x w.get n L (ts.get c) k‖ ^ 2 / reassignMass w.get n L x.len (ts.get c)) ∧
      ∀ p < n, ∀ q < ts.len, rtfr.get p q = ∑ c ∈ range ts.len, ∑ k ∈ range n,
        if reassignDest x w.get dw.get n L ts.len (1e-6 * meanPower x a b) (ts.get c) k c = ((p : ℤ), (q : ℤ)) then tfr.get k c
        else 0 := by
  obtain ⟨dw', e, hl, -⟩ := deriveWindow_eq w (by omega)
  rw [hdw] at e
  injection e with e
  subst e
  obtain ⟨tfr, rtfr, v, e, r1, r2, r3, r4, -, -, r5, -, -, r6⟩ := spectrogram_ok (ts? := some ts) (n? := some n) (w? := some w) rfl rfl rfl
    hn hx hw hL hdw hl hreg hab h0 h1 (fun c hc => reassignMass_ne_zero hn hmid (h0.trans (hab.2.2 c hc).1) ((hab.2.2 c hc).2.trans h1))
  exact ⟨tfr, rtfr, v, e, r1, r2, r3, r4, fun k _ c hc => r5 k c hc, fun p _ q _ => r6 p q⟩

theorem arange_regular (N : ℕ) : Regular (arange 0 N) := by
  intro i _ j _
  simp only [arange]
  push_cast
  ring

theorem arange_range {N : ℕ} (h : 1 ≤ N) : IsRange (arange 0 N) 0 ((N : ℤ) - 1) := by
  refine ⟨⟨0, ?_, ?_⟩, ⟨N - 1, ?_, ?_⟩, ?_⟩
  · simp only [arange]; omega
  · simp [arange]
  · simp only [arange]; omega
  · simp only [arange]; omega
  · intro c hc
    simp only [arange] at hc ⊢
    omega

/-- Short-time sum of an impulse at sample `p`, not the last one. -/
theorem impulse_sum {N p : ℕ} (hp : p + 1 < N) (A : ℂ) (g : ℕ → ℝ) (n L : ℕ) {t : ℤ} (k : ℕ) :
    reassignSum ⟨N, fun i => if i = p then A else 0⟩ g n L t k = if (p : ℤ) + 1 - t ∈ reassignLags n L N t then
      A * (g ((L : ℤ) + ((p : ℤ) + 1 - t)).toNat : ℂ) * expi (-(2 * Real.pi * (k * (((p : ℤ) + 1 - t : ℤ) : ℝ) / n))) else 0 := by
  unfold reassignSum
  simp only
  have hz : ∀ τ ∈ reassignLags n L N t, τ ≠ (p : ℤ) + 1 - t → cyc ⟨N, fun i => if i = p then A else 0⟩ (t + τ - 1) = 0 := by
    intro τ hτ hne
    unfold reassignLags at hτ
    rw [Finset.mem_filter] at hτ
    rw [← cyc_eq_wrap (x := ⟨N, fun i => if i = p then A else 0⟩) hτ.2.1 hτ.2.2 (by simp only; omega)]
    simp only
    rw [if_neg]
    unfold wrapIdx
    split_ifs <;> omega
  have hv : cyc ⟨N, fun i => if i = p then A else 0⟩ (t + ((p : ℤ) + 1 - t) - 1) = A := by
    unfold cyc
    simp only
    rw [if_pos]
    rw [show t + ((p : ℤ) + 1 - t) - 1 = (p : ℤ) by ring, Int.emod_eq_of_lt (by omega) (by omega)]
    simp
  split_ifs with h
  · rw [Finset.sum_eq_single ((p : ℤ) + 1 - t)]
    · rw [hv]
    · intro τ hτ hne
      rw [hz τ hτ hne]; ring
    · intro h'; exact absurd h h'
  · refine Finset.sum_eq_zero (fun τ hτ => ?_)
    rw [hz τ hτ (fun e => h (e ▸ hτ))]; ring

/-- An impulse at sample `p` (not the last one): every cell above the threshold is moved to column `p`, and one bin down; so outside column `p`
nothing above the threshold is left. -/
theorem C63_impulse (N p n L : ℕ) (A : ℂ) (w : Vec ℝ) (hp : p + 1 < N) (hn : 2 ≤ n) (hw : w.len = 2 * L + 1) (hL : 1 ≤ L)
    (hmid : w.get L ≠ 0) :
    ∃ tfr rtfr v, Reassigned.spectrogram ⟨N, fun i => if i = p then A else 0⟩ none (some n) (some w) = .ok (tfr, rtfr, v) ∧
      (∀ k < n, ∀ c < N, 1e-6 * (‖A‖ ^ 2 / N) < tfr.get k c →
        v.get k c = some (((((k : ℤ) - 1) % n : ℤ) : ℂ) + Complex.I * ((p : ℂ) + 1))) ∧
      (∀ k < n, ∀ c < N, tfr.get k c ≤ 1e-6 * (‖A‖ ^ 2 / N) → v.get k c = none) ∧
      (∀ r < n, ∀ q < N, q ≠ p → rtfr.get r q ≤ 1e-6 * (‖A‖ ^ 2 / N)) := by
  set x : Vec ℂ := ⟨N, fun i => if i = p then A else 0⟩ with hx
  obtain ⟨dw, hdw, hl, -⟩ := deriveWindow_eq w (by omega)
  have hN : 1 ≤ N := by omega
  have hab : IsRange (arange 0 N) 0 ((N : ℤ) - 1) := arange_range hN
  have hlen : (arange 0 (N : ℤ)).len = N := by simp [arange]
  have hget : ∀ c : ℕ, (arange 0 (N : ℤ)).get c = (c : ℤ) := fun c => by simp [arange]
  obtain ⟨tfr, rtfr, v, e, r1, r2, r3, r4, -, -, r5, r7, r8, r6⟩ := spectrogram_ok (x := x) (ts? := none) (n? := some n) (w? := some w)
    (ts := arange 0 N) (n := n) (w := w) rfl rfl rfl hn hN hw hL hdw hl (arange_regular N) hab (le_refl 0) (by show (N : ℤ) - 1 ≤ N; omega)
    (fun c hc => reassignMass_ne_zero hn hmid (hab.2.2 c hc).1 ((hab.2.2 c hc).2.trans (by show (N : ℤ) - 1 ≤ N; omega)))
  rw [hlen] at r5 r6 r7 r8
  simp only [hget] at r5 r6 r7 r8
  have hmean : meanPower x 0 ((N : ℤ) - 1) = ‖A‖ ^ 2 / N := by
    unfold meanPower
    congr 1
    · rw [Finset.sum_eq_single ((p : ℤ) + 1)]
      · rw [show (p : ℤ) + 1 - 1 = (p : ℤ) by ring]
        unfold cyc
        rw [hx]
        simp only
        rw [Int.emod_eq_of_lt (by omega) (by omega)]
        simp
      · intro t ht hne
        rw [Finset.mem_Icc] at ht
        rw [← cyc_eq_wrap (x := x) (by omega) (by show t - 1 < (N : ℤ); omega) hN, hx]
        simp only
        rw [if_neg]
        · simp
        · unfold wrapIdx
          split_ifs <;> omega
      · intro h
        rw [Finset.mem_Icc] at h
        omega
    · push_cast; ring
  rw [hmean] at r6 r7 r8
  set thr := 1e-6 * (‖A‖ ^ 2 / N) with hthr
  have hthr0 : 0 ≤ thr := by rw [hthr]; positivity
  have hdest : ∀ k < n, ∀ c < N, thr < tfr.get k c →
      reassignDest x w.get dw.get n L N thr (c : ℤ) k c = (((k : ℤ) - 1) % n, (p : ℤ)) := by
    intro k hk c hc h
    rw [r5 k c hc] at h
    unfold reassignDest
    rw [if_pos h]
    have hS := impulse_sum hp A w.get n L (t := (c : ℤ)) k
    have hne : reassignSum x w.get n L (c : ℤ) k ≠ 0 := by
      intro e0
      rw [e0] at h
      simp at h
      linarith
    by_cases hmem : (p : ℤ) + 1 - c ∈ reassignLags n L N (c : ℤ)
    · rw [if_pos hmem] at hS
      have hD := impulse_sum hp A dw.get n L (t := (c : ℤ)) k
      have hG := impulse_sum hp A (fun j => w.get j * ((j : ℝ) - L)) n L (t := (c : ℤ)) k
      rw [if_pos hmem] at hD hG
      rw [← hx] at hS hD hG
      set E := expi (-(2 * Real.pi * (k * (((p : ℤ) + 1 - (c : ℤ) : ℤ) : ℝ) / n)))
      set m := ((L : ℤ) + ((p : ℤ) + 1 - (c : ℤ))).toNat with hm
      have hAE : A * E ≠ 0 ∧ (w.get m : ℂ) ≠ 0 := by
        rw [hS] at hne
        constructor
        · rintro h0; exact hne (by rw [mul_right_comm, h0, zero_mul])
        · rintro h0; exact hne (by rw [h0]; ring)
      have hq1 : reassignSum x dw.get n L (c : ℤ) k / reassignSum x w.get n L (c : ℤ) k = ((dw.get m / w.get m : ℝ) : ℂ) := by
        rw [hS, hD, show A * (dw.get m : ℂ) * E = (dw.get m : ℂ) * (A * E) by ring,
          show A * (w.get m : ℂ) * E = (w.get m : ℂ) * (A * E) by ring, mul_div_mul_right _ _ hAE.1]
        push_cast
        rfl
      have hmL : ((m : ℝ) - L) = (((p : ℤ) + 1 - (c : ℤ) : ℤ) : ℝ) := by
        have h2 := hmem
        rw [reassignLags_eq, Finset.mem_Icc] at h2
        unfold rLo rHi at h2
        have : (m : ℤ) = (L : ℤ) + ((p : ℤ) + 1 - (c : ℤ)) := by rw [hm, Int.toNat_of_nonneg (by omega)]
        have h3 : ((m : ℤ) : ℝ) = (((L : ℤ) + ((p : ℤ) + 1 - (c : ℤ)) : ℤ) : ℝ) := by rw [this]
        push_cast at h3 ⊢
        linarith
      have hq2 : reassignSum x (fun j => w.get j * ((j : ℝ) - L)) n L (c : ℤ) k / reassignSum x w.get n L (c : ℤ) k
          = (((((p : ℤ) + 1 - (c : ℤ) : ℤ) : ℝ)) : ℂ) := by
        rw [hS, hG, hmL, Complex.ofReal_mul,
          show ∀ z : ℂ, A * ((w.get m : ℂ) * z) * E = z * ((w.get m : ℂ) * (A * E)) by intro z; ring,
          show A * (w.get m : ℂ) * E = (w.get m : ℂ) * (A * E) by ring, mul_div_cancel_right₀ _ (mul_ne_zero hAE.2 hAE.1)]
      rw [hq1, hq2, Complex.ofReal_im, Complex.ofReal_re, roundEven_intCast, mul_zero]
      have hz : roundEven 0 = 0 := by simpa using roundEven_intCast 0
      rw [hz]
      refine Prod.ext ?_ ?_
      · simp
      · simp only; omega
    · rw [if_neg hmem] at hS
      exact absurd hS hne
  refine ⟨tfr, rtfr, v, e, ?_, fun k hk c hc h => r8 k hk c hc (not_lt.2 h), ?_⟩
  · intro k hk c hc h
    exact_mod_cast r7 k hk c hc h _ _ (hdest k hk c hc h)
  · intro r hr q hq hne
    rw [r6]
    have hself : ∀ c < N, ∀ k < n, (if reassignDest x w.get dw.get n L N thr (c : ℤ) k c = ((r : ℤ), (q : ℤ)) then tfr.get k c else 0)
        = if c = q ∧ k = r then (if thr < tfr.get r q then 0 else tfr.get r q) else 0 := by
      intro c hc k hk
      by_cases h : thr < tfr.get k c
      · rw [hdest k hk c hc h, if_neg (by rw [Prod.mk.injEq]; omega)]
        split_ifs with h1 h2
        · rfl
        · obtain ⟨rfl, rfl⟩ := h1
          exact absurd h h2
        · rfl
      · have hd : reassignDest x w.get dw.get n L N thr (c : ℤ) k c = ((k : ℤ), (c : ℤ)) := by
          unfold reassignDest
          rw [if_neg (by rw [← r5 k c hc]; exact h)]
        rw [hd]
        by_cases h1 : c = q ∧ k = r
        · obtain ⟨rfl, rfl⟩ := h1
          rw [if_pos rfl, if_pos ⟨rfl, rfl⟩, if_neg h]
        · rw [if_neg (by rw [Prod.mk.injEq]; omega), if_neg h1]
    rw [Finset.sum_congr rfl (fun c hc => Finset.sum_congr rfl
      (fun k hk => hself c (Finset.mem_range.1 hc) k (Finset.mem_range.1 hk)))]
    rw [Finset.sum_eq_single q, Finset.sum_eq_single r]
    · rw [if_pos ⟨rfl, rfl⟩]
      split_ifs with h
      · exact hthr0
      · exact not_lt.1 h
    · intro k _ hk; rw [if_neg (fun h => hk h.2)]
    · intro h; exact absurd (Finset.mem_range.2 hr) h
    · intro c _ hc
      exact Finset.sum_eq_zero (fun k _ => if_neg (fun h => hc h.1))
    · intro h; exact absurd (Finset.mem_range.2 hq) h


/-- Short-time sum of a tone at an instant where the whole window lies inside the signal. -/
theorem tone_sum {N n L : ℕ} (k0 : ℕ) (hn : 2 ≤ n) (hR : (L : ℤ) ≤ roundEven ((n : ℝ) / 2) - 1) {t : ℤ} (h0 : (L : ℤ) + 1 ≤ t)
    (h1 : t + L ≤ N) (g : ℕ → ℝ) (k : ℕ) :
    reassignSum ⟨N, fun m => expi (2 * Real.pi * (k0 * m / n))⟩ g n L t k = expi (2 * Real.pi * (k0 * ((t : ℝ) - 1) / n)) *
      ∑ τ ∈ Finset.Icc (-(L : ℤ)) L, (g ((L : ℤ) + τ).toNat : ℂ) * expi (-(2 * Real.pi * (((k : ℝ) - k0) * τ / n))) := by
  unfold reassignSum
  have hlags : reassignLags n L N t = Finset.Icc (-(L : ℤ)) L := by
    rw [reassignLags_eq]
    unfold rLo rHi
    congr 1 <;> omega
  simp only
  rw [hlags, Finset.mul_sum]
  refine Finset.sum_congr rfl (fun τ hτ => ?_)
  rw [Finset.mem_Icc] at hτ
  have hc : cyc ⟨N, fun m => expi (2 * Real.pi * (k0 * m / n))⟩ (t + τ - 1) = expi (2 * Real.pi * (k0 * ((t : ℝ) + τ - 1) / n)) := by
    unfold cyc
    simp only
    rw [Int.emod_eq_of_lt (by omega) (by omega)]
    have : (((t + τ - 1).toNat : ℕ) : ℝ) = (t : ℝ) + τ - 1 := by
      have h2 : (((t + τ - 1).toNat : ℤ) : ℝ) = ((t + τ - 1 : ℤ) : ℝ) := by rw [Int.toNat_of_nonneg (by omega)]
      push_cast at h2
      exact_mod_cast h2
    rw [this]
  rw [hc]
  have e1 : ∀ z a b c d : ℝ, a + b = c + d → expi a * (z : ℂ) * expi b = expi c * ((z : ℂ) * expi d) := by
    intro z a b c d h
    have : expi a * expi b = expi c * expi d := by rw [← expi_add, ← expi_add, h]
    linear_combination (z : ℂ) * this
  refine e1 _ _ _ _ _ ?_
  have : (n : ℝ) ≠ 0 := by exact_mod_cast (by omega : n ≠ 0)
  field_simp
  ring

/-- A pure tone on bin `k0`, at an instant where the symmetric window lies inside the signal: the energy of bin `k0`, already at its right
place, is moved one bin down and (except in the first column) one column to the left. -/
theorem C63_tone_misplaced (N n L k0 c : ℕ) (ts : Vec ℤ) (w : Vec ℝ) (hn : 2 ≤ n) (hk : k0 < n) (hw : w.len = 2 * L + 1) (hL : 1 ≤ L)
    (hR : (L : ℤ) ≤ roundEven ((n : ℝ) / 2) - 1) (hsym : ∀ k < w.len, w.get (w.len - 1 - k) = w.get k) (hmid : w.get L ≠ 0)
    (hbig : 1e-6 * ∑ j ∈ range w.len, w.get j ^ 2 < w.sum ^ 2) (hreg : Regular ts) (a b : ℤ) (hab : IsRange ts a b) (ha : 0 ≤ a)
    (hb : b ≤ N) (hc : c < ts.len) (h0 : (L : ℤ) + 1 ≤ ts.get c) (h1 : ts.get c + L ≤ N) :
    ∃ tfr rtfr v, Reassigned.spectrogram ⟨N, fun m => expi (2 * Real.pi * (k0 * m / n))⟩ (some ts) (some n) (some w) = .ok (tfr, rtfr, v) ∧
      0 < tfr.get k0 c ∧
      v.get k0 c = some (((((k0 : ℤ) - 1) % n : ℤ) : ℂ) + Complex.I * (((max c 1 : ℕ) : ℂ))) ∧
      tfr.get k0 c ≤ rtfr.get (((k0 : ℤ) - 1) % n).toNat (max c 1 - 1) := by
  set x : Vec ℂ := ⟨N, fun m => expi (2 * Real.pi * (k0 * m / n))⟩ with hx
  obtain ⟨dw, hdw, hl, -⟩ := deriveWindow_eq w (by omega)
  have hN : 1 ≤ N := by omega
  obtain ⟨tfr, rtfr, v, e, r1, r2, r3, r4, -, -, r5, r7, r8, r6⟩ := spectrogram_ok (x := x) (ts? := some ts) (n? := some n) (w? := some w)
    (ts := ts) (n := n) (w := w) rfl rfl rfl hn hN hw hL hdw hl hreg hab ha hb
    (fun c hc => reassignMass_ne_zero hn hmid (ha.trans (hab.2.2 c hc).1) ((hab.2.2 c hc).2.trans hb))
  have hle : a ≤ b := by have := hab.2.2 c hc; omega
  -- the mean power of a tone is one
  have hmean : meanPower x a b = 1 := by
    unfold meanPower
    have : ∀ t ∈ Finset.Icc a b, ‖cyc x (t - 1)‖ ^ 2 = 1 := fun t _ => by
      unfold cyc
      rw [hx]
      simp only [norm_expi, one_pow]
    rw [Finset.sum_congr rfl this, Finset.sum_const, Int.card_Icc]
    have h2 : (((b + 1 - a).toNat : ℤ) : ℝ) = ((b + 1 - a : ℤ) : ℝ) := by rw [Int.toNat_of_nonneg (by omega)]
    push_cast at h2
    have h3 : ((b + 1 - a).toNat : ℝ) = (b : ℝ) + 1 - a := by exact_mod_cast h2
    have h4 : (a : ℝ) ≤ b := by exact_mod_cast hle
    rw [nsmul_eq_mul, mul_one, h3, div_self (by linarith)]
  rw [hmean, mul_one] at r6 r7 r8
  set t := ts.get c with ht
  set E := expi (2 * Real.pi * (k0 * ((t : ℝ) - 1) / n)) with hE
  have hE0 : E ≠ 0 := by
    intro h
    have := norm_expi (2 * Real.pi * (k0 * ((t : ℝ) - 1) / n))
    rw [← hE, h] at this
    simp at this
  -- sums at the bin of the tone
  have hsum : ∀ g : ℕ → ℝ, reassignSum x g n L t k0 = E * ((∑ j ∈ range (2 * L + 1), g j : ℝ) : ℂ) := by
    intro g
    rw [hx, tone_sum k0 hn hR h0 h1 g k0]
    congr 1
    have h2 : ∀ τ ∈ Finset.Icc (-(L : ℤ)) L, (g ((L : ℤ) + τ).toNat : ℂ) * expi (-(2 * Real.pi * (((k0 : ℝ) - k0) * τ / n)))
        = (g ((L : ℤ) + τ).toNat : ℂ) := fun τ _ => by
      rw [show (-(2 * Real.pi * (((k0 : ℝ) - k0) * τ / n)) : ℝ) = 0 by ring, expi_zero, mul_one]
    rw [Finset.sum_congr rfl h2, ← sum_arange, show ((L : ℤ) + 1 - -(L : ℤ)).toNat = 2 * L + 1 by omega]
    push_cast
    refine Finset.sum_congr rfl (fun j _ => ?_)
    rw [show ((L : ℤ) + (-(L : ℤ) + (j : ℤ))).toNat = j by omega]
  have hmass : reassignMass w.get n L N t = ∑ j ∈ range (2 * L + 1), w.get j ^ 2 := by
    unfold reassignMass
    have hlags : reassignLags n L N t = Finset.Icc (-(L : ℤ)) L := by
      rw [reassignLags_eq]
      unfold rLo rHi
      congr 1 <;> omega
    rw [hlags, ← sum_arange, show ((L : ℤ) + 1 - -(L : ℤ)).toNat = 2 * L + 1 by omega]
    refine Finset.sum_congr rfl (fun j _ => ?_)
    rw [show ((L : ℤ) + (-(L : ℤ) + (j : ℤ))).toNat = j by omega]
  have hmpos : 0 < ∑ j ∈ range (2 * L + 1), w.get j ^ 2 := by
    have h2 := Finset.single_le_sum (f := fun j => w.get j ^ 2) (fun _ _ => sq_nonneg _) (Finset.mem_range.2 (by omega : L < 2 * L + 1))
    have : 0 < w.get L ^ 2 := by positivity
    linarith
  have hS : w.sum = ∑ j ∈ range (2 * L + 1), w.get j := by unfold Vec.sum; rw [hw]
  have hval : tfr.get k0 c = w.sum ^ 2 / ∑ j ∈ range (2 * L + 1), w.get j ^ 2 := by
    rw [r5 k0 c hc, hsum, ← hS, show x.len = N from rfl, hmass, norm_mul, hE, norm_expi, one_mul, Complex.norm_real, Real.norm_eq_abs,
      sq_abs]
  rw [hw] at hbig
  have hab' : 1e-6 < tfr.get k0 c := by
    rw [hval, lt_div_iff₀ hmpos]
    exact hbig
  have hS0 : (w.sum : ℂ) ≠ 0 := by
    intro h
    have : w.sum = 0 := by exact_mod_cast h
    rw [this] at hbig
    have : (0 : ℝ) < 1e-6 * ∑ j ∈ range (2 * L + 1), w.get j ^ 2 := by positivity
    norm_num at hbig
    linarith
  have hodd : ∑ j ∈ range (2 * L + 1), w.get j * ((j : ℝ) - L) = 0 := by
    have h2 := Finset.sum_range_reflect (fun j => w.get j * ((j : ℝ) - L)) (2 * L + 1)
    have h3 : ∑ j ∈ range (2 * L + 1), w.get (2 * L + 1 - 1 - j) * (((2 * L + 1 - 1 - j : ℕ) : ℝ) - L)
        = -∑ j ∈ range (2 * L + 1), w.get j * ((j : ℝ) - L) := by
      rw [← Finset.sum_neg_distrib]
      refine Finset.sum_congr rfl (fun j hj => ?_)
      rw [Finset.mem_range] at hj
      have h4 := hsym j (by omega)
      rw [hw] at h4
      rw [h4]
      have : ((2 * L + 1 - 1 - j : ℕ) : ℝ) = 2 * L - j := by
        rw [show 2 * L + 1 - 1 - j = 2 * L - j by omega, Nat.cast_sub (by omega)]
        push_cast; ring
      rw [this]; ring
    rw [h3] at h2
    linarith
  have hq1 : ∀ g : ℕ → ℝ, reassignSum x g n L t k0 / reassignSum x w.get n L t k0
      = ((((∑ j ∈ range (2 * L + 1), g j) / w.sum : ℝ)) : ℂ) := by
    intro g
    rw [hsum, hsum, ← hS, mul_div_mul_left _ _ hE0]
    push_cast
    rfl
  have hz : roundEven 0 = 0 := by simpa using roundEven_intCast 0
  have hdest : reassignDest x w.get dw.get n L ts.len 1e-6 t k0 c = (((k0 : ℤ) - 1) % n, ((max c 1 : ℕ) : ℤ) - 1) := by
    unfold reassignDest
    rw [if_pos (by rw [← r5 k0 c hc]; exact hab'), hq1, hq1, hodd, Complex.ofReal_im, Complex.ofReal_re, zero_div, mul_zero, hz]
    refine Prod.ext ?_ ?_
    · simp
    · simp only; push_cast; omega
  refine ⟨tfr, rtfr, v, e, by linarith [show (0 : ℝ) < 1e-6 by norm_num], ?_, ?_⟩
  · rw [r7 k0 hk c hc hab' _ _ hdest, Int.cast_sub, Int.cast_natCast, Int.cast_one, sub_add_cancel]
  · rw [r6]
    have hr0 : 0 ≤ ((k0 : ℤ) - 1) % n := Int.emod_nonneg _ (by omega)
    have hnn' : ∀ c' ∈ range ts.len, ∀ k ∈ range n, 0 ≤ (if reassignDest x w.get dw.get n L ts.len 1e-6 (ts.get c') k c'
        = (((((k0 : ℤ) - 1) % n).toNat : ℤ), ((max c 1 - 1 : ℕ) : ℤ)) then tfr.get k c' else 0) := by
      intro c' hc k _
      split_ifs
      · rw [r5 k c' (Finset.mem_range.1 hc)]
        have : 0 ≤ reassignMass w.get n L x.len (ts.get c') := by unfold reassignMass; positivity
        positivity
      · exact le_refl 0
    have s1 := Finset.single_le_sum (fun c' hc' => Finset.sum_nonneg (hnn' c' hc')) (Finset.mem_range.2 hc)
    have s2 := Finset.single_le_sum (hnn' c (Finset.mem_range.2 hc)) (Finset.mem_range.2 hk)
    refine le_trans ?_ (s2.trans s1)
    rw [← ht, hdest, if_pos]
    rw [Prod.mk.injEq]
    constructor
    · rw [Int.toNat_of_nonneg hr0]
    · omega


/-- A one-sample window makes the reassigned spectrogram of any non-zero signal fail: the derivative of the window is NaN. -/
theorem spectrogram_short {x : Vec ℂ} {n? : Option ℕ} {w? : Option (Vec ℝ)} {n : ℕ} {w : Vec ℝ} (e2 : n?.getD x.len = n)
    (e3 : w?.getD (hamming (defaultLength x.len)) = w) (hn : 2 ≤ n) (hw : w.len = 1) (hw0 : w.get 0 ≠ 0)
    (hx : ∃ i < x.len, x.get i ≠ 0) : Reassigned.spectrogram x none n? w? = .error .valueError := by
  obtain ⟨i0, hi0, hxi⟩ := hx
  have hn0 : n ≠ 0 := by omega
  have hN : 1 ≤ x.len := by omega
  set N := x.len with hNN
  set ts := arange 0 (N : ℤ) with hts
  have hab : IsRange ts 0 ((N : ℤ) - 1) := arange_range hN
  have hlen : ts.len = N := by simp [hts, arange]
  have hget : ∀ c : ℕ, ts.get c = (c : ℤ) := fun c => by simp [hts, arange]
  have hm : ∀ c < ts.len, reassignMass w.get n 0 N (ts.get c) ≠ 0 := fun c hc =>
    reassignMass_ne_zero hn hw0 (hab.2.2 c hc).1 ((hab.2.2 c hc).2.trans (by omega))
  set th : Vec ℝ := ⟨1, fun j => w.get j * (((0 : ℤ) + j : ℤ) : ℝ)⟩ with hth
  set col : Vec ℝ → ℕ → Vec ℂ := fun g c => ⟨n, lagCol n (rLo n 0 (ts.get c)) (rHi n 0 N (ts.get c))
      (fun t => cyc x (ts.get c + t - 1) * (g.get (((0 : ℕ) : ℤ) + t).toNat : ℂ)
        / ((Real.sqrt (reassignMass w.get n 0 N (ts.get c)) : ℝ) : ℂ))⟩ with hcol
  have hfor : ∀ g : Vec ℝ, g.len = 1 → (Mat.zeros n ts.len : Mat ℂ).forCols ts.len (specCol x n ((0 : ℕ) : ℤ) w g ts)
      = .ok ⟨n, ts.len, fun r c => if c < ts.len then (col g c).get r else 0⟩ := fun g hg =>
    Mat.forCols_ok (M := Mat.zeros n ts.len) (T := ts.len) (le_refl _) (fun c hc => specCol_ok hn hN hw hg hc (hm c hc))
  have hfft : ∀ g : Vec ℝ, (⟨n, ts.len, fun r c => if c < ts.len then (col g c).get r else 0⟩ : Mat ℂ).fft0
      = .ok ⟨n, ts.len, fun k c => dftC n (fun r => if c < ts.len then (col g c).get r else 0) k⟩ := fun g =>
    fft0_ok (M := ⟨n, ts.len, fun r c => if c < ts.len then (col g c).get r else 0⟩) hn0
  have hthv : Vec.bcast (fun (y : ℝ) (k : ℤ) => y * (k : ℝ)) w (arange (-(0 : ℤ)) (0 + 1)) = .ok th := by
    rw [Vec.bcast_ok (by rw [arange_len, hw]; rfl), hw]
    rfl
  have hdw : deriveWindow? w = .ok none := by unfold deriveWindow?; rw [(C48_short w).2 hw]
  obtain ⟨s, hs, hmean⟩ := power_ok (x := x) (a := 0) (b := (N : ℤ) - 1) hN (le_refl 0) (by omega) (by omega)
  unfold Reassigned.spectrogram
  simp only [← hNN, e2, e3, Option.getD_none]
  rw [← hts, if_neg (fun h => h.1 rfl), if_neg (by rw [hw]; omega), hw]
  norm_num only [Nat.cast_one, sub_self, Int.zero_ediv]
  have hthv' : Vec.bcast (fun (y : ℝ) (k : ℤ) => y * (k : ℝ)) w (arange 0 1) = .ok th := by simpa using hthv
  have hforw := hfor w hw
  have hfort := hfor th rfl
  norm_num only [Nat.cast_zero] at hforw hfort
  rw [hthv', ok_bind, hdw, ok_bind, hforw, ok_bind, hfort, ok_bind]
  unfold specFinish
  rw [hfft w, ok_bind, hfft th, ok_bind]
  show ((Except.ok _ : Py _) >>= _) = _
  rw [ok_bind, amin_range hab, ok_bind, amax_range hab, ok_bind, Int.floor_intCast, Int.floor_intCast, hs, ok_bind, hmean, ok_bind]
  simp only
  rw [scatterAdd_error (e := .valueError)]
  · rfl
  · intro k hk c hc
    unfold specTarget
    split_ifs with h
    · exact .inr rfl
    · exact .inl ⟨(k : ℤ), (c : ℤ), if_neg h, idxOk_of_lt (by omega) (by exact_mod_cast hk), idxOk_of_lt (by omega) (by exact_mod_cast hc)⟩
  · -- some sample is above the threshold
    have hex : ∃ c < N, 1e-6 * meanPower x 0 ((N : ℤ) - 1) < ‖cyc x ((c : ℤ) - 1)‖ ^ 2 := by
      by_contra hcon
      push Not at hcon
      have hsum : ∑ t ∈ Finset.Icc (0 : ℤ) ((N : ℤ) - 1), ‖cyc x (t - 1)‖ ^ 2
          ≤ ∑ _t ∈ Finset.Icc (0 : ℤ) ((N : ℤ) - 1), 1e-6 * meanPower x 0 ((N : ℤ) - 1) := by
        refine Finset.sum_le_sum (fun t ht => ?_)
        rw [Finset.mem_Icc] at ht
        have := hcon t.toNat (by omega)
        rwa [Int.toNat_of_nonneg ht.1] at this
      rw [Finset.sum_const, Int.card_Icc, nsmul_eq_mul] at hsum
      have hc1 : (((N : ℤ) - 1 + 1 - 0).toNat : ℝ) = N := by
        rw [show ((N : ℤ) - 1 + 1 - 0).toNat = N by omega]
      rw [hc1] at hsum
      have hN' : (0 : ℝ) < N := by exact_mod_cast hN
      have hmp : meanPower x 0 ((N : ℤ) - 1) * N = ∑ t ∈ Finset.Icc (0 : ℤ) ((N : ℤ) - 1), ‖cyc x (t - 1)‖ ^ 2 := by
        unfold meanPower
        have : (((N : ℤ) - 1 : ℤ) : ℝ) + 1 - ((0 : ℤ) : ℝ) = N := by push_cast; ring
        rw [this, div_mul_cancel₀ _ hN'.ne']
      have hpos : 0 < ∑ t ∈ Finset.Icc (0 : ℤ) ((N : ℤ) - 1), ‖cyc x (t - 1)‖ ^ 2 := by
        refine Finset.sum_pos' (fun _ _ => sq_nonneg _) ?_
        by_cases hlast : i0 + 1 = N
        · refine ⟨0, Finset.mem_Icc.2 ⟨le_refl 0, by omega⟩, ?_⟩
          rw [← cyc_eq_wrap (by omega) (by omega) hN]
          have : wrapIdx x.len (0 - 1) = i0 := by unfold wrapIdx; rw [if_pos (by norm_num)]; omega
          rw [this]
          exact pow_pos (norm_pos_iff.2 hxi) 2
        · refine ⟨(i0 : ℤ) + 1, Finset.mem_Icc.2 ⟨by omega, by omega⟩, ?_⟩
          rw [← cyc_eq_wrap (by omega) (by omega) hN, show (i0 : ℤ) + 1 - 1 = (i0 : ℤ) by ring, wrapIdx_natCast]
          exact pow_pos (norm_pos_iff.2 hxi) 2
      rw [← hmp] at hsum hpos
      nlinarith
    obtain ⟨c, hc, hlt⟩ := hex
    refine ⟨0, by show 0 < n; omega, c, by show c < ts.len; omega, ?_⟩
    unfold specTarget
    rw [if_pos]
    · rfl
    · rw [above_iff, abs_of_nonneg (sq_nonneg _)]
      have hcl : c < ts.len := by omega
      show _ < ‖dftC n (fun r => if c < ts.len then (col w c).get r else 0) ((0 : ℕ) : ℤ)‖ ^ 2
      simp only [if_pos hcl]
      rw [dft_specCol hn0 w (ts.get c)]
      have hl : reassignLags n 0 N (ts.get c) = {0} := by
        have := half_ge hn
        rw [reassignLags_eq, hget]
        unfold rLo rHi
        ext τ
        rw [Finset.mem_Icc, Finset.mem_singleton]
        omega
      unfold reassignSum reassignMass
      rw [← hNN, hl, Finset.sum_singleton, Finset.sum_singleton, hget]
      have hz : (((0 : ℕ) : ℤ) + 0).toNat = 0 := rfl
      rw [hz, norm_div, norm_mul, norm_mul, norm_expi, mul_one, Complex.norm_real, Complex.norm_real, Real.norm_eq_abs,
        Real.norm_eq_abs, Real.sqrt_sq_eq_abs, abs_abs, mul_div_cancel_right₀ _ (abs_ne_zero.2 hw0)]
      simpa using hlt

/-- The default call of the reassigned spectrogram raises `ValueError` on every non-zero signal of two to seven samples. -/
theorem C63_default_short (x : Vec ℂ) (h2 : 2 ≤ x.len) (h7 : x.len ≤ 7) (hx : ∃ i < x.len, x.get i ≠ 0) :
    Reassigned.spectrogram x none none none = .error .valueError := by
  have hd : defaultLength x.len = 1 := by unfold defaultLength; omega
  refine spectrogram_short (n := x.len) (w := hamming 1) rfl ?_ h2 rfl ?_ hx
  · rw [hd]; rfl
  · simp [hamming]

/-! ## Concrete cases -/

/-- Given instants two of whose steps differ, and given windows of even length (the empty one included), are refused with `ValueError`, whatever the
signal, the bin count and the other argument. -/
theorem C63_rejects (x : Vec ℂ) (n? : Option ℕ) :
    (∀ (ts : Vec ℤ) (w? : Option (Vec ℝ)) (i j : ℕ), i + 1 < ts.len → j + 1 < ts.len → ts.get (i + 1) - ts.get i ≠ ts.get (j + 1) - ts.get j →
      Reassigned.spectrogram x (some ts) n? w? = .error .valueError) ∧
    ∀ (ts? : Option (Vec ℤ)) (w : Vec ℝ), w.len % 2 = 0 → Reassigned.spectrogram x ts? n? (some w) = .error .valueError := by
  constructor
  · intro ts w? i j hi hj h
    have hc : (some ts : Option (Vec ℤ)) ≠ none ∧ ¬ ∀ i < ts.diff.len, ∀ j < ts.diff.len, ts.diff.get i = ts.diff.get j :=
      ⟨by simp, fun h' => h (h' i (by simp only [Vec.diff]; omega) j (by simp only [Vec.diff]; omega))⟩
    unfold Reassigned.spectrogram
    simp only [Option.getD_some]
    rw [if_pos hc]
  · intro ts? w hw
    unfold Reassigned.spectrogram
    simp only [Option.getD_some]
    rw [if_pos hw, ite_self]

/-- A Hann-like window of three samples. -/
def hann3 : Vec ℝ := ⟨3, fun i => if i = 1 then 2 else 1⟩

/-- An impulse at sample 2 of 6, window of three samples, 8 bins: everything above the threshold is sent to column 2. -/
example : ∃ tfr rtfr v, Reassigned.spectrogram ⟨6, fun i => if i = 2 then (3 : ℂ) else 0⟩ none (some 8) (some hann3) = .ok (tfr, rtfr, v) ∧
    (∀ k < 8, ∀ c < 6, 1e-6 * (‖(3 : ℂ)‖ ^ 2 / (6 : ℕ)) < tfr.get k c →
      v.get k c = some (((((k : ℤ) - 1) % (8 : ℕ) : ℤ) : ℂ) + Complex.I * (((2 : ℕ) : ℂ) + 1))) ∧
    (∀ k < 8, ∀ c < 6, tfr.get k c ≤ 1e-6 * (‖(3 : ℂ)‖ ^ 2 / (6 : ℕ)) → v.get k c = none) ∧
    (∀ r < 8, ∀ q < 6, q ≠ 2 → rtfr.get r q ≤ 1e-6 * (‖(3 : ℂ)‖ ^ 2 / (6 : ℕ))) :=
  C63_impulse 6 2 8 1 3 hann3 (by norm_num) (by norm_num) rfl (le_refl 1) (by norm_num [hann3])

/-- The total is kept for this call too, and the call does return. -/
example : ∃ tfr rtfr v, Reassigned.spectrogram ⟨6, fun i => if i = 2 then (3 : ℂ) else 0⟩ none (some 8) (some hann3) = .ok (tfr, rtfr, v) ∧
    ∑ r ∈ range rtfr.rows, ∑ c ∈ range rtfr.cols, rtfr.get r c = ∑ r ∈ range tfr.rows, ∑ c ∈ range tfr.cols, tfr.get r c := by
  obtain ⟨tfr, rtfr, v, h, -⟩ := C63_impulse 6 2 8 1 3 hann3 (by norm_num) (by norm_num) rfl (le_refl 1) (by norm_num [hann3])
  exact ⟨tfr, rtfr, v, h, (C54_spectrogram_total _ _ _ _ _ _ _ h).2.2.2.2.2⟩

/-- A tone in bin 3 of 8 over 12 samples: the energy of bin 3 at time 5 is put in bin 2, column 4. -/
example : ∃ tfr rtfr v, Reassigned.spectrogram ⟨12, fun m => expi (2 * Real.pi * ((3 : ℕ) * m / (8 : ℕ)))⟩ (some (arange 0 (12 : ℕ))) (some 8) (some hann3)
      = .ok (tfr, rtfr, v) ∧ 0 < tfr.get 3 5 ∧ tfr.get 3 5 ≤ rtfr.get 2 4 := by
  have hR : ((1 : ℕ) : ℤ) ≤ roundEven (((8 : ℕ) : ℝ) / 2) - 1 := by rw [roundEven_half]; norm_num
  have hsum : hann3.sum = 4 := by norm_num [hann3, Vec.sum, Finset.sum_range_succ]
  obtain ⟨tfr, rtfr, v, h, h1, -, h2⟩ := C63_tone_misplaced 12 8 1 3 5 (arange 0 (12 : ℕ)) hann3 (by norm_num) (by norm_num) rfl (le_refl 1) hR
    (by intro k hk; have : k < 3 := hk; interval_cases k <;> simp [hann3]) (by norm_num [hann3])
    (by rw [hsum]; norm_num [hann3, Finset.sum_range_succ]) (arange_regular 12) 0 11 (arange_range (by norm_num)) (le_refl 0) (by norm_num)
    (by simp [arange]) (by simp [arange]) (by simp [arange])
  exact ⟨tfr, rtfr, v, h, h1, by simpa using h2⟩

/-- Four samples: the default call raises. -/
example : Reassigned.spectrogram ⟨4, fun i => (i : ℂ)⟩ none none none = .error .valueError :=
  C63_default_short _ (by norm_num) (by norm_num) ⟨1, by norm_num, by simp⟩

/-- The instants 0, 1, 3 and a window of four samples are refused. -/
example : Reassigned.spectrogram ⟨8, fun i => (i : ℂ)⟩ (some ⟨3, fun i => if i = 2 then 3 else i⟩) none none = .error .valueError ∧
    Reassigned.spectrogram ⟨8, fun i => (i : ℂ)⟩ none none (some ⟨4, fun _ => 1⟩) = .error .valueError :=
  ⟨(C63_rejects _ none).1 _ _ 0 1 (by norm_num) (by norm_num) (by norm_num), (C63_rejects _ none).2 _ _ (by norm_num)⟩

end Tftb
