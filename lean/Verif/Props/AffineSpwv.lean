import Verif.Lemmas.AffineSpwv

/-! # The affine smoothed pseudo Wigner distribution -/

namespace Tftb.AffSpwv

open Tftb Spec Props AffDist Finset

/-- Every step of a successful call. -/
theorem spwv_inv {x : Vec ℂ} {ts : Option (Vec ℤ)} {K : String} {nh0 : Option Half} {ng0 : ℝ} {fmin fmax : Option ℝ} {nv : Option ℕ} {R : Mat ℝ} {t : Vec ℤ} {f : Vec ℝ}
    (h : smoothedPseudoWigner x ts K nh0 ng0 fmin fmax nv = .ok (R, t, f)) :
    ∃ (a b : ℝ) (k : ℕ) (wt M l : Mat ℂ) (u : Vec ℝ) (R0 : Mat ℝ),
      let nh := nh0.getD (.float (Real.sqrt x.len))
      let mu := halfCount nh b (Real.log (b / a))
      let q : ℝ := (b / a) ^ (1 / ((k : ℝ) - 1))
      let A : ℕ → ℝ := fun k => Real.exp ((((k : ℝ) + 1) - 1) * Real.log q)
      fmin = some a ∧ fmax = some b ∧ voiceCount (2 * mu.toInt - 1) a b nv = .ok k ∧ k ≠ 1 ∧
      waveletCoeffs ((x.map Complex.re).map (fun v : ℝ => (v : ℂ))) a b k nh.val = .ok wt ∧ scaled wt k (ts.getD (arange 0 x.len)).len A = .ok M ∧
      uAxis (Real.log (b / a)) mu = .ok u ∧ lambdaRows K k q u = .ok l ∧
      columns l M (smoothing ng0 b (Real.log (b / a)) mu.toInt.toNat) ⟨k, fun i => a * A i⟩ k mu.toInt.toNat (ts.getD (arange 0 x.len)).len = .ok R0 ∧
      normalise R0 (x.map Complex.re) (ts.getD (arange 0 x.len)) ⟨k, fun i => a * A i⟩ a b k = .ok R ∧
      t = ts.getD (arange 0 x.len) ∧ f = ⟨k, fun i => a * A i⟩ := by
  unfold smoothedPseudoWigner at h
  simp only at h
  obtain ⟨⟨a, b⟩, e0, h⟩ := bind_eq_ok.1 h
  have hb : fmin = some a ∧ fmax = some b := by
    have hband : ∀ (s : Vec ℝ) (ts : Vec ℤ), band s ts ≠ (.ok (a, b) : Py (ℝ × ℝ)) := fun s ts hh => by
      unfold band at hh
      obtain ⟨_, _, hh⟩ := bind_eq_ok.1 hh
      obtain ⟨_, _, hh⟩ := bind_eq_ok.1 hh
      obtain ⟨_, _, hh⟩ := bind_eq_ok.1 hh
      simp only at hh
      split at hh <;> cases hh
    rcases fmin with _ | a' <;> rcases fmax with _ | b'
    · exact absurd e0 (hband _ _)
    · exact absurd e0 (hband _ _)
    · exact absurd e0 (hband _ _)
    · injection e0 with e0
      injection e0 with e1 e2
      exact ⟨by rw [e1], by rw [e2]⟩
  simp only at h
  split at h
  · cases h
  split at h
  · unfold badRatio at h
    obtain ⟨_, -, h⟩ := bind_eq_ok.1 h
    split at h
    · cases h
    · obtain ⟨_, -, h⟩ := bind_eq_ok.1 h
      cases h
  obtain ⟨k, e1, h⟩ := bind_eq_ok.1 h
  split at h
  · cases h
  rename_i hk
  obtain ⟨wt, e2, h⟩ := bind_eq_ok.1 h
  obtain ⟨M, e3, h⟩ := bind_eq_ok.1 h
  obtain ⟨u, e4, h⟩ := bind_eq_ok.1 h
  obtain ⟨l, e5, h⟩ := bind_eq_ok.1 h
  obtain ⟨R0, e6, h⟩ := bind_eq_ok.1 h
  obtain ⟨R1, e7, h⟩ := bind_eq_ok.1 h
  simp only [Except.ok.injEq, Prod.mk.injEq] at h
  obtain ⟨rfl, rfl, rfl⟩ := h
  exact ⟨a, b, k, wt, M, l, u, R0, hb.1, hb.2, e1, hk, e2, e3, e4, e5, e6, e7, rfl, rfl⟩

theorem columns_inv {l M : Mat ℂ} {G geo : Vec ℝ} {nv mu tcol : ℕ} {R : Mat ℝ} (h : columns l M G geo nv mu tcol = .ok R) :
    R.rows = nv ∧ R.cols = tcol ∧ (∃ s : ℕ → ℝ, ∀ i t, R.get i t = s t * geo.get i) ∧ (0 < tcol → mu = nv) := by
  obtain ⟨h1, h2, h3, h4⟩ := foldlM_range_inv (σ := Mat ℝ) (fun k R => R.rows = nv ∧ R.cols = tcol ∧ (∃ s : ℕ → ℝ, ∀ i t, R.get i t = s t * geo.get i) ∧ (0 < k → mu = nv))
    ⟨rfl, rfl, ⟨fun _ => 0, fun i t => (zero_mul _).symm⟩, fun h => absurd h (by omega)⟩ h
    (fun k hk A B ⟨h1, h2, ⟨s, hs⟩, h4⟩ e => by
      obtain ⟨v, e1, e2⟩ := bind_eq_ok.1 e
      injection e2 with e2
      subst e2
      refine ⟨h1, h2, ⟨fun t => if t = k then v else s t, fun i t => ?_⟩, fun _ => ?_⟩
      · show (if t = k then v * geo.get i else A.get i t) = (if t = k then v else s t) * geo.get i
        by_cases htk : t = k
        · rw [if_pos htk, if_pos htk]
        · rw [if_neg htk, if_neg htk, hs]
      · unfold total at e1
        obtain ⟨_, _, e1⟩ := bind_eq_ok.1 e1
        by_contra hne
        simp only at e1
        rw [if_pos hne] at e1
        cases e1)
  exact ⟨h1, h2, h3, fun h => h4 h⟩

/-- **Rank one.**  Whatever the arguments, all columns of a returned representation are proportional to the frequency axis: at any instant the
values at two frequencies are in the ratio of the frequencies. -/
theorem C70_rank_one (x : Vec ℂ) (ts : Option (Vec ℤ)) (K : String) (nh0 : Option Half) (ng0 : ℝ) (fmin fmax : Option ℝ) (nv : Option ℕ) (R : Mat ℝ) (t : Vec ℤ) (f : Vec ℝ)
    (h : smoothedPseudoWigner x ts K nh0 ng0 fmin fmax nv = .ok (R, t, f)) (i j c : ℕ) : R.get i c * f.get j = R.get j c * f.get i := by
  obtain ⟨a, b, k, wt, M, l, u, R0, -, -, -, -, -, -, -, -, e6, e7, -, hf⟩ := spwv_inv h
  obtain ⟨-, -, ⟨s, hs⟩, -⟩ := columns_inv e6
  unfold normalise at e7
  obtain ⟨_, _, e7⟩ := bind_eq_ok.1 e7
  obtain ⟨_, _, e7⟩ := bind_eq_ok.1 e7
  simp only at e7
  obtain ⟨_, _, e7⟩ := bind_eq_ok.1 e7
  split at e7
  · cases e7
  injection e7 with e7
  subst e7
  simp only [Mat.map, hs, hf]
  ring

theorem integrate2d_axis {M : Mat ℝ} {x : Vec ℝ} {y : Option (Vec ℝ)} {v : ℝ} (h : ProcUtils.integrate2d M (some x) y = .ok v) : 2 ≤ x.len := by
  unfold ProcUtils.integrate2d at h
  simp only [Option.getD_some] at h
  split at h
  · cases h
  obtain ⟨_, e, _⟩ := bind_eq_ok.1 h
  unfold Vec.item at e
  split at e
  · rename_i hi; unfold IdxOk at hi; omega
  · cases e

theorem wavelet_inv {x : Vec ℂ} {a b : ℝ} {nv : ℕ} {w : ℝ} {wt : Mat ℂ} (h : waveletCoeffs x a b nv w = .ok wt) (hw : 0 < w) :
    2 ≤ x.len ∧ wt.cols = x.len ∧ nv ≤ x.len ∧ (3 ≤ nv → nv = x.len) := by
  unfold waveletCoeffs at h
  simp only at h
  obtain ⟨⟨a', b', _, _⟩, _, h⟩ := bind_eq_ok.1 h
  obtain ⟨_, _, h⟩ := bind_eq_ok.1 h
  obtain ⟨z, _, h⟩ := bind_eq_ok.1 h
  obtain ⟨-, -, h⟩ := bind_eq_ok.1 h
  obtain ⟨f, ef, h⟩ := bind_eq_ok.1 h
  obtain ⟨A, _, h⟩ := bind_eq_ok.1 h
  obtain ⟨⟨wt', T⟩, e, h⟩ := bind_eq_ok.1 h
  obtain ⟨_, _, h⟩ := bind_eq_ok.1 h
  obtain ⟨_, ei, h⟩ := bind_eq_ok.1 h
  injection h with h
  subst h
  have hx : 2 ≤ x.len := by
    have := integrate2d_axis ei
    simp only [Vec.map_len] at this
    unfold arange at this
    simp only at this
    omega
  unfold Aff.transform at e
  rw [if_pos hw] at e
  have hset : ∀ {M M' : Mat ℂ} {r : ℕ} {v : Vec ℂ}, Aff.setRow M r v = .ok M' → M'.rows = M.rows ∧ M'.cols = M.cols ∧ r < M.rows := by
    intro M M' r v hs
    unfold Aff.setRow at hs
    split at hs
    · cases hs
    split at hs
    · injection hs with hs; subst hs; exact ⟨rfl, rfl, by omega⟩
    split at hs
    · injection hs with hs; subst hs; exact ⟨rfl, rfl, by omega⟩
    · cases hs
  obtain ⟨h1, h2, h3, h4⟩ := foldlM_range_inv (σ := Mat ℂ × Mat ℂ) (fun k s => s.1.cols = x.len ∧ s.2.rows = x.len ∧ s.2.cols = x.len ∧ k ≤ x.len)
    ⟨rfl, rfl, rfl, by omega⟩ e (fun k hk A B ⟨h1, h2, h3, h4⟩ e => by
      obtain ⟨⟨_, _⟩, _, e⟩ := bind_eq_ok.1 e
      obtain ⟨_, ea, e⟩ := bind_eq_ok.1 e
      obtain ⟨_, eb, e⟩ := bind_eq_ok.1 e
      injection e with e
      subst e
      have := hset ea
      have := hset eb
      simp only
      omega)
  refine ⟨hx, h1, h4, fun h3' => ?_⟩
  have hf : f.len = nv := by
    unfold Aff.logspace at ef
    split at ef
    · injection ef with ef; subst ef; rfl
    · cases ef
  by_contra hne
  rw [integrate2d_rows_error _ _ _ (by show T.cols ≠ 0; simp only at h3; omega) (by simp [arange]; omega) (by omega) (by show f.len < T.rows; simp only at h2; omega)] at ei
  cases ei

/-- **What it needs.**  A call only returns when: both band edges are given (the default band always raises); the band is not narrow,
`0 ≤ fmax ln (fmax/fmin) < 1/2` being excluded; `nh0` is given as a Python integer (its default is a float), which equals the number of voices and is either `2`
or the number of samples; the kernel is "bertrand"; there are at least two samples and as many instants as samples. -/
theorem C70_needs (x : Vec ℂ) (ts : Option (Vec ℤ)) (K : String) (nh0 : Option Half) (ng0 : ℝ) (fmin fmax : Option ℝ) (nv : Option ℕ) (R : Mat ℝ) (t : Vec ℤ) (f : Vec ℝ)
    (h : smoothedPseudoWigner x ts K nh0 ng0 fmin fmax nv = .ok (R, t, f)) :
    ∃ (a b : ℝ) (n : ℕ), fmin = some a ∧ fmax = some b ∧ (b * Real.log (b / a) < 0 ∨ 1 / 2 ≤ b * Real.log (b / a)) ∧ nh0 = some (.int n) ∧
      (n = x.len ∨ n = 2) ∧ (∀ k, nv = some k → k = n) ∧ K = "bertrand" ∧ 2 ≤ x.len ∧ t.len = x.len ∧ R.rows = n ∧ R.cols = x.len ∧ f.len = n := by
  obtain ⟨a, b, k, wt, M, l, u, R0, ha, hb, e1, hk, e2, e3, e4, e5, e6, e7, ht, hf⟩ := spwv_inv h
  set nh := nh0.getD (.float (Real.sqrt x.len)) with hnh
  obtain ⟨j, hmu, hju⟩ : ∃ j : ℤ, halfCount nh b (Real.log (b / a)) = .int j ∧ 1 ≤ j ∧ u.len = 2 * j.toNat ∧ u.get j.toNat = 0 := by
    cases hc : halfCount nh b (Real.log (b / a)) with
    | float r => rw [hc] at e4; cases e4
    | int j =>
      refine ⟨j, rfl, ?_⟩
      rw [hc] at e4
      unfold uAxis at e4
      simp only at e4
      split at e4
      · cases e4
      rename_i hj
      unfold Vec.setItem at e4
      split at e4
      · rename_i hi
        have hlen : ((linspace (-Real.log (b / a)) (Real.log (b / a)) (2 * j + 1).toNat).slice 0 (2 * j)).len = 2 * j.toNat := by
          unfold Vec.slice Vec.clampIdx linspace
          simp only
          rw [if_neg (by omega), if_neg (by omega)]
          omega
        unfold IdxOk at hi
        rw [hlen] at hi e4
        injection e4 with e4
        subst e4
        refine ⟨by omega, rfl, ?_⟩
        have : wrapIdx (2 * j.toNat) j = j.toNat := by unfold wrapIdx; rw [if_neg (by omega)]
        simp only [this]
        simp
      · cases e4
  obtain ⟨hj, hul, hu0⟩ := hju
  rw [hmu] at e6
  obtain ⟨hn0, hbu⟩ : nh = .int j ∧ (b * Real.log (b / a) < 0 ∨ 1 / 2 ≤ b * Real.log (b / a)) := by
    unfold halfCount at hmu
    by_cases hz : b * Real.log (b / a) = 0
    · rw [if_pos hz] at hmu
      by_cases h0 : 0 < nh.val
      · rw [if_pos h0] at hmu; cases hmu
      · rw [if_neg h0] at hmu
        cases hc : nh with
        | float r => rw [hc] at hmu; cases hmu
        | int i =>
          rw [hc] at hmu h0
          injection hmu with hmu
          subst hmu
          exact absurd (show (0 : ℝ) < i by exact_mod_cast (by omega : 0 < i)) h0
    · rw [if_neg hz] at hmu
      by_cases hlt : 2 * nh.val < nh.val / (b * Real.log (b / a))
      · simp only [if_pos hlt] at hmu; cases hmu
      · simp only [if_neg hlt] at hmu
        cases hc : nh with
        | float r => rw [hc] at hmu; cases hmu
        | int i =>
          rw [hc] at hmu hlt
          injection hmu with hmu
          subst hmu
          refine ⟨rfl, ?_⟩
          rcases lt_or_gt_of_ne hz with h' | h'
          · exact Or.inl h'
          · right
            have hi : (0 : ℝ) < i := by exact_mod_cast (by omega : 0 < i)
            rw [not_lt, div_le_iff₀ h'] at hlt
            simp only [Half.val] at hlt
            nlinarith
  have hw : 0 < nh.val := by rw [hn0]; show (0 : ℝ) < j; exact_mod_cast (by omega : 0 < j)
  obtain ⟨hx, hwc, hkn, hk3⟩ := wavelet_inv e2 hw
  simp only [Vec.map_len] at hx hwc hkn hk3
  have hT : 2 ≤ (ts.getD (arange 0 x.len)).len ∧ R.rows = R0.rows ∧ R.cols = R0.cols := by
    unfold normalise at e7
    obtain ⟨_, _, e7⟩ := bind_eq_ok.1 e7
    obtain ⟨_, _, e7⟩ := bind_eq_ok.1 e7
    simp only at e7
    obtain ⟨_, ei, e7⟩ := bind_eq_ok.1 e7
    split at e7
    · cases e7
    injection e7 with e7
    subst e7
    exact ⟨integrate2d_axis ei, rfl, rfl⟩
  obtain ⟨hr, hc, -, hjk⟩ := columns_inv e6
  have hjk : j.toNat = k := hjk (by omega)
  have hK : K = "bertrand" := by
    have := foldlM_range_inv (σ := Mat ℂ) (fun i s => j.toNat < i → ∃ v, lambdak (u.get j.toNat) K = .ok v) (fun hh => absurd hh (by omega)) e5
      (fun i hi A B hA e hh => by
        obtain ⟨v, ev, -⟩ := bind_eq_ok.1 e
        unfold lambdaRow at ev
        simp only at ev
        obtain ⟨y, ey, -⟩ := bind_eq_ok.1 ev
        by_cases hij : i = j.toNat
        · subst hij; exact ⟨y, ey⟩
        · exact hA (by omega))
    obtain ⟨v, hv⟩ := this (by omega)
    rw [hu0] at hv
    by_contra hne
    rcases lambdak_cases hv with ⟨h1, -⟩ | ⟨-, h1, -⟩ | ⟨-, h1, -⟩ | ⟨-, h1, -⟩
    · exact hne h1
    all_goals exact h1 rfl
  have htl : (ts.getD (arange 0 x.len)).len = x.len := by
    have := foldlM_range_inv (σ := Mat ℂ) (fun i s => s.cols = (ts.getD (arange 0 x.len)).len ∧ (0 < i → (ts.getD (arange 0 x.len)).len = x.len)) ⟨rfl, fun hh => absurd hh (by omega)⟩ e3
      (fun i hi A B ⟨hA, _⟩ e => by
        unfold Aff.setRow at e
        simp only at e
        split at e
        · cases e
        split at e
        · injection e with e; subst e; refine ⟨hA, fun _ => by omega⟩
        split at e
        · omega
        · cases e)
    exact this.2 (by omega)
  have hnh0 : nh0 = some (.int k) := by
    cases h0 : nh0 with
    | none => rw [hnh, h0] at hn0; cases hn0
    | some v =>
      rw [hnh, h0] at hn0
      simp only [Option.getD_some] at hn0
      rw [hn0]
      congr 2
      omega
  refine ⟨a, b, k, ha, hb, hbu, hnh0, ?_, ?_, hK, hx, by rw [ht, htl], by rw [hT.2.1, hr], by rw [hT.2.2, hc, htl], by rw [hf]⟩
  · by_cases h3 : 3 ≤ k
    · exact Or.inl (hk3 h3)
    · right; omega
  · intro k' hk'
    rw [hk'] at e1
    unfold voiceCount at e1
    simp only at e1
    injection e1

/-- In particular the default arguments never give a representation. -/
theorem C70_defaults (x : Vec ℂ) (ts : Option (Vec ℤ)) (K : String) (nh0 : Option Half) (ng0 : ℝ) (fmin fmax : Option ℝ) (nv : Option ℕ)
    (h : fmin = none ∨ fmax = none ∨ nh0 = none ∨ (∃ r, nh0 = some (.float r)) ∨ K ≠ "bertrand") :
    ∃ e, smoothedPseudoWigner x ts K nh0 ng0 fmin fmax nv = .error e := by
  cases hr : smoothedPseudoWigner x ts K nh0 ng0 fmin fmax nv with
  | error e => exact ⟨e, rfl⟩
  | ok r =>
    obtain ⟨R, t, f⟩ := r
    obtain ⟨a, b, n, ha, hb, -, hn, -, -, hK, -⟩ := C70_needs _ _ _ _ _ _ _ _ _ _ _ hr
    rcases h with h | h | h | ⟨r, h⟩ | h
    · rw [h] at ha; cases ha
    · rw [h] at hb; cases hb
    · rw [h] at hn; cases hn
    · rw [h] at hn; cases hn
    · exact absurd hK h

/-- The error without a band: `TypeError` from two samples on, `ValueError` below. -/
theorem C70_default_band (x : Vec ℂ) (K : String) (nh0 : Option Half) (ng0 : ℝ) (fmin fmax : Option ℝ) (nv : Option ℕ)
    (h : fmin = none ∨ fmax = none) :
    smoothedPseudoWigner x none K nh0 ng0 fmin fmax nv = .error (if 2 ≤ x.len then .typeError else .valueError) := by
  have hb : ∀ {α : Type}, (band (x.map Complex.re) (arange 0 x.len) : Py α)
      = .error (if 2 ≤ x.len then .typeError else .valueError) := by
    intro α
    unfold band
    rcases Nat.eq_zero_or_pos x.len with h0 | h0
    · rw [h0, if_neg (by norm_num)]
      unfold Aff.zmin
      rw [dif_pos (by rw [arange_len]; rfl)]
      rfl
    · rw [zmin_arange h0, ok_bind, zmax_arange h0, ok_bind]
      have hs : (x.map Complex.re).slice 0 ((x.len : ℤ) - 1 + 1) = x.map Complex.re := slice_full (x.map Complex.re)
      rw [hs, fft_ok (by show x.len ≠ 0; omega), ok_bind]
      simp only
      have hl : ((fftshift (x.map Complex.re)).map (fun v : ℝ => (v : ℂ))).len = x.len := rfl
      rw [hl, halfBins_cast]
      have hslice : ((⟨x.len, fun k => dftC x.len ((fftshift (x.map Complex.re)).map (fun v : ℝ => (v : ℂ))).get k⟩ : Vec ℂ).slice 0
          ((halfBins x.len : ℕ) : ℤ)).len = halfBins x.len := by
        unfold Vec.slice Vec.clampIdx
        simp only [halfBins]
        split <;> split <;> omega
      rw [hslice]
      by_cases h2 : 2 ≤ x.len
      · rw [if_pos h2, if_neg (by unfold halfBins; split <;> omega)]
      · rw [if_neg h2, if_pos (by unfold halfBins; split <;> omega)]
  have he : edges (x.map Complex.re) (arange 0 x.len) fmin fmax = .error (if 2 ≤ x.len then .typeError else .valueError) := by
    cases fmin with
    | none => exact hb
    | some a =>
      cases fmax with
      | none => exact hb
      | some b => rcases h with h | h <;> cases h
  unfold smoothedPseudoWigner
  simp only [Option.getD_none]
  rw [he]
  rfl

/-- Bands that are refused: a zero lower edge or edges of opposite value divide by zero.  With edges whose ratio is not positive, nothing is ever returned:
without a number of voices, or with two or more and a positive `nh0`, `ValueError`; with two or more and `nh0 = 0`, `AssertionError`; with one voice
`ZeroDivisionError`, as for no voice and `fmax = 0`. -/
theorem C70_bad_band (x : Vec ℂ) (ts : Option (Vec ℤ)) (K : String) (nh0 : Option Half) (ng0 a b : ℝ) (nv : Option ℕ) :
    (a = 0 ∨ a + b = 0 → smoothedPseudoWigner x ts K nh0 ng0 (some a) (some b) nv = .error .zeroDivisionError) ∧
    (a ≠ 0 → a + b ≠ 0 → b * a ≤ 0 →
      (∃ e, smoothedPseudoWigner x ts K nh0 ng0 (some a) (some b) nv = .error e) ∧
      (nv = none → smoothedPseudoWigner x ts K nh0 ng0 (some a) (some b) nv = .error .valueError) ∧
      (nv = some 1 ∨ nv = some 0 ∧ b = 0 → smoothedPseudoWigner x ts K nh0 ng0 (some a) (some b) nv = .error .zeroDivisionError) ∧
      (1 ≤ x.len → ∀ k, 2 ≤ k → nv = some k →
        ((∀ h, nh0 = some h → 0 < h.val) → smoothedPseudoWigner x ts K nh0 ng0 (some a) (some b) nv = .error .valueError) ∧
        (∀ h, nh0 = some h → h.val = 0 → smoothedPseudoWigner x ts K nh0 ng0 (some a) (some b) nv = .error .assertionError))) := by
  constructor
  · intro h
    unfold smoothedPseudoWigner
    simp only [edges, ok_bind]
    rw [if_pos (by tauto)]
  · intro h0 h1 h2
    have hle : b / a ≤ 0 := by
      have ha : 0 < a ^ 2 := by positivity
      have : b / a = b * a / a ^ 2 := by field_simp
      rw [this]
      exact div_nonpos_of_nonpos_of_nonneg h2 ha.le
    have hform : smoothedPseudoWigner x ts K nh0 ng0 (some a) (some b) nv = badRatio (x.map Complex.re) (nh0.getD (.float (Real.sqrt x.len))) a b nv := by
      unfold smoothedPseudoWigner
      simp only [edges, ok_bind]
      rw [if_neg (by tauto), if_pos hle]
    rw [hform]
    refine ⟨?_, fun h => ?_, fun h => ?_, fun hx k hk hnv => ?_⟩
    · unfold badRatio
      cases voiceCount (2 * (nh0.getD (.float (Real.sqrt x.len))).rounded.toInt - 1) a b nv with
      | error e => exact ⟨e, rfl⟩
      | ok k =>
        rw [ok_bind]
        split
        · exact ⟨_, rfl⟩
        · cases waveletCoeffs ((x.map Complex.re).map (fun v : ℝ => (v : ℂ))) a b k (nh0.getD (.float (Real.sqrt x.len))).val with
          | error e => exact ⟨e, rfl⟩
          | ok w => exact ⟨_, rfl⟩
    · have hab : a ≠ b := by
        rintro rfl
        have : 0 < a * a := mul_self_pos.2 h0
        linarith
      have hs1 : (a + b) / 2 ≠ 0 := div_ne_zero h1 two_ne_zero
      have e1 : 1 - (b - a) / ((a + b) / 2) / 2 = 2 * a / (a + b) := by field_simp; ring
      have e2 : 1 + (b - a) / ((a + b) / 2) / 2 = 2 * b / (a + b) := by field_simp; ring
      have e3 : (2 * b / (a + b)) / (2 * a / (a + b)) = b / a := by field_simp
      unfold badRatio voiceCount WideBand.voiceCount
      rw [h]
      simp only [true_and]
      rw [e1, e2, e3, if_neg (by
        push Not
        exact ⟨h1, div_ne_zero (sub_ne_zero.2 (Ne.symm hab)) hs1, div_ne_zero (mul_ne_zero two_ne_zero h0) h1⟩), if_pos (Or.inr (Or.inr (Or.inr hle)))]
      rfl
    · unfold badRatio voiceCount
      rcases h with h | ⟨h, hb⟩
      · rw [h]
        simp only [ok_bind, true_or, if_true]
      · rw [h]
        simp only [ok_bind, true_and, hb, or_true, if_true]
    · set y : Vec ℂ := (x.map Complex.re).map (fun v : ℝ => (v : ℂ)) with hy
      obtain ⟨z, hz, -⟩ := hilbert_analytic (x := centredReal y) (by show x.len ≠ 0; omega)
      have hmean : (y.map Complex.re).mean = .ok ((∑ j ∈ Finset.range y.len, (y.get j).re) / y.len) := by
        unfold Vec.mean; rw [if_neg (by show x.len ≠ 0; omega)]; rfl
      have hc : (y.map Complex.re).map (fun t => t - (∑ j ∈ Finset.range y.len, (y.get j).re) / y.len) = centredReal y := rfl
      have hgo : ∀ w e, Aff.nanChecks a b w k = .error e → waveletCoeffs y a b k w = .error e := fun w e he => by
        unfold waveletCoeffs
        simp only
        rw [init_given y _ h1, ok_bind]
        simp only
        rw [hmean, ok_bind, hc, hz, ok_bind, he]
        rfl
      have hfin : ∀ w e, w = (nh0.getD (.float (Real.sqrt x.len))).val → Aff.nanChecks a b w k = .error e →
          (badRatio (x.map Complex.re) (nh0.getD (.float (Real.sqrt x.len))) a b nv : Py (Mat ℝ × Vec ℤ × Vec ℝ)) = .error e := fun w e hw he => by
        unfold badRatio voiceCount
        rw [hnv]
        simp only [ok_bind]
        rw [if_neg (by omega), ← hw, ← hy, hgo w e he]
        rfl
      refine ⟨fun hpos => ?_, fun h hh hv => ?_⟩
      · have hw : 0 < (nh0.getD (.float (Real.sqrt x.len))).val := by
          cases nh0 with
          | some h => exact hpos h rfl
          | none => exact Real.sqrt_pos.2 (by exact_mod_cast (by omega : 0 < x.len))
        exact hfin _ _ rfl (by unfold Aff.nanChecks; rw [if_neg h0, if_pos ⟨by omega, hw, hle⟩])
      · have hw : (nh0.getD (.float (Real.sqrt x.len))).val = 0 := by rw [hh]; exact hv
        refine hfin 0 _ hw.symm ?_
        unfold Aff.nanChecks
        rw [if_neg h0, if_neg (by rintro ⟨-, h, -⟩; exact lt_irrefl _ h), if_pos ⟨by omega, rfl, by
          by_contra hcon
          push Not at hcon
          exact absurd h2 (not_le.2 (mul_pos hcon.2 hcon.1))⟩]

example : smoothedPseudoWigner ⟨4, fun i => (i : ℂ)⟩ none "bertrand" (some (.int 4)) 0 (some (-1 / 8)) (some (1 / 4)) (some 4) = .error .valueError :=
  (((C70_bad_band ⟨4, fun i => (i : ℂ)⟩ none "bertrand" (some (.int 4)) 0 (-1 / 8) (1 / 4) (some 4)).2 (by norm_num) (by norm_num) (by norm_num)).2.2.2
    (by norm_num) 4 (by norm_num) rfl).1 (fun h hh => by cases hh; simp [Half.val])

/-- One voice divides by zero, whatever the signal and the band. -/
theorem C70_one_voice (x : Vec ℂ) (ts : Option (Vec ℤ)) (K : String) (nh0 : Option Half) (ng0 a b : ℝ) :
    smoothedPseudoWigner x ts K nh0 ng0 (some a) (some b) (some 1) = .error .zeroDivisionError := by
  by_cases h : a = 0 ∨ a + b = 0
  · exact (C70_bad_band x ts K nh0 ng0 a b (some 1)).1 h
  push Not at h
  by_cases h2 : b * a ≤ 0
  · exact ((C70_bad_band x ts K nh0 ng0 a b (some 1)).2 h.1 h.2 h2).2.2.1 (Or.inl rfl)
  have hr : ¬ b / a ≤ 0 := by
    rw [div_nonpos_iff]
    rintro (⟨h3, h4⟩ | ⟨h3, h4⟩) <;> nlinarith
  unfold smoothedPseudoWigner
  simp only [edges, ok_bind]
  rw [if_neg (by push Not; exact ⟨h.2, h.1⟩), if_neg hr]
  simp only [voiceCount, ok_bind, if_true]

example : smoothedPseudoWigner ⟨4, fun i => (i : ℂ)⟩ none "bertrand" (some (.int 4)) 0 (some (1 / 8)) (some (1 / 4)) (some 1) = .error .zeroDivisionError :=
  C70_one_voice _ _ _ _ _ _ _

/-- The number of instants must be the number of samples: another one raises `ValueError`, whatever the other arguments (the wavelet transform
ignores the instants). -/
theorem C70_instants (x : Vec ℂ) (hn : 2 ≤ x.len) (ts : Vec ℤ) (hts : ts.len ≠ x.len) (K : String) (nh0 : Option Half)
    (hnh : ∀ k, nh0 = some k → 1 / 2 < k.val) (ng0 a b : ℝ) (h0 : 0 < a) (h1 : a < b) :
    smoothedPseudoWigner x (some ts) K nh0 ng0 (some a) (some b) (some x.len) = .error .valueError := by
  have hb0 : 0 < b := h0.trans h1
  have hr : 0 < b / a := div_pos hb0 h0
  set y : Vec ℂ := (x.map Complex.re).map (fun v : ℝ => (v : ℂ)) with hy
  obtain ⟨z, -, hz, -⟩ := hilbert_analytic (x := centredReal y) (by show x.len ≠ 0; omega)
  have hw : 1 / 2 < (nh0.getD (.float (Real.sqrt x.len))).val := by
    cases nh0 with
    | some k => exact hnh k rfl
    | none =>
      show 1 / 2 < Real.sqrt x.len
      have : (1 : ℝ) ≤ Real.sqrt x.len := by
        rw [Real.one_le_sqrt]
        exact_mod_cast (by omega : 1 ≤ x.len)
      linarith
  obtain ⟨wt, ew, hwr, hwc, -⟩ := waveletCoeffs_ok y hn (w := (nh0.getD (.float (Real.sqrt x.len))).val) h0 h1 hw z hz
  have hyl : y.len = x.len := rfl
  rw [hyl] at ew hwr hwc
  have hsc : ∀ A : ℕ → ℝ, scaled wt x.len ts.len A = .error .valueError := by
    intro A
    unfold scaled
    obtain ⟨m, hm⟩ : ∃ m, x.len = m + 1 := ⟨x.len - 1, by omega⟩
    have hrange : List.range x.len = 0 :: (List.range m).map Nat.succ := by rw [hm, List.range_succ_eq_map]
    have hstep : Aff.setRow (Mat.zeros x.len ts.len) 0 ⟨wt.cols, fun t => wt.get 0 t * (Real.sqrt (A (x.len - 0 - 1)) : ℂ)⟩
        = .error .valueError := by
      unfold Aff.setRow
      rw [if_neg (by show ¬ (x.len ≤ 0); omega), if_neg (by show ¬ (wt.cols = ts.len); omega), if_neg (by show ¬ (wt.cols = 1); omega)]
    rw [hrange, List.foldlM_cons, hstep]
    rfl
  unfold smoothedPseudoWigner
  simp only [edges, ok_bind, Option.getD_some]
  rw [if_neg (by push Not; exact ⟨by linarith, h0.ne'⟩), if_neg (by linarith)]
  simp only [voiceCount, ok_bind]
  rw [if_neg (by omega), ew, ok_bind, hsc]
  rfl

/-- As many voices and instants as samples, a band `0 < a < b`.  A float `nh0` (its default `sqrt(n)` is one), or a narrow band, for which half the number of dilations
is computed as a float, raises `TypeError`; an integer `nh0` that is not the number of samples raises `ValueError` from the product of the Mellin
transforms with the window. -/
theorem C70_dilations (x : Vec ℂ) (hn : 2 ≤ x.len) (ts : Option (Vec ℤ)) (hts : (ts.getD (arange 0 x.len)).len = x.len) (nh0 : Option Half)
    (hnh : ∀ k, nh0 = some k → 1 / 2 < k.val) (ng0 a b : ℝ) (h0 : 0 < a) (h1 : a < b) :
    (∀ K, (∀ k, nh0 ≠ some (.int k)) ∨ b * Real.log (b / a) < 1 / 2 → smoothedPseudoWigner x ts K nh0 ng0 (some a) (some b) (some x.len) = .error .typeError) ∧
    (∀ m : ℤ, nh0 = some (.int m) → m ≠ x.len → 1 / 2 ≤ b * Real.log (b / a) →
      smoothedPseudoWigner x ts "bertrand" nh0 ng0 (some a) (some b) (some x.len) = .error .valueError) := by
  have hb0 : 0 < b := h0.trans h1
  have hr : 0 < b / a := div_pos hb0 h0
  have hu : 0 < Real.log (b / a) := Real.log_pos ((one_lt_div h0).2 h1)
  have hbu : 0 < b * Real.log (b / a) := mul_pos hb0 hu
  set y : Vec ℂ := (x.map Complex.re).map (fun v : ℝ => (v : ℂ)) with hy
  obtain ⟨z, -, hz, -⟩ := hilbert_analytic (x := centredReal y) (by show x.len ≠ 0; omega)
  have hw : 1 / 2 < (nh0.getD (.float (Real.sqrt x.len))).val := by
    cases nh0 with
    | some k => exact hnh k rfl
    | none =>
      show 1 / 2 < Real.sqrt x.len
      have : (1 : ℝ) ≤ Real.sqrt x.len := by
        rw [Real.one_le_sqrt]
        exact_mod_cast (by omega : 1 ≤ x.len)
      linarith
  obtain ⟨wt, ew, hwr, hwc, -⟩ := waveletCoeffs_ok y hn (w := (nh0.getD (.float (Real.sqrt x.len))).val) h0 h1 hw z hz
  have hyl : y.len = x.len := rfl
  rw [hyl] at ew hwr hwc
  set q : ℝ := (b / a) ^ (1 / ((x.len : ℝ) - 1)) with hq
  have hsc := scaled_ok wt x.len (fun k => Real.exp ((((k : ℝ) + 1) - 1) * Real.log q))
  rw [hwc] at hsc
  constructor
  · intro K hK
    obtain ⟨r, hc⟩ : ∃ r, halfCount (nh0.getD (.float (Real.sqrt x.len))) b (Real.log (b / a)) = .float r := by
      unfold halfCount
      rw [if_neg hbu.ne']
      simp only
      by_cases hlt : 2 * (nh0.getD (.float (Real.sqrt x.len))).val < (nh0.getD (.float (Real.sqrt x.len))).val / (b * Real.log (b / a))
      · rw [if_pos hlt]
        exact ⟨_, rfl⟩
      · rw [if_neg hlt]
        rcases hK with hK | hK
        · cases nh0 with
          | none => exact ⟨_, rfl⟩
          | some k =>
            cases k with
            | int k => exact absurd rfl (hK k)
            | float r => exact ⟨_, rfl⟩
        · exfalso
          rw [not_lt, div_le_iff₀ hbu] at hlt
          nlinarith
    unfold smoothedPseudoWigner
    simp only [edges, ok_bind]
    rw [if_neg (by push Not; exact ⟨by linarith, h0.ne'⟩), if_neg (by linarith)]
    simp only [voiceCount, ok_bind]
    rw [if_neg (by omega), ew, ok_bind, hts, hsc, ok_bind, hc]
    rfl
  · intro m hm hmn hwide
    subst hm
    have hm1 : 0 < m := by
      have := hnh _ rfl
      simp only [Half.val] at this
      have : (0 : ℝ) < m := by linarith
      exact_mod_cast this
    obtain ⟨j, rfl⟩ : ∃ j : ℕ, m = j := ⟨m.toNat, by omega⟩
    have hcount : halfCount (.int j) b (Real.log (b / a)) = .int j := by
      unfold halfCount
      rw [if_neg hbu.ne']
      have hlt : ¬ (2 * (Half.int (j : ℤ)).val < (Half.int (j : ℤ)).val / (b * Real.log (b / a))) := by
        rw [not_lt, div_le_iff₀ hbu]
        show (((j : ℤ) : ℝ)) ≤ 2 * ((j : ℤ) : ℝ) * _
        rw [Int.cast_natCast]
        have : (0 : ℝ) < j := by exact_mod_cast hm1
        nlinarith
      simp only [if_neg hlt]
      rfl
    obtain ⟨u, eu, huv⟩ := uAxis_ok (Real.log (b / a)) (mu := j) (by omega)
    obtain ⟨l, el, hl⟩ := lambdaRows_ok x.len q ⟨2 * j, u⟩
    have htot : ∀ (S : Vec ℂ) (G : Vec ℝ), total l G x.len j S = .error .valueError := by
      intro S G
      unfold total ifft
      rw [if_neg (by show ¬ (S.len + x.len = 0); omega)]
      rw [ok_bind]
      simp only
      rw [if_pos (by intro h; exact hmn (by exact_mod_cast h))]
    have hcols : ∀ (M : Mat ℂ) (G geo : Vec ℝ), columns l M G geo x.len j x.len = .error .valueError := by
      intro M G geo
      unfold columns
      obtain ⟨m, hm⟩ : ∃ m, x.len = m + 1 := ⟨x.len - 1, by omega⟩
      have hrange : List.range x.len = 0 :: (List.range m).map Nat.succ := by rw [hm, List.range_succ_eq_map]
      rw [hrange, List.foldlM_cons, htot]
      rfl
    unfold smoothedPseudoWigner
    simp only [edges, ok_bind, Option.getD_some]
    rw [if_neg (by push Not; exact ⟨by linarith, h0.ne'⟩), if_neg (by linarith), hcount]
    simp only [voiceCount, Half.toInt, Int.toNat_natCast, ok_bind]
    rw [if_neg (by omega)]
    simp only [Option.getD_some] at ew
    rw [ew, ok_bind, hts, hsc, ok_bind, eu, ok_bind, el, ok_bind, hcols]
    rfl

/-- The documented default `nh0=None` raises `TypeError` even with the other arguments chosen well, and `nh0 = 3` raises `ValueError` for any other number of samples. -/
example (x : Vec ℂ) (hn : 2 ≤ x.len) (hn3 : x.len ≠ 3) :
    smoothedPseudoWigner x none "bertrand" none 0 (some (1 / 8)) (some 1) (some x.len) = .error .typeError ∧
    smoothedPseudoWigner x none "bertrand" (some (.int 3)) 0 (some (1 / 8)) (some 1) (some x.len) = .error .valueError := by
  have hl : (arange 0 x.len).len = x.len := by simp [arange]
  refine ⟨(C70_dilations x hn none hl none (fun _ h => by cases h) 0 (1 / 8) 1 (by norm_num) (by norm_num)).1 "bertrand" (.inl fun _ h => by cases h),
    (C70_dilations x hn none hl (some (.int 3)) (fun k h => by cases h; norm_num [Half.val]) 0 (1 / 8) 1 (by norm_num) (by norm_num)).2 3 rfl (by omega) ?_⟩
  rw [one_mul, show (1 : ℝ) / (1 / 8) = 8 by norm_num]
  have := Real.one_sub_inv_le_log_of_pos (show (0 : ℝ) < 8 by norm_num)
  norm_num at this ⊢
  linarith

/-- **Value.**  For an integer `nh0` and a number of voices both equal to the number of samples, as many regularly spaced instants, a band that is not
narrow: with `W_t(p)` the (delayed) Morlet coefficients of the analytic signal of the centred real part, `S_t` the sum over the dilations of the squared
Mellin convolutions weighted by the window, the entry at frequency `f_i` and instant `t` is `f_i S_t` times the constant that makes the trapezoidal integral `1/n` times
the energy of the analytic signal of the real part in the band.  When the integral is zero the result is NaN.  The smoothing window multiplies the Mellin
variable, not time: with `ng0 = 0` it is one. -/
theorem C70_value (x : Vec ℂ) (hn : 2 ≤ x.len) (ts : Option (Vec ℤ)) (hts : (ts.getD (arange 0 x.len)).len = x.len) (hreg : Regular (ts.getD (arange 0 x.len)))
    (ng0 a b : ℝ) (h0 : 0 < a) (h1 : a < b) (h2 : b ≤ 1) (hw : 1 / 2 ≤ b * Real.log (b / a)) (z : Vec ℂ) (hz : IsAnalytic (centredReal x) z) (zu : Vec ℂ)
    (hzu : IsAnalytic (x.map Complex.re) zu) :
    let n := x.len
    let σ := ng0 * b / Real.sqrt (6 * Real.log 10)
    let G : ℕ → ℝ := fun c => if ng0 = 0 then 1 else Real.exp (-(2 * (Real.pi * σ * Real.log (b / a)) ^ 2 * (((c : ℝ) - n) / n) ^ 2))
    let S : ℕ → ℝ := fun t => spwvTotal n (Real.log (b / a) / ((n : ℝ) - 1)) (Real.log (b / a)) G
      (fun p => morletCoeff z a b n p ((t : ℤ) - halfLength n a b n p))
    let V : Mat ℝ := ⟨n, n, fun i t => geoFreq n a b i * S t⟩
    let I := trapz2 V (fun i => ((ts.getD (arange 0 n)).get i : ℝ)) (geoFreq n a b)
    let E := ∑ k ∈ Finset.Icc (bandBin n a) (bandBin n b), ‖dft zu k‖ ^ 2
    (I = 0 → smoothedPseudoWigner x ts "bertrand" (some (.int n)) ng0 (some a) (some b) (some n) = .error .nonFinite) ∧
    (I ≠ 0 → ∃ R f, smoothedPseudoWigner x ts "bertrand" (some (.int n)) ng0 (some a) (some b) (some n) = .ok (R, ts.getD (arange 0 n), f) ∧
      R.rows = n ∧ R.cols = n ∧ f.len = n ∧ (∀ i, f.get i = geoFreq n a b i) ∧
      (∀ i < n, ∀ t < n, R.get i t = E / (I * n) * (geoFreq n a b i * S t)) ∧
      trapz2 R (fun i => ((ts.getD (arange 0 n)).get i : ℝ)) f.get * n = E) := by
  intro n σ G S V I E
  have hn1 : (1 : ℝ) < n := by exact_mod_cast (by omega : 1 < n)
  have hn1' : (n : ℝ) - 1 ≠ 0 := by linarith
  have hn0 : (n : ℝ) ≠ 0 := by linarith
  have hb0 : 0 < b := h0.trans h1
  have hr : 0 < b / a := div_pos hb0 h0
  have hu : 0 < Real.log (b / a) := Real.log_pos ((one_lt_div h0).2 h1)
  set tv := ts.getD (arange 0 x.len) with htv
  set y : Vec ℂ := (x.map Complex.re).map (fun v : ℝ => (v : ℂ)) with hy
  have hyl : y.len = n := rfl
  have hcy : centredReal y = centredReal x := rfl
  obtain ⟨wt, ew, hwr, hwc, hwget⟩ := waveletCoeffs_ok y hn (w := n) h0 h1 (by linarith) z (by rw [hcy]; exact hz)
  rw [hyl] at ew hwr hwc hwget
  set q : ℝ := (b / a) ^ (1 / ((n : ℝ) - 1)) with hq
  have hlq : Real.log q = Real.log (b / a) / ((n : ℝ) - 1) := by rw [hq, Real.log_rpow hr]; ring
  set A : ℕ → ℝ := fun k => Real.exp ((((k : ℝ) + 1) - 1) * Real.log q) with hA
  have hAk : ∀ k : ℕ, A k = (b / a) ^ ((k : ℝ) / ((n : ℝ) - 1)) := fun k => by
    rw [hA]
    simp only
    rw [hlq, Real.rpow_def_of_pos hr]
    congr 1
    ring
  have hgeo : ∀ k, a * A k = geoFreq n a b k := fun k => by rw [hAk]; rfl
  have hArev : ∀ p < n, A (n - p - 1) = b / voiceFreq n a b p := fun p hp => by
    rw [hAk]
    unfold voiceFreq
    have : ((n - p - 1 : ℕ) : ℝ) = (n : ℝ) - 1 - p := by
      rw [Nat.cast_sub (by omega), Nat.cast_sub (by omega)]; push_cast; ring
    rw [this, sub_div, div_self hn1', Real.rpow_sub hr, Real.rpow_one, div_div]
  obtain ⟨u, eu, huv⟩ := uAxis_ok (Real.log (b / a)) (mu := n) (by omega)
  obtain ⟨l, el, hl⟩ := lambdaRows_ok n q ⟨2 * n, u⟩
  have hcount : halfCount (.int n) b (Real.log (b / a)) = .int n := by
    unfold halfCount
    have hbu : 0 < b * Real.log (b / a) := mul_pos hb0 hu
    rw [if_neg hbu.ne']
    have hlt : ¬ (2 * (Half.int (n : ℤ)).val < (Half.int (n : ℤ)).val / (b * Real.log (b / a))) := by
      rw [not_lt, div_le_iff₀ hbu]
      show (((n : ℤ) : ℝ)) ≤ 2 * ((n : ℤ) : ℝ) * _
      rw [Int.cast_natCast]
      nlinarith
    simp only [if_neg hlt]
    rfl
  have hG : smoothing ng0 b (Real.log (b / a)) n = ⟨2 * n, G⟩ := by
    unfold smoothing
    by_cases hg : ng0 = 0
    · rw [if_pos hg]; simp only [G, if_pos hg]
    · rw [if_neg hg]
      simp only [G, if_neg hg]
      congr 1
      funext c
      congr 1
      have hlog : Real.log 10 ≠ 0 := (Real.log_pos (by norm_num)).ne'
      have : (2 : ℝ) * 3 * Real.log 10 = 6 * Real.log 10 := by ring
      rw [this, show ng0 * b / Real.sqrt (6 * Real.log 10) = σ from rfl]
      field_simp
  have hcol : ∀ t < n, total l ⟨2 * n, G⟩ n n ((⟨n, n, fun p t => if p < n then wt.get p t * (Real.sqrt (A (n - p - 1)) : ℂ) else 0⟩ : Mat ℂ).col t) = .ok (S t) := by
    intro t ht
    rw [total_ok (nv := n) hn q (Real.log (b / a)) u huv l hl ⟨2 * n, G⟩ _ (by rfl), hlq]
    congr 1
    unfold spwvTotal
    refine Finset.sum_congr rfl (fun c _ => ?_)
    rw [mellinCoef_congr (S' := fun p => morletCoeff z a b n p ((t : ℤ) - halfLength n a b n p)) (fun p hp => ?_)]
    show (if p < n then wt.get p t * (Real.sqrt (A (n - p - 1)) : ℂ) else 0) = _
    rw [if_pos hp, hwget p hp, hArev p hp, div_mul_cancel₀]
    rw [Complex.ofReal_ne_zero]
    exact (Real.sqrt_pos.2 (div_pos hb0 (voiceFreq_pos h0 h1 p))).ne'
  have hcols := columns_ok l (⟨n, n, fun p t => if p < n then wt.get p t * (Real.sqrt (A (n - p - 1)) : ℂ) else 0⟩ : Mat ℂ) ⟨2 * n, G⟩ ⟨n, fun i => a * A i⟩ n n S hcol
  have hsc := scaled_ok wt n A
  rw [hwc] at hsc
  have hform : smoothedPseudoWigner x ts "bertrand" (some (.int n)) ng0 (some a) (some b) (some n) =
      (normalise ⟨n, n, fun i t => if t < n then S t * (a * A i) else 0⟩ (x.map Complex.re) tv ⟨n, fun i => a * A i⟩ a b n >>= fun R => .ok (R, tv, ⟨n, fun i => a * A i⟩)) := by
    unfold smoothedPseudoWigner
    simp only [edges, ok_bind, Option.getD_some]
    rw [if_neg (by push Not; exact ⟨by linarith, h0.ne'⟩), if_neg (by linarith), hcount]
    simp only [voiceCount, Half.toInt, Int.toNat_natCast, ok_bind]
    rw [if_neg (by omega)]
    simp only [Half.val, Int.cast_natCast]
    rw [ew, ok_bind, hts, hsc, ok_bind, eu, ok_bind, el, ok_bind, hG, hcols, ok_bind]
  obtain ⟨hA1, hB1⟩ := normalise_ok ⟨n, n, fun i t => if t < n then S t * (a * A i) else 0⟩ (x.map Complex.re) hn zu hzu tv (by omega) hreg ⟨n, fun i => a * A i⟩ n (by omega) rfl
    (by show n = tv.len; omega) h0.le h1.le h2
  have hI : trapz2 ⟨n, n, fun i t => if t < n then S t * (a * A i) else 0⟩ (fun i => (tv.get i : ℝ)) (⟨n, fun i => a * A i⟩ : Vec ℝ).get = I := by
    refine trapz_congr (fun i _ => hgeo i) (fun j _ => trapz_congr (fun _ _ => rfl) (fun t ht => ?_))
    show (if t < n then S t * (a * A j) else 0) = geoFreq n a b j * S t
    rw [if_pos ht, hgeo, mul_comm]
  rw [hI] at hA1 hB1
  refine ⟨fun h => by rw [hform, hA1 h]; rfl, fun h => ?_⟩
  obtain ⟨R, e, hRr, hRc, hRg, hRt⟩ := hB1 h
  refine ⟨R, ⟨n, fun i => a * A i⟩, by rw [hform, e, ok_bind], hRr, hRc, rfl, hgeo, fun i hi t ht => ?_, hRt⟩
  rw [hRg]
  show _ * (if t < n then S t * (a * A i) else 0) = _
  rw [if_pos ht, hgeo, mul_comm (S t)]
  rfl

/-- Two samples `1, -1`, band `[1/8, 1]`, two voices, `nh0 = 2`: the call returns, the row at frequency 1 is eight times the row at frequency `1/8`, and
twice the integral is the energy `4` of the only bin. -/
example : ∃ R t f, smoothedPseudoWigner ⟨2, fun t => (-1) ^ t⟩ none "bertrand" (some (.int 2)) 0 (some (1 / 8)) (some 1) (some 2) = .ok (R, t, f) ∧
    f.get 0 = 1 / 8 ∧ f.get 1 = 1 ∧ R.get 1 0 = 8 * R.get 0 0 ∧ R.get 0 0 ≠ 0 ∧ trapz2 R (fun i => (t.get i : ℝ)) f.get * 2 = 4 := by
  have key : ∀ v : Vec ℝ, v.len = 2 → v.get 0 = 1 → v.get 1 = -1 → IsAnalytic v ⟨2, fun t => (-1) ^ t⟩ := fun v hl h0 h1 => by
    refine ⟨hl.symm, fun t ht => ?_, fun k hk h2 => ?_, ?_, fun k hk => ?_⟩
    · have : t = 0 ∨ t = 1 := by omega
      rcases this with rfl | rfl
      · simp [h0]
      · simp [h1]
    · omega
    · unfold dft dtft
      simp [Finset.sum_range_succ, expi]
    · have : k = 1 := by omega
      subst this
      unfold dft dtft
      simp only [Finset.sum_range_succ, Finset.sum_range_zero, expi]
      have : (((-(2 * Real.pi * (((1 : ℕ) : ℝ) / ((2 : ℕ) : ℝ)) * ((1 : ℕ) : ℝ))) : ℝ) : ℂ) * Complex.I = -(Real.pi * Complex.I) := by
        push_cast; ring
      rw [this, Complex.exp_neg, Complex.exp_pi_mul_I]
      norm_num
  have hz : IsAnalytic (centredReal ⟨2, fun t => (-1) ^ t⟩) ⟨2, fun t => (-1) ^ t⟩ :=
    key _ rfl (by simp [centredReal, Finset.sum_range_succ]) (by simp [centredReal, Finset.sum_range_succ])
  have hzu : IsAnalytic ((⟨2, fun t => (-1) ^ t⟩ : Vec ℂ).map Complex.re) ⟨2, fun t => (-1) ^ t⟩ := key _ rfl (by simp) (by simp)
  have he : (1 : ℝ) / 2 ≤ 1 * Real.log (1 / (1 / 8)) := by
    have h8 : Real.log (1 / (1 / 8)) = 3 * Real.log 2 := by
      rw [show (1 : ℝ) / (1 / 8) = 2 ^ 3 by norm_num, Real.log_pow]; norm_num
    have : (1 : ℝ) - 2⁻¹ ≤ Real.log 2 := Real.one_sub_inv_le_log_of_pos (by norm_num)
    rw [h8]; linarith
  have hv0 : voiceFreq 2 (1 / 8) 1 0 = 1 / 8 := (voiceFreq_ends (n := 2) le_rfl (by norm_num)).1
  have hv1 : voiceFreq 2 (1 / 8) 1 1 = 1 := (voiceFreq_ends (n := 2) le_rfl (by norm_num)).2
  have hround : ∀ k : ℕ, (roundEven (k : ℝ)).toNat = k := fun k => by
    have := roundEven_intCast (k : ℤ)
    rw [Int.cast_natCast] at this
    rw [this, Int.toNat_natCast]
  have hl0 : halfLength 2 (1 / 8) 1 ((2 : ℕ) : ℝ) 0 = 16 := by
    unfold halfLength; rw [hv0]; have := hround 16; norm_num at this ⊢; exact this
  have hl1 : halfLength 2 (1 / 8) 1 ((2 : ℕ) : ℝ) 1 = 2 := by
    unfold halfLength; rw [hv1]; have := hround 2; norm_num at this ⊢; exact this
  set z : Vec ℂ := ⟨2, fun t => (-1) ^ t⟩ with hzdef
  have hper : ∀ k : ℤ, expi (2 * Real.pi * k) = 1 := fun k => by
    unfold expi
    rw [show ((2 * Real.pi * (k : ℝ) : ℝ) : ℂ) * Complex.I = (k : ℂ) * (2 * Real.pi * Complex.I) by push_cast; ring]
    exact Complex.exp_int_mul_two_pi_mul_I k
  have hm0 : morletCoeff z (1 / 8) 1 ((2 : ℕ) : ℝ) 0 (((0 : ℕ) : ℤ) - (16 : ℕ)) = 1 / 100 := by
    unfold morletCoeff
    rw [show z.len = 2 from rfl, hl0, hv0]
    unfold filtered
    rw [show z.len = 2 from rfl, Finset.sum_range_succ, Finset.sum_range_one, if_pos (by norm_num), if_neg (by norm_num)]
    unfold morletAt
    have : expi (2 * Real.pi * (1 / 8) * ((((0 : ℕ) : ℤ) - ((16 : ℕ) : ℤ) - ((0 : ℕ) : ℤ) : ℤ) : ℝ)) = 1 := by
      rw [← hper (-2)]; congr 1; push_cast; ring
    rw [this]
    norm_num [hzdef]
  have hm1 : morletCoeff z (1 / 8) 1 ((2 : ℕ) : ℝ) 1 (((0 : ℕ) : ℤ) - (2 : ℕ)) = 1 / 100 := by
    unfold morletCoeff
    rw [show z.len = 2 from rfl, hl1, hv1]
    unfold filtered
    rw [show z.len = 2 from rfl, Finset.sum_range_succ, Finset.sum_range_one, if_pos (by norm_num), if_neg (by norm_num)]
    unfold morletAt
    have : expi (2 * Real.pi * 1 * ((((0 : ℕ) : ℤ) - ((2 : ℕ) : ℤ) - ((0 : ℕ) : ℤ) : ℤ) : ℝ)) = 1 := by
      rw [← hper (-2)]; congr 1; push_cast; ring
    rw [this]
    norm_num [hzdef]
  have hreg : Regular ((none : Option (Vec ℤ)).getD (arange 0 ((⟨2, fun t => (-1) ^ t⟩ : Vec ℂ).len))) := by
    intro i _ j _
    simp [arange]
  obtain ⟨-, hB⟩ := C70_value ⟨2, fun t => (-1) ^ t⟩ le_rfl none rfl hreg 0 (1 / 8) 1 (by norm_num) (by norm_num) le_rfl he _ hz _ hzu
  simp only [if_pos] at hB
  set S : ℕ → ℝ := fun t => spwvTotal 2 (Real.log (1 / (1 / 8)) / (((2 : ℕ) : ℝ) - 1)) (Real.log (1 / (1 / 8))) (fun _ => 1)
      (fun p => morletCoeff z (1 / 8) 1 ((2 : ℕ) : ℝ) p ((t : ℤ) - halfLength 2 (1 / 8) 1 ((2 : ℕ) : ℝ) p)) with hS
  have hnn : ∀ t, 0 ≤ S t := fun t => by
    rw [hS]
    unfold spwvTotal
    refine Finset.sum_nonneg (fun c _ => ?_)
    exact mul_nonneg (by positivity) (Finset.sum_nonneg (fun _ _ => by positivity))
  have hpos : 0 < S 0 := by
    rw [hS]
    unfold spwvTotal
    refine Finset.sum_pos' (fun c _ => mul_nonneg (by positivity) (Finset.sum_nonneg (fun _ _ => by positivity))) ⟨2, by simp, ?_⟩
    refine mul_pos ?_ (Finset.sum_pos' (fun _ _ => by positivity) ⟨0, by simp, ?_⟩)
    · refine mul_pos one_pos (pow_pos (norm_pos_iff.2 ?_) 2)
      unfold mellinCoef
      rw [Finset.sum_range_succ, Finset.sum_range_one]
      simp only [hl0, hl1, hm0, hm1]
      norm_num [expi]
    · refine pow_pos (norm_pos_iff.2 ?_) 2
      norm_num [expi]
  have hg0 : geoFreq 2 (1 / 8) 1 0 = 1 / 8 := hv0
  have hg1 : geoFreq 2 (1 / 8) 1 1 = 1 := hv1
  have hE : ∑ k ∈ Finset.Icc (bandBin 2 (1 / 8)) (bandBin 2 1), ‖dft z k‖ ^ 2 = 4 := by
    have hb : ∀ f : ℝ, bandBin 2 f = 1 := fun f => by
      unfold bandBin
      have := roundEven_intCast 0
      norm_num at this ⊢
      rw [this]; rfl
    rw [hb, hb, Finset.Icc_self, Finset.sum_singleton]
    have : dft z 1 = 2 := by
      unfold dft dtft
      rw [show z.len = 2 from rfl]
      simp only [Finset.sum_range_succ, Finset.sum_range_zero, expi]
      have : (((-(2 * Real.pi * (((1 : ℕ) : ℝ) / ((2 : ℕ) : ℝ)) * ((1 : ℕ) : ℝ))) : ℝ) : ℂ) * Complex.I = -(Real.pi * Complex.I) := by
        push_cast; ring
      rw [this, Complex.exp_neg, Complex.exp_pi_mul_I]
      norm_num [hzdef]
    rw [this]
    norm_num
  rw [hE] at hB
  set I : ℝ := trapz2 ⟨2, 2, fun i t => geoFreq 2 (1 / 8) 1 i * S t⟩ (fun i => (((none : Option (Vec ℤ)).getD (arange 0 ((2 : ℕ) : ℤ))).get i : ℝ)) (geoFreq 2 (1 / 8) 1) with hI
  have hI0 : I ≠ 0 := by
    have h1 := hnn 1
    rw [hI]
    unfold trapz2 trapz
    simp only [Finset.sum_range_one, hg0, hg1, show (2 : ℕ) - 1 = 1 from rfl, arange, Option.getD_none]
    norm_num
    nlinarith
  obtain ⟨R, f, h, -, -, -, hf, hR, hT⟩ := hB hI0
  have h00 : R.get 0 0 = 4 / (I * ((2 : ℕ) : ℝ)) * (geoFreq 2 (1 / 8) 1 0 * S 0) := hR 0 (by norm_num) 0 (by norm_num)
  have h10 : R.get 1 0 = 4 / (I * ((2 : ℕ) : ℝ)) * (geoFreq 2 (1 / 8) 1 1 * S 0) := hR 1 (by norm_num) 0 (by norm_num)
  rw [hg0] at h00
  rw [hg1] at h10
  refine ⟨R, _, f, h, by rw [hf, hg0], by rw [hf, hg1], by rw [h00, h10]; ring, ?_, by exact_mod_cast hT⟩
  rw [h00]
  have := hpos.ne'
  positivity

/-- A float `nh0` never works, nor does a narrow band. -/
example (x : Vec ℂ) : (∃ e, smoothedPseudoWigner x none "bertrand" none 0 (some (1 / 8)) (some 1) (some x.len) = .error e) ∧
    ∃ e, smoothedPseudoWigner x none "bertrand" (some (.int x.len)) 0 (some 1) (some 1) (some x.len) = .error e := by
  refine ⟨C70_defaults _ _ _ _ _ _ _ _ (by simp), ?_⟩
  cases hr : smoothedPseudoWigner x none "bertrand" (some (.int x.len)) 0 (some 1) (some 1) (some x.len) with
  | error e => exact ⟨e, rfl⟩
  | ok r =>
    obtain ⟨R, t, f⟩ := r
    obtain ⟨a, b, n, ha, hb, h, -⟩ := C70_needs _ _ _ _ _ _ _ _ _ _ _ hr
    injection ha with ha
    injection hb with hb
    subst ha hb
    norm_num at h

end Tftb.AffSpwv
