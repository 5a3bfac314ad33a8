import Verif.Model.AffineSpwv
import Verif.Lemmas.AffineClass
import Verif.Props.Dilation
import Verif.Props.Scalogram

/-! # Lemmas for the affine smoothed pseudo Wigner distribution -/

namespace Tftb.AffSpwv

open Tftb Spec Props AffDist Finset

/-- Wavelet coefficients for as many voices as samples. -/
theorem waveletCoeffs_ok (x : Vec ℂ) (hn : 2 ≤ x.len) {fmin fmax w : ℝ} (h0 : 0 < fmin) (h1 : fmin < fmax) (hw1 : 1 / 2 < w) (z : Vec ℂ)
    (hz : IsAnalytic (centredReal x) z) :
    ∃ wt : Mat ℂ, waveletCoeffs x fmin fmax x.len w = .ok wt ∧ wt.rows = x.len ∧ wt.cols = x.len ∧
      ∀ p < x.len, ∀ t, wt.get p t = morletCoeff z fmin fmax w p ((t : ℤ) - halfLength x.len fmin fmax w p)
        / (Real.sqrt (fmax / voiceFreq x.len fmin fmax p) : ℂ) := by
  set n := x.len with hnn
  obtain ⟨z', hz', hzl, hzz⟩ := hilbert_centred x hn hz
  have hzl0 : z.len = n := hz.len
  have hfp := fun p => voiceFreq_pos (n := n) h0 h1 p
  have hr : ∀ p < n, ((halfLength n fmin fmax w p : ℕ) : ℤ) = roundEven (w * (fmax / voiceFreq n fmin fmax p)) ∧
      1 ≤ halfLength n fmin fmax w p := by
    intro p hp
    have ha1 : 1 ≤ fmax / voiceFreq n fmin fmax p := by
      rw [le_div_iff₀ (hfp p), one_mul]; exact voiceFreq_le hn h0 h1 hp
    have := half_round_pos (a := w * (fmax / voiceFreq n fmin fmax p)) (by nlinarith)
    unfold halfLength
    omega
  have hcoef : ∀ p (t : ℤ), filtered z' (halfLength n fmin fmax w p)
      (morletAt (w * (fmax / voiceFreq n fmin fmax p)) (voiceFreq n fmin fmax p)) t = morletCoeff z fmin fmax w p t := by
    intro p t
    rw [filtered_congr (z := z) (by omega) (fun t ht => hzz t (by omega))]
    unfold morletCoeff
    rw [hzl0]
  have hvoice : ∀ p < n, Aff.morletVoice z' (arange 0 n) w (fmax / fmin * (1 / (fmax / fmin)) ^ ((p : ℝ) / ((n : ℝ) - 1)))
      (fmin * (fmax / fmin) ^ ((p : ℝ) / ((n : ℝ) - 1))) = .ok
      (⟨n, fun t => morletCoeff z fmin fmax w p ((t : ℤ) - halfLength n fmin fmax w p) / (Real.sqrt (fmax / voiceFreq n fmin fmax p) : ℂ)⟩,
       ⟨n, fun t => morletCoeff z fmin fmax w p t / (Real.sqrt (fmax / voiceFreq n fmin fmax p) : ℂ) *
         (starRingEnd ℂ) (morletCoeff z fmin fmax w p t / (Real.sqrt (fmax / voiceFreq n fmin fmax p) : ℂ))⟩) := by
    intro p hp
    rw [voiceScale h0 h1, show fmin * (fmax / fmin) ^ ((p : ℝ) / ((n : ℝ) - 1)) = voiceFreq n fmin fmax p from rfl]
    have hzl' : z'.len = n := hzl
    have e := morletVoice_ok (z := z') (by omega) w _ (voiceFreq n fmin fmax p) (halfLength n fmin fmax w p) (hr p hp).1 (hr p hp).2
    rw [hzl'] at e
    rw [e]
    simp only [hcoef]
  obtain ⟨wt, T, hv, hwr, hwc, hTr, hTc, hget, -⟩ := voices_ok (nv := n) (n := n) (m := n)
    (f := ⟨n, fun i => fmin * (fmax / fmin) ^ ((i : ℝ) / ((n : ℝ) - 1))⟩)
    (a := ⟨n, fun i => (fmax / fmin) * (1 / (fmax / fmin)) ^ ((i : ℝ) / ((n : ℝ) - 1))⟩)
    (voice := fun a f => Aff.morletVoice z' (arange 0 n) w a f) le_rfl _ _ hvoice
  refine ⟨wt, ?_, hwr, hwc, fun p hp t => (hget p hp t).1⟩
  have hmean : (x.map Complex.re).mean = .ok ((∑ j ∈ range x.len, (x.get j).re) / x.len) := by
    unfold Vec.mean; rw [if_neg (by show x.len ≠ 0; omega)]; rfl
  unfold waveletCoeffs
  simp only
  rw [init_given x _ (by linarith), ok_bind]
  simp only
  rw [hmean, ok_bind, show ((x.map Complex.re).map fun a => a - (∑ j ∈ range x.len, (x.get j).re) / x.len) = centredReal x from rfl, hz', ok_bind,
    nanChecks_ok h0 (h0.trans h1), ok_bind, logspace_ok h0 (h0.trans h1) hn, ok_bind, logspace_ok (div_pos (h0.trans h1) h0) one_pos hn, ok_bind, ← hnn]
  unfold Aff.transform
  rw [if_pos (by linarith), hv, ok_bind]
  simp only
  rw [fft_ok (by omega), ok_bind, integrate2d_eq _ _ _ (by show T.cols ≠ 0; omega) (by show 2 ≤ ((n : ℤ) - 0).toNat; omega) (by show n = T.rows; omega)]
  rfl

theorem scaled_ok (wt : Mat ℂ) (nv : ℕ) (a : ℕ → ℝ) :
    scaled wt nv wt.cols a = .ok ⟨nv, wt.cols, fun p t => if p < nv then wt.get p t * (Real.sqrt (a (nv - p - 1)) : ℂ) else 0⟩ := by
  obtain ⟨R, hR, hP⟩ := foldlM_range_ok (σ := Mat ℂ) (N := nv) (s := Mat.zeros nv wt.cols)
      (fun k R => R = ⟨nv, wt.cols, fun p t => if p < k then wt.get p t * (Real.sqrt (a (nv - p - 1)) : ℂ) else 0⟩)
      (f := fun (M : Mat ℂ) (p : ℕ) => Aff.setRow M p ⟨wt.cols, fun t => wt.get p t * (Real.sqrt (a (nv - p - 1)) : ℂ)⟩)
      (by unfold Mat.zeros; simp) (fun k hk' R hR => by
        subst hR
        rw [setRow_ok (by exact hk') rfl]
        refine ⟨_, rfl, ?_⟩
        congr 1
        funext i t
        simp only
        by_cases hik : i = k
        · subst hik; rw [if_pos rfl, if_pos (by omega)]
        · rw [if_neg hik]
          by_cases hlt : i < k
          · rw [if_pos hlt, if_pos (by omega)]
          · rw [if_neg hlt, if_neg (by omega)])
  subst hP
  exact hR

theorem uAxis_ok (umax : ℝ) {mu : ℕ} (hm : 0 < mu) :
    ∃ u : ℕ → ℝ, uAxis umax (.int mu) = .ok ⟨2 * mu, u⟩ ∧ ∀ n < 2 * mu, u n = umax * ((n : ℝ) - mu) / mu := by
  have hm' : (0 : ℝ) < mu := by exact_mod_cast hm
  have hlen : ((linspace (-umax) umax (2 * (mu : ℤ) + 1).toNat).slice 0 (2 * (mu : ℤ))).len = 2 * mu := by
    unfold Vec.slice Vec.clampIdx linspace
    simp only
    rw [if_neg (by omega), if_neg (by omega)]
    omega
  have hget : ∀ n < 2 * mu, ((linspace (-umax) umax (2 * (mu : ℤ) + 1).toNat).slice 0 (2 * (mu : ℤ))).get n = umax * ((n : ℝ) - mu) / mu := fun n _ => by
    have e1 : (2 * (mu : ℤ) + 1).toNat = 2 * mu + 1 := by omega
    rw [e1]
    unfold Vec.slice Vec.clampIdx linspace
    simp only
    rw [if_neg (by omega), if_neg (by omega)]
    have e2 : min (2 * mu + 1) (0 : ℤ).toNat = 0 := by simp
    rw [e2, Nat.zero_add]
    push_cast
    rw [show (2 * (mu : ℝ) + 1 - 1) = 2 * mu by ring]
    field_simp
    ring
  refine ⟨Function.update ((linspace (-umax) umax (2 * (mu : ℤ) + 1).toNat).slice 0 (2 * (mu : ℤ))).get mu 0, ?_, fun n hn => ?_⟩
  · unfold uAxis
    simp only
    rw [if_neg (by omega)]
    unfold Vec.setItem
    rw [if_pos (by unfold IdxOk; rw [hlen]; omega), hlen]
    have : wrapIdx (2 * mu) (mu : ℤ) = mu := by unfold wrapIdx; rw [if_neg (by omega)]; rfl
    rw [this]
  · by_cases h : n = mu
    · subst h; simp
    · rw [Function.update_of_ne h, hget n hn]

/-- Bertrand's dilation function. -/
noncomputable def bertrandLambda (u : ℝ) : ℝ := if u = 0 then 1 else u / (1 - Real.exp (-u))

theorem lambdaRows_ok (nv : ℕ) (q : ℝ) (u : Vec ℝ) :
    ∃ l : Mat ℂ, lambdaRows "bertrand" nv q u = .ok l ∧ ∀ m < u.len, ∀ p, l.get m p =
      expi (-(2 * Real.pi * (((p : ℝ) / nv - 1) / (2 * Real.log q)) * Real.log (bertrandLambda (-u.get m)))) := by
  obtain ⟨R, hR, hP⟩ := foldlM_range_ok (σ := Mat ℂ) (N := u.len) (s := Mat.zeros u.len (2 * nv))
      (fun k R => R.rows = u.len ∧ R.cols = 2 * nv ∧ ∀ m < k, ∀ p, R.get m p =
        expi (-(2 * Real.pi * (((p : ℝ) / nv - 1) / (2 * Real.log q)) * Real.log (bertrandLambda (-u.get m)))))
      (f := fun (M : Mat ℂ) (m : ℕ) => do
        let v ← lambdaRow "bertrand" nv q (u.get m)
        Aff.setRow M m v)
      ⟨rfl, rfl, fun m hm => absurd hm (by omega)⟩ (fun k hk' R ⟨hr, hc, hR⟩ => by
        unfold lambdaRow
        simp only
        rw [C66_bertrand, C66_bertrand, ok_bind, ok_bind, ok_bind, setRow_ok (by omega) (by exact hc.symm)]
        refine ⟨_, rfl, hr, hc, fun m hm p => ?_⟩
        simp only
        by_cases hmk : m = k
        · subst hmk
          rw [if_pos rfl]
          unfold expi bertrandLambda
          congr 1
          push_cast
          ring
        · rw [if_neg hmk]
          exact hR m (by omega) p)
  exact ⟨R, hR, hP.2.2⟩

/-- What is stored, times the frequency, at an instant where the wavelet coefficients (undelayed normalisation) are `W`. -/
noncomputable def spwvTotal (n : ℕ) (logq umax : ℝ) (G : ℕ → ℝ) (W : ℕ → ℂ) : ℝ :=
  ∑ c ∈ range (2 * n), G c * ‖mellinCoef n W ((c : ℤ) - n)‖ ^ 2 * ∑ r ∈ range n,
    ‖∑ m ∈ range (2 * n), expi (-(2 * Real.pi * (((c : ℝ) / n - 1) / (2 * logq)) * Real.log (bertrandLambda (-(umax * ((m : ℝ) - n) / n))))) *
      expi (-(2 * Real.pi * ((m : ℝ) * r / (2 * n))))‖ ^ 2

theorem total_ok {nv : ℕ} (hN : 2 ≤ nv) (q umax : ℝ) (u : ℕ → ℝ) (hu : ∀ n < 2 * nv, u n = umax * ((n : ℝ) - nv) / nv) (l : Mat ℂ)
    (hl : ∀ m < 2 * nv, ∀ p, l.get m p = expi (-(2 * Real.pi * (((p : ℝ) / nv - 1) / (2 * Real.log q)) * Real.log (bertrandLambda (-u m)))))
    (G : Vec ℝ) (S : Vec ℂ) (hS : S.len = nv) :
    total l G nv nv S = .ok (spwvTotal nv (Real.log q) umax G.get S.get) := by
  obtain ⟨y, hy, hmel⟩ := mellin_ok nv hN (fun k => if k < nv then S.get k else 0) (fun k hk => by rw [if_neg (by omega)])
  have happ : S.append ⟨nv, fun _ => (0 : ℂ)⟩ = ⟨nv + nv, fun k => if k < nv then S.get k else 0⟩ := by
    unfold Vec.append; rw [hS]
  unfold total
  rw [happ, hy, ok_bind]
  simp only
  rw [if_neg (by simp)]
  congr 1
  unfold spwvTotal
  refine Finset.sum_congr rfl (fun c hc => ?_)
  have hc' := mem_range.1 hc
  rw [mul_sum]
  refine Finset.sum_congr rfl (fun r _ => ?_)
  rw [mul_conj_re, hmel c (by omega), mellinCoef_congr (S' := S.get) (fun k hk => by rw [if_pos hk])]
  rw [Finset.sum_congr rfl (fun m hm => by
    rw [hl m (mem_range.1 hm), hu m (mem_range.1 hm), mul_right_comm, rootPow_eq_expi]), ← Finset.sum_mul, norm_mul, mul_pow]
  have : ∀ m : ℕ, (((m : ℤ) * (r : ℤ) : ℤ) : ℝ) / ((2 * nv : ℕ) : ℝ) = (m : ℝ) * r / (2 * nv) := fun m => by push_cast; ring
  simp only [this]
  ring

theorem columns_ok {nv : ℕ} (l M : Mat ℂ) (G geo : Vec ℝ) (mu tcol : ℕ) (s : ℕ → ℝ) (h : ∀ t < tcol, total l G nv mu (M.col t) = .ok (s t)) :
    columns l M G geo nv mu tcol = .ok ⟨nv, tcol, fun i t => if t < tcol then s t * geo.get i else 0⟩ := by
  obtain ⟨R, hR, hP⟩ := foldlM_range_ok (σ := Mat ℝ) (N := tcol) (s := Mat.zeros nv tcol)
      (fun k R => R = ⟨nv, tcol, fun i t => if t < k then s t * geo.get i else 0⟩)
      (f := fun (R : Mat ℝ) (t : ℕ) => do
        let s ← total l G nv mu (M.col t)
        .ok ⟨R.rows, R.cols, fun i j => if j = t then s * geo.get i else R.get i j⟩)
      (by unfold Mat.zeros; simp) (fun k hk' R hR => by
        subst hR
        rw [h k hk', ok_bind]
        refine ⟨_, rfl, ?_⟩
        congr 1
        funext i t
        simp only
        by_cases hik : t = k
        · subst hik; rw [if_pos rfl, if_pos (by omega)]
        · rw [if_neg hik]
          by_cases hlt : t < k
          · rw [if_pos hlt, if_pos (by omega)]
          · rw [if_neg hlt, if_neg (by omega)])
  subst hP
  exact hR

/-- The normalisation, for regular instants. -/
theorem normalise_ok (M : Mat ℝ) (s : Vec ℝ) (hs : 2 ≤ s.len) (z : Vec ℂ) (hz : IsAnalytic s z) (ts : Vec ℤ) (hT : 2 ≤ ts.len) (hreg : Regular ts) (f : Vec ℝ)
    {fmin fmax : ℝ} (nv : ℕ) (hnv : nv ≠ 0) (hr : f.len = M.rows) (hc : M.cols = ts.len) (h0 : 0 ≤ fmin) (h1 : fmin ≤ fmax) (h2 : fmax ≤ 1) :
    let I := trapz2 M (fun i => (ts.get i : ℝ)) f.get
    let S := ∑ k ∈ Finset.Icc (bandBin s.len fmin) (bandBin s.len fmax), ‖dft z k‖ ^ 2
    (I = 0 → normalise M s ts f fmin fmax nv = .error .nonFinite) ∧
    (I ≠ 0 → ∃ M', normalise M s ts f fmin fmax nv = .ok M' ∧ M'.rows = M.rows ∧ M'.cols = M.cols ∧
      (∀ p t, M'.get p t = S / (I * nv) * M.get p t) ∧ trapz2 M' (fun i => (ts.get i : ℝ)) f.get * nv = S) := by
  intro I S
  have hb0 := bandBin_cast hs h0
  have hb1 := bandBin_cast hs (h0.trans h1)
  have hs2 : (0 : ℝ) ≤ (s.len : ℝ) - 2 := by have : (2 : ℝ) ≤ s.len := by exact_mod_cast hs
                                             linarith
  have hround : bandBin s.len fmax + 1 ≤ s.len := by
    have hb := (roundEven_bounds (fmax * ((s.len : ℝ) - 2))).2
    have : fmax * ((s.len : ℝ) - 2) ≤ (s.len : ℝ) - 2 := by nlinarith
    have h3 : ((roundEven (fmax * ((s.len : ℝ) - 2)) : ℤ) : ℝ) < (((s.len : ℤ) - 2 + 1 : ℤ) : ℝ) := by push_cast; linarith
    have h4 : roundEven (fmax * ((s.len : ℝ) - 2)) < (s.len : ℤ) - 2 + 1 := by exact_mod_cast h3
    omega
  have hi : ProcUtils.integrate2d M (some (ts.map (fun t : ℤ => (t : ℝ)))) (some f) = .ok I := by
    rw [C47_trapezoidal M _ _ (by omega) hc.symm hr ((ts.get 1 - ts.get 0 : ℤ) : ℝ) (fun i hi => by
      show ((ts.get (i + 1) : ℝ)) - (ts.get i : ℝ) = _
      rw [← Int.cast_sub, hreg i (by omega) 0 (by omega)])]
    rfl
  have hn : normalise M s ts f fmin fmax nv = if I = 0 ∨ nv = 0 then .error .nonFinite else .ok (M.map (fun v => v * S / I / nv)) := by
    obtain ⟨z', h, hz', -⟩ := hilbert_analytic (x := s) (by omega)
    obtain ⟨-, hu⟩ := isAnalytic_unique hz' hz
    have hl := hz'.len
    unfold normalise
    simp only
    rw [h, ok_bind, fft_ok (by omega), ok_bind, ← hb0, ← hb1, hi, ok_bind]
    have hS : ∀ v : Vec ℂ, (∑ k ∈ range v.len, (v.get k).re * (v.get k).re) + ∑ k ∈ range v.len, (v.get k).im * (v.get k).im = v.norm ^ 2 := fun v => by
      unfold Vec.norm
      rw [Real.sq_sqrt (Finset.sum_nonneg (fun _ _ => by positivity)), ← Finset.sum_add_distrib]
      refine Finset.sum_congr rfl (fun k _ => ?_)
      rw [← Complex.normSq_eq_norm_sq, Complex.normSq_apply]
    rw [hS, slice_norm_sq (by show _ ≤ z'.len; omega)]
    have hS : (∑ k ∈ Finset.Icc (bandBin s.len fmin) (bandBin s.len fmax), ‖dftC z'.len z'.get k‖ ^ 2) = S := by
      refine Finset.sum_congr rfl (fun k _ => ?_)
      rw [← dft_eq_dftC, dft_congr (z := z) (by rw [hl, hz.len]) (fun t ht => hu t (by rw [← hz.len]; exact ht))]
    rw [← hS]
  have hnv' : (nv : ℝ) ≠ 0 := by exact_mod_cast hnv
  refine ⟨fun h => by rw [hn, if_pos (Or.inl h)], fun h => ?_⟩
  have hent : ∀ p t, (M.map (fun v => v * S / I / nv)).get p t = S / (I * nv) * M.get p t := fun p t => by
    show M.get p t * S / I / nv = _
    field_simp
  refine ⟨M.map (fun v => v * S / I / nv), by rw [hn, if_neg (by push Not; exact ⟨h, hnv⟩)], rfl, rfl, hent, ?_⟩
  have e : trapz2 (M.map (fun v => v * S / I / nv)) (fun i => (ts.get i : ℝ)) f.get = S / (I * nv) * I := by
    show trapz M.rows f.get (fun j => trapz M.cols _ ((M.map (fun v => v * S / I / nv)).get j)) = S / (I * nv) * trapz M.rows f.get (fun j => trapz M.cols _ (M.get j))
    rw [← trapz_smul]
    refine trapz_congr (fun _ _ => rfl) (fun j hj => ?_)
    rw [← trapz_smul]
    exact trapz_congr (fun _ _ => rfl) (fun t _ => hent j t)
  rw [e]
  field_simp

end Tftb.AffSpwv
