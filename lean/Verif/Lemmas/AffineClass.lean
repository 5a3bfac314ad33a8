import Verif.Model.AffineClass
import Verif.Lemmas.WideBand

/-! # Lemmas about the affine class -/

namespace Tftb

open Finset Spec AffDist

theorem uAxis_ok {umax : ℝ} {m1 : ℕ} (hu : 0 < umax) (hm : 0 < m1) :
    ∃ u : ℕ → ℝ, uAxis umax m1 = .ok ⟨2 * m1, u⟩ ∧ ∀ n, u n = umax * ((n : ℝ) - m1) / m1 := by
  have hm' : (0 : ℝ) < m1 := by exact_mod_cast hm
  set du : ℝ := |umax - -umax| / (2 * ((m1 : ℤ) : ℝ)) with hdu
  have hdu' : du = umax / m1 := by
    rw [hdu, abs_of_pos (by linarith)]
    push_cast
    field_simp
    ring
  have hcount : (truncInt ((umax - -umax) / du)).toNat = 2 * m1 := by
    have : (umax - -umax) / du = ((2 * m1 : ℕ) : ℝ) := by rw [hdu']; push_cast; field_simp; ring
    rw [this, truncInt, if_pos (by positivity), Int.floor_natCast, Int.toNat_natCast]
  have hlin : ∀ n : ℕ, (linspace (-umax) (umax - du) (2 * m1)).get n = umax * ((n : ℝ) - m1) / m1 := fun n => by
    show (if 2 * m1 = 1 then _ else _) = _
    have h2 : ((2 * m1 : ℕ) : ℝ) - 1 ≠ 0 := by
      have : (1 : ℝ) ≤ m1 := by exact_mod_cast hm
      push_cast; linarith
    rw [if_neg (by omega), hdu']
    have e : (umax - umax / m1 - -umax) / (((2 * m1 : ℕ) : ℝ) - 1) = umax / m1 := by
      rw [div_eq_iff h2]; push_cast; field_simp; ring
    rw [e]
    field_simp
    ring
  refine ⟨Function.update (linspace (-umax) (umax - du) (2 * m1)).get m1 0, ?_, fun n => ?_⟩
  · unfold uAxis
    simp only
    rw [if_neg hu.ne', if_neg (by omega), if_neg (by push Not; exact ⟨by omega, hu.le⟩), ← hdu, hcount]
    unfold Vec.setItem
    rw [if_pos (by unfold IdxOk; show -((2 * m1 : ℕ) : ℤ) ≤ _ ∧ _ < ((2 * m1 : ℕ) : ℤ); omega)]
    have : wrapIdx (linspace (-umax) (umax - du) (2 * m1)).len (m1 : ℤ) = m1 := by
      unfold wrapIdx; rw [if_neg (by omega)]; rfl
    rw [this]
    rfl
  · by_cases h : n = m1
    · subst h; simp
    · rw [Function.update_of_ne h, hlin]

theorem geometricSample_ok (s : Vec ℝ) (m : ℕ) {a b : ℝ} (h0 : 0 < a) (h1 : a < b) {nv : ℕ} (hN : 2 ≤ nv) :
    ∃ (geo : ℕ → ℝ) (S : ℕ → ℂ), geometricSample s m a b nv = .ok ((b / a) ^ (1 / ((nv : ℝ) - 1)), ⟨nv, geo⟩, ⟨nv + nv, S⟩) ∧
      (∀ k, geo k = geoFreq nv a b k) ∧ (∀ k < nv, S k = spectrumAt (s.map (fun v : ℝ => (v : ℂ))) m (geoFreq nv a b k)) ∧ ∀ k, nv ≤ k → S k = 0 := by
  have hba : 0 < b / a := div_pos (h0.trans h1) h0
  have hg : ∀ k : ℕ, a * Real.exp ((((k : ℝ) + 1) - 1) * Real.log ((b / a) ^ (1 / ((nv : ℝ) - 1)))) = geoFreq nv a b k := fun k => geo_eq hba k
  refine ⟨fun k => a * Real.exp ((((k : ℝ) + 1) - 1) * Real.log ((b / a) ^ (1 / ((nv : ℝ) - 1)))), fun k => if k < nv then ∑ i ∈ range s.len, (s.get i : ℂ) *
      Complex.exp (-2 * Complex.I * (((((i : ℝ) + 1) - m - 1 : ℝ) : ℂ) * ((a * Real.exp ((((k : ℝ) + 1) - 1) *
        Real.log ((b / a) ^ (1 / ((nv : ℝ) - 1)))) : ℝ) : ℂ)) * Real.pi) else 0, by
    unfold geometricSample
    rw [if_neg (by push Not; exact ⟨h0.ne', by omega⟩), if_neg (not_le.2 hba)]
    rfl, hg, fun k hk => ?_, fun k hk => ?_⟩
  · simp only
    rw [if_pos (by exact hk)]
    unfold spectrumAt
    refine Finset.sum_congr rfl (fun i _ => ?_)
    show (s.get i : ℂ) * _ = (s.get i : ℂ) * _
    congr 1
    rw [hg k]
    unfold expi
    congr 1
    push_cast
    ring
  · simp only
    rw [if_neg (by show ¬ k < nv; omega)]

/-- The Mellin coefficients computed by the code. -/
theorem mellin_ok (nv : ℕ) (hN : 2 ≤ nv) (S : ℕ → ℂ) (hS : ∀ k, nv ≤ k → S k = 0) :
    ∃ y : ℕ → ℂ, ifft ⟨nv + nv, S⟩ = .ok ⟨nv + nv, y⟩ ∧ ∀ p < nv + nv, (fftshift (⟨nv + nv, y⟩ : Vec ℂ)).get p = mellinCoef nv S ((p : ℤ) - nv) := by
  refine ⟨_, by unfold ifft; rw [if_neg (by show nv + nv ≠ 0; omega)], fun p hp => ?_⟩
  show (∑ j ∈ range (nv + nv), S j * rootPow (nv + nv) (-((j : ℤ) * (((p + (nv + nv - (nv + nv) / 2)) % (nv + nv) : ℕ) : ℤ)))) / ((nv + nv : ℕ) : ℂ) = _
  unfold mellinCoef
  rw [Finset.sum_range_add, Finset.sum_eq_zero (s := range nv) (f := fun x => S (nv + x) * _) (fun x _ => by rw [hS _ (by omega), zero_mul]), add_zero]
  have hnv : (nv : ℝ) ≠ 0 := by have : (2 : ℝ) ≤ nv := by exact_mod_cast hN
                                linarith
  congr 1
  · refine Finset.sum_congr rfl (fun j _ => ?_)
    congr 1
    rw [rootPow_congr (b := -((j : ℤ) * ((p : ℤ) - nv))) (by omega)]
    · unfold rootPow expi
      congr 1
      push_cast
      field_simp
      ring
    · have h2 : nv + nv - (nv + nv) / 2 = nv := by omega
      rw [h2]
      have h3 := Nat.div_add_mod (p + nv) (nv + nv)
      refine ⟨-(j : ℤ) * (1 - ((p + nv) / (nv + nv) : ℕ)), ?_⟩
      have h4 : (((p + nv) % (nv + nv) : ℕ) : ℤ) = (p : ℤ) + nv - ((nv : ℤ) + nv) * ((p + nv) / (nv + nv) : ℕ) := by
        have : (((nv + nv) * ((p + nv) / (nv + nv)) + (p + nv) % (nv + nv) : ℕ) : ℤ) = ((p + nv : ℕ) : ℤ) := by rw [h3]
        push_cast at this ⊢
        linarith
      rw [h4]
      push_cast
      ring
  · push_cast; ring

/-- Exchange of the halves of `range (2 m)`. -/
def swapHalf (m n : ℕ) : ℕ := if n < m then m + n else n - m

theorem sum_swapHalf (m : ℕ) (g : ℕ → ℕ → ℂ) : ∑ n ∈ range (2 * m), g (swapHalf m n) n = ∑ n ∈ range (2 * m), g n (swapHalf m n) := by
  have hi : ∀ n < 2 * m, swapHalf m n < 2 * m ∧ swapHalf m (swapHalf m n) = n := fun n hn => by
    unfold swapHalf; split_ifs <;> omega
  refine Finset.sum_nbij' (swapHalf m) (swapHalf m) (fun n hn => mem_range.2 (hi n (mem_range.1 hn)).1) (fun n hn => mem_range.2 (hi n (mem_range.1 hn)).1)
    (fun n hn => (hi n (mem_range.1 hn)).2) (fun n hn => (hi n (mem_range.1 hn)).2) (fun n hn => ?_)
  rw [(hi n (mem_range.1 hn)).2]

theorem fftshift_even {m : ℕ} (v : Vec ℂ) (hv : v.len = m + m) {n : ℕ} (hn : n < 2 * m) : (fftshift v).get n = v.get (swapHalf m n) := by
  show v.get ((n + (v.len - v.len / 2)) % v.len) = _
  congr 1
  rw [hv, show m + m - (m + m) / 2 = m by omega]
  unfold swapHalf
  split_ifs with h
  · rw [Nat.mod_eq_of_lt (by omega)]; omega
  · rw [show n + m = (n - m) + (m + m) by omega, Nat.add_mod_right, Nat.mod_eq_of_lt (by omega)]

theorem rootPow_swapHalf {m : ℕ} (hm : 0 < m) (n : ℕ) (i : ℤ) :
    rootPow (2 * m) ((swapHalf m n : ℤ) * i) = rootPow (2 * m) (((n : ℤ) - m) * i) := by
  refine rootPow_congr (by omega) ?_
  unfold swapHalf
  split_ifs with h
  · exact ⟨i, by push_cast; ring⟩
  · rw [Nat.cast_sub (by omega)]; simp

namespace Spec

/-- The dilation functions: Unterberger, D-Flandrin, Bertrand. -/
noncomputable def lam : Kind → ℝ → ℝ → ℝ
  | .unterberger _, sgn, u => Real.sqrt (1 + (u / 2) ^ 2) + sgn * (u / 2)
  | .dflandrin, sgn, u => (1 + sgn * (u / 4)) ^ 2
  | .bertrand, sgn, u => (u / 2) * Real.exp (sgn * (u / 2)) / Real.sinh (u / 2)

/-- Weight of the dilations in the three distributions. -/
noncomputable def weight : Kind → ℝ
  | .bertrand => 1 / 2
  | _ => -1 / 2

/-- Entry of the product of the two dilated spectra, `n` from `0` to `2 m1 - 1` standing for the dilation parameter `umax (n - m1) / m1`. -/
noncomputable def dilProd (kind : Kind) (N m1 : ℕ) (logq umax : ℝ) (S : ℕ → ℂ) (n i : ℕ) : ℂ :=
  if n = m1 then (‖S i‖ ^ 2 : ℝ)
  else dilateAt N logq (weight kind) (lam kind (-1) (umax * ((n : ℝ) - m1) / m1)) S i *
    (starRingEnd ℂ) (dilateAt N logq (weight kind) (lam kind 1 (umax * ((n : ℝ) - m1) / m1)) S i)

end Spec

theorem exp_exponent (kind : Kind) {sgn u : ℝ} (hl : 0 < lam kind sgn u) (beta : ℝ) :
    Complex.exp (exponent kind sgn u beta) = ((lam kind sgn u ^ weight kind : ℝ) : ℂ) * expi (-(2 * Real.pi * beta * Real.log (lam kind sgn u))) := by
  rw [Real.rpow_def_of_pos hl, Complex.ofReal_exp]
  unfold expi
  rw [← Complex.exp_add]
  congr 1
  cases kind with
  | unterberger f =>
    simp only [exponent, weight, lam]
    push_cast
    ring_nf
  | dflandrin =>
    simp only [exponent, weight, lam]
    rw [Real.log_pow]
    push_cast
    ring_nf
  | bertrand =>
    simp only [exponent, weight, lam]
    push_cast
    ring_nf

theorem dilate_ok (kind : Kind) {nv : ℕ} (hN : 2 ≤ nv) (q : ℝ) (S : ℕ → ℂ) (mel : Vec ℂ) (hlen : mel.len = nv + nv)
    (hmel : ∀ p < nv + nv, mel.get p = mellinCoef nv S ((p : ℤ) - nv)) {sgn u : ℝ} (hl : 0 < lam kind sgn u) :
    ∃ f : ℕ → ℂ, dilate kind nv q mel sgn u = .ok ⟨nv, f⟩ ∧ ∀ i, f i = dilateAt nv (Real.log q) (weight kind) (lam kind sgn u) S i := by
  set mx : Vec ℂ := ⟨mel.len, fun p => Complex.exp (exponent kind sgn u (((p : ℝ) / nv - 1) / (2 * Real.log q))) * mel.get p⟩ with hmx
  have hnv : (nv : ℝ) ≠ 0 := by have : (2 : ℝ) ≤ nv := by exact_mod_cast hN
                                linarith
  refine ⟨fun i => ∑ p ∈ range (fftshift mx).len, (fftshift mx).get p * rootPow (fftshift mx).len ((p : ℤ) * (i : ℤ)), ?_, fun i => ?_⟩
  · unfold dilate
    simp only
    rw [← hmx, fft, if_neg (by show mel.len ≠ 0; omega), ok_bind]
    congr 1
    unfold Vec.slice
    have c0 : Vec.clampIdx (fftshift mx).len 0 = 0 := by unfold Vec.clampIdx; simp
    have c1 : Vec.clampIdx (fftshift mx).len (nv : ℤ) = nv := by
      unfold Vec.clampIdx
      rw [if_neg (by omega), Int.toNat_natCast]
      show min mel.len nv = nv
      omega
    simp only [c0, c1, zero_add, Nat.sub_zero]
  · have hl2 : (fftshift mx).len = 2 * nv := by show mel.len = _; omega
    simp only [hl2]
    have h1 : (∑ p ∈ range (2 * nv), (fftshift mx).get p * rootPow (2 * nv) ((p : ℤ) * (i : ℤ)))
        = ∑ p ∈ range (2 * nv), mx.get (swapHalf nv p) * rootPow (2 * nv) ((p : ℤ) * (i : ℤ)) :=
      Finset.sum_congr rfl (fun p hp => by rw [fftshift_even mx hlen (mem_range.1 hp)])
    rw [h1, sum_swapHalf nv (fun a b => mx.get a * rootPow (2 * nv) ((b : ℤ) * (i : ℤ)))]
    unfold dilateAt
    refine Finset.sum_congr rfl (fun p hp => ?_)
    have hp' := mem_range.1 hp
    rw [rootPow_swapHalf (by omega), rootPow_eq_expi]
    show Complex.exp _ * mel.get p * _ = _
    rw [hmel p (by omega), exp_exponent kind hl]
    congr 1
    · congr 2
      congr 1
      rw [show ((p : ℝ) / nv - 1) / (2 * Real.log q) = ((p : ℝ) - nv) / (2 * nv * Real.log q) by
        rw [div_sub_one hnv, div_div]; congr 1; ring]
      ring
    · congr 1
      push_cast
      ring

theorem lam_pos (kind : Kind) {sgn u : ℝ} (hs : sgn = -1 ∨ sgn = 1) (hf : kind = .dflandrin → |u| < 4) (hb : kind = .bertrand → u ≠ 0) :
    0 < lam kind sgn u := by
  cases kind with
  | unterberger f =>
    simp only [lam]
    have h1 : |u / 2| < Real.sqrt (1 + (u / 2) ^ 2) := by
      rw [← Real.sqrt_sq_eq_abs]
      exact Real.sqrt_lt_sqrt (sq_nonneg _) (by linarith)
    rcases abs_lt.1 h1 with ⟨h2, h3⟩
    rcases hs with rfl | rfl <;> linarith
  | dflandrin =>
    simp only [lam]
    rcases abs_lt.1 (hf rfl) with ⟨h2, h3⟩
    rcases hs with rfl | rfl
    · exact pow_pos (by linarith) 2
    · exact pow_pos (by linarith) 2
  | bertrand =>
    simp only [lam]
    have hu := hb rfl
    rw [mul_comm, mul_div_assoc]
    refine mul_pos (Real.exp_pos _) ?_
    rcases lt_or_gt_of_ne hu with h | h
    · exact div_pos_of_neg_of_neg (by linarith) (Real.sinh_neg_iff.2 (by linarith))
    · exact div_pos (by linarith) (Real.sinh_pos_iff.2 (by linarith))

/-- A dilation by one does nothing. -/
theorem dilateAt_one {N : ℕ} (hN : 0 < N) (logq w : ℝ) (S : ℕ → ℂ) {i : ℕ} (hi : i < N) : dilateAt N logq w 1 S i = S i := by
  have hN' : (N : ℂ) ≠ 0 := by exact_mod_cast hN.ne'
  have hNr : (N : ℝ) ≠ 0 := by exact_mod_cast hN.ne'
  have hterm : ∀ p : ℕ, (((1 : ℝ) ^ w : ℝ) : ℂ) * expi (-(2 * Real.pi * ((p : ℝ) - N) / (2 * N * logq) * Real.log 1)) * mellinCoef N S ((p : ℤ) - N) *
      expi (-(2 * Real.pi * i * ((p : ℝ) - N) / (2 * N))) = ∑ j ∈ range N, S j / (2 * N) * rootPow (2 * N) (((i : ℤ) - j) * ((p : ℤ) - N)) := fun p => by
    have h1 : expi (-(2 * Real.pi * ((p : ℝ) - N) / (2 * N * logq) * Real.log 1)) = 1 := by unfold expi; simp
    rw [Real.one_rpow, h1]
    unfold mellinCoef
    rw [Complex.ofReal_one, one_mul, one_mul, Finset.sum_div, Finset.sum_mul]
    refine Finset.sum_congr rfl (fun j _ => ?_)
    rw [rootPow_eq_expi, mul_div_right_comm, mul_assoc]
    congr 1
    unfold expi
    rw [← Complex.exp_add]
    congr 1
    push_cast
    field_simp
    ring
  unfold dilateAt
  rw [Finset.sum_congr rfl (fun p _ => hterm p), Finset.sum_comm]
  rw [Finset.sum_eq_single_of_mem i (mem_range.2 hi)]
  · rw [sub_self]
    simp only [zero_mul, rootPow_zero, mul_one, Finset.sum_const, Finset.card_range, nsmul_eq_mul]
    push_cast
    field_simp
  · intro j hj hji
    rw [← Finset.mul_sum]
    have h2 : ∀ p : ℕ, rootPow (2 * N) (((i : ℤ) - j) * ((p : ℤ) - N)) = rootPow (2 * N) (((i : ℤ) - j) * (-N)) * rootPow (2 * N) (((i : ℤ) - j) * p) :=
      fun p => by rw [← rootPow_add]; congr 1; ring
    simp only [h2]
    rw [← Finset.mul_sum, sum_rootPow (n := 2 * N) (by omega), if_neg, mul_zero, mul_zero]
    rintro ⟨c, hc⟩
    have hj' := mem_range.1 hj
    have h3 : |(i : ℤ) - j| < 2 * N := by rw [abs_lt]; constructor <;> omega
    rw [hc, abs_mul] at h3
    push_cast at h3
    have hc0 : c ≠ 0 := by rintro rfl; simp at hc; omega
    have : 1 ≤ |c| := Int.one_le_abs hc0
    rw [abs_of_pos (by omega : (0 : ℤ) < 2 * N)] at h3
    nlinarith

theorem lam_zero (kind : Kind) (hb : kind ≠ .bertrand) (sgn : ℝ) : lam kind sgn 0 = 1 := by
  cases kind with
  | unterberger f => simp [lam]
  | dflandrin => simp [lam]
  | bertrand => exact absurd rfl hb

theorem wafRow_ok (kind : Kind) (hk : kind ≠ .unterberger true) {nv m1 : ℕ} (hN : 2 ≤ nv) (hm : 0 < m1) (q : ℝ) {umax : ℝ} (hu : 0 < umax)
    (hf : kind = .dflandrin → umax < 4) (u : ℕ → ℝ) (hug : ∀ n, u n = umax * ((n : ℝ) - m1) / m1) (S : ℕ → ℂ) (mel : Vec ℂ)
    (hlen : mel.len = nv + nv) (hmel : ∀ p < nv + nv, mel.get p = mellinCoef nv S ((p : ℤ) - nv)) {n : ℕ} (hn : n < 2 * m1) :
    ∃ f : ℕ → ℂ, wafRow kind nv m1 q ⟨2 * m1, u⟩ ⟨nv + nv, S⟩ mel n = .ok ⟨nv, f⟩ ∧ ∀ i < nv, f i = dilProd kind nv m1 (Real.log q) umax S n i := by
  have hm' : (0 : ℝ) < m1 := by exact_mod_cast hm
  have hit : (⟨2 * m1, u⟩ : Vec ℝ).item (n : ℤ) = .ok (u n) := by
    unfold Vec.item
    rw [if_pos (by unfold IdxOk; show -((2 * m1 : ℕ) : ℤ) ≤ _ ∧ _ < ((2 * m1 : ℕ) : ℤ); omega)]
    have : wrapIdx (2 * m1) (n : ℤ) = n := by unfold wrapIdx; rw [if_neg (by omega)]; rfl
    simp only [this]
  have hnorm : ∀ z : ℂ, z * (starRingEnd ℂ) z = ((‖z‖ ^ 2 : ℝ) : ℂ) := fun z => by
    rw [Complex.mul_conj, Complex.normSq_eq_norm_sq]
  by_cases hb : kind = .bertrand ∧ (n : ℤ) = (m1 : ℤ)
  · refine ⟨fun i => S i * (starRingEnd ℂ) (S i), ?_, fun i hi => ?_⟩
    · unfold wafRow
      rw [hit, ok_bind, if_pos hb]
      congr 1
      unfold Vec.slice Vec.map
      have c0 : Vec.clampIdx (nv + nv) 0 = 0 := by unfold Vec.clampIdx; simp
      have c1 : Vec.clampIdx (nv + nv) (nv : ℤ) = nv := by
        unfold Vec.clampIdx
        rw [if_neg (by omega), Int.toNat_natCast]
        omega
      simp only [c0, c1, zero_add, Nat.sub_zero]
    · unfold dilProd
      rw [if_pos (by exact_mod_cast hb.2)]
      exact hnorm (S i)
  · have hun : kind = .bertrand → u n ≠ 0 := fun h => by
      rw [hug]
      have : n ≠ m1 := fun h' => hb ⟨h, by exact_mod_cast h'⟩
      have h2 : (n : ℝ) - m1 ≠ 0 := by rw [sub_ne_zero]; exact_mod_cast this
      exact div_ne_zero (mul_ne_zero hu.ne' h2) hm'.ne'
    have hule : |u n| ≤ umax := by
      rw [hug, abs_div, abs_mul, abs_of_pos hu, abs_of_pos hm', div_le_iff₀ hm']
      refine mul_le_mul_of_nonneg_left ?_ hu.le
      have : (n : ℝ) < 2 * m1 := by exact_mod_cast hn
      rw [abs_le]
      constructor
      · have := Nat.cast_nonneg (α := ℝ) n; linarith
      · linarith
    have hpos : ∀ sgn : ℝ, sgn = -1 ∨ sgn = 1 → 0 < lam kind sgn (u n) := fun sgn hs =>
      lam_pos kind hs (fun h => lt_of_le_of_lt hule (hf h)) hun
    obtain ⟨f1, h1, e1⟩ := dilate_ok kind hN q S mel hlen hmel (hpos (-1) (Or.inl rfl))
    obtain ⟨f2, h2, e2⟩ := dilate_ok kind hN q S mel hlen hmel (hpos 1 (Or.inr rfl))
    refine ⟨fun i => f1 i * (starRingEnd ℂ) (f2 i), ?_, fun i hi => ?_⟩
    · unfold wafRow
      rw [hit, ok_bind, if_neg hb, h1, ok_bind, h2, ok_bind, Vec.bcast_ok (by rfl), ok_bind]
      cases kind with
      | unterberger b =>
        cases b with
        | true => exact absurd rfl hk
        | false => rfl
      | dflandrin => rfl
      | bertrand => rfl
    · simp only [e1, e2]
      unfold dilProd
      by_cases hnm : n = m1
      · have hkb : kind ≠ .bertrand := fun h => hb ⟨h, by exact_mod_cast hnm⟩
        have h0 : u n = 0 := by rw [hug, hnm]; simp
        rw [if_pos hnm, h0, lam_zero kind hkb, lam_zero kind hkb, dilateAt_one (by omega) _ _ _ hi, hnorm]
      · rw [if_neg hnm, hug]

theorem mellinCoef_congr {N : ℕ} {S S' : ℕ → ℂ} (h : ∀ k < N, S k = S' k) (k : ℤ) : mellinCoef N S k = mellinCoef N S' k := by
  unfold mellinCoef
  rw [Finset.sum_congr rfl (fun j hj => by rw [h j (mem_range.1 hj)])]

theorem dilProd_congr (kind : Kind) {N m1 : ℕ} (logq umax : ℝ) {S S' : ℕ → ℂ} (h : ∀ k < N, S k = S' k) (n : ℕ) {i : ℕ} (hi : i < N) :
    dilProd kind N m1 logq umax S n i = dilProd kind N m1 logq umax S' n i := by
  unfold dilProd dilateAt
  simp only [mellinCoef_congr h, h i hi]

/-- The entry of voice `i` and column `j` of the representation before interpolation. -/
noncomputable def Spec.affineAt (kind : Kind) (x : Vec ℝ) (m N m1 : ℕ) (a b umax : ℝ) (i j : ℕ) : ℝ :=
  geoFreq N a b i / (2 * m1) * (∑ n ∈ range (2 * m1),
    dilProd kind N m1 (Real.log (b / a) / ((N : ℝ) - 1)) umax (fun k => spectrumAt (x.map (fun v : ℝ => (v : ℂ))) m (geoFreq N a b k)) n i *
      expi (2 * Real.pi * ((n : ℝ) - m1) * ((m1 : ℝ) - 1 - j) / (2 * m1))).re

theorem tffr_ok (o : Disp) (hk : o.kind ≠ .unterberger true) (h0 : 0 < o.fmin) (h1 : o.fmin < o.fmax) (hN : 2 ≤ o.nv) {m1 : ℕ} (hm1 : o.m1 = (m1 : ℤ))
    (hm : 0 < m1) (hu : 0 < o.umax) (hf : o.kind = .dflandrin → o.umax < 4) :
    ∃ (geo : ℕ → ℝ) (M : ℕ → ℕ → ℝ), tffr o = .ok (⟨o.nv, geo⟩, ⟨o.nv, 2 * m1, M⟩) ∧ (∀ k, geo k = geoFreq o.nv o.fmin o.fmax k) ∧
      ∀ i < o.nv, ∀ j < 2 * m1, M i j = affineAt o.kind (o.x.map Complex.re) o.m o.nv m1 o.fmin o.fmax o.umax i j := by
  have hba : 0 < o.fmax / o.fmin := div_pos (h0.trans h1) h0
  have hm' : (m1 : ℝ) ≠ 0 := by exact_mod_cast hm.ne'
  obtain ⟨geo, S, hg, hgeo, hS, hS0⟩ := geometricSample_ok (o.x.map Complex.re) o.m h0 h1 hN
  obtain ⟨y, hy, hmel⟩ := mellin_ok o.nv hN S hS0
  obtain ⟨u, hua, hug⟩ := uAxis_ok hu hm
  set q : ℝ := (o.fmax / o.fmin) ^ (1 / ((o.nv : ℝ) - 1)) with hq
  have hlogq : Real.log q = Real.log (o.fmax / o.fmin) / ((o.nv : ℝ) - 1) := by rw [hq, Real.log_rpow hba]; ring
  choose! w hw hwe using fun (n : ℕ) (hn : n < 2 * m1) =>
    wafRow_ok o.kind hk hN hm q hu hf u hug S (fftshift ⟨o.nv + o.nv, y⟩) rfl hmel hn
  refine ⟨geo, (tffrOf (⟨o.nv, 2 * m1, fun i n => if n < 2 * m1 then w n i else 0⟩ : Mat ℂ) ⟨o.nv, geo⟩ m1).get, ?_, hgeo, fun i hi j hj => ?_⟩
  · unfold tffr
    simp only
    rw [hg, ok_bind]
    simp only
    rw [hy, ok_bind, hm1, hua, ok_bind, Int.toNat_natCast,
      Mat.forCols_ok (M := Mat.zeros o.nv (2 * m1)) (T := 2 * m1) (g := fun n => ⟨o.nv, w n⟩) (le_refl _) (fun n hn => hw n hn), ok_bind]
    rfl
  · have hsw : ∀ n < 2 * m1, swapHalf m1 n < 2 * m1 := fun n hn => by unfold swapHalf; split_ifs <;> omega
    show ((∑ n ∈ range (2 * m1), (if swapHalf m1 n < 2 * m1 then w (swapHalf m1 n) i else 0) * (geo i : ℂ) *
      rootPow (2 * m1) (-((n : ℤ) * (swapHalf m1 (2 * m1 - 1 - j) : ℤ)))) / ((2 * m1 : ℕ) : ℂ)).re = _
    rw [sum_swapHalf m1 (fun a b => (if a < 2 * m1 then w a i else 0) * (geo i : ℂ) * rootPow (2 * m1) (-((b : ℤ) * (swapHalf m1 (2 * m1 - 1 - j) : ℤ))))]
    unfold affineAt
    rw [← hgeo i, ← hlogq]
    have hterm : ∀ n ∈ range (2 * m1), (if n < 2 * m1 then w n i else 0) * (geo i : ℂ) *
        rootPow (2 * m1) (-((swapHalf m1 n : ℤ) * (swapHalf m1 (2 * m1 - 1 - j) : ℤ))) = (geo i : ℂ) *
        (dilProd o.kind o.nv m1 (Real.log q) o.umax (fun k => spectrumAt ((o.x.map Complex.re).map (fun v : ℝ => (v : ℂ))) o.m (geoFreq o.nv o.fmin o.fmax k)) n i *
          expi (2 * Real.pi * ((n : ℝ) - m1) * ((m1 : ℝ) - 1 - j) / (2 * m1))) := fun n hn => by
      have hn' := mem_range.1 hn
      rw [if_pos hn', hwe n hn' i hi, dilProd_congr o.kind _ _ (fun k hk => hS k hk) n hi]
      have e : rootPow (2 * m1) (-((swapHalf m1 n : ℤ) * (swapHalf m1 (2 * m1 - 1 - j) : ℤ)))
          = expi (2 * Real.pi * ((n : ℝ) - m1) * ((m1 : ℝ) - 1 - j) / (2 * m1)) := by
        rw [← mul_neg, rootPow_swapHalf hm, show ((n : ℤ) - m1) * -(swapHalf m1 (2 * m1 - 1 - j) : ℤ) = (swapHalf m1 (2 * m1 - 1 - j) : ℤ) * -((n : ℤ) - m1) by ring,
          rootPow_swapHalf hm, rootPow_eq_expi]
        congr 1
        have : ((2 * m1 - 1 - j : ℕ) : ℝ) = 2 * m1 - 1 - j := by
          rw [Nat.cast_sub (by omega), Nat.cast_sub (by omega)]; push_cast; ring
        push_cast
        rw [this]
        field_simp
        ring
      rw [e]
      ring
    rw [Finset.sum_congr rfl hterm, ← Finset.mul_sum, mul_div_right_comm]
    have hc : (geo i : ℂ) / ((2 * m1 : ℕ) : ℂ) = ((geo i / (2 * m1) : ℝ) : ℂ) := by push_cast; ring
    rw [hc, Complex.re_ofReal_mul]

/-- The frequency marginal before interpolation. -/
theorem affineAt_marginal (kind : Kind) (x : Vec ℝ) (m : ℕ) {N m1 : ℕ} (hm : 0 < m1) (a b umax : ℝ) (i : ℕ) :
    ∑ j ∈ range (2 * m1), affineAt kind x m N m1 a b umax i j =
      geoFreq N a b i * ‖spectrumAt (x.map (fun v : ℝ => (v : ℂ))) m (geoFreq N a b i)‖ ^ 2 := by
  have hm' : (m1 : ℝ) ≠ 0 := by exact_mod_cast hm.ne'
  unfold affineAt
  rw [← Finset.mul_sum, ← Complex.re_sum, Finset.sum_comm]
  have hE : ∀ n ∈ range (2 * m1), (∑ j ∈ range (2 * m1), expi (2 * Real.pi * ((n : ℝ) - m1) * ((m1 : ℝ) - 1 - j) / (2 * m1)))
      = if n = m1 then ((2 * m1 : ℕ) : ℂ) else 0 := fun n hn => by
    have hn' := mem_range.1 hn
    have e : ∀ j : ℕ, expi (2 * Real.pi * ((n : ℝ) - m1) * ((m1 : ℝ) - 1 - j) / (2 * m1))
        = rootPow (2 * m1) (-(((n : ℤ) - m1) * ((m1 : ℤ) - 1))) * rootPow (2 * m1) (((n : ℤ) - m1) * (j : ℤ)) := fun j => by
      rw [← rootPow_add, rootPow_eq_expi]
      congr 1
      push_cast
      field_simp
      ring
    simp only [e]
    rw [← Finset.mul_sum, sum_rootPow (n := 2 * m1) (by omega)]
    by_cases h : n = m1
    · rw [if_pos h, if_pos (by rw [h, sub_self]; exact dvd_zero _), h, sub_self, zero_mul, neg_zero, rootPow_zero, one_mul]
    · rw [if_neg h, if_neg, mul_zero]
      rintro ⟨c, hc⟩
      have hc0 : c ≠ 0 := by rintro rfl; simp at hc; omega
      have h2 := Int.one_le_abs hc0
      have h3 : |(n : ℤ) - m1| ≤ m1 := by rw [abs_le]; constructor <;> omega
      rw [hc, abs_mul] at h3
      push_cast at h3
      rw [abs_of_pos (by omega : (0 : ℤ) < 2 * m1)] at h3
      nlinarith
  simp only [← Finset.mul_sum]
  rw [Finset.sum_congr rfl (fun n hn => by rw [hE n hn]), Finset.sum_eq_single_of_mem m1 (mem_range.2 (by omega)) (fun n _ h => by rw [if_neg h, mul_zero]),
    if_pos rfl]
  unfold dilProd
  rw [if_pos rfl]
  have : (((‖spectrumAt (x.map (fun v : ℝ => (v : ℂ))) m (geoFreq N a b i)‖ ^ 2 : ℝ) : ℂ) * ((2 * m1 : ℕ) : ℂ))
      = ((‖spectrumAt (x.map (fun v : ℝ => (v : ℂ))) m (geoFreq N a b i)‖ ^ 2 * (2 * m1) : ℝ) : ℂ) := by push_cast; ring
  rw [this, Complex.ofReal_re]
  field_simp

end Tftb
