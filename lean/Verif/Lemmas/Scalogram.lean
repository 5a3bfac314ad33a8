import Verif.Lemmas.Affine
import Verif.Props.ProcUtils
import Verif.Props.Misc
import Verif.Lemmas.Gabor

/-! # Lemmas on the scalogram -/

namespace Tftb

open Finset Spec Aff ProcUtils

theorem nanChecks_ok {a b : ℝ} (ha : 0 < a) (hb : 0 < b) (w : ℝ) (nv : ℕ) : nanChecks a b w nv = .ok () := by
  unfold nanChecks
  rw [if_neg ha.ne', if_neg (by rintro ⟨-, -, h⟩; exact absurd h (not_le.2 (div_pos hb ha))), if_neg (by rintro ⟨-, -, h | h⟩ <;> linarith)]

theorem rpow_logspace {a b : ℝ} (ha : 0 < a) (hb : 0 < b) (e : ℝ) :
    (10 : ℝ) ^ (Real.logb 10 a + e * (Real.logb 10 b - Real.logb 10 a)) = a * (b / a) ^ e := by
  rw [Real.rpow_add (by norm_num), Real.rpow_logb (by norm_num) (by norm_num) ha, ← Real.logb_div hb.ne' ha.ne', mul_comm e,
    Real.rpow_mul (by norm_num), Real.rpow_logb (by norm_num) (by norm_num) (by positivity)]

/-- `np.logspace` between two positive numbers is a geometric progression. -/
theorem logspace_ok {a b : ℝ} (ha : 0 < a) (hb : 0 < b) {n : ℕ} (hn : 2 ≤ n) :
    logspace a b n = .ok ⟨n, fun i => a * (b / a) ^ ((i : ℝ) / ((n : ℝ) - 1))⟩ := by
  unfold logspace
  rw [if_pos ⟨ha, hb⟩]
  refine congrArg Except.ok (congrArg (Vec.mk n) (funext fun i => ?_))
  show (10 : ℝ) ^ (if n = 1 then Real.logb 10 a else Real.logb 10 a + (i : ℝ) * ((Real.logb 10 b - Real.logb 10 a) / ((n : ℝ) - 1))) = _
  rw [if_neg (by omega), ← rpow_logspace ha hb]
  congr 2
  ring

theorem convolve_ok {a b : Vec ℂ} (ha : a.len ≠ 0) (hb : b.len ≠ 0) :
    convolve a b = .ok ⟨a.len + b.len - 1, fun k =>
      ∑ j ∈ range a.len, if j ≤ k ∧ k - j < b.len then a.get j * b.get (k - j) else 0⟩ := by
  unfold convolve
  rw [if_neg (by tauto)]

theorem convolve_filtered' {z b : Vec ℂ} (hz : z.len ≠ 0) (r : ℕ) (g : ℤ → ℂ) (hl : b.len = 2 * r + 1)
    (hb : ∀ i < 2 * r + 1, b.get i = g ((i : ℤ) - r)) :
    ∃ c, convolve z b = .ok c ∧ c.len = z.len + 2 * r ∧ ∀ k : ℕ, c.get k = filtered z r g ((k : ℤ) - r) := by
  refine ⟨_, convolve_ok hz (by rw [hl]; omega), by simp only [hl]; omega, fun k => ?_⟩
  unfold filtered
  simp only
  refine Finset.sum_congr rfl (fun j _ => ?_)
  rw [hl]
  by_cases h : j ≤ k ∧ k - j < 2 * r + 1
  · rw [if_pos h, if_pos (by rw [abs_le]; omega), hb _ h.2]
    congr 2
    omega
  · rw [if_neg h, if_neg]
    rw [abs_le]
    omega

theorem convolve_filtered {z : Vec ℂ} (hz : z.len ≠ 0) (r : ℕ) (g : ℤ → ℂ) :
    ∃ c, convolve z ((arange (-(r : ℤ)) (r + 1)).map g) = .ok c ∧ c.len = z.len + 2 * r ∧
      ∀ k : ℕ, c.get k = filtered z r g ((k : ℤ) - r) := by
  refine convolve_filtered' hz r g ?_ (fun i _ => ?_)
  · show ((r : ℤ) + 1 - -(r : ℤ)).toNat = _
    omega
  · show g (-(r : ℤ) + i) = _
    congr 1
    omega

theorem take_arange {v : Vec ℂ} {a : ℕ} {L : ℕ} {b : ℤ} (hb : b = a + L) (h : a + L ≤ v.len) :
    v.take (arange a b) = .ok ⟨L, fun i => v.get (a + i)⟩ := by
  subst hb
  have hl : (arange (a : ℤ) (a + L)).len = L := by rw [arange_len]; omega
  rw [Vec.take_ok (fun j hj => by rw [hl] at hj; rw [arange_get]; omega)]
  refine congrArg Except.ok ?_
  rw [hl]
  refine congrArg (Vec.mk L) (funext fun i => ?_)
  rw [arange_get, wrapIdx_of_nonneg (by omega)]
  congr 1

theorem take_arange_error {v : Vec ℂ} {a b : ℤ} (hab : a < b) (h : (v.len : ℤ) < b) :
    v.take (arange a b) = .error .indexError := by
  unfold Vec.take
  rw [if_neg]
  push Not
  refine ⟨(b - a).toNat - 1, by rw [arange_len]; omega, ?_⟩
  rw [arange_get]
  unfold IdxOk
  omega

theorem morlet_eq (nha f : ℝ) (r : ℕ) (hr : (r : ℤ) = roundEven nha) :
    morlet nha f = (arange (-(r : ℤ)) (r + 1)).map (morletAt nha f) := by
  unfold morlet
  rw [← hr]
  refine congrArg (fun g => (arange (-(r : ℤ)) (r + 1)).map g) (funext fun t => ?_)
  unfold morletAt expi
  congr 1
  · rw [Real.rpow_def_of_pos (by norm_num)]
    congr 2
    rw [div_pow]
    ring
  · congr 1
    push_cast
    ring

theorem morletVoice_ok {z : Vec ℂ} (hz : z.len ≠ 0) (w a f : ℝ) (r : ℕ) (hr : (r : ℤ) = roundEven (w * a)) (h1 : 1 ≤ r) :
    morletVoice z (arange 0 z.len) w a f = .ok
      (⟨z.len, fun t => filtered z r (morletAt (w * a) f) ((t : ℤ) - r) / (Real.sqrt a : ℂ)⟩,
       ⟨z.len, fun t => filtered z r (morletAt (w * a) f) (t : ℤ) / (Real.sqrt a : ℂ)
          * (starRingEnd ℂ) (filtered z r (morletAt (w * a) f) (t : ℤ) / (Real.sqrt a : ℂ))⟩) := by
  unfold morletVoice
  simp only
  obtain ⟨c, hc, hl, hget⟩ := convolve_filtered hz r (morletAt (w * a) f)
  rw [morlet_eq _ _ r hr, hc, ok_bind, ← hr]
  have e0 : arange 0 (z.len : ℤ) = arange ((0 : ℕ) : ℤ) (z.len : ℤ) := rfl
  rw [e0, take_arange (a := 0) (L := z.len) (by simp) (by simp only [Vec.map_len, hl]; omega), ok_bind,
    take_arange (a := r) (L := z.len + 1) (by simp only [Vec.map_len, hl]; push_cast; ring) (by simp only [Vec.map_len, hl]; omega), ok_bind,
    take_arange (a := 0) (L := z.len) (by simp) (by show 0 + z.len ≤ z.len + 1; omega), ok_bind]
  refine congrArg Except.ok (Prod.ext (congrArg (Vec.mk _) (funext fun t => ?_)) (congrArg (Vec.mk _) (funext fun t => ?_)))
  · simp only [Vec.map_get, zero_add, hget]
  · simp only [Vec.map_get, zero_add, hget]
    rw [show ((r + t : ℕ) : ℤ) - (r : ℤ) = t by push_cast; ring]

/-- A wavelet of half length 0 is refused. -/
theorem morletVoice_error {z : Vec ℂ} (hz : z.len ≠ 0) (w a f : ℝ) (hr : roundEven (w * a) = 0) :
    morletVoice z (arange 0 z.len) w a f = .error .indexError := by
  unfold morletVoice
  simp only
  obtain ⟨c, hc, hl, -⟩ := convolve_filtered hz 0 (morletAt (w * a) f)
  rw [morlet_eq _ _ 0 (by simp [hr]), hc, ok_bind, hr]
  have e0 : arange 0 (z.len : ℤ) = arange ((0 : ℕ) : ℤ) (z.len : ℤ) := rfl
  rw [e0, take_arange (a := 0) (L := z.len) (by simp) (by simp only [Vec.map_len, hl]; omega), ok_bind,
    take_arange_error (by simp only [Vec.map_len]; omega) (by simp only [Vec.map_len]; omega)]
  rfl

theorem setRow_ok {M : Mat ℂ} {r : ℕ} {v : Vec ℂ} (hr : r < M.rows) (hv : v.len = M.cols) :
    setRow M r v = .ok ⟨M.rows, M.cols, fun i j => if i = r then v.get j else M.get i j⟩ := by
  unfold setRow
  rw [if_neg (by omega), if_pos hv]

theorem voices_ok {nv n m : ℕ} {f a : Vec ℝ} {voice : ℝ → ℝ → Py (Vec ℂ × Vec ℂ)} (hm : nv ≤ m) (u v : ℕ → ℕ → ℂ)
    (h : ∀ p < nv, voice (a.get p) (f.get p) = .ok (⟨n, u p⟩, ⟨n, v p⟩)) :
    ∃ wt T, voices nv f a voice (Mat.zeros nv n) (Mat.zeros m n) = .ok (wt, T) ∧ wt.rows = nv ∧ wt.cols = n ∧ T.rows = m ∧ T.cols = n ∧
      (∀ p < nv, ∀ t, wt.get p t = u p t ∧ T.get p t = v p t) ∧ ∀ p, nv ≤ p → ∀ t, T.get p t = 0 := by
  unfold voices
  obtain ⟨s, hs, hP⟩ := foldlM_range_ok (N := nv)
    (f := fun (s : Mat ℂ × Mat ℂ) p => do
      let (u, v) ← voice (a.get p) (f.get p)
      let wt ← setRow s.1 p u
      let tfr ← setRow s.2 p v
      .ok (wt, tfr))
    (fun k s => s.1.rows = nv ∧ s.1.cols = n ∧ s.2.rows = m ∧ s.2.cols = n ∧
      (∀ p < k, ∀ t, s.1.get p t = u p t ∧ s.2.get p t = v p t) ∧ ∀ p, k ≤ p → ∀ t, s.2.get p t = 0)
    (s := (Mat.zeros nv n, Mat.zeros m n)) ⟨rfl, rfl, rfl, rfl, fun p hp => by omega, fun p _ t => rfl⟩
    (by
      rintro k hk ⟨A, B⟩ ⟨h1, h2, h3, h4, h5, h6⟩
      simp only at h1 h2 h3 h4 h5 h6
      refine ⟨(⟨A.rows, A.cols, fun i j => if i = k then u k j else A.get i j⟩,
        ⟨B.rows, B.cols, fun i j => if i = k then v k j else B.get i j⟩), ?_, ?_⟩
      · rw [h k hk, ok_bind]
        simp only
        rw [setRow_ok (by omega) (by exact h2.symm), ok_bind, setRow_ok (by omega) (by exact h4.symm), ok_bind]
      · refine ⟨h1, h2, h3, h4, fun p hp t => ?_, fun p hp t => ?_⟩
        · simp only
          by_cases e : p = k
          · rw [if_pos e, if_pos e, e]; exact ⟨rfl, rfl⟩
          · rw [if_neg e, if_neg e]; exact h5 p (by omega) t
        · simp only
          rw [if_neg (by omega)]
          exact h6 p (by omega) t)
  exact ⟨s.1, s.2, hs, hP⟩

theorem mexhatVoice_ok {z : Vec ℂ} (hz : z.len ≠ 0) (a f : ℝ) (h0 : 0 < f) (h1 : f ≤ 1 / 2) (m : ℕ) (hm : (m : ℤ) = ⌈3 / (2 * f)⌉) :
    mexhatVoice z (arange 0 z.len) a f = .ok
      (⟨z.len, fun t => filtered z m (mexhatAt f) ((t : ℤ) + 1) / (Real.sqrt a : ℂ)⟩,
       ⟨z.len, fun t => filtered z m (mexhatAt f) ((t : ℤ) + 1) / (Real.sqrt a : ℂ)
          * (starRingEnd ℂ) (filtered z m (mexhatAt f) ((t : ℤ) + 1) / (Real.sqrt a : ℂ))⟩) := by
  obtain ⟨ha, m', hok, hm', hl, hget, -⟩ := Props.C25_mexhat f h0 h1
  have : m' = m := by omega
  subst this
  have hm3 : 1 ≤ m' := by
    have : (0 : ℤ) < ⌈3 / (2 * f)⌉ := Int.ceil_pos.2 (by positivity)
    omega
  unfold mexhatVoice
  rw [hok, ok_bind]
  simp only
  obtain ⟨c, hc, hcl, hcg⟩ := convolve_filtered' (b := ha.map (fun v : ℝ => (v : ℂ))) hz m' (mexhatAt f) hl (fun i hi => by
    show ((ha.get i : ℝ) : ℂ) = _
    rw [hget i hi]
    unfold mexhatAt
    push_cast
    rfl)
  have hr : roundEven (((ha.len : ℝ) - 1) / 2) = (m' : ℤ) := by
    rw [hl]
    have : (((2 * m' + 1 : ℕ) : ℝ) - 1) / 2 = ((m' : ℕ) : ℝ) := by push_cast; ring
    rw [this, roundEven_natCast]
  have e0 : arange 0 (z.len : ℤ) = arange ((0 : ℕ) : ℤ) (z.len : ℤ) := rfl
  have e1 : ((m' : ℤ) + 1) = ((m' + 1 : ℕ) : ℤ) := by push_cast; ring
  rw [hc, ok_bind, hr, e0, e1,
    take_arange (a := m' + 1) (L := z.len) (by simp only [Vec.map_len, hcl]; push_cast; ring) (by simp only [Vec.map_len, hcl]; omega), ok_bind,
    take_arange (a := 0) (L := z.len) (by simp) (by show 0 + z.len ≤ z.len; omega), ok_bind]
  have e : ∀ t : ℕ, ((m' + 1 + t : ℕ) : ℤ) - (m' : ℤ) = t + 1 := fun t => by push_cast; ring
  refine congrArg Except.ok (Prod.ext (congrArg (Vec.mk _) (funext fun t => ?_)) (congrArg (Vec.mk _) (funext fun t => ?_)))
  · simp only [Vec.map_get, zero_add, hcg, e]
  · simp only [Vec.map_get, zero_add, hcg, e]

/-- Strictly positive integral of a non-negative, non-zero matrix. -/
theorem trapz2_eq_zero {n : ℕ} (hn : 2 ≤ n) (E : ℕ → ℕ → ℝ) (hE : ∀ p t, 0 ≤ E p t) (f : ℕ → ℝ) (hf : ∀ p, p + 1 < n → f p < f (p + 1))
    (h : trapz2 ⟨n, n, E⟩ (fun i => i) f = 0) : ∀ p < n, ∀ t < n, E p t = 0 := by
  have inner : ∀ p, 0 ≤ trapz n (fun i => (i : ℝ)) (E p) := fun p =>
    trapz_nonneg (fun i _ => by push_cast; linarith) (fun i _ => hE p i)
  have key : ∀ g x : ℕ → ℝ, (∀ i < n, 0 ≤ g i) → (∀ i, i + 1 < n → x i < x (i + 1)) → trapz n x g = 0 → ∀ i < n, g i = 0 := by
    intro g x hg hx h0 i hi
    unfold trapz at h0
    have hz := (Finset.sum_eq_zero_iff_of_nonneg (fun j hj => by
      have hj' := mem_range.1 hj
      have h1 := hx j (by omega)
      have h2 := hg j (by omega)
      have h3 := hg (j + 1) (by omega)
      have : 0 ≤ (x (j + 1) - x j) * (g j + g (j + 1)) := mul_nonneg (by linarith) (by linarith)
      linarith)).1 h0
    have step : ∀ j, j + 1 < n → g j = 0 ∧ g (j + 1) = 0 := by
      intro j hj
      have h1 := hz j (mem_range.2 (by omega))
      have h2 := hx j hj
      have h3 := hg j (by omega)
      have h4 := hg (j + 1) hj
      have h5 : g j + g (j + 1) = 0 := by
        have : (x (j + 1) - x j) * (g j + g (j + 1)) = 0 := by linarith
        rcases mul_eq_zero.1 this with h | h
        · linarith
        · exact h
      constructor <;> linarith
    rcases Nat.lt_or_ge (i + 1) n with h | h
    · exact (step i h).1
    · have := (step (i - 1) (by omega)).2
      rwa [Nat.sub_add_cancel (by omega)] at this
  intro p hp t ht
  have h1 := key (fun p => trapz n (fun i => (i : ℝ)) (E p)) f (fun p _ => inner p) hf h p hp
  exact key (E p) (fun i => (i : ℝ)) (fun i _ => hE p i) (fun i _ => by push_cast; linarith) h1 t ht

theorem slice_norm_sq {v : Vec ℂ} {i0 i1 : ℕ} (h1 : i1 + 1 ≤ v.len) :
    (v.slice (i0 : ℤ) ((i1 : ℤ) + 1)).norm ^ 2 = ∑ k ∈ Finset.Icc i0 i1, ‖v.get k‖ ^ 2 := by
  unfold Vec.norm
  rw [Real.sq_sqrt (Finset.sum_nonneg (fun _ _ => by positivity))]
  have c1 : Vec.clampIdx v.len ((i1 : ℤ) + 1) = i1 + 1 := by unfold Vec.clampIdx; rw [if_neg (by omega)]; omega
  have c0 : Vec.clampIdx v.len (i0 : ℤ) = min v.len i0 := by unfold Vec.clampIdx; rw [if_neg (by omega)]; simp
  unfold Vec.slice
  simp only [c0, c1]
  rcases Nat.lt_or_ge i1 i0 with h | h
  · rw [Finset.Icc_eq_empty (by omega), Finset.sum_empty, show i1 + 1 - min v.len i0 = 0 by omega]
    simp
  · rw [Nat.min_eq_right (by omega), ← Finset.Ico_add_one_right_eq_Icc, Finset.sum_Ico_eq_sum_range]

/-- The run after the voices: normalisation. -/
theorem scalogram_norm (x : Vec ℂ) (hn : 2 ≤ x.len) {fmin? fmax? w? : Option ℝ} {nv? : Option ℕ} {fmin fmax b R : ℝ}
    (hi : init x (arange 0 x.len) fmin? fmax? = .ok (fmin, fmax, b, R)) (h0 : 0 < fmin) (h1 : fmin < fmax) (h2 : fmax ≤ 1)
    (hnv : nv?.getD x.len = x.len) {z : Vec ℂ} (hz : hilbert (centredReal x) = .ok z) (hzl : z.len = x.len)
    {wt T : Mat ℂ} {E : ℕ → ℕ → ℝ} (hE : ∀ p t, 0 ≤ E p t)
    (hv : transform z (arange 0 x.len) (w?.getD (Real.sqrt x.len)) x.len
      ⟨x.len, fun i => fmin * (fmax / fmin) ^ ((i : ℝ) / ((x.len : ℝ) - 1))⟩
      ⟨x.len, fun i => (fmax / fmin) * (1 / (fmax / fmin)) ^ ((i : ℝ) / ((x.len : ℝ) - 1))⟩
      (Mat.zeros x.len x.len) (Mat.zeros x.len x.len) = .ok (wt, T))
    (hTr : T.rows = x.len) (hTc : T.cols = x.len) (hT : ∀ p < x.len, ∀ t < x.len, (T.get p t).re = E p t)
    {i0 i1 : ℕ} (hi0 : (i0 : ℤ) = 1 + roundEven (fmin * ((x.len : ℝ) - 2))) (hi1 : (i1 : ℤ) = 1 + roundEven (fmax * ((x.len : ℝ) - 2))) :
    let f : ℕ → ℝ := fun i => fmin * (fmax / fmin) ^ ((i : ℝ) / ((x.len : ℝ) - 1))
    let S := ∑ k ∈ Finset.Icc i0 i1, ‖dft z k‖ ^ 2
    ((∀ p < x.len, ∀ t < x.len, E p t = 0) → scalogram x fmin? fmax? nv? w? = .error .nonFinite) ∧
    ((∃ p < x.len, ∃ t < x.len, E p t ≠ 0) → ∃ (M : ScalResult) (C : ℝ), scalogram x fmin? fmax? nv? w? = .ok M ∧
      M.tfr.rows = x.len ∧ M.tfr.cols = x.len ∧ M.ts = arange 0 x.len ∧ M.f = ⟨x.len, f⟩ ∧ M.wt = wt ∧
      (∀ p < x.len, ∀ t < x.len, M.tfr.get p t = C * E p t) ∧ 0 ≤ C ∧ trapz2 M.tfr (fun i => i) f * x.len = S) := by
  intro f S
  set I := trapz2 ⟨x.len, x.len, E⟩ (fun i => i) f with hIdef
  set n := x.len with hnn
  have hfpos : 1 < fmax / fmin := by rw [lt_div_iff₀ h0]; linarith
  have hn1 : (0 : ℝ) < (n : ℝ) - 1 := by have : (2 : ℝ) ≤ n := by exact_mod_cast hn
                                         linarith
  have hf : ∀ p, p + 1 < n → f p < f (p + 1) := by
    intro p _
    refine mul_lt_mul_of_pos_left ?_ h0
    refine Real.rpow_lt_rpow_of_exponent_lt hfpos ?_
    push_cast
    rw [div_lt_div_iff_of_pos_right hn1]
    linarith
  have hmean : (x.map Complex.re).mean = .ok ((∑ j ∈ range n, (x.get j).re) / n) := by
    unfold Vec.mean
    rw [if_neg (by show x.len ≠ 0; omega)]
    rfl
  have hround : roundEven (fmax * ((n : ℝ) - 2)) ≤ (n : ℤ) - 2 := by
    have hb := (roundEven_bounds (fmax * ((n : ℝ) - 2))).2
    have hn2 : (0 : ℝ) ≤ (n : ℝ) - 2 := by have : (2 : ℝ) ≤ n := by exact_mod_cast hn
                                           linarith
    have : fmax * ((n : ℝ) - 2) ≤ (n : ℝ) - 2 := by nlinarith
    have h3 : ((roundEven (fmax * ((n : ℝ) - 2)) : ℤ) : ℝ) < (((n : ℤ) - 2 + 1 : ℤ) : ℝ) := by push_cast; linarith
    have h4 : roundEven (fmax * ((n : ℝ) - 2)) < (n : ℤ) - 2 + 1 := by exact_mod_cast h3
    omega
  have hS : ((⟨n, fun k => dftC n z.get k⟩ : Vec ℂ).slice (i0 : ℤ) ((i1 : ℤ) + 1)).norm ^ 2 = S := by
    rw [slice_norm_sq (by show i1 + 1 ≤ n; omega)]
    refine Finset.sum_congr rfl (fun k _ => ?_)
    rw [dft_eq_dftC, hzl]
  have hI : integrate2d (T.map Complex.re) (some ((arange 0 n).map (fun t : ℤ => (t : ℝ)))) (some ⟨n, f⟩) = .ok I := by
    rw [C47_trapezoidal (T.map Complex.re) _ _ (by show 2 ≤ T.cols; omega) (by show ((n : ℤ) - 0).toNat = T.cols; omega)
      (by exact hTr.symm) 1 (fun i _ => by simp [arange_get])]
    congr 1
    show trapz T.rows f (fun j => trapz T.cols (fun i => (((0 : ℤ) + (i : ℤ) : ℤ) : ℝ)) (fun t => (T.get j t).re))
      = trapz n f (fun j => trapz n (fun i => (i : ℝ)) (E j))
    rw [hTr, hTc]
    exact trapz_congr (fun _ _ => rfl) (fun j hj => trapz_congr (fun i _ => by push_cast; ring) (fun t ht => hT j hj t ht))
  have hmain : scalogram x fmin? fmax? nv? w? = if I = 0 ∨ n = 0 then .error .nonFinite
      else .ok ⟨(T.map Complex.re).map (fun v => v * (S / I) / n), arange 0 n, ⟨n, f⟩, wt⟩ := by
    unfold scalogram
    simp only
    rw [← hnn, hi, ok_bind]
    simp only
    rw [hnv, hmean, ok_bind]
    have hc : (x.map Complex.re).map (fun a => a - (∑ j ∈ range n, (x.get j).re) / n) = centredReal x := rfl
    rw [hc, hz, ok_bind, nanChecks_ok h0 (h0.trans h1), ok_bind, logspace_ok h0 (h0.trans h1) hn, ok_bind, logspace_ok (by linarith) one_pos hn, ok_bind, hv, ok_bind]
    simp only
    rw [fft_ok (by omega), ok_bind, hzl, ← hi0, ← hi1, hS, hI, ok_bind]
  constructor
  · intro hall
    rw [hmain, if_pos]
    left
    show trapz n f (fun j => trapz n (fun i => (i : ℝ)) (E j)) = 0
    have : trapz n f (fun j => trapz n (fun i => (i : ℝ)) (E j)) = trapz n f (fun _ => 0) :=
      trapz_congr (fun _ _ => rfl) (fun j hj => by
        rw [show trapz n (fun i => (i : ℝ)) (E j) = trapz n (fun i => (i : ℝ)) (fun _ => 0) from
          trapz_congr (fun _ _ => rfl) (fun t ht => hall j hj t ht)]
        simp [trapz])
    rw [this]
    simp [trapz]
  · rintro ⟨p, hp, t, ht, hne⟩
    have hI0 : 0 ≤ I := trapz_nonneg (fun j hj => (hf j hj).le) (fun j _ =>
      trapz_nonneg (fun i _ => by push_cast; linarith) (fun i _ => hE j i))
    have hIne : I ≠ 0 := fun h => hne (trapz2_eq_zero hn E hE f hf h p hp t ht)
    have hIpos : 0 < I := lt_of_le_of_ne hI0 (Ne.symm hIne)
    have hn0 : (0 : ℝ) < n := by exact_mod_cast (by omega : 0 < n)
    have hS0 : 0 ≤ S := Finset.sum_nonneg (fun _ _ => by positivity)
    have hent : ∀ p < n, ∀ t < n, (T.get p t).re * (S / I) / n = S / (I * n) * E p t := fun p hp t ht => by
      rw [hT p hp t ht]
      field_simp
    refine ⟨_, S / (I * n), hmain.trans (if_neg (by push Not; exact ⟨hIne, by omega⟩)), hTr, hTc, rfl, rfl, rfl, hent, by positivity, ?_⟩
    have e : trapz2 ((T.map Complex.re).map (fun v => v * (S / I) / n)) (fun i => i) f = S / (I * n) * I := by
      rw [hIdef]
      unfold trapz2
      show trapz T.rows f (fun j => trapz T.cols (fun i => (i : ℝ)) (fun t => (T.get j t).re * (S / I) / n)) = _
      rw [hTr, hTc, ← trapz_smul]
      refine trapz_congr (fun _ _ => rfl) (fun j hj => ?_)
      simp only
      rw [← trapz_smul]
      exact trapz_congr (fun _ _ => rfl) (fun t ht => hent j hj t ht)
    rw [e]
    field_simp

end Tftb
