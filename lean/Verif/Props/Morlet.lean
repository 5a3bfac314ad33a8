import Verif.Lemmas.Morlet
import Verif.Props.NeverReturns
import Verif.Props.Reassigned
import Mathlib.Analysis.Complex.ExponentialBounds

/-! # C75: the wavelet sums of `morlet_scalogram` -/

namespace Tftb.Props

open Tftb Tftb.Reassigned Tftb.Spec Finset ComplexConjugate

/-- The analysing atom: a Gaussian of standard deviation `n · tbp` times a tone at the lowest frequency `1/n`. -/
noncomputable def morletAtom (n : ℕ) (tbp : ℝ) (t : ℤ) : ℂ := Real.exp (-((t : ℝ) / (n * tbp)) ^ 2 / 2) * expi (-(2 * Real.pi * t / n))

/-- Half-length of the atom: where the Gaussian has fallen to one thousandth. -/
noncomputable def morletHalf (n : ℕ) (tbp : ℝ) : ℤ := ⌈tbp * n * Real.sqrt (2 * Real.log 1000)⌉

/-- Sample `t` of the signal read periodically. -/
noncomputable def cyc (x : Vec ℂ) (t : ℤ) : ℂ := x.get (t % x.len).toNat

/-- Correlation of the signal around instant `ti` with the atom `g` read at every `m`-th place; `g e` is the atom's last tabulated value and `L`
its half-length. -/
noncomputable def scaleSum (x : Vec ℂ) (g : ℤ → ℂ) (L e : ℤ) (m : ℕ) (ti : ℤ) : ℂ :=
  g e * cyc x (ti - 1) + ∑ t ∈ Icc 1 (min ⌈(L : ℝ) / m⌉ ((x.len : ℤ) - ti)), g (m * t - 1) * cyc x (ti + t - 1)
    + ∑ t ∈ Icc 1 (min ⌈(L : ℝ) / m⌉ (ti - 1)), conj (g (m * t)) * cyc x (ti - t)

/-- The sum used for the last scale. -/
noncomputable def lastSum (x : Vec ℂ) (g : ℤ → ℂ) (L : ℤ) (m : ℕ) (ti : ℤ) : ℂ :=
  g (L + 1) * cyc x (ti - 1) + ∑ t ∈ Icc 0 (min ⌈(L : ℝ) / m⌉ ((x.len : ℤ) - ti) - 1), g (m * t) * cyc x (ti + t)
    + ∑ t ∈ Icc 0 (min ⌈(L : ℝ) / m⌉ (ti - 1) - 1), conj (g (m * t)) * cyc x (ti - t)

/-- The coefficient in row `r` at instant `ti`. -/
noncomputable def morletCoef (x : Vec ℂ) (n : ℕ) (tbp : ℝ) (r : ℕ) (ti : ℤ) : ℂ :=
  let H := (roundEven ((n : ℝ) / 2)).toNat
  let L := morletHalf n tbp
  if 1 ≤ r ∧ r < n / 2 then Real.sqrt (r / (tbp * n)) * scaleSum x (morletAtom n tbp) L (L + H) r ti
  else if r < n ∧ n - r < n / 2 then
    Real.sqrt ((n - r : ℕ) / (tbp * n)) * scaleSum x (fun t => conj (morletAtom n tbp t)) L (L + H) (n - r) ti
  else if r = H then Real.sqrt (H / (tbp * n)) * lastSum x (morletAtom n tbp) L H ti
  else 0

theorem morletM_eq (n : ℕ) (tbp : ℝ) : morletM n tbp = morletHalf n tbp := by
  unfold morletM morletHalf; norm_num

theorem morletHalf_pos {n : ℕ} {tbp : ℝ} (hn : 1 ≤ n) (ht : 0 < tbp) : 1 ≤ morletHalf n tbp := by
  unfold morletHalf
  rw [Int.one_le_ceil_iff]
  have h1 : (0 : ℝ) < n := by exact_mod_cast hn
  have h2 : 0 < Real.log 1000 := Real.log_pos (by norm_num)
  positivity

theorem roundHalf_nonneg (n : ℕ) : 0 ≤ roundEven ((n : ℝ) / 2) := by
  rw [roundEven_half]; split <;> omega

theorem star_len {n : ℕ} {tbp : ℝ} (hn : 1 ≤ n) (ht : 0 < tbp) :
    ((morletStar n tbp).len : ℤ) = morletHalf n tbp + (roundEven ((n : ℝ) / 2)).toNat + 1 := by
  have := morletHalf_pos hn ht
  have := roundHalf_nonneg n
  show (((morletM n tbp + roundEven ((n : ℝ) / 2) + 1).toNat : ℕ) : ℤ) = _
  rw [morletM_eq]; omega

theorem star_get {n : ℕ} {tbp : ℝ} {i : ℤ} (h : 0 ≤ i) : (morletStar n tbp).get i.toNat = morletAtom n tbp i := by
  have hc : ((i.toNat : ℕ) : ℝ) = (i : ℝ) := by rw [← Int.cast_natCast, Int.toNat_of_nonneg h]
  have hc' : ((i.toNat : ℕ) : ℂ) = (i : ℂ) := by rw [← Int.cast_natCast, Int.toNat_of_nonneg h]
  unfold morletStar morletAtom expi
  simp only
  rw [hc, hc']
  congr 2
  push_cast
  ring

theorem star_wget {n : ℕ} {tbp : ℝ} {i : ℤ} (h : 0 ≤ i) : wget (morletStar n tbp) i = morletAtom n tbp i := by
  rw [wget_nonneg h, star_get h]

theorem star_wget_neg {n : ℕ} {tbp : ℝ} {i : ℤ} (h : i < 0) (hi : 0 ≤ (morletStar n tbp).len + i) :
    wget (morletStar n tbp) i = morletAtom n tbp ((morletStar n tbp).len + i) := by
  have : wrapIdx (morletStar n tbp).len i = (((morletStar n tbp).len : ℤ) + i).toNat := by
    unfold wrapIdx; rw [if_pos h]; congr 1; omega
  unfold wget
  rw [this, star_get hi]

theorem cyc_eq {x : Vec ℂ} {i : ℤ} (h0 : -1 ≤ i) (h1 : i < x.len) (hx : 1 ≤ x.len) : wget x i = cyc x i := by
  unfold wget cyc
  congr 1
  by_cases h : i < 0
  · have : i = -1 := by omega
    subst this
    have e : (-1 : ℤ) % x.len = x.len - 1 := by
      rw [show (-1 : ℤ) = (x.len - 1) + x.len * (-1) by ring, Int.add_mul_emod_self_left, Int.emod_eq_of_lt (by omega) (by omega)]
    rw [e]
    unfold wrapIdx
    rw [if_pos (by norm_num)]
    omega
  · rw [Int.emod_eq_of_lt (by omega) h1, wrapIdx_of_nonneg (by omega)]

theorem Icc_zero_split {b : ℤ} (hb : 0 ≤ b) (f : ℤ → ℂ) : ∑ t ∈ Icc 0 b, f t = f 0 + ∑ t ∈ Icc 1 b, f t := by
  have : Icc 0 b = insert 0 (Icc 1 b) := by
    ext t; simp only [mem_insert, mem_Icc]; omega
  rw [this, Finset.sum_insert (by simp)]

theorem entry_eq {x : Vec ℂ} {n m : ℕ} {tbp : ℝ} {ti : ℤ} (hn : 1 ≤ n) (ht : 0 < tbp) (hm : 1 ≤ m) (hmH : m ≤ (roundEven ((n : ℝ) / 2)).toNat)
    (h0 : 0 ≤ ti) (h1 : ti < x.len) :
    morletEntry x (morletStar n tbp) (morletM n tbp) m ti = .ok
      (scaleSum x (morletAtom n tbp) (morletHalf n tbp) (morletHalf n tbp + (roundEven ((n : ℝ) / 2)).toNat) m ti,
       scaleSum x (fun t => conj (morletAtom n tbp t)) (morletHalf n tbp) (morletHalf n tbp + (roundEven ((n : ℝ) / 2)).toNat) m ti) := by
  have hL := morletHalf_pos hn ht
  have hlen := star_len hn ht
  rw [morletM_eq, morletEntry_ok hm hL (by omega) h0 h1.le (by omega)]
  have hc := ceilDiv_pos (m := m) hm hL
  have hb : 0 ≤ min (ceilDiv (morletHalf n tbp) m) ((x.len : ℤ) - ti) := by omega
  have hneg : wget (morletStar n tbp) ((m : ℤ) * 0 - 1) = morletAtom n tbp (morletHalf n tbp + (roundEven ((n : ℝ) / 2)).toNat) := by
    rw [mul_zero, star_wget_neg (by norm_num) (by omega)]
    congr 1; omega
  have hp : ∀ t ∈ Icc 1 (min (ceilDiv (morletHalf n tbp) m) ((x.len : ℤ) - ti)),
      wget (morletStar n tbp) (m * t - 1) = morletAtom n tbp (m * t - 1) ∧ wget x (ti + t - 1) = cyc x (ti + t - 1) := by
    intro t h
    rw [mem_Icc] at h
    have : (1 : ℤ) * 1 ≤ (m : ℤ) * t := mul_le_mul (by omega) h.1 (by norm_num) (by omega)
    exact ⟨star_wget (by omega), cyc_eq (by omega) (by omega) (by omega)⟩
  have hq : ∀ t ∈ Icc 1 (min (ceilDiv (morletHalf n tbp) m) (ti - 1)),
      wget (morletStar n tbp) (t * m) = morletAtom n tbp (m * t) ∧ wget x (ti - t) = cyc x (ti - t) := by
    intro t h
    rw [mem_Icc] at h
    have : (0 : ℤ) ≤ (m : ℤ) * t := mul_nonneg (by omega) (by omega)
    exact ⟨by rw [mul_comm, star_wget this], cyc_eq (by omega) (by omega) (by omega)⟩
  have hz : wget x (ti + 0 - 1) = cyc x (ti - 1) := by rw [add_zero]; exact cyc_eq (by omega) (by omega) (by omega)
  rw [Icc_zero_split hb, Icc_zero_split hb, hneg, hz]
  refine congrArg Except.ok (Prod.ext ?_ ?_)
  · refine congrArg₂ (· + ·) (congrArg₂ (· + ·) rfl ?_) ?_
    · exact Finset.sum_congr rfl (fun t h => by rw [(hp t h).1, (hp t h).2])
    · exact Finset.sum_congr rfl (fun t h => by rw [(hq t h).1, (hq t h).2])
  · refine congrArg₂ (· + ·) (congrArg₂ (· + ·) rfl ?_) ?_
    · exact Finset.sum_congr rfl (fun t h => by rw [(hp t h).1, (hp t h).2])
    · exact Finset.sum_congr rfl (fun t h => by rw [(hq t h).1, (hq t h).2, Complex.conj_conj])

theorem sum_Icc_pred (b : ℤ) (f : ℤ → ℂ) : ∑ t ∈ Icc 1 b, f (t - 1) = ∑ t ∈ Icc 0 (b - 1), f t := by
  refine Finset.sum_bij' (fun t _ => t - 1) (fun t _ => t + 1) ?_ ?_ ?_ ?_ ?_
  · intro t h; rw [mem_Icc] at h ⊢; omega
  · intro t h; rw [mem_Icc] at h ⊢; omega
  · intro t _; ring
  · intro t _; ring
  · intro t _; rfl

theorem last_eq {x : Vec ℂ} {n : ℕ} {tbp : ℝ} {ti : ℤ} (hn : 2 ≤ n) (ht : 0 < tbp) (h0 : 0 ≤ ti) (h1 : ti < x.len) :
    morletLast x (morletStar n tbp) (morletM n tbp) (roundEven ((n : ℝ) / 2)).toNat ti =
      .ok (lastSum x (morletAtom n tbp) (morletHalf n tbp) (roundEven ((n : ℝ) / 2)).toNat ti) := by
  have hL := morletHalf_pos (n := n) (by omega) ht
  have hlen := star_len (n := n) (by omega) ht
  have hH : 1 ≤ (roundEven ((n : ℝ) / 2)).toNat := by rw [roundEven_half]; split <;> omega
  set H := (roundEven ((n : ℝ) / 2)).toNat with hHdef
  rw [morletM_eq, morletLast_ok hL (by omega) h0 h1]
  have hc := ceilDiv_pos (m := H) hH hL
  have hlb : ∀ z, lastBound (morletHalf n tbp) H z = min (ceilDiv (morletHalf n tbp) H) z := fun z => if_neg (by omega)
  rw [hlb, hlb, Icc_zero_split (by omega)]
  have hneg : wget (morletStar n tbp) ((H : ℤ) * (0 - 1)) = morletAtom n tbp (morletHalf n tbp + 1) := by
    rw [show (H : ℤ) * (0 - 1) = -(H : ℤ) by ring, star_wget_neg (by omega) (by omega)]
    congr 1; omega
  rw [hneg, show wget x (ti + (0 - 1)) = cyc x (ti - 1) from cyc_eq (i := ti - 1) (by omega) (by omega) (by omega)]
  rw [sum_Icc_pred _ (fun t => wget (morletStar n tbp) (H * t) * wget x (ti + t)),
    sum_Icc_pred _ (fun t => conj (wget (morletStar n tbp) (t * H)) * wget x (ti - t))]
  refine congrArg Except.ok (congrArg₂ (· + ·) (congrArg₂ (· + ·) rfl ?_) ?_)
  · refine Finset.sum_congr rfl (fun t h => ?_)
    rw [mem_Icc] at h
    rw [star_wget (mul_nonneg (by omega) (by omega)), cyc_eq (by omega) (by omega) (by omega)]
  · refine Finset.sum_congr rfl (fun t h => ?_)
    rw [mem_Icc] at h
    rw [mul_comm t, star_wget (mul_nonneg (by omega) (by omega)), cyc_eq (by omega) (by omega) (by omega)]

/-- All timestamps inside the signal. -/
def Inside (x : Vec ℂ) (ts : Vec ℤ) : Prop := ∀ c < ts.len, 0 ≤ ts.get c ∧ ts.get c < x.len

theorem sums_eq {x : Vec ℂ} {ts : Vec ℤ} {n : ℕ} {tbp : ℝ} (hn : 1 ≤ n) (ht : 0 < tbp) (hin : Inside x ts) :
    ∃ F, morletSums tbp x ts n = .ok F ∧ ∀ r < n, ∀ c < ts.len, F r c = morletCoef x n tbp r (ts.get c) := by
  have hL := morletHalf_pos hn ht
  have hlen := star_len hn ht
  have hH : (roundEven ((n : ℝ) / 2)).toNat = (if n % 4 = 3 then n / 2 + 1 else n / 2) := by rw [roundEven_half]; split <;> omega
  have hn0 : (0 : ℝ) < n := by exact_mod_cast hn
  have hrows : ∀ j < n / 2 - 1, ∃ v : Vec (ℂ × ℂ), ofLoop ts.len (fun c => morletEntry x (morletStar n tbp) (morletM n tbp) (j + 1) (ts.get c)) = .ok v ∧
      ∀ c < ts.len, v.get c = _ := fun j hj => ofLoop_ok (fun c hc => entry_eq hn ht (by omega) (by rw [hH]; split <;> omega) (hin c hc).1 (hin c hc).2)
  choose! v hv hv' using hrows
  obtain ⟨rows, hrows, hrows'⟩ := ofLoop_ok hv
  have hlast : ∃ l : Vec ℂ, ofLoop ts.len (fun c => morletLast x (morletStar n tbp) (morletM n tbp) (roundEven ((n : ℝ) / 2)).toNat (ts.get c)) = .ok l ∧
      ∀ c < ts.len, 2 ≤ n → l.get c = lastSum x (morletAtom n tbp) (morletHalf n tbp) (roundEven ((n : ℝ) / 2)).toNat (ts.get c) := by
    by_cases h2 : 2 ≤ n
    · obtain ⟨l, hl, hl'⟩ := ofLoop_ok (fun c hc => last_eq (x := x) h2 ht (hin c hc).1 (hin c hc).2)
      exact ⟨l, hl, fun c hc _ => hl' c hc⟩
    · obtain ⟨l, hl, hl'⟩ := ofLoop_ok (fun c hc => morletLast_ok (x := x) (hs := morletStar n tbp) (M := morletM n tbp) (m := (roundEven ((n : ℝ) / 2)).toNat)
        (by rw [morletM_eq]; exact hL) (by rw [morletM_eq]; omega) (hin c hc).1 (hin c hc).2)
      exact ⟨l, hl, fun c _ h => absurd h h2⟩
  obtain ⟨l, hl, hl'⟩ := hlast
  refine ⟨morletAssemble n tbp rows l, ?_, fun r hr c hc => ?_⟩
  · unfold morletSums
    rw [if_neg (by positivity), if_neg (fun h => absurd h.1 ht.le.not_gt)]
    dsimp only
    rw [hrows, ok_bind, hl, ok_bind, if_neg ht.le.not_gt]
  · unfold morletAssemble morletCoef
    dsimp only
    by_cases h1 : 1 ≤ r ∧ r < n / 2
    · rw [if_pos h1, if_pos h1, hrows' _ (by omega), hv' _ (by omega) c hc, Nat.sub_add_cancel h1.1]
    · rw [if_neg h1, if_neg h1]
      by_cases h2 : r < n ∧ n - r < n / 2
      · have h2' : 1 ≤ n - r ∧ n - r < n / 2 := by omega
        rw [if_pos h2, if_pos h2', hrows' _ (by omega), hv' _ (by omega) c hc, Nat.sub_add_cancel h2'.1]
      · rw [if_neg h2, if_neg (by omega)]
        by_cases h3 : r = (roundEven ((n : ℝ) / 2)).toNat
        · rw [if_pos h3, if_pos h3]
          by_cases hn2 : 2 ≤ n
          · rw [hl' c hc hn2]
          · have : (roundEven ((n : ℝ) / 2)).toNat = 0 := by rw [hH]; split <;> omega
            rw [this]; simp
        · rw [if_neg h3, if_neg h3]

theorem run_of_sums {x : Vec ℂ} {ts? : Option (Vec ℤ)} {n? : Option ℕ} {tbp : ℝ} {F : ℕ → ℕ → ℂ}
    (h : morletSums tbp x (ts?.getD (arange 0 x.len)) (n?.getD x.len) = .ok F) :
    morletScalogramRun x ts? n? tbp = morletScalogram x ts? n? (fun _ _ _ => .ok F) := by
  unfold morletScalogramRun morletScalogram
  dsimp only
  rw [h]

/-- **What `morlet_scalogram` computes.**  For timestamps inside the signal, the coefficients are the sums `morletCoef`.  The call returns exactly
when no squared modulus exceeds a millionth of the mean power of the signal; it then returns the squared moduli twice (nothing is
reassigned), and raises `IndexError` otherwise. -/
theorem C75_returns (x : Vec ℂ) (hx : 1 ≤ x.len) (ts? : Option (Vec ℤ)) (n? : Option ℕ) (tbp : ℝ) (ht : 0 < tbp) (hn : 1 ≤ n?.getD x.len)
    (hts : 2 ≤ (ts?.getD (arange 0 x.len)).len) (hreg : Regular (ts?.getD (arange 0 x.len))) (hin : Inside x (ts?.getD (arange 0 x.len))) :
    let ts := ts?.getD (arange 0 x.len)
    let n := n?.getD x.len
    let thr := (∑ i ∈ Finset.range x.len, ‖x.get i‖ ^ 2) / x.len * 1e-6
    ((∃ r < n, ∃ c < ts.len, thr < ‖morletCoef x n tbp r (ts.get c)‖ ^ 2) → morletScalogramRun x ts? n? tbp = .error .indexError) ∧
    ((∀ r < n, ∀ c < ts.len, ‖morletCoef x n tbp r (ts.get c)‖ ^ 2 ≤ thr) →
      ∃ tfr rtfr v, morletScalogramRun x ts? n? tbp = .ok (tfr, rtfr, v) ∧ ∀ r < n, ∀ c < ts.len,
        tfr.get r c = ‖morletCoef x n tbp r (ts.get c)‖ ^ 2 ∧ rtfr.get r c = ‖morletCoef x n tbp r (ts.get c)‖ ^ 2 ∧ v.get r c = none) := by
  intro ts n thr
  obtain ⟨F, hF, hF'⟩ := sums_eq (x := x) (ts := ts) (n := n) hn ht hin
  obtain ⟨h1, h2⟩ := C55_morlet_scalogram x ts? n? F hts hreg (by omega)
  rw [run_of_sums hF]
  refine ⟨fun ⟨r, hr, c, hc, h⟩ => h1 ⟨r, hr, c, hc, by rw [hF' r hr c hc]; exact h⟩, fun h => ?_⟩
  obtain ⟨tfr, rtfr, v, e, hall⟩ := h2 (fun r hr c hc => by rw [hF' r hr c hc]; exact h r hr c hc)
  refine ⟨tfr, rtfr, v, e, fun r hr c hc => ?_⟩
  rw [← hF' r hr c hc]
  exact hall r hr c hc

theorem default_inside (x : Vec ℂ) : Inside x (arange 0 x.len) := by
  intro c hc
  have : c < ((x.len : ℤ) - 0).toNat := hc
  show 0 ≤ (0 : ℤ) + c ∧ (0 : ℤ) + c < x.len
  omega

theorem half_row {n : ℕ} (hn : 2 ≤ n) : (roundEven ((n : ℝ) / 2)).toNat < n ∧ ¬ (roundEven ((n : ℝ) / 2)).toNat < n / 2 ∧
    ¬ n - (roundEven ((n : ℝ) / 2)).toNat < n / 2 ∧ 2 * n ≤ 5 * (roundEven ((n : ℝ) / 2)).toNat := by
  rw [roundEven_half]; split <;> omega

/-- **Rows no scale reaches.**  Row 0 is zero, and for an odd number of bins so is the middle row which `round(n / 2)` is not. -/
theorem C75_rows (x : Vec ℂ) (n : ℕ) (hn : 2 ≤ n) (tbp : ℝ) (ti : ℤ) :
    morletCoef x n tbp 0 ti = 0 ∧ (n % 4 = 1 → morletCoef x n tbp (n / 2 + 1) ti = 0) ∧ (n % 4 = 3 → morletCoef x n tbp (n / 2) ti = 0) := by
  have hH : (roundEven ((n : ℝ) / 2)).toNat = (if n % 4 = 3 then n / 2 + 1 else n / 2) := by rw [roundEven_half]; split <;> omega
  unfold morletCoef
  dsimp only
  rw [hH]
  refine ⟨?_, fun h => ?_, fun h => ?_⟩
  · rw [if_neg (by omega), if_neg (by omega), if_neg (by split <;> omega)]
  · rw [if_neg (by omega), if_neg (by omega), if_neg (by split <;> omega)]
  · rw [if_neg (by omega), if_neg (by omega), if_neg (by split <;> omega)]

/-- **One bin**: every signal gives a zero distribution. -/
theorem C75_one_bin (x : Vec ℂ) (hx : 2 ≤ x.len) (tbp : ℝ) (ht : 0 < tbp) :
    ∃ tfr rtfr v, morletScalogramRun x none (some 1) tbp = .ok (tfr, rtfr, v) ∧ ∀ c < x.len, tfr.get 0 c = 0 ∧ rtfr.get 0 c = 0 := by
  have hl : ((none : Option (Vec ℤ)).getD (arange 0 x.len)).len = x.len := by show ((x.len : ℤ) - 0).toNat = _; omega
  have hF : ∀ c, ‖morletCoef x 1 tbp 0 c‖ ^ 2 = 0 := by
    intro c
    unfold morletCoef
    dsimp only
    rw [if_neg (by omega), if_neg (by omega)]
    have : (roundEven (((1 : ℕ) : ℝ) / 2)).toNat = 0 := by rw [roundEven_half]; split <;> omega
    rw [this]; simp
  obtain ⟨tfr, rtfr, v, e, h⟩ := (C75_returns x (by omega) none (some 1) tbp ht le_rfl (by rw [hl]; omega) (arange_regular _) (default_inside x)).2
    (fun r hr c hc => by
      have : r = 0 := by have : r < 1 := hr
                         omega
      subst this
      refine le_of_eq_of_le (hF _) ?_
      positivity)
  refine ⟨tfr, rtfr, v, e, fun c hc => ?_⟩
  obtain ⟨h1, h2, -⟩ := h 0 Nat.one_pos c (by rw [hl]; exact hc)
  exact ⟨h1.trans (hF _), h2.trans (hF _)⟩

theorem cyc_zero {x : Vec ℂ} (hx : 1 ≤ x.len) (h0 : ∀ t < x.len, x.get t = 0) (t : ℤ) : cyc x t = 0 := by
  refine h0 _ ?_
  have := Int.emod_nonneg t (by omega : (x.len : ℤ) ≠ 0)
  have := Int.emod_lt_of_pos t (by omega : (0 : ℤ) < x.len)
  omega

/-- **The zero signal** gives a zero distribution. -/
theorem C75_zero (x : Vec ℂ) (hx : 2 ≤ x.len) (h0 : ∀ t < x.len, x.get t = 0) (n? : Option ℕ) (hn : 1 ≤ n?.getD x.len) (tbp : ℝ) (ht : 0 < tbp) :
    ∃ tfr rtfr v, morletScalogramRun x none n? tbp = .ok (tfr, rtfr, v) ∧ ∀ r < n?.getD x.len, ∀ c < x.len, tfr.get r c = 0 ∧ rtfr.get r c = 0 := by
  have hl : ((none : Option (Vec ℤ)).getD (arange 0 x.len)).len = x.len := by show ((x.len : ℤ) - 0).toNat = _; omega
  have hc0 := cyc_zero (by omega) h0
  have hF : ∀ r c, ‖morletCoef x (n?.getD x.len) tbp r c‖ ^ 2 = 0 := by
    intro r c
    unfold morletCoef scaleSum lastSum
    simp [hc0]
  obtain ⟨tfr, rtfr, v, e, h⟩ := (C75_returns x (by omega) none n? tbp ht hn (by rw [hl]; omega) (arange_regular _) (default_inside x)).2
    (fun r hr c hc => by
      refine le_of_eq_of_le (hF _ _) ?_
      positivity)
  refine ⟨tfr, rtfr, v, e, fun r hr c hc => ?_⟩
  obtain ⟨h1, h2, -⟩ := h r hr c (by rw [hl]; exact hc)
  exact ⟨h1.trans (hF _ _), h2.trans (hF _ _)⟩

theorem morletAtom_zero (n : ℕ) (tbp : ℝ) : morletAtom n tbp 0 = 1 := by
  unfold morletAtom expi; simp

/-- The last-scale sum of an impulse, at the instant of the impulse: the sample is taken twice, or once when it is one of the first two. -/
theorem lastSum_impulse {x : Vec ℂ} (hx : 2 ≤ x.len) {k : ℕ} (hk : k < x.len) (h0 : ∀ t < x.len, t ≠ k → x.get t = 0) {g : ℤ → ℂ} (hg : g 0 = 1)
    {L : ℤ} (hL : 1 ≤ L) {m : ℕ} (hm : 1 ≤ m) : lastSum x g L m k = (if 2 ≤ k then 2 else 1) * x.get k := by
  have hcyc : ∀ t : ℤ, 0 ≤ t → t < x.len → t ≠ k → cyc x t = 0 := by
    intro t h1 h2 h3
    unfold cyc
    rw [Int.emod_eq_of_lt h1 h2]
    exact h0 _ (by omega) (by omega)
  have hprev : cyc x ((k : ℤ) - 1) = 0 := by
    by_cases hk0 : k = 0
    · subst hk0
      rw [← cyc_eq (by omega) (by omega) (by omega)]
      unfold wget wrapIdx
      rw [if_pos (by norm_num)]
      exact h0 _ (by omega) (by omega)
    · exact hcyc _ (by omega) (by omega) (by omega)
  have hkk : cyc x k = x.get k := by
    unfold cyc
    rw [Int.emod_eq_of_lt (by omega) (by omega)]
    rfl
  have hc := ceilDiv_pos hm hL
  have hc' : 1 ≤ ⌈(L : ℝ) / m⌉ := hc
  unfold lastSum
  rw [hprev, mul_zero, zero_add]
  have h1 : ∑ t ∈ Icc 0 (min ⌈(L : ℝ) / m⌉ ((x.len : ℤ) - k) - 1), g (m * t) * cyc x (k + t) = x.get k := by
    rw [Finset.sum_eq_single 0]
    · rw [mul_zero, hg, one_mul, add_zero, hkk]
    · intro t ht h
      rw [mem_Icc] at ht
      rw [hcyc _ (by omega) (by omega) (by omega), mul_zero]
    · intro h; exact absurd (mem_Icc.2 ⟨le_rfl, by omega⟩) h
  rw [h1]
  split
  · next h2 =>
    rw [Finset.sum_eq_single 0]
    · rw [mul_zero, hg, map_one, one_mul, sub_zero, hkk]; ring
    · intro t ht h
      rw [mem_Icc] at ht
      rw [hcyc _ (by omega) (by omega) (by omega), mul_zero]
    · intro h; exact absurd (mem_Icc.2 ⟨le_rfl, by omega⟩) h
  · next h2 =>
    rw [Finset.Icc_eq_empty (by omega), Finset.sum_empty]; ring

/-- **Impulses are refused**: for every impulse, every number of bins except one and every reasonable `tbp` (in particular the default one quarter) the call raises
`IndexError`. -/
theorem C75_impulse (x : Vec ℂ) (hx : 2 ≤ x.len) (k : ℕ) (hk : k < x.len) (hxk : x.get k ≠ 0) (h0 : ∀ t < x.len, t ≠ k → x.get t = 0)
    (n? : Option ℕ) (hn : 2 ≤ n?.getD x.len) (tbp : ℝ) (ht : 0 < tbp) (ht' : tbp ≤ 100000) :
    morletScalogramRun x none n? tbp = .error .indexError := by
  have hl : ((none : Option (Vec ℤ)).getD (arange 0 x.len)).len = x.len := by show ((x.len : ℤ) - 0).toNat = _; omega
  set n := n?.getD x.len with hndef
  obtain ⟨hr1, hr2, hr3, hr4⟩ := half_row hn
  set H := (roundEven ((n : ℝ) / 2)).toNat with hH
  refine (C75_returns x (by omega) none n? tbp ht (by omega) (by rw [hl]; omega) (arange_regular _) (default_inside x)).1 ⟨H, hr1, k, by rw [hl]; exact hk, ?_⟩
  have hts : ((none : Option (Vec ℤ)).getD (arange 0 x.len)).get k = k := by show (0 : ℤ) + k = k; omega
  rw [hts, ← hndef]
  have hsum : (∑ i ∈ Finset.range x.len, ‖x.get i‖ ^ 2) = ‖x.get k‖ ^ 2 := by
    rw [Finset.sum_eq_single k]
    · intro t ht h; rw [h0 t (mem_range.1 ht) h]; simp
    · intro h; exact absurd (mem_range.2 hk) h
  have hcoef : morletCoef x n tbp H k = Real.sqrt (H / (tbp * n)) * ((if 2 ≤ k then 2 else 1) * x.get k) := by
    unfold morletCoef
    dsimp only
    rw [← hH, if_neg (by omega), if_neg (by omega), if_pos rfl,
      lastSum_impulse hx hk h0 (morletAtom_zero n tbp) (morletHalf_pos (by omega) ht) (by omega)]
  have hn0 : (0 : ℝ) < n := by exact_mod_cast (by omega : 0 < n)
  have hN : (1 : ℝ) ≤ x.len := by exact_mod_cast (by omega : 1 ≤ x.len)
  have hHn : 2 * (n : ℝ) ≤ 5 * H := by exact_mod_cast hr4
  have hH0 : (0 : ℝ) ≤ H := by positivity
  have hpos : 0 < ‖x.get k‖ ^ 2 := by have := norm_pos_iff.2 hxk
                                      positivity
  rw [hsum, hcoef, norm_mul, norm_mul, mul_pow, mul_pow, Complex.norm_real, Real.norm_eq_abs, sq_abs, Real.sq_sqrt (by positivity)]
  have hone : (1 : ℝ) ≤ ‖(if 2 ≤ k then 2 else 1 : ℂ)‖ ^ 2 := by split <;> norm_num
  have hq : (4e-6 : ℝ) ≤ H / (tbp * n) := by
    rw [le_div_iff₀ (by positivity)]
    have : tbp * n ≤ 100000 * n := mul_le_mul_of_nonneg_right ht' hn0.le
    linarith
  have hd : ‖x.get k‖ ^ 2 / x.len ≤ ‖x.get k‖ ^ 2 := div_le_self hpos.le hN
  calc ‖x.get k‖ ^ 2 / x.len * 1e-6 ≤ ‖x.get k‖ ^ 2 * 1e-6 := mul_le_mul_of_nonneg_right hd (by norm_num)
    _ < 4e-6 * (1 * ‖x.get k‖ ^ 2) := by nlinarith
    _ ≤ _ := by
      refine mul_le_mul hq ?_ (by positivity) (by positivity)
      exact mul_le_mul_of_nonneg_right hone hpos.le

/-- Two samples, unit impulse. -/
example : morletScalogramRun ⟨2, fun t => if t = 0 then 1 else 0⟩ none none (1 / 4) = .error .indexError := by
  refine C75_impulse _ le_rfl 0 (by norm_num) (by simp) (fun t _ h => by simp [h]) none le_rfl _ (by norm_num) (by norm_num)

theorem bind_cases {α β : Type} {p : Py α} {f : α → Py β} {e : PyErr} (hp : p = .error e ∨ ∃ a, p = .ok a)
    (hf : ∀ a, f a = .error e ∨ ∃ b, f a = .ok b) : p >>= f = .error e ∨ ∃ b, p >>= f = .ok b := by
  rcases hp with rfl | ⟨a, rfl⟩
  · exact .inl rfl
  · exact hf a

theorem last_cases (x hs : Vec ℂ) (M : ℤ) (m : ℕ) (ti : ℤ) :
    morletLast x hs M m ti = .error .indexError ∨ ∃ a, morletLast x hs M m ti = .ok a := by
  unfold morletLast
  refine bind_cases (take_loop_cases _ _) (fun a => bind_cases (take_loop_cases _ _) (fun b => ?_))
  by_cases hpos : 0 < ((arange 1 ((if m = 0 then ti - 1 else min (ceilDiv M m) (ti - 1)) + 1)).map (fun t => t - 1)).len
  · rw [if_pos hpos]
    exact bind_cases (take_loop_cases _ _) (fun a => bind_cases (take_loop_cases _ _) (fun b => .inr ⟨_, rfl⟩))
  · rw [if_neg hpos]
    exact .inr ⟨_, rfl⟩

theorem loop_cases {α : Type} [Inhabited α] {k : ℕ} {f : ℕ → Py α} {e : PyErr} (h : ∀ i, f i = .error e ∨ ∃ a, f i = .ok a) :
    ofLoop k f = .error e ∨ ∃ v, ofLoop k f = .ok v := by
  by_cases hex : ∃ i < k, f i = .error e
  · exact .inl (ofLoop_error (fun i _ => h i) hex)
  · push Not at hex
    have : ∀ i < k, ∃ a, f i = .ok a := fun i hi => (h i).resolve_left (hex i hi)
    choose! g hg using this
    obtain ⟨v, hv, -⟩ := ofLoop_ok hg
    exact .inr ⟨v, hv⟩

/-- **Timestamps at or after the end** raise `IndexError`, although the instants are counted from one elsewhere in the function (the instant
equal to the number of samples would be the last one). -/
theorem C75_past_end (x : Vec ℂ) (hx : 2 ≤ x.len) (ts : Vec ℤ) (n? : Option ℕ) (hn : 1 ≤ n?.getD x.len) (tbp : ℝ) (ht : 0 < tbp)
    (hts : 2 ≤ ts.len) (hreg : Regular ts) (c : ℕ) (hc : c < ts.len) (hpast : (x.len : ℤ) ≤ ts.get c) :
    morletScalogramRun x (some ts) n? tbp = .error .indexError := by
  set n := n?.getD x.len with hndef
  have hn0 : (0 : ℝ) < n := by exact_mod_cast hn
  have hL := morletHalf_pos hn ht
  have hlast : morletLast x (morletStar n tbp) (morletM n tbp) (roundEven ((n : ℝ) / 2)).toNat (ts.get c) = .error .indexError := by
    set H := (roundEven ((n : ℝ) / 2)).toNat
    set ti := ts.get c
    have hb : 1 ≤ (if H = 0 then ti - 1 else min (ceilDiv (morletM n tbp) H) (ti - 1)) := by
      split
      · omega
      · have := ceilDiv_pos (m := H) (by omega) hL
        rw [morletM_eq]
        omega
    unfold morletLast
    dsimp only
    set B := (if H = 0 then ti - 1 else min (ceilDiv (morletM n tbp) H) (ti - 1)) with hB
    rcases take_loop_cases (morletStar n tbp) (((arange 0 ((if H = 0 then (x.len : ℤ) - ti else min (ceilDiv (morletM n tbp) H) ((x.len : ℤ) - ti)) + 1)).map
      (fun t => t - 1)).map (fun t => (H : ℤ) * t)) with h | ⟨w, h⟩
    · rw [h]; rfl
    rw [h, ok_bind]
    rcases take_loop_cases x (((arange 0 ((if H = 0 then (x.len : ℤ) - ti else min (ceilDiv (morletM n tbp) H) ((x.len : ℤ) - ti)) + 1)).map
      (fun t => t - 1)).map (fun t => ti + t)) with h | ⟨w', h⟩
    · rw [h]; rfl
    rw [h, ok_bind, if_pos (by show 0 < (B + 1 - 1).toNat; omega)]
    rcases take_loop_cases (morletStar n tbp) (((arange 1 (B + 1)).map (fun t => t - 1)).map (fun t => t * (H : ℤ))) with h | ⟨w'', h⟩
    · rw [h]; rfl
    rw [h, ok_bind]
    have := take_loop_error (v := x) (a := 1) (b := B) (f := fun t => ti - (t - 1)) ⟨1, le_rfl, hb, by unfold IdxOk; omega⟩
    rw [show ((arange 1 (B + 1)).map (fun t => t - 1)).map (fun t => ti - t) = (arange 1 (B + 1)).map (fun t => ti - (t - 1)) from rfl, this]
    rfl
  have hsums : morletSums tbp x ts n = .error .indexError := by
    unfold morletSums
    rw [if_neg (by positivity), if_neg (fun h => absurd h.1 ht.le.not_gt)]
    dsimp only
    rcases loop_cases (k := n / 2 - 1) (f := fun j => ofLoop ts.len (fun c => morletEntry x (morletStar n tbp) (morletM n tbp) (j + 1) (ts.get c)))
      (e := .indexError) (fun j => loop_cases (fun c => morletEntry_cases _ _ _ _ _)) with h | ⟨v, h⟩
    · rw [h]; rfl
    rw [h, ok_bind, ofLoop_error (fun i _ => last_cases _ _ _ _ _) ⟨c, hc, hlast⟩]
    rfl
  unfold morletScalogramRun morletScalogram
  have hd : ¬ ts.diff.len = 0 := by show ¬ ts.len - 1 = 0; omega
  have hr : ¬ ¬ ∀ i < ts.diff.len, ∀ j < ts.diff.len, ts.diff.get i = ts.diff.get j := fun h => h (regular_iff.1 hreg)
  dsimp only [Option.getD_some]
  rw [if_neg hd, if_neg hr, ← hndef, hsums]
  rfl

theorem ceilDiv_nonpos {M : ℤ} {m : ℕ} (hM : M ≤ 0) : ceilDiv M m ≤ 0 := by
  unfold ceilDiv
  rw [Int.ceil_le]
  push_cast
  exact div_nonpos_of_nonpos_of_nonneg (by exact_mod_cast hM) (by positivity)

theorem ceilDiv_neg_iff {M : ℤ} {m : ℕ} (hm : 1 ≤ m) : ceilDiv M m ≤ -1 ↔ M ≤ -(m : ℤ) := by
  unfold ceilDiv
  have h0 : (0 : ℝ) < m := by exact_mod_cast hm
  rw [Int.ceil_le, div_le_iff₀ h0]
  push_cast
  rw [neg_one_mul]
  exact_mod_cast Iff.rfl

theorem morletHalf_nonpos {n : ℕ} {tbp : ℝ} (ht : tbp ≤ 0) : morletHalf n tbp ≤ 0 := by
  unfold morletHalf
  rw [Int.ceil_le]
  push_cast
  exact mul_nonpos_of_nonpos_of_nonneg (mul_nonpos_of_nonpos_of_nonneg ht (by positivity)) (Real.sqrt_nonneg _)

theorem neg_entry {x hs : Vec ℂ} {M : ℤ} {m : ℕ} {ti : ℤ} (hM : M ≤ 0) (hm : 1 ≤ m) (h0 : 0 ≤ ti) (h1 : ti < x.len)
    (hs1 : -(m : ℤ) < M → 1 ≤ hs.len) : ∃ p, morletEntry x hs M m ti = .ok p := by
  have hc := ceilDiv_nonpos (m := m) hM
  have hneg : ¬ 0 < (arange 1 (min (ceilDiv M m) (ti - 1) + 1)).len := by rw [arange_len]; omega
  have hb : min (ceilDiv M m) ((x.len : ℤ) - ti) = ceilDiv M m := by omega
  unfold morletEntry
  dsimp only
  rw [hb]
  have key : ∀ t ∈ Icc 0 (ceilDiv M m), IdxOk hs.len ((m : ℤ) * t - 1) ∧ IdxOk x.len (ti + t - 1) := by
    intro t h
    rw [mem_Icc] at h
    have ht : t = 0 := by omega
    subst ht
    have : 1 ≤ hs.len := hs1 (by by_contra hcon; have := (ceilDiv_neg_iff (M := M) hm).2 (by omega); omega)
    unfold IdxOk
    omega
  rw [take_loop (f := fun t => (m : ℤ) * t - 1) (fun t a b => (key t (mem_Icc.2 ⟨a, b⟩)).1), ok_bind,
    take_loop (f := fun t => ti + t - 1) (fun t a b => (key t (mem_Icc.2 ⟨a, b⟩)).2), ok_bind, if_neg hneg]
  exact ⟨_, rfl⟩

theorem neg_last {x hs : Vec ℂ} {M : ℤ} {m : ℕ} {ti : ℤ} (hM : M ≤ 0) (hm : 1 ≤ m) (h0 : 0 ≤ ti) (h1 : ti < x.len) :
    (-(m : ℤ) < M → hs.len < m → morletLast x hs M m ti = .error .indexError) ∧
    ((-(m : ℤ) < M → m ≤ hs.len) → ∃ p, morletLast x hs M m ti = .ok p) := by
  have hc := ceilDiv_nonpos (m := m) hM
  have hc' := ceilDiv_neg_iff (M := M) hm
  have hneg : ¬ 0 < ((arange 1 (min (ceilDiv M m) (ti - 1) + 1)).map (fun t => t - 1)).len := by
    show ¬ 0 < (arange 1 (min (ceilDiv M m) (ti - 1) + 1)).len
    rw [arange_len]; omega
  have hb : min (ceilDiv M m) ((x.len : ℤ) - ti) = ceilDiv M m := by omega
  have hm0 : ¬ m = 0 := by omega
  unfold morletLast
  simp only [hm0, if_false]
  rw [hb]
  have e1 : ((arange 0 (ceilDiv M m + 1)).map (fun t => t - 1)).map (fun t => (m : ℤ) * t) =
    (arange 0 (ceilDiv M m + 1)).map (fun t => (m : ℤ) * (t - 1)) := rfl
  have e2 : ((arange 0 (ceilDiv M m + 1)).map (fun t => t - 1)).map (fun t => ti + t) =
    (arange 0 (ceilDiv M m + 1)).map (fun t => ti + (t - 1)) := rfl
  rw [e1, e2]
  refine ⟨fun h2 h3 => ?_, fun h2 => ?_⟩
  · rw [take_loop_error (f := fun t => (m : ℤ) * (t - 1)) ⟨0, le_rfl, by omega, by unfold IdxOk; omega⟩]
    rfl
  · have key : ∀ t, 0 ≤ t → t ≤ ceilDiv M m → IdxOk hs.len ((m : ℤ) * (t - 1)) ∧ IdxOk x.len (ti + (t - 1)) := by
      intro t ha hb'
      have ht : t = 0 := by omega
      subst ht
      have := h2 (by omega)
      unfold IdxOk
      omega
    rw [take_loop (f := fun t => (m : ℤ) * (t - 1)) (fun t a b => (key t a b).1), ok_bind,
      take_loop (f := fun t => ti + (t - 1)) (fun t a b => (key t a b).2), ok_bind, if_neg hneg]
    exact ⟨_, rfl⟩

/-- **No bins, or a zero time-bandwidth product**: `ZeroDivisionError`; with a negative one no call has finite coefficients. -/
theorem C75_degenerate (x : Vec ℂ) (ts? : Option (Vec ℤ)) (n? : Option ℕ) (tbp : ℝ)
    (hts : 2 ≤ (ts?.getD (arange 0 x.len)).len) (hreg : Regular (ts?.getD (arange 0 x.len))) :
    (n?.getD x.len = 0 ∨ tbp = 0 → morletScalogramRun x ts? n? tbp = .error .zeroDivisionError) ∧
    (1 ≤ n?.getD x.len → tbp < 0 → morletScalogramRun x ts? n? tbp = .error .nonFinite ∨ morletScalogramRun x ts? n? tbp = .error .indexError) := by
  have hd : ¬ (ts?.getD (arange 0 x.len)).diff.len = 0 := by show ¬ (ts?.getD (arange 0 x.len)).len - 1 = 0; omega
  have hr : ¬ ¬ ∀ i < (ts?.getD (arange 0 x.len)).diff.len, ∀ j < (ts?.getD (arange 0 x.len)).diff.len,
    (ts?.getD (arange 0 x.len)).diff.get i = (ts?.getD (arange 0 x.len)).diff.get j := fun h => h (regular_iff.1 hreg)
  unfold morletScalogramRun morletScalogram
  dsimp only
  rw [if_neg hd, if_neg hr]
  refine ⟨fun h => ?_, fun hn ht => ?_⟩
  · have : morletSums tbp x (ts?.getD (arange 0 x.len)) (n?.getD x.len) = .error .zeroDivisionError := by
      refine if_pos ?_
      rcases h with h | h <;> rw [h] <;> simp
    rw [this]; rfl
  · generalize ts?.getD (arange 0 x.len) = ts
    generalize n?.getD x.len = n at hn
    have hn0 : (0 : ℝ) < n := by exact_mod_cast hn
    have : morletSums tbp x ts n = .error .nonFinite ∨ morletSums tbp x ts n = .error .indexError := by
      unfold morletSums
      rw [if_neg (mul_ne_zero ht.ne hn0.ne')]
      by_cases h1 : n = 1
      · rw [if_pos ⟨ht, h1⟩]; exact .inl rfl
      rw [if_neg (fun h => h1 h.2)]
      dsimp only
      rcases loop_cases (k := n / 2 - 1) (f := fun j => ofLoop ts.len (fun c => morletEntry x (morletStar n tbp) (morletM n tbp) (j + 1) (ts.get c)))
        (e := .indexError) (fun j => loop_cases (fun c => morletEntry_cases _ _ _ _ _)) with h | ⟨v, h⟩
      · rw [h]; exact .inr rfl
      rw [h, ok_bind]
      rcases loop_cases (k := ts.len) (f := fun c => morletLast x (morletStar n tbp) (morletM n tbp) (roundEven ((n : ℝ) / 2)).toNat (ts.get c))
        (e := .indexError) (fun c => last_cases _ _ _ _ _) with h | ⟨v, h⟩
      · rw [h]; exact .inr rfl
      rw [h, ok_bind, if_pos ht]; exact .inl rfl
    rcases this with h | h <;> rw [h]
    · exact .inl rfl
    · exact .inr rfl

/-- **A negative time-bandwidth product, exactly**: the atom has `⌈tbp · n · √(2 ln 1000)⌉ + round(n/2) + 1` samples, or none; when that is
at least two samples but fewer than `round(n/2)`, the last scale reads before the beginning of the atom and raises `IndexError`; otherwise all is multiplied by
the square root of a negative number. -/
theorem C75_negative (x : Vec ℂ) (ts? : Option (Vec ℤ)) (n? : Option ℕ) (tbp : ℝ) (ht : tbp < 0) (hn : 2 ≤ n?.getD x.len)
    (hts : 2 ≤ (ts?.getD (arange 0 x.len)).len) (hreg : Regular (ts?.getD (arange 0 x.len))) (hin : Inside x (ts?.getD (arange 0 x.len))) :
    let n := n?.getD x.len
    let H : ℤ := roundEven ((n : ℝ) / 2)
    let atom : ℤ := morletHalf n tbp + H + 1
    morletScalogramRun x ts? n? tbp = if 2 ≤ atom ∧ atom < H then .error .indexError else .error .nonFinite := by
  intro n H atom
  have hd : ¬ (ts?.getD (arange 0 x.len)).diff.len = 0 := by show ¬ (ts?.getD (arange 0 x.len)).len - 1 = 0; omega
  have hr : ¬ ¬ ∀ i < (ts?.getD (arange 0 x.len)).diff.len, ∀ j < (ts?.getD (arange 0 x.len)).diff.len,
    (ts?.getD (arange 0 x.len)).diff.get i = (ts?.getD (arange 0 x.len)).diff.get j := fun h => h (regular_iff.1 hreg)
  unfold morletScalogramRun morletScalogram
  dsimp only
  rw [if_neg hd, if_neg hr]
  have hn' : 2 ≤ n := hn
  have hM : morletM n tbp ≤ 0 := by rw [morletM_eq]; exact morletHalf_nonpos ht.le
  have hat : atom = morletM n tbp + H + 1 := by rw [morletM_eq]
  have hH : (roundEven ((n : ℝ) / 2)).toNat = (if n % 4 = 3 then n / 2 + 1 else n / 2) := by rw [roundEven_half]; split <;> omega
  have hHH : H = ((roundEven ((n : ℝ) / 2)).toNat : ℤ) := by
    have := roundHalf_nonneg n
    show roundEven ((n : ℝ) / 2) = _
    omega
  have hlen : (morletStar n tbp).len = atom.toNat := by rw [hat]; rfl
  set ts := ts?.getD (arange 0 x.len) with hts'
  have hn0 : (0 : ℝ) < n := by exact_mod_cast (by omega : 0 < n)
  set h := (roundEven ((n : ℝ) / 2)).toNat with hh
  have h1 : 1 ≤ h := by rw [hH]; split <;> omega
  have hrows : ∀ j < n / 2 - 1, ∃ v : Vec (ℂ × ℂ), ofLoop ts.len (fun c => morletEntry x (morletStar n tbp) (morletM n tbp) (j + 1) (ts.get c)) = .ok v := by
    intro j hj
    have hjh : j + 1 < h := by rw [hH]; split <;> omega
    have : ∀ c < ts.len, ∃ p, morletEntry x (morletStar n tbp) (morletM n tbp) (j + 1) (ts.get c) = .ok p := fun c hc =>
      neg_entry hM (by omega) (hin c hc).1 (hin c hc).2 (fun hlt => by push_cast at hlt; omega)
    choose! g hg using this
    obtain ⟨v, hv, -⟩ := ofLoop_ok hg
    exact ⟨v, hv⟩
  choose! v hv using hrows
  obtain ⟨rows, hrows, -⟩ := ofLoop_ok hv
  have hsums : morletSums tbp x ts n = if 2 ≤ atom ∧ atom < H then .error .indexError else .error .nonFinite := by
    unfold morletSums
    rw [if_neg (mul_ne_zero ht.ne hn0.ne'), if_neg (fun hc => by omega)]
    dsimp only
    rw [hrows, ok_bind]
    by_cases hc : 2 ≤ atom ∧ atom < H
    · rw [if_pos hc, ofLoop_error (fun i _ => last_cases _ _ _ _ _) ⟨0, by omega, (neg_last hM h1 (hin 0 (by omega)).1 (hin 0 (by omega)).2).1 (by omega) (by omega)⟩]
      rfl
    · rw [if_neg hc]
      have : ∀ c < ts.len, ∃ p, morletLast x (morletStar n tbp) (morletM n tbp) h (ts.get c) = .ok p := fun c hc' =>
        (neg_last hM h1 (hin c hc').1 (hin c hc').2).2 (fun hlt => by omega)
      choose! g hg using this
      obtain ⟨l, hl, -⟩ := ofLoop_ok hg
      rw [hl, ok_bind, if_pos ht]
  show (morletSums tbp x ts n >>= _) = _
  rw [hsums]
  split <;> rfl

/-- Eight samples: `IndexError` for a product of `-1/10` (an atom of three samples and a last scale of four), NaN for `-1`. -/
example (x : Vec ℂ) (hx : x.len = 8) : morletScalogramRun x none none (-1 / 10) = .error .indexError ∧ morletScalogramRun x none none (-1) = .error .nonFinite := by
  have hreg : Regular (arange 0 x.len) := fun i _ j _ => by
    show (0 : ℤ) + ((i + 1 : ℕ) : ℤ) - (0 + (i : ℤ)) = 0 + ((j + 1 : ℕ) : ℤ) - (0 + (j : ℤ))
    push_cast; ring
  have hin : Inside x (arange 0 x.len) := fun c hc => by
    rw [arange_len] at hc
    show 0 ≤ (0 : ℤ) + c ∧ (0 : ℤ) + c < x.len
    omega
  have hlo : 4 ≤ Real.log 1000 := by
    rw [Real.le_log_iff_exp_le (by norm_num), show (4 : ℝ) = ((4 : ℕ) : ℝ) by norm_num, ← Real.exp_one_pow]
    have := Real.exp_one_lt_d9
    have h0 := Real.exp_pos 1
    calc Real.exp 1 ^ 4 ≤ 3 ^ 4 := pow_le_pow_left₀ h0.le (by linarith) 4
      _ ≤ 1000 := by norm_num
  have hhi : Real.log 1000 ≤ 7 := by
    rw [Real.log_le_iff_le_exp (by norm_num), show (7 : ℝ) = ((7 : ℕ) : ℝ) by norm_num, ← Real.exp_one_pow]
    have := Real.exp_one_gt_d9
    calc (1000 : ℝ) ≤ 2.7 ^ 7 := by norm_num
      _ ≤ Real.exp 1 ^ 7 := pow_le_pow_left₀ (by norm_num) (by linarith) 7
  set s := Real.sqrt (2 * Real.log 1000) with hs
  have hs1 : 2.6 ≤ s := Real.le_sqrt_of_sq_le (by norm_num; linarith)
  have hs2 : s ≤ 3.745 := Real.sqrt_le_iff.2 ⟨by norm_num, by norm_num; linarith⟩
  have h8 : roundEven (((x.len : ℕ) : ℝ) / 2) = 4 := by rw [roundEven_half, hx]; norm_num
  have e1 : morletHalf x.len (-1 / 10) = -2 := by
    unfold morletHalf
    rw [Int.ceil_eq_iff, ← hs, hx]
    norm_num at hs1 hs2 ⊢
    constructor <;> linarith
  have e2 : morletHalf x.len (-1) ≤ -20 := by
    unfold morletHalf
    rw [Int.ceil_le, ← hs, hx]
    norm_num at hs1 hs2 ⊢
    linarith
  refine ⟨?_, ?_⟩
  · have := C75_negative x none none (-1 / 10) (by norm_num) (by show 2 ≤ x.len; omega) (by rw [Option.getD_none, arange_len]; omega) hreg hin
    dsimp only [Option.getD_none] at this
    rw [this, h8, e1, if_pos (by norm_num)]
  · have := C75_negative x none none (-1) (by norm_num) (by show 2 ≤ x.len; omega) (by rw [Option.getD_none, arange_len]; omega) hreg hin
    dsimp only [Option.getD_none] at this
    rw [this, h8, if_neg (by omega)]

/-- Irregular timestamps, and fewer than two, raise `ValueError`. -/
theorem C75_irregular (x : Vec ℂ) (ts? : Option (Vec ℤ)) (n? : Option ℕ) (tbp : ℝ)
    (h : (ts?.getD (arange 0 x.len)).len < 2 ∨ ¬ Regular (ts?.getD (arange 0 x.len))) : morletScalogramRun x ts? n? tbp = .error .valueError := by
  unfold morletScalogramRun morletScalogram
  dsimp only
  by_cases hd : (ts?.getD (arange 0 x.len)).diff.len = 0
  · rw [if_pos hd]
  · rw [if_neg hd]
    have hd' : ¬ (ts?.getD (arange 0 x.len)).len - 1 = 0 := hd
    exact if_pos (fun hc => (h.resolve_left (by omega)) (regular_iff.2 hc))

/-- Four samples, instants 2, 3, 4. -/
example (x : Vec ℂ) (hx : x.len = 4) : morletScalogramRun x (some (arange 2 5)) none (1 / 4) = .error .indexError := by
  refine C75_past_end x (by omega) _ none (by show 1 ≤ x.len; omega) _ (by norm_num) (by norm_num [arange_len]) (fun i _ j _ => ?_) 2 (by norm_num [arange_len]) ?_
  · show (2 : ℤ) + ((i + 1 : ℕ) : ℤ) - (2 + (i : ℤ)) = 2 + ((j + 1 : ℕ) : ℤ) - (2 + (j : ℤ))
    push_cast; ring
  · show (x.len : ℤ) ≤ 2 + ((2 : ℕ) : ℤ)
    omega

end Tftb.Props
