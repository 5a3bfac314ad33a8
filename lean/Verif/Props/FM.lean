import Verif.Lemmas.FM
import Mathlib.Analysis.SpecialFunctions.Trigonometric.Deriv
import Mathlib.Analysis.SpecialFunctions.Log.Deriv
import Mathlib.Analysis.SpecialFunctions.Pow.Deriv

/-! # Properties of `tftb/generators/frequency_modulated.py` (C09 – C14, C60) -/

namespace Tftb.Props

open Tftb Tftb.FM Tftb.Spec

/-! ## C09 `fmconst` -/

/-- Pure tone: unit modulus, value 1 at the time centre, constant phase advance, constant law. -/
theorem C09_fmconst (n k : ℕ) (f : ℝ) (hk : k < n) (hf : |f| ≤ 1 / 2) :
    ∃ (y : Vec ℂ) (law : Vec ℝ), fmconst n f (some k) = .ok (y, law) ∧ y.len = n ∧ law.len = n ∧
      (∀ i < n, ‖y.get i‖ = 1) ∧ y.get k = 1 ∧
      (∀ i, i + 1 < n → y.get (i + 1) = y.get i * expi (2 * Real.pi * f)) ∧
      (∀ i < n, law.get i = f) := by
  refine ⟨_, _, fmconst_ok n k f hk hf, rfl, rfl, fun i _ => norm_expi _, by simp, ?_, fun _ _ => rfl⟩
  intro i _
  simp only
  rw [← expi_add]; congr 1; push_cast; ring

/-- The default centre `round(n/2)` is an admissible one. -/
theorem C09_fmconst_default (n : ℕ) (f : ℝ) (hn : 1 ≤ n) :
    ∃ k : ℕ, k < n ∧ (k : ℤ) = roundEven ((n : ℝ) / 2) ∧ fmconst n f none = fmconst n f (some k) := by
  obtain ⟨h0, h1⟩ := round_half_lt n hn
  refine ⟨(roundEven ((n : ℝ) / 2)).toNat, by omega, Int.toNat_of_nonneg h0, ?_⟩
  rw [fmconst_default]
  congr 2
  have : (((roundEven ((n : ℝ) / 2)).toNat : ℤ) : ℝ) = (roundEven ((n : ℝ) / 2) : ℝ) := by
    rw [Int.toNat_of_nonneg h0]
  rw [← this]; push_cast; rfl

/-- Empty lengths and frequencies above Nyquist are rejected. -/
theorem C09_fmconst_rejects (n : ℤ) (f : ℝ) (t0 : Option ℝ) (h : n ≤ 0 ∨ 1 / 2 < |f|) :
    fmconst n f t0 = .error .typeError := by
  unfold fmconst
  by_cases hn : n ≤ 0
  · simp only [if_pos hn]
  · have hf : |f| > 0.5 := by rcases h with h | h; exact absurd h hn; norm_num; linarith
    simp only [if_neg hn, if_pos hf]

/-- A time centre at or beyond the end raises `IndexError`. -/
theorem C09_fmconst_late_centre (n : ℕ) (f t0 : ℝ) (hn : 1 ≤ n) (hf : |f| ≤ 1 / 2) (ht : (n : ℝ) ≤ t0) :
    fmconst n f (some t0) = .error .indexError := by
  have hn' : ¬ (n : ℤ) ≤ 0 := by omega
  have hf' : ¬ |f| > 0.5 := by norm_num; linarith
  simp only [fmconst, AM.defaultT0, if_neg hn', if_neg hf']
  rw [Vec.item_error]
  · rfl
  · simp only [Vec.map, arange]
    have : (n : ℤ) ≤ truncInt t0 := by
      unfold truncInt
      rw [if_pos (le_trans (by positivity) ht), Int.le_floor]
      exact_mod_cast ht
    omega

example : (50 : ℕ) < 128 ∧ |(0.05 : ℝ)| ≤ 1 / 2 := by
  constructor <;> norm_num [abs_of_pos]

/-- A time centre between two samples: the tone is divided by the real part of the sample before the centre.  The real part is 1 there, the
modulus is not 1 any more, and the call fails when that sample is imaginary. -/
theorem C09_fmconst_between (n : ℕ) (f t0 : ℝ) (hf : |f| ≤ 1 / 2) (h0 : 0 ≤ t0) (h1 : t0 < n) :
    let c := Real.cos (2 * Real.pi * f * (t0 - ⌊t0⌋))
    (c = 0 → fmconst n f (some t0) = .error .nonFinite) ∧
    (c ≠ 0 → ∃ (y : Vec ℂ) (law : Vec ℝ), fmconst n f (some t0) = .ok (y, law) ∧ y.len = n ∧
      (y.get ⌊t0⌋.toNat).re = 1 ∧ (∀ i < n, ‖y.get i‖ = 1 / |c|) ∧
      (∀ i < n, y.get i = expi (2 * Real.pi * f * (i - t0)) / c) ∧ ∀ i < n, law.get i = f) := by
  intro c
  have hfl : 0 ≤ ⌊t0⌋ := Int.floor_nonneg.2 h0
  have hfn : ⌊t0⌋ < n := by rw [Int.floor_lt]; exact_mod_cast h1
  have hn' : ¬ (n : ℤ) ≤ 0 := by omega
  have hf' : ¬ |f| > 0.5 := by norm_num; linarith
  have htr : truncInt t0 = ⌊t0⌋ := if_pos h0
  have hexp : ∀ i : ℤ, Complex.exp (Complex.I * 2.0 * Real.pi * f * (((i : ℝ) - t0 : ℝ) : ℂ)) = expi (2 * Real.pi * f * (i - t0)) := by
    intro i
    unfold expi
    congr 1
    push_cast
    norm_num
    ring
  have hre : ∀ a, (expi a).re = Real.cos a := fun a => by
    unfold expi
    exact Complex.exp_ofReal_mul_I_re a
  have hc : (expi (2 * Real.pi * f * ((⌊t0⌋ : ℤ) - t0))).re = c := by
    rw [hre, ← Real.cos_neg]
    show _ = Real.cos _
    congr 1; ring
  have hitem : ((((arange 0 n).map (fun t : ℤ => (t : ℝ) - t0)).map (fun t : ℝ => Complex.exp (Complex.I * 2.0 * Real.pi * f * t))).item (truncInt t0)
      : Py ℂ) = .ok (expi (2 * Real.pi * f * ((⌊t0⌋ : ℤ) - t0))) := by
    rw [htr, Vec.item_ok hfl (by show ⌊t0⌋ < (((n : ℤ) - 0).toNat : ℤ); omega)]
    show Except.ok (Complex.exp (Complex.I * 2.0 * Real.pi * f * ((((0 + (⌊t0⌋.toNat : ℤ) : ℤ) : ℝ) - t0 : ℝ) : ℂ))) = _
    rw [hexp]
    congr 5
    omega
  have hrun : fmconst n f (some t0) = if c = 0 then .error .nonFinite else
      .ok (⟨n, fun i => expi (2 * Real.pi * f * (i - t0)) / c⟩, ⟨n, fun _ => f⟩) := by
    simp only [fmconst, AM.defaultT0, if_neg hn', if_neg hf']
    rw [hitem, ok_bind, hc]
    split
    · rfl
    · refine congrArg Except.ok (Prod.ext ?_ rfl)
      show Vec.mk _ _ = Vec.mk _ _
      congr 1
      funext i
      show Complex.exp (Complex.I * 2.0 * Real.pi * f * ((((0 + (i : ℤ) : ℤ) : ℝ) - t0 : ℝ) : ℂ)) / (c : ℂ) = _
      rw [hexp, zero_add]
      push_cast
      rfl
  refine ⟨fun h => by rw [hrun, if_pos h], fun h => ⟨_, _, by rw [hrun, if_neg h], rfl, ?_, fun i _ => ?_, fun _ _ => rfl, fun _ _ => rfl⟩⟩
  · show (expi (2 * Real.pi * f * (((⌊t0⌋.toNat : ℕ) : ℝ) - t0)) / (c : ℂ)).re = 1
    rw [Complex.div_ofReal_re]
    have : ((⌊t0⌋.toNat : ℕ) : ℝ) = ((⌊t0⌋ : ℤ) : ℝ) := by
      rw [← Int.cast_natCast, Int.toNat_of_nonneg hfl]
    rw [this, hc]
    exact div_self h
  · show ‖expi _ / (c : ℂ)‖ = _
    rw [norm_div, norm_expi, Complex.norm_real, Real.norm_eq_abs]

/-- At half the sampling frequency and centred half-way between samples the call fails. -/
example (n : ℕ) (hn : 4 ≤ n) : fmconst n (1 / 2) (some (3 / 2)) = .error .nonFinite := by
  have hn' : (4 : ℝ) ≤ n := by exact_mod_cast hn
  refine (C09_fmconst_between n (1 / 2) (3 / 2) (by norm_num [abs_of_pos]) (by norm_num) (by linarith)).1 ?_
  have : ⌊(3 / 2 : ℝ)⌋ = 1 := by norm_num [Int.floor_eq_iff]
  rw [this]
  rw [show 2 * Real.pi * (1 / 2) * (3 / 2 - ((1 : ℤ) : ℝ)) = Real.pi / 2 by push_cast; ring]
  exact Real.cos_pi_div_two

/-! ## C10 `fmlin` -/

/-- Chirp: unit modulus, value 1 at the time centre, linear law between the requested frequencies,
and the phase advance over two samples is `2·2π·law` at the middle one. -/
theorem C10_fmlin (n k : ℕ) (fi ff : ℝ) (hn : 2 ≤ n) (hk : 1 ≤ k) (hkn : k ≤ n)
    (hi : |fi| ≤ 1 / 2) (hf : |ff| ≤ 1 / 2) :
    ∃ (y : Vec ℂ) (law : Vec ℝ), fmlin n fi ff (some k) = .ok (y, law) ∧ y.len = n ∧ law.len = n ∧
      (∀ i < n, ‖y.get i‖ = 1) ∧ y.get (k - 1) = 1 ∧
      law.get 0 = fi ∧ law.get (n - 1) = ff ∧
      (∀ i, i + 2 < n → law.get (i + 2) - law.get (i + 1) = law.get (i + 1) - law.get i) ∧
      (∀ i, i + 2 < n → y.get (i + 2) = y.get i * expi (2 * (2 * Real.pi * law.get (i + 1)))) := by
  have hnr : (2 : ℝ) ≤ n := by exact_mod_cast hn
  have hn1 : n ≠ 1 := by omega
  have hd : (n : ℝ) - 1 ≠ 0 := by linarith
  refine ⟨_, _, fmlin_ok n k fi ff hn hk hkn hi hf, rfl, rfl, fun i _ => norm_expi _, ?_, ?_, ?_, ?_, ?_⟩
  · have : ((k - 1 : ℕ) : ℝ) = (k : ℝ) - 1 := by push_cast [hk]; ring
    simp only [this, sub_self, mul_zero, expi_zero]
  · simp [linspace, hn1]
  · have : ((n - 1 : ℕ) : ℝ) = (n : ℝ) - 1 := by push_cast [(by omega : 1 ≤ n)]; ring
    simp only [linspace, hn1, if_false, this]
    field_simp; ring
  · intro i _
    simp only [linspace, hn1, if_false]
    push_cast; ring
  · intro i _
    simp only [linspace, hn1, if_false, linPhase]
    rw [← expi_add]; congr 1; push_cast; field_simp; ring

/-- The default centre is admissible for `n ≥ 2`. -/
theorem C10_fmlin_default (n : ℕ) (fi ff : ℝ) (hn : 2 ≤ n) :
    ∃ k : ℕ, 1 ≤ k ∧ k ≤ n ∧ (k : ℤ) = roundEven ((n : ℝ) / 2) ∧
      fmlin n fi ff none = fmlin n fi ff (some k) := by
  obtain ⟨h0, h1⟩ := round_half_pos n hn
  refine ⟨(roundEven ((n : ℝ) / 2)).toNat, by omega, by omega, Int.toNat_of_nonneg (by omega), ?_⟩
  have : (((roundEven ((n : ℝ) / 2)).toNat : ℕ) : ℝ) = (roundEven ((n : ℝ) / 2) : ℝ) := by
    have : (((roundEven ((n : ℝ) / 2)).toNat : ℤ) : ℝ) = (roundEven ((n : ℝ) / 2) : ℝ) := by
      rw [Int.toNat_of_nonneg (by omega)]
    rw [← this]; push_cast; rfl
  rw [this]
  simp [fmlin, AM.defaultT0]

/-- One sample: `ZeroDivisionError`. -/
theorem C10_fmlin_one_point (fi ff : ℝ) (t0 : Option ℝ) (hi : |fi| ≤ 1 / 2) (hf : |ff| ≤ 1 / 2) :
    fmlin 1 fi ff t0 = .error .zeroDivisionError := by
  have hf' : ¬ (|fi| > 0.5 ∨ |ff| > 0.5) := by
    rw [not_or]; norm_num; constructor <;> linarith
  simp [fmlin, hf']

/-- Empty lengths and frequencies above Nyquist are rejected. -/
theorem C10_fmlin_rejects (n : ℤ) (fi ff : ℝ) (t0 : Option ℝ)
    (h : n ≤ 0 ∨ 1 / 2 < |fi| ∨ 1 / 2 < |ff|) : fmlin n fi ff t0 = .error .typeError := by
  unfold fmlin
  by_cases hn : n ≤ 0
  · simp only [if_pos hn]
  · have hf : |fi| > 0.5 ∨ |ff| > 0.5 := by
      rcases h with h | h | h
      · exact absurd h hn
      · left; norm_num; linarith
      · right; norm_num; linarith
    simp only [if_neg hn, if_pos hf]

example : (2 : ℕ) ≤ 128 ∧ 1 ≤ 50 ∧ 50 ≤ 128 ∧ |(0.05 : ℝ)| ≤ 1 / 2 ∧ |(0.3 : ℝ)| ≤ 1 / 2 := by
  norm_num [abs_of_pos]

/-! ## C11 `fmodany` -/

theorem fmodanyCore_ok (law : Vec ℝ) (k : ℕ) (hk : k < law.len) :
    fmodanyCore law k = .ok ⟨law.len, fun i => expi (2 * Real.pi *
      (∑ j ∈ Finset.range (i + 1), law.get j - ∑ j ∈ Finset.range (k + 1), law.get j))⟩ := by
  simp only [fmodanyCore]
  rw [Vec.item_ok (by omega) (by simpa [Vec.map, Vec.cumsum] using hk)]
  simp only [ok_bind, Vec.map, Vec.cumsum, exp_I_two', conj_expi, Int.toNat_natCast]
  congr 2
  funext i
  rw [← expi_add]; congr 1; ring

/-- Closed form of `fmodany`. -/
theorem fmodany_ok (law : Vec ℝ) (k : ℕ) (hk : 1 ≤ k) (hkn : k < law.len)
    (hl : ∀ i < law.len, |law.get i| ≤ 1 / 2) :
    fmodany (.one law) k = .ok ⟨law.len, fun i => expi (2 * Real.pi *
      (∑ j ∈ Finset.range (i + 1), law.get j - ∑ j ∈ Finset.range (k + 1), law.get j))⟩ := by
  have h0 : (law.map (fun a => |a|)).len ≠ 0 := by simp; omega
  obtain ⟨m, hmax, hub, j, hj, hjm⟩ := Vec.amax_spec h0
  have hle : ¬ m > 0.5 := by
    have := hl j hj
    rw [Vec.map_get] at hjm
    rw [gt_iff_lt, not_lt, ← hjm]
    norm_num; linarith
  have ht : ¬ ((k : ℤ) > law.len ∨ (k : ℤ) = 0) := by omega
  simp only [fmodany, hmax, ok_bind, if_neg hle, if_neg ht]
  exact fmodanyCore_ok law k hkn

/-- For a law inside `[-1/2, 1/2]` and an integer `1 ≤ t0 < len`, `fmodany` integrates the law. -/
theorem C11_fmodany (law : Vec ℝ) (k : ℕ) (hk : 1 ≤ k) (hkn : k < law.len)
    (hl : ∀ i < law.len, |law.get i| ≤ 1 / 2) :
    ∃ y : Vec ℂ, fmodany (.one law) k = .ok y ∧ y.len = law.len ∧
      (∀ i < y.len, ‖y.get i‖ = 1) ∧ y.get k = 1 ∧
      (∀ i, i + 1 < y.len → y.get (i + 1) = y.get i * expi (2 * Real.pi * law.get (i + 1))) := by
  refine ⟨_, fmodany_ok law k hk hkn hl, rfl, fun i _ => norm_expi _, by simp, ?_⟩
  intro i _
  simp only
  rw [← expi_add, Finset.sum_range_succ _ (i + 1)]; congr 1; ring

/-- Laws leaving `[-1/2, 1/2]` are rejected. -/
theorem C11_fmodany_rejects_law (law : Vec ℝ) (t0 : ℤ) (i : ℕ) (hi : i < law.len)
    (hl : 1 / 2 < |law.get i|) : fmodany (.one law) t0 = .error .typeError := by
  have h0 : (law.map (fun a => |a|)).len ≠ 0 := by simp; omega
  obtain ⟨m, hmax, hub, j, hj, hjm⟩ := Vec.amax_spec h0
  have hgt : m > 0.5 := by
    have := hub i hi
    rw [Vec.map_get] at this
    norm_num; linarith
  simp only [fmodany, hmax, ok_bind, if_pos hgt]

/-- `t0 = 0` and `t0 > len` are rejected; `t0 = len`, admitted by the check, raises `IndexError`. -/
theorem C11_fmodany_rejects_t0 (law : Vec ℝ) (t0 : ℤ) (h1 : 1 ≤ law.len)
    (hl : ∀ i < law.len, |law.get i| ≤ 1 / 2) :
    ((t0 = 0 ∨ (law.len : ℤ) < t0) → fmodany (.one law) t0 = .error .typeError) ∧
    (t0 = law.len → fmodany (.one law) t0 = .error .indexError) := by
  have h0 : (law.map (fun a => |a|)).len ≠ 0 := by simp; omega
  obtain ⟨m, hmax, hub, j, hj, hjm⟩ := Vec.amax_spec h0
  have hle : ¬ m > 0.5 := by
    have := hl j hj
    rw [Vec.map_get] at hjm
    rw [gt_iff_lt, not_lt, ← hjm]
    norm_num; linarith
  constructor
  · intro h
    have ht : (t0 > law.len ∨ t0 = 0) := by omega
    simp only [fmodany, hmax, ok_bind, if_neg hle, if_pos ht]
  · intro h
    have ht : ¬ (t0 > law.len ∨ t0 = 0) := by omega
    simp only [fmodany, hmax, ok_bind, if_neg hle, if_neg ht, fmodanyCore]
    rw [Vec.item_error]
    · rfl
    · simp [Vec.map, Vec.cumsum]; omega

example : 1 ≤ 1 ∧ 1 < (⟨3, fun _ => (1 / 4 : ℝ)⟩ : Vec ℝ).len ∧
    ∀ i < 3, |(⟨3, fun _ => (1 / 4 : ℝ)⟩ : Vec ℝ).get i| ≤ 1 / 2 := by
  refine ⟨le_rfl, by norm_num, fun i _ => ?_⟩
  rw [abs_of_pos] <;> norm_num

theorem one_pt_zero : (1.0 : ℝ) = 1 := by norm_num

/-- A two-dimensional law: anything but one column is refused; one column is used without looking at its values; the instants 0 and beyond the
end raise `TypeError`, the instant equal to the length `IndexError`. -/
theorem C11_fmodany_column (M : Mat ℝ) (t0 : ℤ) :
    (M.cols ≠ 1 → fmodany (.two M) t0 = .error .typeError) ∧
    (M.cols = 1 → (t0 = 0 ∨ (M.rows : ℤ) < t0) → fmodany (.two M) t0 = .error .typeError) ∧
    (M.cols = 1 → 1 ≤ M.rows → t0 = M.rows → fmodany (.two M) t0 = .error .indexError) ∧
    (∀ k : ℕ, M.cols = 1 → 1 ≤ k → k < M.rows → t0 = k → fmodany (.two M) t0 = .ok ⟨M.rows, fun i => expi (2 * Real.pi *
      (∑ j ∈ Finset.range (i + 1), M.get j 0 - ∑ j ∈ Finset.range (k + 1), M.get j 0))⟩) := by
  refine ⟨fun h => ?_, fun h h0 => ?_, fun h h1 h2 => ?_, fun k h h1 h2 h3 => ?_⟩
  · exact if_pos h
  · refine (if_neg (not_not.2 h)).trans (if_pos ?_)
    omega
  · subst h2
    refine (if_neg (not_not.2 h)).trans ((if_neg ?_).trans ?_)
    · omega
    · unfold fmodanyCore
      simp only
      rw [Vec.item_error]
      · rfl
      · exact le_of_eq (show ((M.rows : ℕ) : ℤ) = M.rows from rfl)
  · subst h3
    refine (if_neg (not_not.2 h)).trans ((if_neg ?_).trans ?_)
    · omega
    · exact fmodanyCore_ok (M.col 0) k h2

/-- A negative instant, which the check admits, counts from the end: the value there is 1; before the beginning it raises `IndexError`. -/
theorem C11_fmodany_negative (law : Vec ℝ) (t0 : ℤ) (h1 : 1 ≤ law.len) (hneg : t0 < 0) (hl : ∀ i < law.len, |law.get i| ≤ 1 / 2) :
    (-(law.len : ℤ) ≤ t0 → ∃ y : Vec ℂ, fmodany (.one law) t0 = .ok y ∧ y.len = law.len ∧ y.get (law.len + t0).toNat = 1 ∧
      ∀ i, i + 1 < y.len → y.get (i + 1) = y.get i * expi (2 * Real.pi * law.get (i + 1))) ∧
    (t0 < -(law.len : ℤ) → fmodany (.one law) t0 = .error .indexError) := by
  have h0 : (law.map (fun a => |a|)).len ≠ 0 := by simp; omega
  obtain ⟨m, hmax, hub, j, hj, hjm⟩ := Vec.amax_spec h0
  have hle : ¬ m > 0.5 := by
    have := hl j hj
    rw [Vec.map_get] at hjm
    rw [gt_iff_lt, not_lt, ← hjm]
    norm_num; linarith
  have ht : ¬ (t0 > law.len ∨ t0 = 0) := by omega
  simp only [fmodany, hmax, ok_bind, if_neg hle, if_neg ht]
  constructor
  · intro h
    obtain ⟨k, hk⟩ : ∃ k : ℕ, (law.len : ℤ) + t0 = k := ⟨((law.len : ℤ) + t0).toNat, by omega⟩
    have hkn : k < law.len := by omega
    have e : fmodanyCore law t0 = fmodanyCore law k := by
      unfold fmodanyCore
      simp only
      have : ∀ y : Vec ℂ, y.len = law.len → y.item t0 = y.item k := by
        intro y hy
        unfold Vec.item
        rw [if_pos (show IdxOk y.len t0 by unfold IdxOk; omega), if_pos (show IdxOk y.len (k : ℤ) by unfold IdxOk; omega)]
        congr 2
        unfold wrapIdx
        split_ifs <;> omega
      rw [this _ rfl]
    rw [e, hk, Int.toNat_natCast, fmodanyCore_ok law k hkn]
    refine ⟨_, rfl, rfl, by simp, fun i _ => ?_⟩
    simp only
    rw [← expi_add, Finset.sum_range_succ _ (i + 1)]; congr 1; ring
  · intro h
    unfold fmodanyCore
    simp only
    have : (law.cumsum.map (fun s : ℝ => Complex.exp (Complex.I * 2.0 * Real.pi * s))).item t0 = .error .indexError := by
      unfold Vec.item
      rw [if_neg]
      show ¬ IdxOk law.len t0
      unfold IdxOk; omega
    rw [this]
    rfl

/-- With a float instant, the documented type, `fmodany` never returns: `TypeError` or (without samples) `ValueError` from the checks, and `IndexError` if they pass. -/
theorem C11_fmodany_float (law : Utils.Arr12 ℝ) (t0 : ℝ) : ∃ e, fmodanyFloat law t0 = .error e ∧ (e = .typeError ∨ e = .valueError ∨ e = .indexError) ∧
    (∀ v, law = .one v → v.len = 0 → e = .valueError) ∧
    (∀ v, law = .one v → 1 ≤ v.len → (∀ i < v.len, |v.get i| ≤ 1 / 2) → t0 ≠ 0 → t0 ≤ v.len → e = .indexError) := by
  cases law with
  | two M =>
    by_cases h1 : M.cols ≠ 1
    · exact ⟨.typeError, by simp only [fmodanyFloat, if_pos h1], .inl rfl, fun v hv => by simp at hv, fun v hv => by simp at hv⟩
    · by_cases h2 : t0 > M.rows ∨ t0 = 0
      · exact ⟨.typeError, by simp only [fmodanyFloat, if_neg h1, if_pos h2], .inl rfl, fun v hv => by simp at hv, fun v hv => by simp at hv⟩
      · exact ⟨.indexError, by simp only [fmodanyFloat, if_neg h1, if_neg h2]; rfl, .inr (.inr rfl), fun v hv => by simp at hv, fun v hv => by simp at hv⟩
  | one v =>
    by_cases h0 : v.len = 0
    · refine ⟨.valueError, ?_, .inr (.inl rfl), fun _ _ _ => rfl, fun v' hv h => ?_⟩
      · have : (v.map (fun a => |a|)).amax = .error .valueError := by unfold Vec.amax; exact dif_pos (show (v.map (fun a => |a|)).len = 0 from h0)
        simp only [fmodanyFloat, this]; rfl
      · have : v = v' := by simpa using hv
        subst this; omega
    · have h0' : (v.map (fun a => |a|)).len ≠ 0 := by simpa using h0
      obtain ⟨m, hmax, hub, j, hj, hjm⟩ := Vec.amax_spec h0'
      by_cases h1 : m > 0.5
      · refine ⟨.typeError, by simp only [fmodanyFloat, hmax, ok_bind, if_pos h1], .inl rfl, fun v' hv h => ?_, fun v' hv _ h => ?_⟩
        · have : v = v' := by simpa using hv
          subst this; exact absurd h h0
        · have : v = v' := by simpa using hv
          subst this
          have := h j hj
          rw [Vec.map_get] at hjm
          norm_num at h1
          linarith
      · by_cases h2 : t0 > v.len ∨ t0 = 0
        · refine ⟨.typeError, by simp only [fmodanyFloat, hmax, ok_bind, if_neg h1, if_pos h2], .inl rfl, fun v' hv h => ?_, fun v' hv _ _ h3 h4 => ?_⟩
          · have : v = v' := by simpa using hv
            subst this; exact absurd h h0
          · have : v = v' := by simpa using hv
            subst this
            rcases h2 with h2 | h2
            · linarith
            · exact absurd h2 h3
        · refine ⟨.indexError, by simp only [fmodanyFloat, hmax, ok_bind, if_neg h1, if_neg h2]; rfl, .inr (.inr rfl), fun v' hv h => ?_, fun _ _ _ _ _ _ => rfl⟩
          have : v = v' := by simpa using hv
          subst this; exact absurd h h0

/-- The last instant counted from the end. -/
example : ∃ y : Vec ℂ, fmodany (.one ⟨3, fun _ => (1 / 4 : ℝ)⟩) (-1) = .ok y ∧ y.get 2 = 1 ∧ y.get 1 = y.get 2 * expi (-(Real.pi / 2)) := by
  obtain ⟨y, h1, h2, h3, h4⟩ := (C11_fmodany_negative ⟨3, fun _ => (1 / 4 : ℝ)⟩ (-1) (by norm_num) (by norm_num)
    (fun i _ => by rw [abs_of_pos] <;> norm_num)).1 (by norm_num)
  refine ⟨y, h1, h3, ?_⟩
  rw [h4 1 (by rw [h2]; norm_num), mul_assoc, ← expi_add, show 2 * Real.pi * (1 / 4) + -(Real.pi / 2) = 0 by ring, expi_zero, mul_one]

/-! ## C12 hyperbolic and power laws -/

/-- `fmhyp` returns unit-modulus samples (times 1, …, n) whose law passes through both points. -/
theorem C12_fmhyp (n t1 t2 : ℕ) (f1 f2 : ℝ) (h1 : 1 ≤ t1) (h2 : 1 ≤ t2) (hne : t1 ≠ t2) :
    ∃ r : WarnResult, fmhyp n (t1, f1) (t2, f2) = .ok r ∧ r.signal.len = n ∧ r.iflaw.len = n ∧
      (∀ i < n, ‖r.signal.get i‖ = 1) ∧
      (t1 ≤ n → r.iflaw.get (t1 - 1) = f1) ∧ (t2 ≤ n → r.iflaw.get (t2 - 1) = f2) := by
  have h1r : (0 : ℝ) < t1 := by exact_mod_cast h1
  have h2r : (0 : ℝ) < t2 := by exact_mod_cast h2
  have hner : (t1 : ℝ) ≠ t2 := by exact_mod_cast hne
  have hz : ¬ ((t2 : ℝ) = 0 ∨ (t1 : ℝ) = 0) := by
    rw [not_or]; exact ⟨h2r.ne', h1r.ne'⟩
  have hd : (1.0 : ℝ) / t2 - 1 / t1 ≠ 0 := by
    rw [one_pt_zero, div_sub_div _ _ h2r.ne' h1r.ne']
    apply div_ne_zero
    · intro h; apply hner; linarith
    · positivity
  simp only [fmhyp, if_neg hz, if_neg hd]
  refine ⟨_, rfl, by simp [Vec.map, arange], by simp [Vec.map, arange], ?_, ?_, ?_⟩
  · intro i _
    simp only [Vec.map_get, exp_I, norm_expi]
  · intro _
    have e : ((1 + ((t1 - 1 : ℕ) : ℤ) : ℤ) : ℝ) = t1 := by
      have : (1 + ((t1 - 1 : ℕ) : ℤ) : ℤ) = (t1 : ℤ) := by omega
      rw [this]; push_cast; rfl
    simp only [Vec.map_get, arange, e, abs_of_pos h1r]
    rw [one_pt_zero]; ring
  · intro _
    have e : ((1 + ((t2 - 1 : ℕ) : ℤ) : ℤ) : ℝ) = t2 := by
      have : (1 + ((t2 - 1 : ℕ) : ℤ) : ℤ) = (t2 : ℤ) := by omega
      rw [this]; push_cast; rfl
    simp only [Vec.map_get, arange, e, abs_of_pos h2r]
    rw [one_pt_zero] at hd ⊢
    have : f1 - (f2 - f1) / (1 / (t2 : ℝ) - 1 / t1) / t1 + (f2 - f1) / (1 / (t2 : ℝ) - 1 / t1) / t2
        = f1 + (f2 - f1) / (1 / (t2 : ℝ) - 1 / t1) * (1 / (t2 : ℝ) - 1 / t1) := by ring
    rw [this, div_mul_cancel₀ _ hd]; ring

/-- `fmhyp` in closed form, for real reference times: the law is the hyperbola `f0 + c / t` through both points and the phase is a primitive of it. -/
theorem C12_fmhyp_formula (n : ℕ) (t1 t2 f1 f2 : ℝ) (h1 : t1 ≠ 0) (h2 : t2 ≠ 0) (hne : t1 ≠ t2) :
    ∃ (r : WarnResult) (f0 c : ℝ), fmhyp n (t1, f1) (t2, f2) = .ok r ∧ r.signal.len = n ∧ r.iflaw.len = n ∧
      f0 + c / t1 = f1 ∧ f0 + c / t2 = f2 ∧
      ∀ i < n, r.iflaw.get i = f0 + c / ((i : ℝ) + 1) ∧ r.signal.get i = expi (2 * Real.pi * (f0 * ((i : ℝ) + 1) + c * Real.log ((i : ℝ) + 1))) ∧
        HasDerivAt (fun t : ℝ => f0 * t + c * Real.log t) (f0 + c / ((i : ℝ) + 1)) ((i : ℝ) + 1) := by
  have hz : ¬ (t2 = 0 ∨ t1 = 0) := by rw [not_or]; exact ⟨h2, h1⟩
  have hd : (1 : ℝ) / t2 - 1 / t1 ≠ 0 := by
    rw [div_sub_div _ _ h2 h1]
    apply div_ne_zero
    · intro h; apply hne; linarith
    · exact mul_ne_zero h2 h1
  simp only [fmhyp, if_neg hz, one_pt_zero, if_neg hd]
  refine ⟨_, f1 - (f2 - f1) / (1 / t2 - 1 / t1) / t1, (f2 - f1) / (1 / t2 - 1 / t1), rfl, by simp [Vec.map, arange], by simp [Vec.map, arange],
    by ring, ?_, ?_⟩
  · have : f1 - (f2 - f1) / (1 / t2 - 1 / t1) / t1 + (f2 - f1) / (1 / t2 - 1 / t1) / t2
        = f1 + (f2 - f1) / (1 / t2 - 1 / t1) * (1 / t2 - 1 / t1) := by ring
    rw [this, div_mul_cancel₀ _ hd]; ring
  · intro i _
    have e : ((1 + (i : ℤ) : ℤ) : ℝ) = (i : ℝ) + 1 := by push_cast; ring
    have hp : (0 : ℝ) < (i : ℝ) + 1 := by positivity
    simp only [Vec.map_get, arange, e, abs_of_pos hp, exp_I]
    refine ⟨trivial, trivial, ?_⟩
    have := ((hasDerivAt_id ((i : ℝ) + 1)).const_mul (f1 - (f2 - f1) / (1 / t2 - 1 / t1) / t1)).add
      ((Real.hasDerivAt_log hp.ne').const_mul ((f2 - f1) / (1 / t2 - 1 / t1)))
    rw [mul_one, ← div_eq_mul_inv] at this
    exact this

/-- A reference time zero, or equal ones, raise `ZeroDivisionError`. -/
theorem C12_fmhyp_rejects (n : ℤ) (p1 p2 : ℝ × ℝ) (h : p1.1 = 0 ∨ p2.1 = 0 ∨ p1.1 = p2.1) : fmhyp n p1 p2 = .error .zeroDivisionError := by
  unfold fmhyp
  by_cases h0 : p2.1 = 0 ∨ p1.1 = 0
  · rw [if_pos h0]
  · rw [if_neg h0, if_pos]
    rcases h with h | h | h
    · exact absurd (Or.inr h) h0
    · exact absurd (Or.inl h) h0
    · rw [h, one_pt_zero, sub_self]

/-- `fmpower` with two reference points passes through both of them (times 0, …, n-1). -/
theorem C12_fmpower (n t1 t2 : ℕ) (k f1 f2 : ℝ) (rest : List ℝ) (h1 : 1 ≤ t1) (h2 : 1 ≤ t2) (hne : t1 ≠ t2)
    (hk0 : k ≠ 0) (hk1 : k ≠ 1) :
    ∃ r : PowerResult, fmpower n k (t1 :: f1 :: t2 :: f2 :: rest) = .ok (.real r) ∧ r.signal.len = n ∧
      r.iflaw.len = n ∧
      (∀ i < n, 1 ≤ i → ∃ z : ℂ, r.signal.get i = some z ∧ ‖z‖ = 1) ∧
      (t1 < n → r.iflaw.get t1 = .fin f1) ∧ (t2 < n → r.iflaw.get t2 = .fin f2) := by
  have h1r : (0 : ℝ) < t1 := by exact_mod_cast h1
  have h2r : (0 : ℝ) < t2 := by exact_mod_cast h2
  have hner : (t1 : ℝ) ≠ t2 := by exact_mod_cast hne
  have hz : ¬ ((t2 : ℝ) = 0 ∨ (t1 : ℝ) = 0) := by
    rw [not_or]; exact ⟨h2r.ne', h1r.ne'⟩
  have hneg : ¬ (((t1 : ℝ) < 0 ∨ (t2 : ℝ) < 0) ∧ ¬ ∃ m : ℤ, k = m) := fun h => by
    rcases h.1 with h | h <;> linarith
  have p1 : (0 : ℝ) < (t1 : ℝ) ^ k := Real.rpow_pos_of_pos h1r k
  have p2 : (0 : ℝ) < (t2 : ℝ) ^ k := Real.rpow_pos_of_pos h2r k
  have hd : (1.0 : ℝ) / (t2 : ℝ) ^ k - 1.0 / (t1 : ℝ) ^ k ≠ 0 := by
    rw [one_pt_zero, div_sub_div _ _ p2.ne' p1.ne']
    apply div_ne_zero
    · intro h
      have h3 : (t1 : ℝ) ^ k = (t2 : ℝ) ^ k := by linarith
      exact hner ((Real.rpow_left_inj h1r.le h2r.le hk0).1 h3)
    · positivity
  have hk1' : ¬ (1 - k = 0) := fun h => hk1 (by linarith)
  simp only [fmpower, powerCoefs, if_neg hz, if_neg hneg, if_neg hd, ok_bind, if_neg hk1']
  refine ⟨_, rfl, by simp [Vec.map, arange], by simp [Vec.map, arange], ?_, ?_, ?_⟩
  · intro i _ hi
    have e : (((0 + (i : ℤ) : ℤ)) : ℝ) = i := by push_cast; ring
    have hi0 : ¬ ((i : ℝ) = 0) := by
      have : (i : ℝ) ≠ 0 := by exact_mod_cast (by omega : i ≠ 0)
      exact this
    simp only [Vec.map_get, arange, e, if_neg hi0, Option.map_some]
    exact ⟨_, rfl, by rw [exp_I, norm_expi]⟩
  · intro _
    have e : (((0 + (t1 : ℤ) : ℤ)) : ℝ) = t1 := by push_cast; ring
    simp only [Vec.map_get, arange, e, if_neg h1r.ne', abs_of_pos h1r, Real.rpow_neg h1r.le]
    congr 1; rw [one_pt_zero]; ring
  · intro _
    have e : (((0 + (t2 : ℤ) : ℤ)) : ℝ) = t2 := by push_cast; ring
    simp only [Vec.map_get, arange, e, if_neg h2r.ne', abs_of_pos h2r, Real.rpow_neg h2r.le]
    congr 1
    rw [one_pt_zero] at hd ⊢
    have : f1 - (f2 - f1) / (1 / (t2 : ℝ) ^ k - 1 / (t1 : ℝ) ^ k) / (t1 : ℝ) ^ k
        + (f2 - f1) / (1 / (t2 : ℝ) ^ k - 1 / (t1 : ℝ) ^ k) * ((t2 : ℝ) ^ k)⁻¹
        = f1 + (f2 - f1) / (1 / (t2 : ℝ) ^ k - 1 / (t1 : ℝ) ^ k)
          * (1 / (t2 : ℝ) ^ k - 1 / (t1 : ℝ) ^ k) := by ring
    rw [this, div_mul_cancel₀ _ hd]; ring

example : (1 : ℕ) ≤ 1 ∧ 1 ≤ 100 ∧ (1 : ℕ) ≠ 100 ∧ (1 / 2 : ℝ) ≠ 0 ∧ (1 / 2 : ℝ) ≠ 1 := by norm_num

/-- `fmpower` in closed form: the phase is the primitive of the law, times 0, …, n-1; the first sample is 1 below exponent one and NaN above. -/
theorem C12_fmpower_formula (n : ℕ) (k f0 c : ℝ) (hk1 : k ≠ 1) :
    ∃ r : PowerResult, fmpower n k [f0, c] = .ok (.real r) ∧ r.signal.len = n ∧ r.iflaw.len = n ∧
      (∀ i < n, 1 ≤ i → r.signal.get i = some (expi (2 * Real.pi * (f0 * i + c / (1 - k) * (i : ℝ) ^ (1 - k)))) ∧
        r.iflaw.get i = .fin (f0 + c * (i : ℝ) ^ (-k)) ∧
        HasDerivAt (fun t : ℝ => f0 * t + c / (1 - k) * t ^ (1 - k)) (f0 + c * (i : ℝ) ^ (-k)) i) ∧
      (1 ≤ n → r.signal.get 0 = if k < 1 then some 1 else none) := by
  have hk1' : ¬ (1 - k = 0) := fun h => hk1 (by linarith)
  simp only [fmpower, powerCoefs, ok_bind, if_neg hk1']
  refine ⟨_, rfl, by simp [Vec.map, arange], by simp [Vec.map, arange], ?_, ?_⟩
  · intro i _ hi
    have e : (((0 + (i : ℤ) : ℤ)) : ℝ) = i := by push_cast; ring
    have hi0 : (0 : ℝ) < i := by exact_mod_cast hi
    refine ⟨?_, ?_, ?_⟩
    · simp only [Vec.map_get, arange, e, if_neg hi0.ne', Option.map_some, exp_I, abs_of_pos hi0]
    · simp only [Vec.map_get, arange, e, if_neg hi0.ne', abs_of_pos hi0]
    · have h1 := ((hasDerivAt_id (i : ℝ)).const_mul f0).add
        ((Real.hasDerivAt_rpow_const (x := (i : ℝ)) (p := 1 - k) (Or.inl hi0.ne')).const_mul (c / (1 - k)))
      have h2 : f0 * 1 + c / (1 - k) * ((1 - k) * (i : ℝ) ^ (1 - k - 1)) = f0 + c * (i : ℝ) ^ (-k) := by
        rw [show (1 - k - 1) = -k by ring, mul_one, ← mul_assoc, div_mul_cancel₀ _ hk1']
      rw [h2] at h1
      exact h1
  · intro hn
    simp only [Vec.map_get, arange]
    norm_num
    unfold addMulZeroPow
    by_cases h : k < 1
    · rw [if_pos (by linarith), if_pos h]
      simp only [Option.map_some]
      rw [Real.zero_rpow hk1']
      simp
    · have hlt : 1 < k := lt_of_le_of_ne (not_lt.1 h) (Ne.symm hk1)
      rw [if_neg (by linarith), if_neg h]
      split_ifs <;> rfl

/-- Exponent one, a reference time zero and equal reference points raise `ZeroDivisionError`; so does exponent zero with two reference times. -/
theorem C12_fmpower_rejects (n : ℤ) (k f0 c t1 f1 t2 f2 : ℝ) (rest : List ℝ) :
    fmpower n 1 [f0, c] = .error .zeroDivisionError ∧
    (t1 = 0 ∨ t2 = 0 → fmpower n k (t1 :: f1 :: t2 :: f2 :: rest) = .error .zeroDivisionError) ∧
    (t2 = t1 ∨ k = 0 → fmpower n k (t1 :: f1 :: t2 :: f2 :: rest) = .error .zeroDivisionError) := by
  have key : t1 = 0 ∨ t2 = 0 → fmpower n k (t1 :: f1 :: t2 :: f2 :: rest) = .error .zeroDivisionError := fun h => by
    simp only [fmpower, powerCoefs, if_pos h.symm]
    rfl
  refine ⟨?_, key, fun h1 => ?_⟩
  · simp [fmpower, powerCoefs, ok_bind]
  · by_cases h0 : t1 = 0 ∨ t2 = 0
    · exact key h0
    · have h0' : ¬ (t2 = 0 ∨ t1 = 0) := fun h => h0 h.symm
      have hz : (1.0 : ℝ) / t2 ^ k - 1.0 / t1 ^ k = 0 := by
        rcases h1 with h1 | h1
        · rw [h1, sub_self]
        · rw [h1, Real.rpow_zero, Real.rpow_zero, sub_self]
      have hzc : (1.0 : ℂ) / (t2 : ℂ) ^ (k : ℂ) - 1.0 / (t1 : ℂ) ^ (k : ℂ) = 0 := by
        rcases h1 with h1 | h1
        · rw [h1, sub_self]
        · rw [h1, Complex.ofReal_zero, Complex.cpow_zero, Complex.cpow_zero, sub_self]
      simp only [fmpower, powerCoefs, if_neg h0', if_pos hz, if_pos hzc]
      split_ifs <;> rfl

/-- Fewer than two coefficients raise `UnboundLocalError`, three `IndexError`; beyond four they are ignored. -/
theorem C12_fmpower_counts (n : ℤ) (k a b c d : ℝ) (rest : List ℝ) :
    fmpower n k [] = .error .unboundLocalError ∧ fmpower n k [a] = .error .unboundLocalError ∧
    fmpower n k [a, b, c] = .error .indexError ∧ fmpower n k (a :: b :: c :: d :: rest) = fmpower n k [a, b, c, d] :=
  ⟨rfl, rfl, rfl, rfl⟩

/-- Negative reference times with an even degree (given as a float): the law passes through the mirrored points. -/
theorem C12_fmpower_mirrored (n t1 t2 : ℕ) (m : ℤ) (f1 f2 : ℝ) (rest : List ℝ) (h1 : 1 ≤ t1) (h2 : 1 ≤ t2) (s1 s2 : ℝ)
    (hs1 : s1 = t1 ∨ s1 = -t1) (hs2 : s2 = t2 ∨ s2 = -t2) :
    fmpower n ((2 * m : ℤ) : ℝ) (s1 :: f1 :: s2 :: f2 :: rest) = fmpower n ((2 * m : ℤ) : ℝ) (t1 :: f1 :: t2 :: f2 :: rest) := by
  have h1r : (0 : ℝ) < t1 := by exact_mod_cast h1
  have h2r : (0 : ℝ) < t2 := by exact_mod_cast h2
  have hp : ∀ (t : ℕ) (s : ℝ), s = t ∨ s = -t → s ^ (((2 * m : ℤ)) : ℝ) = (t : ℝ) ^ (((2 * m : ℤ)) : ℝ) := by
    rintro t s (h | h)
    · rw [h]
    · rw [h, Real.rpow_intCast, Real.rpow_intCast, Even.neg_zpow (even_two_mul m)]
  have hint : ∀ a b : ℝ, ¬ ((a < 0 ∨ b < 0) ∧ ¬ ∃ z : ℤ, ((2 * m : ℤ) : ℝ) = z) := fun a b h => h.2 ⟨2 * m, rfl⟩
  have z1 : ¬ (s2 = 0 ∨ s1 = 0) := by
    rintro (h | h)
    · rcases hs2 with h' | h' <;> linarith
    · rcases hs1 with h' | h' <;> linarith
  have z2 : ¬ ((t2 : ℝ) = 0 ∨ (t1 : ℝ) = 0) := by
    rintro (h | h) <;> linarith
  have hco : powerCoefs ((2 * m : ℤ) : ℝ) (s1 :: f1 :: s2 :: f2 :: rest) = powerCoefs ((2 * m : ℤ) : ℝ) (t1 :: f1 :: t2 :: f2 :: rest) := by
    simp only [powerCoefs, if_neg z1, if_neg z2, if_neg (hint _ _), hp t1 s1 hs1, hp t2 s2 hs2]
  unfold fmpower
  rw [hco]

/-- A negative reference time with a degree that is not an integer makes the law complex: `f0 + c t ^ (-k)` with the complex numbers that fit both points
(principal powers), and its primitive as phase. -/
theorem C12_fmpower_complex (n : ℕ) (k t1 f1 t2 f2 : ℝ) (rest : List ℝ) (h1 : t1 ≠ 0) (h2 : t2 ≠ 0) (hneg : t1 < 0 ∨ t2 < 0) (hk : ¬ ∃ m : ℤ, k = m)
    (hd : (t1 : ℂ) ^ (k : ℂ) ≠ (t2 : ℂ) ^ (k : ℂ)) :
    ∃ (f0 c : ℂ) (x law : Vec (Option ℂ)), fmpower n k (t1 :: f1 :: t2 :: f2 :: rest) = .ok (.cplx x law) ∧ x.len = n ∧ law.len = n ∧
      f0 + c * ((t1 : ℂ) ^ (k : ℂ))⁻¹ = f1 ∧ f0 + c * ((t2 : ℂ) ^ (k : ℂ))⁻¹ = f2 ∧
      ∀ i < n, 1 ≤ i → law.get i = some (f0 + c * ((i : ℝ) ^ (-k) : ℝ)) ∧
        x.get i = some (Complex.exp (2 * Real.pi * Complex.I * (f0 * i + c / (1 - k) * ((i : ℝ) ^ (1 - k) : ℝ)))) := by
  have q1 : (t1 : ℂ) ^ (k : ℂ) ≠ 0 := by
    rw [Ne, Complex.cpow_eq_zero_iff]; exact fun h => h1 (by exact_mod_cast h.1)
  have q2 : (t2 : ℂ) ^ (k : ℂ) ≠ 0 := by
    rw [Ne, Complex.cpow_eq_zero_iff]; exact fun h => h2 (by exact_mod_cast h.1)
  have o : (1.0 : ℂ) = 1 := by norm_num
  have hd' : (1 : ℂ) / (t2 : ℂ) ^ (k : ℂ) - 1 / (t1 : ℂ) ^ (k : ℂ) ≠ 0 := by
    rw [div_sub_div _ _ q2 q1]
    exact div_ne_zero (fun h => hd (by linear_combination h)) (mul_ne_zero q2 q1)
  have z : ¬ (t2 = 0 ∨ t1 = 0) := by rintro (h | h) <;> contradiction
  have c1 : (t1 < 0 ∨ t2 < 0) ∧ ¬ ∃ m : ℤ, k = m := ⟨hneg, hk⟩
  simp only [fmpower, powerCoefs, if_neg z, if_pos c1, o, if_neg hd', ok_bind]
  refine ⟨f1 - ((f2 - f1 : ℝ) : ℂ) / (1 / (t2 : ℂ) ^ (k : ℂ) - 1 / (t1 : ℂ) ^ (k : ℂ)) / (t1 : ℂ) ^ (k : ℂ),
    ((f2 - f1 : ℝ) : ℂ) / (1 / (t2 : ℂ) ^ (k : ℂ) - 1 / (t1 : ℂ) ^ (k : ℂ)), _, _, rfl, by simp [Vec.map, arange], by simp [Vec.map, arange], ?_, ?_, fun i hi hi1 => ?_⟩
  · ring
  · have : ∀ A B C : ℂ, B - C ≠ 0 → (f1 : ℂ) - A / (B - C) * C + A / (B - C) * B = f1 + A := fun A B C h => by field_simp; ring
    have h3 := this ((f2 - f1 : ℝ) : ℂ) (1 / (t2 : ℂ) ^ (k : ℂ)) (1 / (t1 : ℂ) ^ (k : ℂ)) hd'
    have e3 : (f1 : ℂ) + ((f2 - f1 : ℝ) : ℂ) = f2 := by push_cast; ring
    rw [e3] at h3
    rw [← h3]
    ring
  · have e : (((0 + (i : ℤ) : ℤ)) : ℝ) = i := by push_cast; ring
    have hi0 : (0 : ℝ) < i := by exact_mod_cast hi1
    have hp : ∀ q : ℝ, ¬ ((i : ℝ) = 0 ∧ q < 0) := fun q h => hi0.ne' h.1
    simp only [Vec.map_get, arange, e, if_neg (hp _), Option.map_some, abs_of_pos hi0, true_and]
    congr 2
    push_cast
    ring

/-- With points (-1, 0) and (1, 1) and degree 1/2 the second sample has modulus `exp π`. -/
theorem C12_fmpower_not_unit : ∃ (x law : Vec (Option ℂ)) (z : ℂ), fmpower 2 (1 / 2) [-1, 0, 1, 1] = .ok (.cplx x law) ∧ x.get 1 = some z ∧ ‖z‖ = Real.exp Real.pi := by
  have hm : ((-1 : ℝ) : ℂ) ^ ((1 / 2 : ℝ) : ℂ) = Complex.I := by
    rw [Complex.cpow_def_of_ne_zero (by simp)]
    push_cast
    rw [Complex.log_neg_one, show (Real.pi : ℂ) * Complex.I * (1 / 2) = Real.pi / 2 * Complex.I by ring, Complex.exp_pi_div_two_mul_I]
  have h1 : ((1 : ℝ) : ℂ) ^ ((1 / 2 : ℝ) : ℂ) = 1 := by simp
  obtain ⟨f0, c, x, law, h2, -, -, h5, h6, h7⟩ := C12_fmpower_complex 2 (1 / 2) (-1) 0 1 1 [] (by norm_num) (by norm_num) (Or.inl (by norm_num))
    (by
      rintro ⟨m, hm⟩
      have h : (1 : ℝ) = ((2 * m : ℤ) : ℝ) := by push_cast; linarith
      have h' : (1 : ℤ) = 2 * m := by exact_mod_cast h
      omega)
    (by rw [hm, h1]; exact fun h => by simpa using congrArg Complex.re h)
  rw [hm] at h5
  rw [h1] at h6
  obtain ⟨-, h8⟩ := h7 1 (by norm_num) (by norm_num)
  refine ⟨x, law, _, h2, h8, ?_⟩
  have hI : (Complex.I)⁻¹ = -Complex.I := Complex.inv_I
  have hc : c = (1 - Complex.I) / 2 := by
    rw [hI] at h5
    have e : c * (1 + Complex.I) = 1 := by push_cast at h5 h6; linear_combination h6 - h5
    have e2 : (1 + Complex.I) * (1 - Complex.I) = 2 := by linear_combination -Complex.I_sq
    linear_combination (1 - Complex.I) / 2 * e - c / 2 * e2
  have hf : f0 = (1 + Complex.I) / 2 := by
    rw [hc] at h6
    push_cast at h6
    linear_combination h6
  rw [Complex.norm_exp, hc, hf]
  congr 1
  have e : (2 * Real.pi * Complex.I * ((1 + Complex.I) / 2 * ((1 : ℕ) : ℂ) + (1 - Complex.I) / 2 / (1 - ((1 / 2 : ℝ) : ℂ)) * (((((1 : ℕ) : ℝ) ^ ((1 : ℝ) - 1 / 2)) : ℝ) : ℂ)) : ℂ)
      = (Real.pi : ℂ) + (3 * Real.pi : ℝ) * Complex.I := by
    push_cast
    rw [show (1 : ℂ) - 1 / 2 = 1 / 2 by norm_num]
    norm_num
    linear_combination -(Real.pi : ℂ) * Complex.I_sq
  rw [e]
  simp

/-! ## C13 aliasing warning -/

/-- `fmhyp` warns exactly when a sample of the returned law is outside `[0, 1/2]`. -/
theorem C13_fmhyp_warning (n : ℤ) (p1 p2 : ℝ × ℝ) (r : WarnResult) (h : fmhyp n p1 p2 = .ok r) :
    r.warned ↔ ∃ i < r.iflaw.len, r.iflaw.get i ∉ Set.Icc (0 : ℝ) (1 / 2) := by
  unfold fmhyp at h
  split_ifs at h
  simp only [Except.ok.injEq] at h
  subst h
  simp only [aliasing, Set.mem_Icc, not_and_or, not_le]
  norm_num

/-- `fmpar` warns exactly when a sample of the returned law is outside `[0, 1/2]`. -/
theorem C13_fmpar_warning (n : ℤ) (a0 a1 a2 : ℝ) :
    (fmpar n a0 a1 a2).warned ↔
      ∃ i < (fmpar n a0 a1 a2).iflaw.len, (fmpar n a0 a1 a2).iflaw.get i ∉ Set.Icc (0 : ℝ) (1 / 2) := by
  simp only [fmpar, aliasing, Set.mem_Icc, not_and_or, not_le]
  norm_num

/-- The law returned by `fmpar` is the parabola with the given coefficients, times 0, …, n-1. -/
theorem C13_fmpar_law (n : ℕ) (a0 a1 a2 : ℝ) :
    (fmpar n a0 a1 a2).iflaw.len = n ∧ (fmpar n a0 a1 a2).signal.len = n ∧
    (∀ i < n, (fmpar n a0 a1 a2).iflaw.get i = a0 + a1 * i + a2 * (i : ℝ) ^ 2) ∧
    (∀ i < n, ‖(fmpar n a0 a1 a2).signal.get i‖ = 1) := by
  refine ⟨by simp [fmpar, Vec.map, arange], by simp [fmpar, Vec.map, arange], fun i _ => ?_, fun i _ => ?_⟩
  · simp [fmpar, arange]
  · simp only [fmpar, Vec.map_get, exp_I, norm_expi]

/-- `fmpower` (any `k > 0`, a non-constant law) *always* warns: its time axis starts at 0, where the
law is infinite. -/
theorem C13_fmpower_always_warns (n : ℤ) (k f0 c : ℝ) (hn : 1 ≤ n) (hk : 0 < k) (hk1 : k ≠ 1) (hc : c ≠ 0) :
    ∃ r : PowerResult, fmpower n k [f0, c] = .ok (.real r) ∧ r.warned ∧
      (r.iflaw.get 0 = .pinf ∨ r.iflaw.get 0 = .ninf) := by
  have hk1' : ¬ (1 - k = 0) := fun h => hk1 (by linarith)
  have hk' : ¬ (0 ≤ -k) := by linarith
  simp only [fmpower, powerCoefs, ok_bind, if_neg hk1']
  have key : (addMulZeroPow f0 c (-k) = .pinf ∨ addMulZeroPow f0 c (-k) = .ninf) := by
    unfold addMulZeroPow
    rw [if_neg hk']
    rcases lt_or_gt_of_ne hc with h | h
    · right; rw [if_neg (not_lt.2 h.le), if_pos h]
    · left; rw [if_pos h]
  refine ⟨_, rfl, ⟨0, by simp [Vec.map, arange]; omega, ?_⟩, ?_⟩
  · simp only [Vec.map_get, arange]
    norm_num
    rcases key with h | h <;> rw [h] <;> simp [XFloat.ltZero, XFloat.gtHalf]
  · simp only [Vec.map_get, arange]
    norm_num
    exact key

example : (1 : ℤ) ≤ 128 ∧ (0 : ℝ) < 1 / 2 ∧ (1 / 2 : ℝ) ≠ 1 ∧ (0.4 : ℝ) ≠ 0 := by norm_num

/-- `fmpower` warns exactly when a sample of the law is infinite or outside `[0, 1/2]`. -/
theorem C13_fmpower_warning (n : ℕ) (k f0 c : ℝ) (hk1 : k ≠ 1) (hk0 : k ≠ 0) :
    ∃ r : PowerResult, fmpower n k [f0, c] = .ok (.real r) ∧
      (r.warned ↔ (∃ i < n, 1 ≤ i ∧ f0 + c * (i : ℝ) ^ (-k) ∉ Set.Icc (0 : ℝ) (1 / 2)) ∨
        (1 ≤ n ∧ ((0 < k ∧ c ≠ 0) ∨ (k < 0 ∧ f0 ∉ Set.Icc (0 : ℝ) (1 / 2))))) := by
  have hk1' : ¬ (1 - k = 0) := fun h => hk1 (by linarith)
  simp only [fmpower, powerCoefs, ok_bind, if_neg hk1']
  refine ⟨_, rfl, ?_⟩
  have hout : ∀ a : ℝ, a ∉ Set.Icc (0 : ℝ) (1 / 2) ↔ (XFloat.fin a).ltZero ∨ (XFloat.fin a).gtHalf := by
    intro a
    simp only [XFloat.ltZero, XFloat.gtHalf, Set.mem_Icc, not_and_or, not_le]
    norm_num
  have hpos : ∀ i : ℕ, 1 ≤ i → (if ((0 + (i : ℤ) : ℤ) : ℝ) = 0 then addMulZeroPow f0 c (-k) else .fin (f0 + c * |((0 + (i : ℤ) : ℤ) : ℝ)| ^ (-k))) =
      XFloat.fin (f0 + c * (i : ℝ) ^ (-k)) := by
    intro i hi
    have e : (((0 + (i : ℤ) : ℤ)) : ℝ) = i := by push_cast; ring
    have hi0 : (0 : ℝ) < i := by exact_mod_cast hi
    rw [e, if_neg hi0.ne', abs_of_pos hi0]
  have hzero : ((addMulZeroPow f0 c (-k)).ltZero ∨ (addMulZeroPow f0 c (-k)).gtHalf) ↔
      ((0 < k ∧ c ≠ 0) ∨ (k < 0 ∧ f0 ∉ Set.Icc (0 : ℝ) (1 / 2))) := by
    unfold addMulZeroPow
    rcases lt_or_gt_of_ne hk0 with h | h
    · rw [if_pos (by linarith), ← hout, Real.zero_rpow (by linarith), mul_zero, add_zero]
      constructor
      · exact fun hh => .inr ⟨h, hh⟩
      · rintro (⟨h1, -⟩ | ⟨-, h1⟩)
        · linarith
        · exact h1
    · rw [if_neg (by linarith)]
      by_cases hc : 0 < c
      · rw [if_pos hc]
        exact ⟨fun _ => .inl ⟨h, hc.ne'⟩, fun _ => .inr trivial⟩
      · rw [if_neg hc]
        by_cases hc' : c < 0
        · rw [if_pos hc']
          exact ⟨fun _ => .inl ⟨h, hc'.ne⟩, fun _ => .inl trivial⟩
        · rw [if_neg hc']
          have : c = 0 := by linarith
          subst this
          constructor
          · rintro (h1 | h1) <;> exact h1.elim
          · rintro (⟨-, h1⟩ | ⟨h1, -⟩)
            · exact absurd rfl h1
            · linarith
  simp only [Vec.map_len, Vec.map_get, arange_len, sub_zero, Int.toNat_natCast, arange_get]
  constructor
  · rintro ⟨i, hi, h⟩
    rcases Nat.eq_zero_or_pos i with rfl | hi1
    · right
      refine ⟨hi, hzero.1 ?_⟩
      simpa using h
    · left
      rw [hpos i hi1] at h
      exact ⟨i, hi, hi1, (hout _).2 h⟩
  · rintro (⟨i, hi, hi1, h⟩ | ⟨hn, h⟩)
    · refine ⟨i, hi, ?_⟩
      rw [hpos i hi1]
      exact (hout _).1 h
    · refine ⟨0, hn, ?_⟩
      simpa using hzero.2 h

/-- A law that stays inside: no warning. -/
example : ∃ r : PowerResult, fmpower 4 (-1) [0, 1 / 6] = .ok (.real r) ∧ ¬ r.warned := by
  obtain ⟨r, hr, hw⟩ := C13_fmpower_warning 4 (-1) 0 (1 / 6) (by norm_num) (by norm_num)
  refine ⟨r, hr, fun h => ?_⟩
  rcases hw.1 h with ⟨i, hi, -, h⟩ | ⟨-, (⟨h, -⟩ | ⟨-, h⟩)⟩
  · apply h
    have : (i : ℝ) ≤ 3 := by exact_mod_cast (by omega : i ≤ 3)
    have h0 : (0 : ℝ) ≤ i := by positivity
    norm_num
    linarith
  · norm_num at h
  · norm_num at h

/-! ## C14 `fmsin` -/

/-- `fmsin` stays in its band, passes through `fnorm0` at `t0` moving in the direction of `pm1`, is
periodic and has unit modulus. -/
theorem C14_fmsin (n : ℕ) (fmin fmax T f0 pm1 : ℝ) (t0 : ℝ) (hlt : fmin < fmax)
    (hf0 : fmin ≤ f0 ∧ f0 ≤ fmax) (hpm : pm1 = 1 ∨ pm1 = -1) (hT : 0 < T) :
    ∃ (y : Vec ℂ) (law : Vec ℝ) (F : ℝ → ℝ) (F' : ℝ),
      fmsin n fmin fmax (some T) (some t0) (some f0) pm1 = .ok (y, law) ∧
      y.len = n ∧ law.len = n ∧ (∀ i < n, law.get i = F i) ∧
      (∀ i < n, ‖y.get i‖ = 1) ∧ (∀ i < n, fmin ≤ law.get i ∧ law.get i ≤ fmax) ∧
      F t0 = f0 ∧ (∀ t, F (t + T) = F t) ∧ HasDerivAt F F' t0 ∧ 0 ≤ pm1 * F' ∧
      (fmin < f0 → f0 < fmax → 0 < pm1 * F') := by
  set δ : ℝ := 0.5 * (fmax - fmin) with hδ
  set m : ℝ := 0.5 * (fmax + fmin) with hm
  have hδ' : δ = (fmax - fmin) / 2 := by rw [hδ]; norm_num; ring
  have hm' : m = (fmax + fmin) / 2 := by rw [hm]; norm_num; ring
  have hδpos : 0 < δ := by rw [hδ']; linarith
  set q : ℝ := (f0 - m) / δ with hq
  have hq1 : q ≤ 1 := by rw [hq, div_le_one hδpos, hm', hδ']; linarith [hf0.2]
  have hq0 : -1 ≤ q := by rw [hq, le_div_iff₀ hδpos, hm', hδ']; linarith [hf0.1]
  have hcond : ¬ (0 < (n : ℤ) ∧ (T = 0 ∨ 1 < |q|)) := by
    rintro ⟨_, h | h⟩
    · exact hT.ne' h
    · exact absurd (abs_le.2 ⟨hq0, hq1⟩) (not_le.2 h)
  set φ : ℝ := -pm1 * Real.arccos q with hφ
  have hcos : Real.cos φ = q := by
    rw [hφ]
    rcases hpm with h | h <;> rw [h]
    · rw [neg_one_mul, Real.cos_neg, Real.cos_arccos hq0 hq1]
    · rw [neg_neg, one_mul, Real.cos_arccos hq0 hq1]
  have hsin : Real.sin φ = -pm1 * Real.sqrt (1 - q ^ 2) := by
    rw [hφ]
    rcases hpm with h | h <;> rw [h]
    · rw [neg_one_mul, Real.sin_neg, Real.sin_arccos]; ring
    · rw [neg_neg, one_mul, Real.sin_arccos]; ring
  have hok : fmsin n fmin fmax (some T) (some t0) (some f0) pm1 = .ok
      (⟨n, fun i => expi (2 * Real.pi * m * ((i : ℝ) - t0)
        + δ * T * Real.sin (2 * Real.pi * ((i : ℝ) - t0) / T + φ) - Real.sin φ)⟩,
       ⟨n, fun i => m + δ * Real.cos (2 * Real.pi * ((i : ℝ) - t0) / T + φ)⟩) := by
    simp only [fmsin, Option.getD_some]
    rw [if_neg hδpos.ne', if_neg hcond]
    simp only [Vec.map, arange, exp_I, ← hδ, ← hm, ← hq, ← hφ, Int.cast_natCast, zero_add, sub_zero,
      Int.toNat_natCast]
  refine ⟨_, _, fun t => m + δ * Real.cos (2 * Real.pi * (t - t0) / T + φ),
    -(δ * Real.sin φ * (2 * Real.pi / T)), hok, rfl, rfl, fun _ _ => rfl, fun _ _ => norm_expi _,
    ?_, ?_, ?_, ?_, ?_, ?_⟩
  · intro i _
    have h1 := Real.neg_one_le_cos (2 * Real.pi * ((i : ℝ) - t0) / T + φ)
    have h2 := Real.cos_le_one (2 * Real.pi * ((i : ℝ) - t0) / T + φ)
    simp only
    constructor
    · have : fmin = m - δ := by rw [hm', hδ']; ring
      nlinarith
    · have : fmax = m + δ := by rw [hm', hδ']; ring
      nlinarith
  · simp only [sub_self, mul_zero, zero_div, zero_add, hcos, hq]
    field_simp; ring
  · intro t
    have : 2 * Real.pi * (t + T - t0) / T + φ = 2 * Real.pi * (t - t0) / T + φ + 2 * Real.pi := by
      field_simp; ring
    simp only [this, Real.cos_add_two_pi]
  · have hin : HasDerivAt (fun t : ℝ => 2 * Real.pi * (t - t0) / T + φ) (2 * Real.pi / T) t0 := by
      have h := (((hasDerivAt_id t0).sub_const t0).const_mul (2 * Real.pi)).div_const T
      have h := h.add_const φ
      simpa using h
    have h := ((hin.cos).const_mul δ).const_add m
    simp only [sub_self, mul_zero, zero_div, zero_add] at h
    exact h.congr_deriv (by ring)
  · rw [hsin]
    have h1 : pm1 * pm1 = 1 := by rcases hpm with h | h <;> rw [h] <;> norm_num
    have : pm1 * -(δ * (-pm1 * Real.sqrt (1 - q ^ 2)) * (2 * Real.pi / T))
        = (pm1 * pm1) * (δ * Real.sqrt (1 - q ^ 2) * (2 * Real.pi / T)) := by ring
    rw [this, h1, one_mul]
    have := Real.pi_pos
    positivity
  · intro ha hb
    rw [hsin]
    have h1 : pm1 * pm1 = 1 := by rcases hpm with h | h <;> rw [h] <;> norm_num
    have : pm1 * -(δ * (-pm1 * Real.sqrt (1 - q ^ 2)) * (2 * Real.pi / T))
        = (pm1 * pm1) * (δ * Real.sqrt (1 - q ^ 2) * (2 * Real.pi / T)) := by ring
    rw [this, h1, one_mul]
    have hq1' : q < 1 := by rw [hq, div_lt_one hδpos, hm', hδ']; linarith
    have hq0' : -1 < q := by rw [hq, lt_div_iff₀ hδpos, hm', hδ']; linarith
    have hs : 0 < Real.sqrt (1 - q ^ 2) := Real.sqrt_pos.2 (by nlinarith)
    have := Real.pi_pos
    positivity

example : (0.05 : ℝ) < 0.45 ∧ (0.05 : ℝ) ≤ 0.3 ∧ (0.3 : ℝ) ≤ 0.45 ∧ (0 : ℝ) < 100 := by norm_num

/-! ## C60 the phase is an antiderivative of the law -/

/-- The samples `y` follow the law `law` at times `time i` in the domain `D`: there is a phase function whose derivative
is 2π times a law function sampled by `law`. -/
def FollowsLaw (y : Vec ℂ) (law : Vec ℝ) (time : ℕ → ℝ) (D : Set ℝ) : Prop :=
  ∃ (Φ F : ℝ → ℝ), (∀ t ∈ D, HasDerivAt Φ (2 * Real.pi * F t) t) ∧
    (∀ i < y.len, time i ∈ D) ∧
    (∀ i < y.len, y.get i = expi (Φ (time i))) ∧ (∀ i < law.len, law.get i = F (time i))

/-- `fmhyp` follows its law on positive times. -/
theorem C60_fmhyp_phase (n : ℤ) (p1 p2 : ℝ × ℝ) (r : WarnResult) (h : fmhyp n p1 p2 = .ok r) :
    FollowsLaw r.signal r.iflaw (fun i => (i : ℝ) + 1) (Set.Ioi 0) := by
  unfold fmhyp at h
  split_ifs at h
  simp only [Except.ok.injEq] at h
  subst h
  set c := (p2.2 - p1.2) / (1.0 / p2.1 - 1 / p1.1) with hc
  set f0 := p1.2 - c / p1.1 with hf0
  clear_value f0
  clear_value c
  refine ⟨fun t => 2 * Real.pi * (f0 * t + c * Real.log t), fun t => f0 + c / t, ?_, ?_, ?_, ?_⟩
  · intro t ht
    have ht0 : t ≠ 0 := ne_of_gt ht
    have h := ((((hasDerivAt_id t).const_mul f0).add ((Real.hasDerivAt_log ht0).const_mul c)).const_mul
      (2 * Real.pi))
    exact h.congr_deriv (by simp only; ring)
  · intro i _; show (0 : ℝ) < (i : ℝ) + 1; positivity
  · intro i _
    have e : (((1 + (i : ℤ) : ℤ)) : ℝ) = (i : ℝ) + 1 := by push_cast; ring
    have hp : (0 : ℝ) < (i : ℝ) + 1 := by positivity
    simp only [Vec.map_get, arange, e, abs_of_pos hp, exp_I]
  · intro i _
    have e : (((1 + (i : ℤ) : ℤ)) : ℝ) = (i : ℝ) + 1 := by push_cast; ring
    have hp : (0 : ℝ) < (i : ℝ) + 1 := by positivity
    simp only [Vec.map_get, arange, e, abs_of_pos hp]

/-- When `fmsin` returns: not for a band of zero width; otherwise (for at least one point) exactly when the period is not zero and `fnorm0` lies between the two edges,
in either order. -/
theorem C14_domain (n : ℕ) (hn : 1 ≤ n) (fmin fmax T t0 f0 pm1 : ℝ) :
    (fmin = fmax → fmsin n fmin fmax (some T) (some t0) (some f0) pm1 = .error .zeroDivisionError) ∧
    (fmin ≠ fmax → (T = 0 ∨ f0 < min fmin fmax ∨ max fmin fmax < f0) →
      fmsin n fmin fmax (some T) (some t0) (some f0) pm1 = .error .nonFinite) ∧
    (fmin ≠ fmax → T ≠ 0 → min fmin fmax ≤ f0 → f0 ≤ max fmin fmax →
      ∃ r, fmsin n fmin fmax (some T) (some t0) (some f0) pm1 = .ok r) := by
  have hd : fmin ≠ fmax → 0.5 * (fmax - fmin) ≠ 0 := fun h h0 => h (by
    have : fmax - fmin = 0 := by
      rcases mul_eq_zero.1 h0 with h | h
      · norm_num at h
      · exact h
    linarith)
  have key : fmin ≠ fmax → (1 < |(f0 - 0.5 * (fmax + fmin)) / (0.5 * (fmax - fmin))| ↔ f0 < min fmin fmax ∨ max fmin fmax < f0) := by
    intro h
    rw [abs_div, one_lt_div (abs_pos.2 (hd h)), lt_min_iff, max_lt_iff]
    norm_num
    rcases lt_or_gt_of_ne h with hlt | hlt
    · rw [abs_of_pos (show (0 : ℝ) < fmax - fmin by linarith), lt_abs]
      constructor
      · rintro (h1 | h1)
        · right; constructor <;> linarith
        · left; constructor <;> linarith
      · rintro (⟨h1, h2⟩ | ⟨h1, h2⟩)
        · right; linarith
        · left; linarith
    · rw [abs_of_neg (show fmax - fmin < 0 by linarith), lt_abs]
      constructor
      · rintro (h1 | h1)
        · right; constructor <;> linarith
        · left; constructor <;> linarith
      · rintro (⟨h1, h2⟩ | ⟨h1, h2⟩)
        · right; linarith
        · left; linarith
  refine ⟨fun h => ?_, fun h hc => ?_, fun h hT h1 h2 => ?_⟩
  · simp only [fmsin]
    rw [if_pos (by rw [h]; ring)]
  · simp only [fmsin, Option.getD_some]
    rw [if_neg (hd h), if_pos ⟨by omega, hc.imp_right (key h).2⟩]
  · simp only [fmsin, Option.getD_some]
    rw [if_neg (hd h), if_neg]
    · exact ⟨_, rfl⟩
    · rintro ⟨-, h0 | h0⟩
      · exact hT h0
      · rcases (key h).1 h0 with h3 | h3 <;> linarith

example : fmsin 8 0.1 0.3 (some 8) (some 4) (some 0.4) 1 = .error .nonFinite :=
  (C14_domain 8 (by norm_num) 0.1 0.3 8 4 0.4 1).2.1 (by norm_num) (.inr (.inr (by norm_num)))

/-- Default arguments: the number of points as the period, the middle of the signal, the middle of the band. -/
theorem C14_default (n : ℕ) (fmin fmax pm1 : ℝ) :
    fmsin n fmin fmax none none none pm1 = fmsin n fmin fmax (some n) (some (n / 2)) (some ((fmin + fmax) / 2)) pm1 := by
  have : (0.5 * (fmin + fmax) : ℝ) = (fmin + fmax) / 2 := by norm_num; ring
  simp only [fmsin, Option.getD_none, Option.getD_some, Int.cast_natCast, this]
  norm_num

/-- `fmsin` follows its law. -/
theorem C60_fmsin_phase (n : ℕ) (fmin fmax T pm1 : ℝ) (t0 f0 : Option ℝ) (hT : T ≠ 0)
    (y : Vec ℂ) (law : Vec ℝ) (h : fmsin n fmin fmax (some T) t0 f0 pm1 = .ok (y, law)) :
    FollowsLaw y law (fun i => (i : ℝ)) Set.univ := by
  simp only [fmsin, Option.getD_some] at h
  split_ifs at h
  simp only [Except.ok.injEq, Prod.mk.injEq] at h
  obtain ⟨rfl, rfl⟩ := h
  generalize (0.5 * (fmax - fmin) : ℝ) = δ
  generalize (0.5 * (fmax + fmin) : ℝ) = m
  generalize (-pm1 * Real.arccos ((f0.getD (0.5 * (fmin + fmax)) - m) / δ)) = φ
  generalize t0.getD (((n : ℤ) : ℝ) / 2.0) = t0
  refine ⟨fun t => 2 * Real.pi * m * (t - t0) + δ * T * Real.sin (2 * Real.pi * (t - t0) / T + φ)
    - Real.sin φ, fun t => m + δ * Real.cos (2 * Real.pi * (t - t0) / T + φ), ?_, ?_, ?_, ?_⟩
  · intro t _
    have hin : HasDerivAt (fun t : ℝ => 2 * Real.pi * (t - t0) / T + φ) (2 * Real.pi / T) t := by
      have h := (((hasDerivAt_id t).sub_const t0).const_mul (2 * Real.pi)).div_const T
      have h := h.add_const φ
      simpa using h
    have h1 := (hin.sin).const_mul (δ * T)
    have h2 := ((hasDerivAt_id t).sub_const t0).const_mul (2 * Real.pi * m)
    have h3 := (h2.add h1).sub_const (Real.sin φ)
    exact h3.congr_deriv (by field_simp)
  · intro i _; trivial
  · intro i _
    have e : (((0 + (i : ℤ) : ℤ)) : ℝ) = i := by push_cast; ring
    simp only [Vec.map_get, arange, e, exp_I]
  · intro i _
    have e : (((0 + (i : ℤ) : ℤ)) : ℝ) = i := by push_cast; ring
    simp only [Vec.map_get, arange, e]

/-- `fmlin` follows its law. -/
theorem C60_fmlin_phase (n k : ℕ) (fi ff : ℝ) (hn : 2 ≤ n) (hk : 1 ≤ k) (hkn : k ≤ n)
    (hi : |fi| ≤ 1 / 2) (hf : |ff| ≤ 1 / 2) :
    ∃ (y : Vec ℂ) (law : Vec ℝ), fmlin n fi ff (some k) = .ok (y, law) ∧
      FollowsLaw y law (fun i => (i : ℝ)) Set.univ := by
  have hnr : (2 : ℝ) ≤ n := by exact_mod_cast hn
  have hn1 : n ≠ 1 := by omega
  have hd : (n : ℝ) - 1 ≠ 0 := by linarith
  refine ⟨_, _, fmlin_ok n k fi ff hn hk hkn hi hf, fun t => 2 * Real.pi *
      (linPhase n fi ff t - linPhase n fi ff ((k : ℝ) - 1)),
    fun t => fi + t * ((ff - fi) / ((n : ℝ) - 1)), ?_, fun _ _ => trivial, fun _ _ => rfl, ?_⟩
  · intro t _
    unfold linPhase
    have h1 := ((hasDerivAt_id t).const_mul fi).add
      (((hasDerivAt_id t).pow 2).const_mul ((ff - fi) / (2 * ((n : ℝ) - 1))))
    have h2 := (h1.sub_const (fi * ((k : ℝ) - 1) + (ff - fi) / (2 * ((n : ℝ) - 1)) * ((k : ℝ) - 1) ^ 2)).const_mul
      (2 * Real.pi)
    refine h2.congr_deriv ?_
    simp only [id, mul_one, Nat.cast_ofNat]
    field_simp
    ring
  · intro i _
    simp [linspace, hn1]

/-- `fmconst` follows its law. -/
theorem C60_fmconst_phase (n k : ℕ) (f : ℝ) (hk : k < n) (hf : |f| ≤ 1 / 2) :
    ∃ (y : Vec ℂ) (law : Vec ℝ), fmconst n f (some k) = .ok (y, law) ∧
      FollowsLaw y law (fun i => (i : ℝ)) Set.univ := by
  refine ⟨_, _, fmconst_ok n k f hk hf, fun t => 2 * Real.pi * f * (t - k), fun _ => f, ?_,
    fun _ _ => trivial, fun _ _ => rfl, fun _ _ => rfl⟩
  intro t _
  have := ((hasDerivAt_id t).sub_const (k : ℝ)).const_mul (2 * Real.pi * f)
  simpa using this

/-- `fmpar` does **not** follow its law: for the law `a·t` (inside `[0, 1/2]` on the two
samples) the sample at time 1 is not the sample at time 0 rotated by `2π·∫₀¹ a·t dt = 2π·a/2`. -/
theorem C60_fmpar_phase_wrong (n : ℤ) (a : ℝ) (ha : 0 < a) (ha2 : a ≤ 1 / 2) :
    (fmpar n 0 a 0).signal.get 1 ≠ (fmpar n 0 a 0).signal.get 0 * expi (2 * Real.pi * (a / 2)) := by
  have e0 : (fmpar n 0 a 0).signal.get 0 = 1 := by simp [fmpar, arange]
  have e1 : (fmpar n 0 a 0).signal.get 1 = expi (2 * Real.pi * (a ^ 2 / 4)) := by
    simp only [fmpar, Vec.map_get, arange, exp_I]
    congr 1; norm_num; ring
  rw [e0, e1, one_mul]
  intro h
  unfold expi at h
  rw [Complex.exp_eq_exp_iff_exists_int] at h
  obtain ⟨z, hz⟩ := h
  have h2 : (((a ^ 2 / 4 : ℝ)) : ℂ) = ((a / 2 + z : ℝ) : ℂ) := by
    have hpi : (2 * (Real.pi : ℂ) * Complex.I) ≠ 0 := by simp [Real.pi_ne_zero]
    apply mul_left_cancel₀ hpi
    push_cast at hz ⊢
    linear_combination hz
  have h3 : a ^ 2 / 4 = a / 2 + z := by exact_mod_cast h2
  have hz0 : (z : ℝ) < 0 := by nlinarith
  have hz1 : (-1 : ℝ) < z := by nlinarith
  have : z < 0 := by exact_mod_cast hz0
  have : -1 < z := by exact_mod_cast hz1
  omega

example : (0 : ℝ) < 1 / 4 ∧ (1 / 4 : ℝ) ≤ 1 / 2 := by norm_num

end Tftb.Props
