import Verif.Model.TimeFreq
import Verif.Props.FM

/-! # Instantaneous frequency (C15, C16) -/

namespace Tftb.Props

open Tftb Tftb.TF Tftb.Spec Tftb.FM

/-- Estimated instantaneous frequency from two samples two instants apart. -/
theorem instFreq_value (a b p q : ℝ) (ha : 0 < a) (hb : 0 < b)
    (h0 : 0 < (p - q) / 2) (h1 : (p - q) / 2 ≤ 1 / 2) :
    0.5 * (Complex.arg (-((a : ℂ) * expi (2 * Real.pi * p)) * (starRingEnd ℂ) ((b : ℂ) * expi (2 * Real.pi * q)))
      + Real.pi) / (2 * Real.pi) = (p - q) / 2 := by
  have hpi := Real.pi_pos
  have e : -((a : ℂ) * expi (2 * Real.pi * p)) * (starRingEnd ℂ) ((b : ℂ) * expi (2 * Real.pi * q))
      = ((a * b : ℝ) : ℂ) * Complex.exp (((2 * Real.pi * (p - q) - Real.pi : ℝ) : ℂ) * Complex.I) := by
    rw [map_mul, Complex.conj_ofReal, conj_expi]
    have h2 : Complex.exp (((2 * Real.pi * (p - q) - Real.pi : ℝ) : ℂ) * Complex.I)
        = -(expi (2 * Real.pi * p) * expi (-(2 * Real.pi * q))) := by
      rw [← expi_add]
      unfold expi
      have h3 : (((2 * Real.pi * (p - q) - Real.pi : ℝ) : ℂ) * Complex.I)
          = (((2 * Real.pi * p + -(2 * Real.pi * q) : ℝ) : ℂ) * Complex.I) - Real.pi * Complex.I := by
        push_cast; ring
      rw [h3, Complex.exp_sub, Complex.exp_pi_mul_I]; ring
    rw [h2]; push_cast; ring
  have hθ : 2 * Real.pi * (p - q) - Real.pi ∈ Set.Ioc (-Real.pi) Real.pi := by
    constructor <;> nlinarith
  rw [e, Complex.arg_real_mul _ (mul_pos ha hb), Complex.exp_mul_I,
    Complex.arg_cos_add_sin_mul_I hθ]
  norm_num
  field_simp

/-- `inst_freq` of an amplitude-modulated phase signal, default instants. -/
theorem instFreq_phase (n : ℕ) (a φ : ℕ → ℝ) (ha : ∀ i < n, 0 < a i)
    (hφ : ∀ i, i + 2 < n → 0 < (φ (i + 2) - φ i) / 2 ∧ (φ (i + 2) - φ i) / 2 ≤ 1 / 2)
    (x : Vec ℂ) (hx : x.len = n) (hxv : ∀ i < n, x.get i = (a i : ℂ) * expi (2 * Real.pi * φ i)) :
    ∃ (f : Vec ℝ) (t : Vec ℤ), instFreq x none = .ok (f, t) ∧ f.len = n - 2 ∧ t.len = n - 2 ∧
      ∀ j < n - 2, t.get j = (j : ℤ) + 2 ∧ f.get j = (φ (j + 2) - φ j) / 2 := by
  have hl : (arange 2 (x.len : ℤ)).len = n - 2 := by rw [arange_len, hx]; omega
  have h1 : ∀ j < (arange 2 (x.len : ℤ)).len, 0 ≤ (arange 2 (x.len : ℤ)).get j ∧
      (arange 2 (x.len : ℤ)).get j < x.len := by
    intro j hj; have := arange_get_lt hj; omega
  have h2 : ∀ j < ((arange 2 (x.len : ℤ)).map (fun i : ℤ => i - 2)).len,
      0 ≤ ((arange 2 (x.len : ℤ)).map (fun i : ℤ => i - 2)).get j ∧
      ((arange 2 (x.len : ℤ)).map (fun i : ℤ => i - 2)).get j < x.len := by
    intro j hj; have := arange_get_lt (show j < (arange 2 (x.len : ℤ)).len from hj)
    rw [Vec.map_get]; omega
  simp only [instFreq, Option.getD_none]
  rw [Vec.take_ok h1, ok_bind, Vec.take_ok h2, ok_bind]
  simp only [Vec.bcast, Vec.map_len, if_true, ok_bind]
  refine ⟨_, _, rfl, hl, hl, fun j hj => ⟨?_, ?_⟩⟩
  · rw [arange_get]; ring
  · simp only [Vec.map_get, arange_get]
    have e1 : wrapIdx x.len (2 + (j : ℤ)) = j + 2 := by
      rw [wrapIdx_of_nonneg (by omega)]; omega
    have e2 : wrapIdx x.len (2 + (j : ℤ) - 2) = j := by
      rw [wrapIdx_of_nonneg (by omega)]; omega
    rw [e1, e2, hxv (j + 2) (by omega), hxv j (by omega)]
    obtain ⟨h0, h1⟩ := hφ j (by omega)
    exact instFreq_value _ _ _ _ (ha _ (by omega)) (ha _ (by omega)) h0 h1

/-- Point-wise product of an amplitude law and a signal. -/
def modulated (a : ℕ → ℝ) (y : Vec ℂ) : Vec ℂ := ⟨y.len, fun i => (a i : ℂ) * y.get i⟩

/-! ## C15 round trips -/

/-- `inst_freq` of an amplitude-modulated `fmconst` signal returns its law. -/
theorem C15_fmconst (n k : ℕ) (f : ℝ) (hk : k < n) (hf0 : 0 < f) (hf : f ≤ 1 / 2) (a : ℕ → ℝ)
    (ha : ∀ i < n, 0 < a i) :
    ∃ (y : Vec ℂ) (law g : Vec ℝ) (t : Vec ℤ), fmconst n f (some k) = .ok (y, law) ∧
      instFreq (modulated a y) none = .ok (g, t) ∧ g.len = n - 2 ∧ t.len = n - 2 ∧
      ∀ j < n - 2, t.get j = (j : ℤ) + 2 ∧ g.get j = law.get (j + 1) := by
  have hf' : |f| ≤ 1 / 2 := by rw [abs_of_pos hf0]; exact hf
  obtain ⟨g, t, h1, h2, h3, h4⟩ := instFreq_phase n a (fun i => f * ((i : ℝ) - k)) ha
    (by intro i _
        have : (f * (((i + 2 : ℕ) : ℝ) - k) - f * ((i : ℝ) - k)) / 2 = f := by push_cast; ring
        simp only [this]; exact ⟨hf0, hf⟩)
    (modulated a ⟨n, fun i => expi (2 * Real.pi * f * ((i : ℝ) - k))⟩) rfl
    (by intro i _; simp only [modulated]; congr 2; ring)
  refine ⟨_, _, g, t, fmconst_ok n k f hk hf', h1, h2, h3, fun j hj => ⟨(h4 j hj).1, ?_⟩⟩
  rw [(h4 j hj).2]; push_cast; ring

/-- `inst_freq` of an amplitude-modulated `fmlin` signal returns its law. -/
theorem C15_fmlin (n k : ℕ) (fi ff : ℝ) (hn : 2 ≤ n) (hk : 1 ≤ k) (hkn : k ≤ n)
    (hi : 0 < fi ∧ fi ≤ 1 / 2) (hf : 0 < ff ∧ ff ≤ 1 / 2) (a : ℕ → ℝ) (ha : ∀ i < n, 0 < a i) :
    ∃ (y : Vec ℂ) (law g : Vec ℝ) (t : Vec ℤ), fmlin n fi ff (some k) = .ok (y, law) ∧
      instFreq (modulated a y) none = .ok (g, t) ∧ g.len = n - 2 ∧ t.len = n - 2 ∧
      ∀ j < n - 2, t.get j = (j : ℤ) + 2 ∧ g.get j = law.get (j + 1) := by
  have hi' : |fi| ≤ 1 / 2 := by rw [abs_of_pos hi.1]; exact hi.2
  have hf' : |ff| ≤ 1 / 2 := by rw [abs_of_pos hf.1]; exact hf.2
  have hnr : (2 : ℝ) ≤ n := by exact_mod_cast hn
  have hn1 : n ≠ 1 := by omega
  have hd : (0 : ℝ) < (n : ℝ) - 1 := by linarith
  have e : ∀ i : ℕ, ((linPhase n fi ff ((i + 2 : ℕ) : ℝ) - linPhase n fi ff ((k : ℝ) - 1))
      - (linPhase n fi ff (i : ℝ) - linPhase n fi ff ((k : ℝ) - 1))) / 2
      = fi + ((i : ℝ) + 1) * ((ff - fi) / ((n : ℝ) - 1)) := by
    intro i
    unfold linPhase
    push_cast
    field_simp
    ring
  have convex : ∀ i : ℕ, i + 2 < n → 0 < fi + ((i : ℝ) + 1) * ((ff - fi) / ((n : ℝ) - 1)) ∧
      fi + ((i : ℝ) + 1) * ((ff - fi) / ((n : ℝ) - 1)) ≤ 1 / 2 := by
    intro i hin
    have hin' : (i : ℝ) + 2 < n := by exact_mod_cast hin
    set s : ℝ := ((i : ℝ) + 1) / ((n : ℝ) - 1) with hs
    have hs0 : 0 ≤ s := by positivity
    have hs1 : s ≤ 1 := by rw [hs, div_le_one hd]; linarith
    have : fi + ((i : ℝ) + 1) * ((ff - fi) / ((n : ℝ) - 1)) = (1 - s) * fi + s * ff := by
      rw [hs]; ring
    rw [this]
    constructor
    · rcases eq_or_lt_of_le hs0 with h | h
      · rw [← h]; linarith [hi.1]
      · have h1 := mul_pos h hf.1
        have h2 := mul_nonneg (sub_nonneg.2 hs1) hi.1.le
        linarith
    · nlinarith [hi.2, hf.2]
  obtain ⟨g, t, h1, h2, h3, h4⟩ := instFreq_phase n a
    (fun i => linPhase n fi ff i - linPhase n fi ff ((k : ℝ) - 1)) ha
    (by intro i hin; simp only [e]; exact convex i hin)
    (modulated a ⟨n, fun i => expi (2 * Real.pi *
      (linPhase n fi ff i - linPhase n fi ff ((k : ℝ) - 1)))⟩) rfl
    (by intro i _; rfl)
  refine ⟨_, _, g, t, fmlin_ok n k fi ff hn hk hkn hi' hf', h1, h2, h3, fun j hj => ⟨(h4 j hj).1, ?_⟩⟩
  rw [(h4 j hj).2, e]
  simp [linspace, hn1]

/-- `inst_freq` of an amplitude-modulated `fmodany` signal returns the mean of the two neighbouring
samples of the law. -/
theorem C15_fmodany (law : Vec ℝ) (k : ℕ) (hk : 1 ≤ k) (hkn : k < law.len)
    (hl : ∀ i < law.len, 0 < law.get i ∧ law.get i ≤ 1 / 2) (a : ℕ → ℝ)
    (ha : ∀ i < law.len, 0 < a i) :
    ∃ (y : Vec ℂ) (g : Vec ℝ) (t : Vec ℤ), fmodany (.one law) k = .ok y ∧
      instFreq (modulated a y) none = .ok (g, t) ∧ g.len = law.len - 2 ∧ t.len = law.len - 2 ∧
      ∀ j < law.len - 2, t.get j = (j : ℤ) + 2 ∧ g.get j = (law.get (j + 1) + law.get (j + 2)) / 2 := by
  have hl' : ∀ i < law.len, |law.get i| ≤ 1 / 2 := fun i hi => by
    rw [abs_of_pos (hl i hi).1]; exact (hl i hi).2
  have e : ∀ i : ℕ, ((∑ j ∈ Finset.range (i + 2 + 1), law.get j - ∑ j ∈ Finset.range (k + 1), law.get j)
      - (∑ j ∈ Finset.range (i + 1), law.get j - ∑ j ∈ Finset.range (k + 1), law.get j)) / 2
      = (law.get (i + 1) + law.get (i + 2)) / 2 := by
    intro i
    rw [Finset.sum_range_succ _ (i + 2), Finset.sum_range_succ _ (i + 1)]; ring
  obtain ⟨g, t, h1, h2, h3, h4⟩ := instFreq_phase law.len a
    (fun i => ∑ j ∈ Finset.range (i + 1), law.get j - ∑ j ∈ Finset.range (k + 1), law.get j) ha
    (by intro i hin
        simp only [e]
        have h1 := hl (i + 1) (by omega)
        have h2 := hl (i + 2) (by omega)
        constructor <;> linarith [h1.1, h1.2, h2.1, h2.2])
    (modulated a ⟨law.len, fun i => expi (2 * Real.pi *
      (∑ j ∈ Finset.range (i + 1), law.get j - ∑ j ∈ Finset.range (k + 1), law.get j))⟩) rfl
    (by intro i _; rfl)
  refine ⟨_, g, t, fmodany_ok law k hk hkn hl', h1, h2, h3, fun j hj => ⟨(h4 j hj).1, ?_⟩⟩
  rw [(h4 j hj).2]
  exact e j

example : (64 : ℕ) < 128 ∧ (0 : ℝ) < 0.2 ∧ (0.2 : ℝ) ≤ 1 / 2 ∧ ∀ i < 128, (0 : ℝ) < (fun _ : ℕ => (3 : ℝ)) i := by
  norm_num

/-! ## C16 range -/

/-- Every estimate is in `(0, 1/2]`, one per requested instant. -/
theorem C16_range (x : Vec ℂ) (t : Vec ℤ)
    (ht : ∀ j < t.len, IdxOk x.len (t.get j) ∧ IdxOk x.len (t.get j - 2)) :
    ∃ f : Vec ℝ, instFreq x (some t) = .ok (f, t) ∧ f.len = t.len ∧
      ∀ j < t.len, 0 < f.get j ∧ f.get j ≤ 1 / 2 := by
  have hpi := Real.pi_pos
  simp only [instFreq, Option.getD_some]
  have h1 : x.take t = .ok ⟨t.len, fun j => x.get (wrapIdx x.len (t.get j))⟩ := by
    unfold Vec.take; rw [if_pos (fun j hj => (ht j hj).1)]
  have h2 : x.take (t.map (fun i : ℤ => i - 2))
      = .ok ⟨t.len, fun j => x.get (wrapIdx x.len (t.get j - 2))⟩ := by
    unfold Vec.take
    rw [if_pos (fun j hj => by rw [Vec.map_get]; exact (ht j hj).2)]; rfl
  rw [h1, ok_bind, h2, ok_bind]
  simp only [Vec.bcast, if_true, ok_bind]
  refine ⟨_, rfl, rfl, fun j _ => ?_⟩
  simp only [Vec.map_get]
  generalize -x.get (wrapIdx x.len (t.get j)) * (starRingEnd ℂ) (x.get (wrapIdx x.len (t.get j - 2))) = z
  have ha := Complex.neg_pi_lt_arg z
  have hb := Complex.arg_le_pi z
  norm_num
  constructor
  · apply div_pos <;> linarith
  · rw [div_le_iff₀ (by linarith)]; linarith

/-- By default the instants are `2, …, len-1` and no index is out of range. -/
theorem C16_default (x : Vec ℂ) :
    instFreq x none = instFreq x (some (arange 2 x.len)) ∧
    (arange 2 (x.len : ℤ)).len = x.len - 2 ∧
    ∀ j < (arange 2 (x.len : ℤ)).len, (arange 2 (x.len : ℤ)).get j = (j : ℤ) + 2 ∧
      IdxOk x.len ((arange 2 (x.len : ℤ)).get j) ∧ IdxOk x.len ((arange 2 (x.len : ℤ)).get j - 2) := by
  refine ⟨rfl, by rw [arange_len]; omega, fun j hj => ⟨?_, ?_, ?_⟩⟩
  · rw [arange_get]; ring
  · have := arange_get_lt hj; exact idxOk_of_lt (by omega) (by omega)
  · have := arange_get_lt hj; exact idxOk_of_lt (by omega) (by omega)

example : ∀ j < (Vec.ofList [(2 : ℤ), 3]).len, IdxOk 4 ((Vec.ofList [(2 : ℤ), 3]).get j) ∧
    IdxOk 4 ((Vec.ofList [(2 : ℤ), 3]).get j - 2) := by
  intro j hj
  have : j < 2 := hj
  obtain rfl | rfl : j = 0 ∨ j = 1 := by omega
  all_goals simp [Vec.ofList, IdxOk]

end Tftb.Props
