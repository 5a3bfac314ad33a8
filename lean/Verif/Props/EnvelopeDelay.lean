import Verif.Props.GroupDelay
import Verif.Props.AM

/-! # C109: group delay of generated pulses -/

namespace Tftb.Props

open Tftb Tftb.Spec Tftb.AM Tftb.TF Finset ComplexConjugate

/-- The envelopes centred in the middle of `n` samples are symmetric. -/
theorem envelope_symmetric (n : ℕ) (hn : 1 ≤ n) (s : ℝ) (hs : 0 < s) (y : Vec ℝ)
    (hy : amgauss n (some (((n : ℝ) + 1) / 2)) (some s) = .ok y ∨ amexpos n (some (((n : ℝ) - 1) / 2)) (some s) .bilateral = .ok y ∨
      amrect n (some (((n : ℝ) - 1) / 2)) (some s) = .ok y ∨ amtriang n (some (((n : ℝ) - 1) / 2)) (some s) = .ok y) :
    ∀ i < n, y.get (n - 1 - i) = y.get i := by
  have hmir : ∀ i < n, ((n - 1 - i : ℕ) : ℝ) = (n : ℝ) - 1 - i := by
    intro i hi
    rw [Nat.cast_sub (by omega), Nat.cast_sub hn]
    push_cast
    ring
  have habs : ∀ i < n, |((n - 1 - i : ℕ) : ℝ) - ((n : ℝ) - 1) / 2| = |(i : ℝ) - ((n : ℝ) - 1) / 2| := by
    intro i hi
    rw [hmir i hi, ← abs_neg]
    congr 1
    ring
  intro i hi
  rcases hy with hy | hy | hy | hy
  · obtain ⟨y', e1, _, e2, _⟩ := C07_amgauss n hn (((n : ℝ) + 1) / 2) s hs
    rw [hy] at e1
    injection e1 with e1
    subst e1
    rw [e2 i hi, e2 _ (by omega), hmir i hi]
    congr 1
    ring
  · obtain ⟨y', e1, _, e2, _⟩ := C07_amexpos_bilateral n hn (((n : ℝ) - 1) / 2) s hs
    rw [hy] at e1
    injection e1 with e1
    subst e1
    rw [e2 i hi, e2 _ (by omega), habs i hi]
  · obtain ⟨y', e1, _, e2, e3, _⟩ := C07_amrect n hn (((n : ℝ) - 1) / 2) s hs
    rw [hy] at e1
    injection e1 with e1
    subst e1
    have h : y.get (n - 1 - i) = 1 ↔ y.get i = 1 := by rw [e3 i hi, e3 _ (by omega), habs i hi]
    rcases e2 i hi with h1 | h1
    · rw [h1]; exact h.2 h1
    · rcases e2 (n - 1 - i) (by omega) with h2 | h2
      · rw [h.1 h2] at h1; norm_num at h1
      · rw [h1, h2]
  · obtain ⟨y', e1, _, e2, _⟩ := C07_amtriang n hn (((n : ℝ) - 1) / 2) s hs
    rw [hy] at e1
    injection e1 with e1
    subst e1
    rw [e2 i hi, e2 _ (by omega), habs i hi]

/-- **Pulses.**  A tone of any frequency and complex amplitude under one of the envelopes, centred in the middle of `n` samples: `group_delay` reports `(n + 1) / 2` at every
frequency where the spectrum is not zero. -/
theorem C109_pulse (n : ℕ) (hn : 1 ≤ n) (s : ℝ) (hs : 0 < s) (y : Vec ℝ)
    (hy : amgauss n (some (((n : ℝ) + 1) / 2)) (some s) = .ok y ∨ amexpos n (some (((n : ℝ) - 1) / 2)) (some s) .bilateral = .ok y ∨
      amrect n (some (((n : ℝ) - 1) / 2)) (some s) = .ok y ∨ amtriang n (some (((n : ℝ) - 1) / 2)) (some s) = .ok y)
    (A : ℂ) (θ : ℝ) (x : Vec ℂ) (hl : x.len = n) (hx : ∀ i < n, x.get i = A * (y.get i : ℂ) * expi (θ * i)) (f : Vec ℝ) (hz : ∀ k < f.len, dtft x (f.get k) ≠ 0) :
    ∃ g : Vec ℝ, groupDelayAt x f = .ok g ∧ g.len = f.len ∧ ∀ k < f.len, g.get k = ((n : ℝ) + 1) / 2 := by
  rw [← hl]
  refine C109_symmetric x ?_ f hz
  have hsym := envelope_symmetric n hn s hs y hy
  by_cases hA : A = 0
  · refine ⟨0, fun t ht => ?_⟩
    rw [hx _ (by omega), hA]
    simp
  refine ⟨A / conj A * expi (θ * ((n : ℝ) - 1)), fun t ht => ?_⟩
  have hA' : conj A ≠ 0 := (map_ne_zero _).2 hA
  have ht' : t < n := by omega
  rw [hl, hx _ (by omega), hx t ht', hsym t ht', map_mul, map_mul, Complex.conj_ofReal, conj_expi]
  have e : expi (θ * ((n - 1 - t : ℕ) : ℝ)) = expi (θ * ((n : ℝ) - 1)) * expi (-(θ * t)) := by
    rw [← expi_add]
    congr 1
    rw [Nat.cast_sub (by omega), Nat.cast_sub hn]
    push_cast
    ring
  rw [e]
  field_simp

/-- A Gaussian pulse of four samples at frequency zero. -/
example (y : Vec ℝ) (hy : amgauss 4 (some (5 / 2)) (some 2) = .ok y) :
    ∃ g : Vec ℝ, groupDelayAt ⟨4, fun i => (y.get i : ℂ)⟩ ⟨1, fun _ => 0⟩ = .ok g ∧ g.get 0 = 5 / 2 := by
  obtain ⟨y', e1, _, e2, _⟩ := C07_amgauss 4 (by norm_num) (5 / 2) 2 (by norm_num)
  have hy' : amgauss (4 : ℕ) (some ((((4 : ℕ) : ℝ) + 1) / 2)) (some 2) = .ok y := by rw [← hy]; norm_num
  obtain ⟨g, h1, _, h2⟩ := C109_pulse 4 (by norm_num) 2 (by norm_num) y (Or.inl hy') 1 0 ⟨4, fun i => (y.get i : ℂ)⟩ rfl
    (fun i _ => by simp [expi]) ⟨1, fun _ => 0⟩ (fun k _ => by
      unfold dtft
      simp only [mul_zero, zero_mul, neg_zero]
      have : ∀ j : ℕ, (y.get j : ℂ) * expi 0 = ((y.get j : ℝ) : ℂ) := fun j => by simp [expi]
      rw [Finset.sum_congr rfl fun j _ => this j, ← Complex.ofReal_sum]
      refine Complex.ofReal_ne_zero.2 (ne_of_gt ?_)
      refine Finset.sum_pos (fun j hj => ?_) ⟨0, by simp⟩
      have hj' : j < 4 := Finset.mem_range.1 hj
      have e : y = y' := by
        have := hy'.symm.trans (by rw [← e1]; norm_num : amgauss (4 : ℕ) (some ((((4 : ℕ) : ℝ) + 1) / 2)) (some 2) = .ok y')
        injection this
      rw [e, e2 j hj']
      exact Real.exp_pos _)
  refine ⟨g, h1, ?_⟩
  rw [h2 0 (by norm_num)]
  norm_num

end Tftb.Props
