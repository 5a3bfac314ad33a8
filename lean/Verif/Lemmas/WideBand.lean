import Verif.Model.WideBand
import Verif.Lemmas.Scalogram

/-! # Lemmas about the wide-band ambiguity function -/

namespace Tftb

open Finset Spec WideBand

theorem mellin_pad {N : ℕ} (hN : 2 ≤ N) {a b : ℝ} (h0 : 0 < a) (h1 : 0 < b) (G : ℕ → ℂ) :
    ∃ y : ℕ → ℂ, mellin ((b / a) ^ (1 / ((N : ℝ) - 1))) (pad ⟨N, G⟩ N) = .ok ⟨N + N, y⟩ ∧ ∀ k < N, y k = mellinAt N a b G k := by
  have hba : 0 < b / a := div_pos h1 h0
  have hN1 : (0 : ℝ) < (N : ℝ) - 1 := by have : (2 : ℝ) ≤ N := by exact_mod_cast hN
                                         linarith
  have hN0 : (N : ℝ) ≠ 0 := by have : (2 : ℝ) ≤ N := by exact_mod_cast hN
                               linarith
  set coef : ℕ → ℂ := fun p => (Real.exp ((p : ℝ) / 2 * Real.log ((b / a) ^ (1 / ((N : ℝ) - 1)))) : ℂ) with hcoef
  have hc : ∀ p, coef p = (Real.sqrt (geoFreq N a b p / a) : ℂ) := fun p => by
    rw [hcoef]
    simp only
    congr 1
    unfold geoFreq
    rw [mul_div_assoc, mul_comm, mul_comm a, div_mul_cancel₀ _ h0.ne', Real.sqrt_eq_rpow, ← Real.rpow_mul hba.le, Real.log_rpow hba,
      Real.rpow_def_of_pos hba]
    congr 1
    field_simp
  set y0 : ℕ → ℂ := fun k => (∑ j ∈ range (N + N), (pad ⟨N, G⟩ N).get j * coef j * rootPow (N + N) (-((j : ℤ) * (k : ℤ)))) / ((N + N : ℕ) : ℂ) with hy0
  refine ⟨fun i => y0 ((i + (N + N - (N + N) / 2)) % (N + N)), ?_, fun k hk => ?_⟩
  · unfold mellin
    have hp : (pad ⟨N, G⟩ N).len = N + N := rfl
    simp only
    rw [Vec.bcast_ok (by rfl), ok_bind]
    have hif : ifft (⟨(pad ⟨N, G⟩ N).len, fun i => (pad ⟨N, G⟩ N).get i * coef i⟩ : Vec ℂ) = .ok ⟨N + N, y0⟩ := by
      rw [ifft]
      rw [if_neg (by show N + N ≠ 0; omega)]
      rfl
    rw [hif]
    rfl
  · have e : (k + (N + N - (N + N) / 2)) % (N + N) = k + N := by
      rw [show N + N - (N + N) / 2 = N by omega]; exact Nat.mod_eq_of_lt (by omega)
    simp only [e, hy0]
    unfold mellinAt
    rw [show ((N + N : ℕ) : ℂ) = 2 * N by push_cast; ring, Finset.sum_range_add]
    congr 1
    have hz : (∑ x ∈ range N, (pad ⟨N, G⟩ N).get (N + x) * coef (N + x) * rootPow (N + N) (-(((N + x : ℕ) : ℤ) * ((k + N : ℕ) : ℤ)))) = 0 :=
      Finset.sum_eq_zero (fun x _ => by
        have : (pad ⟨N, G⟩ N).get (N + x) = 0 := by
          show (if N + x < N then G (N + x) else _) = 0
          rw [if_neg (by omega)]
        rw [this, zero_mul, zero_mul])
    rw [hz, add_zero]
    refine Finset.sum_congr rfl (fun p hp => ?_)
    have hg : (pad ⟨N, G⟩ N).get p = G p := by
      show (if p < N then G p else _) = _
      rw [if_pos (mem_range.1 hp)]
    rw [hg, hc, mul_comm (G p)]
    congr 1
    rw [rootPow_congr (b := -((p : ℤ) * ((k : ℤ) - N))) (by omega) ⟨-(p : ℤ), by push_cast; ring⟩]
    unfold rootPow expi
    congr 1
    push_cast
    field_simp
    ring

theorem tfm_eq (t : ℤ) (g : ℝ) : Complex.exp (-2 * Complex.I * ((t : ℂ) * (g : ℂ)) * Real.pi) = expi (-(2 * Real.pi * g * (t : ℝ))) := by
  unfold expi
  congr 1
  push_cast
  ring

theorem geo_eq {N : ℕ} {a b : ℝ} (hba : 0 < b / a) (k : ℕ) :
    a * Real.exp (((k : ℝ) + 1 - 1) * Real.log ((b / a) ^ (1 / ((N : ℝ) - 1)))) = geoFreq N a b k := by
  unfold geoFreq
  rw [Real.log_rpow hba, Real.rpow_def_of_pos hba]
  congr 2
  ring

/-- The transform before normalisation. -/
theorem transform_ok (z : Vec ℂ) (m : ℕ) {a b : ℝ} (h0 : 0 < a) (h1 : 0 < b) {N : ℕ} (hN : 2 ≤ N) :
    ∃ W : Mat ℂ, transform z m a b N = .ok W ∧ W.rows = N ∧ W.cols = z.len ∧
      ∀ r < N, ∀ i < z.len, W.get r i = wafAt z m N a b ((r + (N + 1) / 2) % N) i := by
  have hba : 0 < b / a := div_pos h1 h0
  set q : ℝ := (b / a) ^ (1 / ((N : ℝ) - 1)) with hq
  set geo : ℕ → ℝ := fun k => a * Real.exp (((k : ℝ) + 1 - 1) * Real.log q) with hgeo
  have hg : ∀ k, geo k = geoFreq N a b k := fun k => geo_eq hba k
  set t : Vec ℤ := (arange 0 z.len).map (fun j => j - (m : ℤ)) with ht
  have htg : ∀ i, ((t.get i : ℤ) : ℝ) = (i : ℝ) - m := fun i => by
    show (((0 + (i : ℤ) - (m : ℤ)) : ℤ) : ℝ) = _
    push_cast; ring
  set tfm : ℕ → ℕ → ℂ := fun i k => Complex.exp (-2 * Complex.I * ((t.get i : ℂ) * (geo k : ℂ)) * Real.pi) with htfm
  have htf : ∀ i k, tfm i k = expi (-(2 * Real.pi * geoFreq N a b k * ((i : ℝ) - m))) := fun i k => by
    rw [htfm]; simp only; rw [tfm_eq, hg, htg]
  set S : ℕ → ℂ := fun k => ∑ i ∈ range z.len, z.get i * tfm i k with hS
  have hSs : ∀ k, S k = spectrumAt z m (geoFreq N a b k) := fun k => Finset.sum_congr rfl (fun i _ => by rw [htf])
  obtain ⟨y, hy, hyk⟩ := mellin_pad hN h0 h1 S
  choose yb hyb hybk using fun i : ℕ => mellin_pad hN h0 h1 (fun k => S k * tfm i k)
  set P : Mat ℂ := ⟨2 * N, z.len, fun k i => y k * (starRingEnd ℂ) (if i < z.len then yb i k else 0)⟩ with hP
  set W0 : Mat ℂ := ⟨N, z.len, fun r c => (∑ k ∈ range N, P.get k c * rootPow N (-((k : ℤ) * (r : ℤ)))) / (N : ℂ)⟩ with hW0
  have hW0g : ∀ r, ∀ i < z.len, W0.get r i = wafAt z m N a b r i := fun r i hi => by
    show (∑ k ∈ range N, y k * (starRingEnd ℂ) (if i < z.len then yb i k else 0) * rootPow N (-((k : ℤ) * (r : ℤ)))) / (N : ℂ) = _
    unfold wafAt
    congr 1
    refine Finset.sum_congr rfl (fun k hk => ?_)
    rw [if_pos hi, hyk k (mem_range.1 hk), hybk i k (mem_range.1 hk)]
    congr 1
    · congr 1
      · congr 1; funext p; exact hSs p
      · congr 2; funext p; rw [hSs, htf]
    · unfold rootPow expi
      congr 1
      push_cast
      ring
  set no2 : ℕ := (N + 1) / 2 with hno2
  have hno : ((N : ℤ) + (N : ℤ) % 2) / 2 = (no2 : ℤ) := by omega
  have hno_le : no2 < N := by omega
  refine ⟨stack (rowSlice W0 no2 (N + 1)) (rowSlice W0 0 no2), ?_, ?_, rfl, ?_⟩
  · unfold transform
    simp only
    rw [if_neg (by omega), ← hq]
    show ((mellin q (pad ⟨N, S⟩ N)) >>= _) = _
    rw [hy, ok_bind, Mat.forCols_ok (M := Mat.zeros (2 * N) z.len) (T := z.len) (g := fun i => ⟨N + N, yb i⟩) (le_refl z.len) (fun i _ => hyb i), ok_bind]
    unfold ifftRows
    rw [if_neg (by omega), ok_bind, hno]
    rfl
  · show (Vec.clampIdx N ((N : ℤ) + 1) - Vec.clampIdx N (no2 : ℤ)) + (Vec.clampIdx N (no2 : ℤ) - Vec.clampIdx N 0) = N
    have c1 : Vec.clampIdx N ((N : ℤ) + 1) = N := by unfold Vec.clampIdx; rw [if_neg (by omega)]; omega
    have c2 : Vec.clampIdx N (no2 : ℤ) = no2 := by unfold Vec.clampIdx; rw [if_neg (by omega)]; omega
    have c3 : Vec.clampIdx N 0 = 0 := by unfold Vec.clampIdx; simp
    rw [c1, c2, c3]; omega
  · intro r hr i hi
    have c1 : Vec.clampIdx N ((N : ℤ) + 1) = N := by unfold Vec.clampIdx; rw [if_neg (by omega)]; omega
    have c2 : Vec.clampIdx N (no2 : ℤ) = no2 := by unfold Vec.clampIdx; rw [if_neg (by omega)]; omega
    have c3 : Vec.clampIdx N 0 = 0 := by unfold Vec.clampIdx; simp
    show (if r < Vec.clampIdx N ((N : ℤ) + 1) - Vec.clampIdx N (no2 : ℤ) then W0.get (Vec.clampIdx N (no2 : ℤ) + r) i
      else W0.get (Vec.clampIdx N 0 + (r - (Vec.clampIdx N ((N : ℤ) + 1) - Vec.clampIdx N (no2 : ℤ)))) i) = _
    rw [c1, c2, c3]
    by_cases h : r < N - no2
    · rw [if_pos h, hW0g _ i hi, show (r + no2) % N = no2 + r by rw [Nat.mod_eq_of_lt (by omega)]; omega]
    · rw [if_neg h, hW0g _ i hi, show (r + no2) % N = 0 + (r - (N - no2)) by
        rw [show r + no2 = (r - (N - no2)) + N by omega, Nat.add_mod_right, Nat.mod_eq_of_lt (by omega), zero_add]]

end Tftb
