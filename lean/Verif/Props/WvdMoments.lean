import Verif.Props.WvdInverse
import Verif.Props.InstFreq
import Verif.Props.TimeFreq

/-! # Moments of the Wigner-Ville distribution (C84): spectrum, instantaneous frequency, mean time -/

namespace Tftb.Props

open Tftb Tftb.Spec Tftb.Linear Tftb.Cohen Tftb.TF Finset ComplexConjugate

/-- Row `k` sums to the mean of the energy spectrum at `k / (2 n)` and at the same frequency plus one half: the spectrum is folded. -/
theorem C84_freq_marginal {τ : Type} (x : Vec ℂ) (ts : Vec τ) (n : ℕ) (hn : 2 ≤ n) (M : Mat ℝ) (hM : WvdReturns x ts n M) :
    ∀ k < n, ∑ t ∈ range x.len, M.get k t
      = (‖dtft x ((k : ℝ) / (2 * n))‖ ^ 2 + ‖dtft x ((k : ℝ) / (2 * n) + 1 / 2)‖ ^ 2) / 2 := by
  intro k hk
  obtain ⟨hN, hR, h4⟩ := wvd_sizes hn hM
  set R := roundEven ((n : ℝ) / 2) - 1 with hRdef
  have hn0 : (n : ℝ) ≠ 0 := by exact_mod_cast (by omega : n ≠ 0)
  set u : ℕ → ℂ := fun j => x.get j * expi (-(2 * Real.pi * ((k : ℝ) / (2 * n)) * j)) with hu
  set E := ∑ i ∈ range x.len, if i % 2 = 0 then u i else 0 with hE
  set O := ∑ i ∈ range x.len, if i % 2 = 1 then u i else 0 with hO
  have hX : dtft x ((k : ℝ) / (2 * n)) = E + O := by
    unfold dtft
    rw [hE, hO, ← Finset.sum_add_distrib]
    apply Finset.sum_congr rfl
    intro i _
    rcases Nat.mod_two_eq_zero_or_one i with h | h <;> simp [h, hu]
  have hY : dtft x ((k : ℝ) / (2 * n) + 1 / 2) = E - O := by
    unfold dtft
    rw [hE, hO, ← Finset.sum_sub_distrib]
    apply Finset.sum_congr rfl
    intro i _
    have hm : expi (-(2 * Real.pi * ((k : ℝ) / (2 * n) + 1 / 2) * i))
        = expi (-(2 * Real.pi * ((k : ℝ) / (2 * n)) * i)) * expi (-(Real.pi * i)) := by
      rw [← expi_add]; congr 1; ring
    rw [hm]
    rcases Nat.mod_two_eq_zero_or_one i with h | h
    · obtain ⟨m, rfl⟩ : ∃ m, i = 2 * m := ⟨i / 2, by omega⟩
      have : expi (-(Real.pi * ((2 * m : ℕ) : ℝ))) = 1 := by
        rw [← expi_zero]
        apply expi_eq_of_sub _ _ (-m)
        push_cast; ring
      rw [this]
      simp [hu]
    · obtain ⟨m, rfl⟩ : ∃ m, i = 2 * m + 1 := ⟨i / 2, by omega⟩
      have : expi (-(Real.pi * ((2 * m + 1 : ℕ) : ℝ))) = -1 := by
        have e : expi Real.pi = -1 := by simp [expi]
        rw [← e]
        apply expi_eq_of_sub _ _ (-m - 1)
        push_cast; ring
      rw [this, if_neg (by omega), if_pos h]
      simp only [hu]
      ring
  have hpar : ‖E + O‖ ^ 2 + ‖E - O‖ ^ 2 = 2 * (‖E‖ ^ 2 + ‖O‖ ^ 2) := by
    rw [← Complex.normSq_eq_norm_sq, ← Complex.normSq_eq_norm_sq, ← Complex.normSq_eq_norm_sq, ← Complex.normSq_eq_norm_sq,
      Complex.normSq_add, Complex.normSq_sub]
    ring
  rw [hX, hY, hpar]
  have hgoal : ((∑ t ∈ range x.len, M.get k t : ℝ) : ℂ) = ((‖E‖ ^ 2 + ‖O‖ ^ 2 : ℝ) : ℂ) := by
    rw [← sum_parity_sq, Complex.ofReal_sum, Finset.sum_congr rfl (fun t ht => h4 k hk t (Finset.mem_range.1 ht))]
    have hp := sum_pairs (N := x.len) hN
      (fun a b => zext x a * conj (zext x b) * expi (-(2 * Real.pi * ((k : ℝ) / (2 * n)) * (a - b)))) (by
        intro a b hab
        by_cases ha : 0 ≤ a ∧ a < x.len
        · rw [zext_of_not_mem (x := x) (i := b) (by omega)]; simp
        · rw [zext_of_not_mem (x := x) (i := a) (by omega)]; simp)
    rw [show (∑ t ∈ range x.len, lagSum R n (wignerKernel x t) k)
        = ∑ t ∈ range x.len, ∑ τ ∈ Finset.Icc (-R) R, zext x (t + τ) * conj (zext x (t - τ))
          * expi (-(2 * Real.pi * ((k : ℝ) / (2 * n)) * (((t + τ : ℤ) : ℝ) - ((t - τ : ℤ) : ℝ)))) from
      Finset.sum_congr rfl fun t _ => Finset.sum_congr rfl fun τ _ => by
        unfold wignerKernel
        congr 2
        push_cast
        field_simp
        ring, hp]
    refine Finset.sum_congr rfl fun a ha => Finset.sum_congr rfl fun b hb => ?_
    rw [Finset.mem_range] at ha hb
    rw [zext_of_mem (by omega) (by omega), zext_of_mem (by omega) (by omega)]
    simp only [hu, map_mul, conj_expi, Int.toNat_natCast, Int.cast_natCast]
    congr 1
    rw [show -(2 * Real.pi * ((k : ℝ) / (2 * n)) * ((a : ℝ) - b))
      = -(2 * Real.pi * ((k : ℝ) / (2 * n)) * a) + -(-(2 * Real.pi * ((k : ℝ) / (2 * n)) * b)) by ring, expi_add]
    ring
  have := Complex.ofReal_injective hgoal
  rw [this]
  ring

/-- A signal without energy at `k/(2n) + 1/2` (an analytic signal) has in row `k` half of its energy spectrum. -/
theorem C84_analytic_marginal {τ : Type} (x : Vec ℂ) (ts : Vec τ) (n : ℕ) (hn : 2 ≤ n) (M : Mat ℝ) (hM : WvdReturns x ts n M)
    (k : ℕ) (hk : k < n) (hz : dtft x ((k : ℝ) / (2 * n) + 1 / 2) = 0) :
    ∑ t ∈ range x.len, M.get k t = ‖dtft x ((k : ℝ) / (2 * n))‖ ^ 2 / 2 := by
  rw [C84_freq_marginal x ts n hn M hM k hk, hz]
  simp

/-- `inst_freq` reads the phase of the first circular moment of a column: the estimate labelled `j + 2` is `f` in `(0, 1/2]` such that
`e^{4πi f}` is the phase of `∑ₖ W[k, j + 1] e^{2πi k/n}`, the moment of column `j + 1`. -/
theorem C84_inst_freq {τ : Type} (x : Vec ℂ) (ts : Vec τ) (n : ℕ) (hn : 2 ≤ n) (M : Mat ℝ) (hM : WvdReturns x ts n M) :
    ∃ f : Vec ℝ, instFreq x none = .ok (f, arange 2 x.len) ∧ f.len = x.len - 2 ∧ ∀ j, j + 2 < x.len →
      0 < f.get j ∧ f.get j ≤ 1 / 2 ∧
      ∑ k ∈ range n, (M.get k (j + 1) : ℂ) * expi (2 * Real.pi * ((k : ℝ) / n))
        = ‖∑ k ∈ range n, (M.get k (j + 1) : ℂ) * expi (2 * Real.pi * ((k : ℝ) / n))‖ * expi (2 * Real.pi * (2 * f.get j)) := by
  have hn0 : (n : ℂ) ≠ 0 := by exact_mod_cast (by omega : n ≠ 0)
  obtain ⟨e, hl, hidx⟩ := C16_default x
  obtain ⟨f, hf, hfl, hfr⟩ := C16_range x (arange 2 x.len) (fun j hj => (hidx j hj).2)
  refine ⟨f, by rw [e, hf], by rw [hfl, hl], fun j hj => ?_⟩
  have hj' : j < (arange 2 (x.len : ℤ)).len := by rw [hl]; omega
  refine ⟨(hfr j hj').1, (hfr j hj').2, ?_⟩
  have hp := C73_products x ts n hn M hM (j + 2) j hj (by omega) (by omega)
  have hmid : (j + 2 + j) / 2 = j + 1 := by omega
  rw [hmid] at hp
  have hsum : ∑ k ∈ range n, (M.get k (j + 1) : ℂ) * expi (2 * Real.pi * ((k : ℝ) / n))
      = n * (x.get (j + 2) * conj (x.get j)) := by
    rw [hp, ← mul_assoc, mul_one_div_cancel hn0, one_mul]
    apply Finset.sum_congr rfl
    intro k _
    congr 3
    push_cast
    ring
  rw [hsum]
  have hval : f.get j = 0.5 * (Complex.arg (-x.get (j + 2) * conj (x.get j)) + Real.pi) / (2 * Real.pi) := by
    have h1 : x.take (arange 2 x.len) = .ok ⟨(arange 2 (x.len : ℤ)).len, fun j => x.get (wrapIdx x.len ((arange 2 (x.len : ℤ)).get j))⟩ := by
      unfold Vec.take; rw [if_pos (fun j hj => (hidx j hj).2.1)]
    have h2 : x.take ((arange 2 (x.len : ℤ)).map (fun i : ℤ => i - 2))
        = .ok ⟨(arange 2 (x.len : ℤ)).len, fun j => x.get (wrapIdx x.len ((arange 2 (x.len : ℤ)).get j - 2))⟩ := by
      unfold Vec.take
      rw [if_pos (fun j hj => by rw [Vec.map_get]; exact (hidx j hj).2.2)]; rfl
    simp only [instFreq, Option.getD_some] at hf
    rw [h1, ok_bind, h2, ok_bind] at hf
    simp only [Vec.bcast, if_true, ok_bind, Except.ok.injEq, Prod.mk.injEq, and_true] at hf
    rw [← hf]
    simp only [Vec.map_get]
    rw [(hidx j hj').1, wrapIdx_of_nonneg (by omega), wrapIdx_of_nonneg (by omega),
      show ((j : ℤ) + 2).toNat = j + 2 by omega, show ((j : ℤ) + 2 - 2).toNat = j by omega]
  set z := x.get (j + 2) * conj (x.get j) with hz
  have hneg : -x.get (j + 2) * conj (x.get j) = -z := by rw [hz]; ring
  rw [hneg] at hval
  have hpi := Real.pi_pos
  have harg : 2 * Real.pi * (2 * f.get j) = Complex.arg (-z) + Real.pi := by
    rw [hval]; field_simp; ring
  rw [harg, expi_add, norm_mul]
  have e1 : expi Real.pi = -1 := by simp [expi]
  have e2 : (‖z‖ : ℂ) * expi (Complex.arg (-z)) = -z := by
    have := Complex.norm_mul_exp_arg_mul_I (-z)
    rw [norm_neg] at this
    exact this
  have e3 : (‖(n : ℂ)‖ : ℂ) = n := by simp
  push_cast
  rw [e3, e1, show (n : ℂ) * (‖z‖ : ℂ) * (expi (Complex.arg (-z)) * -1) = -((n : ℂ) * ((‖z‖ : ℂ) * expi (Complex.arg (-z)))) by ring, e2]
  ring

/-- `loctime` returns the first moment in time of the distribution and `2√π` times its standard deviation. -/
theorem C84_loctime {τ : Type} (x : Vec ℂ) (ts : Vec τ) (n : ℕ) (hn : 2 ≤ n) (M : Mat ℝ) (hM : WvdReturns x ts n M)
    (hx : energy x ≠ 0) :
    ∃ tm T, loctime x = .ok (tm, T) ∧
      tm = (∑ t ∈ range x.len, ∑ k ∈ range n, t * M.get k t) / (∑ t ∈ range x.len, ∑ k ∈ range n, M.get k t) ∧
      T = 2 * Real.sqrt (Real.pi * ((∑ t ∈ range x.len, ∑ k ∈ range n, (t - tm) ^ 2 * M.get k t)
        / (∑ t ∈ range x.len, ∑ k ∈ range n, M.get k t))) := by
  have hn0 : (n : ℝ) ≠ 0 := by exact_mod_cast (by omega : n ≠ 0)
  have hmom : ∀ p : ℕ → ℝ, (∑ t ∈ range x.len, ∑ k ∈ range n, p t * M.get k t)
      / (∑ t ∈ range x.len, ∑ k ∈ range n, M.get k t) = wmean x.len p (fun i => ‖x.get i‖ ^ 2) := by
    intro p
    rw [C34_energy x ts n hn M hM]
    unfold wmean energy
    have : ∑ t ∈ range x.len, ∑ k ∈ range n, p t * M.get k t = n * ∑ t ∈ range x.len, p t * ‖x.get t‖ ^ 2 := by
      rw [Finset.mul_sum]
      apply Finset.sum_congr rfl
      intro t ht
      rw [← Finset.mul_sum, C34_time_marginal x ts n hn M hM t (Finset.mem_range.1 ht)]
      ring
    rw [this, mul_div_mul_left _ _ hn0]
  refine ⟨_, _, C44_loctime x hx, ?_, ?_⟩
  · rw [hmom]
  · rw [hmom (fun t => ((t : ℝ) - _) ^ 2)]
    rfl

/-- Four samples `1, i, -1, -i` (frequency 1/4) on four bins: row 2, of frequency 2/8, sums to half of `4²`. -/
example : ∃ M, WvdReturns ⟨4, fun t => expi (2 * Real.pi * (t / 4))⟩ (arange 0 4) 4 M ∧ (∑ t ∈ range 4, M.get 2 t) = 8 := by
  obtain ⟨M, h1, _⟩ := C33_wvd ⟨4, fun t => expi (2 * Real.pi * (t / 4))⟩ (arange 0 4) 4 (by norm_num) rfl
    (by rw [roundEven_half]; norm_num)
  refine ⟨M, h1, ?_⟩
  have h := C84_freq_marginal _ (arange 0 4) 4 (by norm_num) M h1 2 (by norm_num)
  have e : ∀ ν : ℝ, dtft ⟨4, fun t => expi (2 * Real.pi * (t / 4))⟩ ν = ∑ j ∈ range 4, expi (2 * Real.pi * ((1 / 4 - ν) * j)) := by
    intro ν
    unfold dtft
    apply Finset.sum_congr rfl
    intro j _
    rw [← expi_add]
    congr 1
    ring
  rw [e, e] at h
  have e2 : ∑ j ∈ range 4, expi (2 * Real.pi * ((1 / 4 - ((2 : ℕ) : ℝ) / (2 * (4 : ℕ))) * j)) = 4 := by
    norm_num [Finset.sum_range_succ]
  have e3 : ∑ j ∈ range 4, expi (2 * Real.pi * ((1 / 4 - (((2 : ℕ) : ℝ) / (2 * (4 : ℕ)) + 1 / 2)) * j)) = 0 := by
    have hm : ∀ j : ℕ, expi (2 * Real.pi * ((1 / 4 - (((2 : ℕ) : ℝ) / (2 * (4 : ℕ)) + 1 / 2)) * j)) = (-1) ^ j := by
      intro j
      induction j with
      | zero => simp
      | succ m ih =>
        rw [pow_succ, ← ih]
        have : expi (-Real.pi) = -1 := by rw [← conj_expi]; simp [expi]
        rw [← this, ← expi_add]
        congr 1
        push_cast
        ring
    rw [Finset.sum_congr rfl (fun j _ => hm j)]
    norm_num [Finset.sum_range_succ]
  rw [e2, e3] at h
  show ∑ t ∈ range 4, M.get 2 t = 8
  rw [show (∑ t ∈ range 4, M.get 2 t) = _ from h]
  norm_num

end Tftb.Props
