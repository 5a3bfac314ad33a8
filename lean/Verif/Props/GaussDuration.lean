import Verif.Props.Gauss
import Verif.Props.Uncertainty

/-! # C132: measured centre and duration of a Gaussian pulse anywhere in the signal -/

namespace Tftb.Props

open Tftb Tftb.Spec Tftb.AM Tftb.TF Tftb.Theta Finset

/-- A sum over samples, split at the centre. -/
theorem sum_split_centre (f : ℕ → ℝ) (c b : ℕ) :
    ∑ i ∈ range (c + 1 + b), f i = ∑ k ∈ range c, f (c - (k + 1)) + f c + ∑ k ∈ range b, f (c + (k + 1)) := by
  rw [Finset.sum_range_add, Finset.sum_range_succ, ← Finset.sum_range_reflect]
  congr 1
  · congr 1
    refine Finset.sum_congr rfl fun k _ => ?_
    congr 1
    omega
  · refine Finset.sum_congr rfl fun k _ => ?_
    congr 1
    omega

/-- Moments of the positive side of a Gaussian, cut after `m` samples, against those of the whole side. -/
theorem side_moments {a : ℝ} (ha : 0 < a) {d m : ℕ} (hd : 1 ≤ d) (hm : d ≤ m + 1) :
    let P := fun m : ℕ => ∑ k ∈ range m, Real.exp (-Real.pi * a * ((k : ℝ) + 1) ^ 2)
    let L := fun m : ℕ => ∑ k ∈ range m, ((k : ℝ) + 1) * Real.exp (-Real.pi * a * ((k : ℝ) + 1) ^ 2)
    let Q := fun m : ℕ => ∑ k ∈ range m, ((k : ℝ) + 1) ^ 2 * Real.exp (-Real.pi * a * ((k : ℝ) + 1) ^ 2)
    P m ≤ half a ∧ half a ≤ P m + rest2 a d / d ^ 2 ∧ Q m ≤ half2 a ∧ half2 a ≤ Q m + rest2 a d ∧ L (d - 1) ≤ L m ∧ L m ≤ L (d - 1) + rest2 a d / d := by
  intro P L Q
  have hd0 : (0 : ℝ) < d := by exact_mod_cast hd
  have hs1 := summable_tail ha one_pos
  have hs2 := summable_sq_tail ha one_pos
  obtain ⟨j, rfl⟩ : ∃ j, d = j + 1 := ⟨d - 1, by omega⟩
  obtain ⟨l, rfl⟩ : ∃ l, m = j + l := ⟨m - j, by omega⟩
  -- the tail from `d` on
  set V := ∑' i : ℕ, ((i : ℝ) + ((j + 1 : ℕ) : ℝ)) ^ 2 * Real.exp (-Real.pi * a * (i + ((j + 1 : ℕ) : ℝ)) ^ 2) with hV
  set W := ∑' i : ℕ, Real.exp (-Real.pi * a * (i + ((j + 1 : ℕ) : ℝ)) ^ 2) with hW
  have hVle : V ≤ rest2 a ((j + 1 : ℕ) : ℝ) := sq_tail_le ha hd0
  have hA : half a = P j + W := by
    unfold half
    rw [← Summable.sum_add_tsum_nat_add j hs1]
    congr 1
    refine tsum_congr fun i => ?_
    push_cast
    congr 2
    ring
  have hB : half2 a = Q j + V := by
    unfold half2
    rw [← Summable.sum_add_tsum_nat_add j hs2]
    congr 1
    refine tsum_congr fun i => ?_
    push_cast
    congr 2
    · ring
    · congr 1; ring
  have hWV : ((j + 1 : ℕ) : ℝ) ^ 2 * W ≤ V := by
    rw [hW, ← tsum_mul_left]
    refine Summable.tsum_le_tsum (fun i => ?_) ((summable_tail ha hd0).mul_left _) (summable_sq_tail ha hd0)
    refine mul_le_mul_of_nonneg_right ?_ (Real.exp_pos _).le
    have : (0 : ℝ) ≤ i := Nat.cast_nonneg i
    refine pow_le_pow_left₀ hd0.le (by linarith) 2
  have hP1 : P j ≤ P (j + l) := by
    simp only [P]
    rw [Finset.sum_range_add]
    exact le_add_of_nonneg_right (Finset.sum_nonneg fun _ _ => (Real.exp_pos _).le)
  have hP2 : P (j + l) ≤ half a := hs1.sum_le_tsum (range (j + l)) fun _ _ => (Real.exp_pos _).le
  have hQ2 : Q (j + l) ≤ half2 a := hs2.sum_le_tsum (range (j + l)) fun _ _ => by positivity
  have hQ1 : Q j ≤ Q (j + l) := by
    simp only [Q]
    rw [Finset.sum_range_add]
    exact le_add_of_nonneg_right (Finset.sum_nonneg fun _ _ => by positivity)
  have hL1 : L j ≤ L (j + l) := by
    simp only [L]
    rw [Finset.sum_range_add]
    exact le_add_of_nonneg_right (Finset.sum_nonneg fun _ _ => by positivity)
  have hL2 : ((j + 1 : ℕ) : ℝ) * (L (j + l) - L j) ≤ Q (j + l) - Q j := by
    simp only [L, Q]
    rw [Finset.sum_range_add, Finset.sum_range_add, add_sub_cancel_left, add_sub_cancel_left, Finset.mul_sum]
    refine Finset.sum_le_sum fun k _ => ?_
    rw [← mul_assoc]
    refine mul_le_mul_of_nonneg_right ?_ (Real.exp_pos _).le
    have : (0 : ℝ) ≤ k := Nat.cast_nonneg k
    have : (0 : ℝ) ≤ j := Nat.cast_nonneg j
    push_cast
    nlinarith
  rw [show j + 1 - 1 = j by omega]
  refine ⟨hP2, ?_, hQ2, by linarith, hL1, ?_⟩
  · rw [hA]
    have : W ≤ rest2 a ((j + 1 : ℕ) : ℝ) / ((j + 1 : ℕ) : ℝ) ^ 2 := by
      rw [le_div_iff₀ (by positivity)]
      linarith
    linarith
  · have : L (j + l) - L j ≤ rest2 a ((j + 1 : ℕ) : ℝ) / ((j + 1 : ℕ) : ℝ) := by
      rw [le_div_iff₀ hd0]
      linarith
    linarith

/-- The arithmetic of mean and variance around a position `c`. -/
theorem wmean_wvar_about {n : ℕ} {w : ℕ → ℝ} (hS : (∑ i ∈ range n, w i) ≠ 0) (c : ℝ) :
    wmean n (fun i => (i : ℝ)) w - c = (∑ i ∈ range n, ((i : ℝ) - c) * w i) / ∑ i ∈ range n, w i ∧
    wvar n (fun i => (i : ℝ)) w = (∑ i ∈ range n, ((i : ℝ) - c) ^ 2 * w i) / ∑ i ∈ range n, w i - (wmean n (fun i => (i : ℝ)) w - c) ^ 2 := by
  have h1 : wmean n (fun i => (i : ℝ)) w - c = (∑ i ∈ range n, ((i : ℝ) - c) * w i) / ∑ i ∈ range n, w i := by
    unfold wmean
    simp only [sub_mul, Finset.sum_sub_distrib]
    rw [← Finset.mul_sum]
    field_simp
  refine ⟨h1, ?_⟩
  set μ := wmean n (fun i => (i : ℝ)) w with hμ
  have h2 := wvar_mul (p := fun i => (i : ℝ)) (w := w) (n := n) hS
  rw [← hμ] at h2
  have h3 : ∑ i ∈ range n, ((i : ℝ) - c) * w i = (μ - c) * ∑ i ∈ range n, w i := by rw [h1]; field_simp
  have e : ∀ i : ℕ, ((i : ℝ) - μ) ^ 2 * w i = ((i : ℝ) - c) ^ 2 * w i - 2 * (μ - c) * (((i : ℝ) - c) * w i) + (μ - c) ^ 2 * w i := fun i => by ring
  rw [Finset.sum_congr rfl fun i _ => e i, Finset.sum_add_distrib, Finset.sum_sub_distrib, ← Finset.mul_sum, ← Finset.mul_sum, h3] at h2
  rw [eq_sub_iff_add_eq, eq_div_iff hS, add_mul, h2]
  ring

set_option maxHeartbeats 1600000 in
/-- **Measured centre and duration, wherever the centre is.**  A signal of `n` samples whose modulus is `amgauss` centred at sample `c` (the generator
counts from one: `t0 = c + 1`), `d` a bound of the distances of `c` from the first sample before and the first one after the signal: the measured
centre is `c` and the squared duration `s²`, up to explicit errors. -/
theorem C132_duration_anywhere (n c d : ℕ) (hd : 1 ≤ d) (hd1 : d ≤ c + 1) (hd2 : d + c ≤ n) (s : ℝ) (hs : 0 < s) (y : Vec ℝ)
    (hy : amgauss n (some ((c : ℝ) + 1)) (some s) = .ok y) (x : Vec ℂ) (hl : x.len = n) (hx : ∀ i < n, ‖x.get i‖ = y.get i) :
    ∃ tm T : ℝ, loctime x = .ok (tm, T) ∧ 0 ≤ T ∧ |tm - c| ≤ rest2 (2 / s ^ 2) d / d / energy x ∧
      T ^ 2 ≤ s ^ 2 * (1 + 2 * rest2 (2 / s ^ 2) d / d ^ 2 / energy x) ∧
      s ^ 2 - T ^ 2 ≤ 2 * Real.pi * s ^ 4 * rest2 (s ^ 2 / 2) 1 + 8 * Real.sqrt 2 * Real.pi / s * rest2 (2 / s ^ 2) d
        + 4 * Real.pi * (rest2 (2 / s ^ 2) d / d / energy x) ^ 2 := by
  obtain ⟨y', e1, e2, e3, _⟩ := C07_amgauss n (by omega) ((c : ℝ) + 1) s hs
  rw [hy] at e1
  injection e1 with e1
  subst e1
  have hpi := Real.pi_pos
  have hs2 : 0 < s ^ 2 := by positivity
  set a : ℝ := 2 / s ^ 2 with ha
  have ha0 : 0 < a := by positivity
  have hia : 1 / a = s ^ 2 / 2 := by rw [ha, one_div_div]
  have hsa : Real.sqrt a = Real.sqrt 2 / s := by rw [ha, Real.sqrt_div (by norm_num), Real.sqrt_sq hs.le]
  have hsa0 : 0 < Real.sqrt a := Real.sqrt_pos.2 ha0
  have hd0 : (0 : ℝ) < d := by exact_mod_cast hd
  have hρ0 : 0 ≤ rest2 a d := rest2_nonneg ha0 hd0
  set ρ := rest2 a d with hρ
  obtain ⟨b, rfl⟩ : ∃ b, n = c + 1 + b := ⟨n - (c + 1), by omega⟩
  have hmod : ∀ i < c + 1 + b, ‖x.get i‖ ^ 2 = Real.exp (-Real.pi * a * ((i : ℝ) - c) ^ 2) := by
    intro i hi
    rw [hx i hi, e3 i hi, ← Real.exp_nat_mul]
    congr 1
    push_cast
    rw [show (i : ℝ) + 1 - (c + 1) = i - c by ring, ha]
    field_simp
  obtain ⟨p1, p2, q1, q2, l1, l2⟩ := side_moments ha0 (m := c) hd hd1
  obtain ⟨p1', p2', q1', q2', l1', l2'⟩ := side_moments ha0 (m := b) hd (by omega)
  simp only at p1 p2 q1 q2 l1 l2 p1' p2' q1' q2' l1' l2'
  -- the three sums
  have hleft : ∀ k < c, (((c - (k + 1) : ℕ) : ℝ) - c) = -((k : ℝ) + 1) := by
    intro k hk
    rw [Nat.cast_sub (by omega)]
    push_cast
    ring
  have hS : ∑ i ∈ range (c + 1 + b), ‖x.get i‖ ^ 2 = 1 + ∑ k ∈ range c, Real.exp (-Real.pi * a * ((k : ℝ) + 1) ^ 2)
      + ∑ k ∈ range b, Real.exp (-Real.pi * a * ((k : ℝ) + 1) ^ 2) := by
    rw [Finset.sum_congr rfl fun i hi => hmod i (Finset.mem_range.1 hi), sum_split_centre]
    have h1 : ∑ k ∈ range c, Real.exp (-Real.pi * a * (((c - (k + 1) : ℕ) : ℝ) - c) ^ 2) = ∑ k ∈ range c, Real.exp (-Real.pi * a * ((k : ℝ) + 1) ^ 2) :=
      Finset.sum_congr rfl fun k hk => by rw [hleft k (Finset.mem_range.1 hk), neg_sq]
    have h2 : ∑ k ∈ range b, Real.exp (-Real.pi * a * (((c + (k + 1) : ℕ) : ℝ) - c) ^ 2) = ∑ k ∈ range b, Real.exp (-Real.pi * a * ((k : ℝ) + 1) ^ 2) :=
      Finset.sum_congr rfl fun k hk => by push_cast; congr 2; ring
    rw [h1, h2, sub_self]
    norm_num
    ring
  have hM1 : ∑ i ∈ range (c + 1 + b), ((i : ℝ) - c) * ‖x.get i‖ ^ 2 = ∑ k ∈ range b, ((k : ℝ) + 1) * Real.exp (-Real.pi * a * ((k : ℝ) + 1) ^ 2)
      - ∑ k ∈ range c, ((k : ℝ) + 1) * Real.exp (-Real.pi * a * ((k : ℝ) + 1) ^ 2) := by
    rw [Finset.sum_congr rfl fun i hi => by rw [hmod i (Finset.mem_range.1 hi)], sum_split_centre]
    have h1 : ∑ k ∈ range c, (((c - (k + 1) : ℕ) : ℝ) - c) * Real.exp (-Real.pi * a * (((c - (k + 1) : ℕ) : ℝ) - c) ^ 2)
        = -∑ k ∈ range c, ((k : ℝ) + 1) * Real.exp (-Real.pi * a * ((k : ℝ) + 1) ^ 2) := by
      rw [← Finset.sum_neg_distrib]
      exact Finset.sum_congr rfl fun k hk => by rw [hleft k (Finset.mem_range.1 hk), neg_sq]; ring
    have h2 : ∑ k ∈ range b, (((c + (k + 1) : ℕ) : ℝ) - c) * Real.exp (-Real.pi * a * (((c + (k + 1) : ℕ) : ℝ) - c) ^ 2)
        = ∑ k ∈ range b, ((k : ℝ) + 1) * Real.exp (-Real.pi * a * ((k : ℝ) + 1) ^ 2) :=
      Finset.sum_congr rfl fun k hk => by rw [show (((c + (k + 1) : ℕ) : ℝ) - c) = (k : ℝ) + 1 by push_cast; ring]
    rw [h1, h2, sub_self]
    ring
  have hM2 : ∑ i ∈ range (c + 1 + b), ((i : ℝ) - c) ^ 2 * ‖x.get i‖ ^ 2 = ∑ k ∈ range c, ((k : ℝ) + 1) ^ 2 * Real.exp (-Real.pi * a * ((k : ℝ) + 1) ^ 2)
      + ∑ k ∈ range b, ((k : ℝ) + 1) ^ 2 * Real.exp (-Real.pi * a * ((k : ℝ) + 1) ^ 2) := by
    rw [Finset.sum_congr rfl fun i hi => by rw [hmod i (Finset.mem_range.1 hi)], sum_split_centre]
    have h1 : ∑ k ∈ range c, (((c - (k + 1) : ℕ) : ℝ) - c) ^ 2 * Real.exp (-Real.pi * a * (((c - (k + 1) : ℕ) : ℝ) - c) ^ 2)
        = ∑ k ∈ range c, ((k : ℝ) + 1) ^ 2 * Real.exp (-Real.pi * a * ((k : ℝ) + 1) ^ 2) :=
      Finset.sum_congr rfl fun k hk => by rw [hleft k (Finset.mem_range.1 hk), neg_sq]
    have h2 : ∑ k ∈ range b, (((c + (k + 1) : ℕ) : ℝ) - c) ^ 2 * Real.exp (-Real.pi * a * (((c + (k + 1) : ℕ) : ℝ) - c) ^ 2)
        = ∑ k ∈ range b, ((k : ℝ) + 1) ^ 2 * Real.exp (-Real.pi * a * ((k : ℝ) + 1) ^ 2) :=
      Finset.sum_congr rfl fun k hk => by rw [show (((c + (k + 1) : ℕ) : ℝ) - c) = (k : ℝ) + 1 by push_cast; ring]
    rw [h1, h2, sub_self]
    ring
  have hEe : energy x = ∑ i ∈ range (c + 1 + b), ‖x.get i‖ ^ 2 := by unfold energy; rw [hl]
  set Pc := ∑ k ∈ range c, Real.exp (-Real.pi * a * ((k : ℝ) + 1) ^ 2)
  set Pb := ∑ k ∈ range b, Real.exp (-Real.pi * a * ((k : ℝ) + 1) ^ 2)
  set Lc := ∑ k ∈ range c, ((k : ℝ) + 1) * Real.exp (-Real.pi * a * ((k : ℝ) + 1) ^ 2)
  set Lb := ∑ k ∈ range b, ((k : ℝ) + 1) * Real.exp (-Real.pi * a * ((k : ℝ) + 1) ^ 2)
  set Qc := ∑ k ∈ range c, ((k : ℝ) + 1) ^ 2 * Real.exp (-Real.pi * a * ((k : ℝ) + 1) ^ 2)
  set Qb := ∑ k ∈ range b, ((k : ℝ) + 1) ^ 2 * Real.exp (-Real.pi * a * ((k : ℝ) + 1) ^ 2)
  have hPc : 0 ≤ Pc := Finset.sum_nonneg fun _ _ => (Real.exp_pos _).le
  have hPb : 0 ≤ Pb := Finset.sum_nonneg fun _ _ => (Real.exp_pos _).le
  have hQc : 0 ≤ Qc := Finset.sum_nonneg fun _ _ => by positivity
  have hQb : 0 ≤ Qb := Finset.sum_nonneg fun _ _ => by positivity
  set E := energy x with hE
  have hES : E = 1 + Pc + Pb := by rw [hEe, hS]
  have hE0 : 0 < E := by rw [hES]; positivity
  have hloc := C44_loctime x hE0.ne'
  rw [hl] at hloc
  obtain ⟨m1, m2⟩ := wmean_wvar_about (n := c + 1 + b) (w := fun i => ‖x.get i‖ ^ 2) (by rw [← hEe]; exact hE0.ne') (c : ℝ)
  rw [← hEe] at m1 m2
  rw [hM1] at m1
  rw [hM2] at m2
  have hW0 : 0 ≤ wvar (c + 1 + b) (fun i => (i : ℝ)) (fun i => ‖x.get i‖ ^ 2) :=
    div_nonneg (Finset.sum_nonneg fun i _ => by positivity) (Finset.sum_nonneg fun i _ => by positivity)
  set μ := wmean (c + 1 + b) (fun i => (i : ℝ)) (fun i => ‖x.get i‖ ^ 2)
  have hcen : |μ - c| ≤ ρ / d / E := by
    rw [m1, abs_div, abs_of_pos hE0]
    refine div_le_div_of_nonneg_right ?_ hE0.le
    rw [abs_le]
    constructor <;> linarith
  have hT2 : (2 * Real.sqrt (Real.pi * wvar (c + 1 + b) (fun i => (i : ℝ)) (fun i => ‖x.get i‖ ^ 2))) ^ 2
      = 4 * Real.pi * ((Qc + Qb) / E - (μ - c) ^ 2) := by
    rw [mul_pow, Real.sq_sqrt (by positivity), m2]; ring
  -- the whole line
  have hsm := second_moment ha0
  have hja := jacobi ha0
  have hu0 := half2_nonneg (1 / a)
  have hule := half2_le (show 0 < 1 / a by rw [hia]; positivity)
  have hFp : 0 < 1 + 2 * half a := by have := half_nonneg a; positivity
  have hF : 1 / Real.sqrt a ≤ 1 + 2 * half a := by
    rw [hja]
    have h := half_nonneg (1 / a)
    have : 0 < 1 / Real.sqrt a := by positivity
    nlinarith
  have h4 : 4 * Real.pi * (1 / (2 * Real.pi * a)) = s ^ 2 := by rw [ha]; field_simp; ring
  have hEF : E ≤ 1 + 2 * half a := by rw [hES]; linarith
  have hFE : 1 + 2 * half a ≤ E + 2 * (ρ / d ^ 2) := by rw [hES]; linarith
  refine ⟨_, _, hloc, by positivity, hcen, ?_, ?_⟩
  · rw [hT2]
    have g1 : Qc + Qb ≤ (1 + 2 * half a) / (2 * Real.pi * a) := by
      have : 0 ≤ 1 / (Real.sqrt a * a ^ 2) * (2 * half2 (1 / a)) := by positivity
      linarith
    have g2 : (Qc + Qb) / E ≤ 1 / (2 * Real.pi * a) * (1 + 2 * ρ / d ^ 2 / E) := by
      rw [div_le_iff₀ hE0]
      have e : 1 / (2 * Real.pi * a) * (1 + 2 * ρ / d ^ 2 / E) * E = (E + 2 * (ρ / d ^ 2)) / (2 * Real.pi * a) := by
        field_simp
      rw [e]
      exact g1.trans (div_le_div_of_nonneg_right hFE (by positivity))
    rw [← h4, mul_assoc (4 * Real.pi)]
    refine mul_le_mul_of_nonneg_left ?_ (by positivity)
    have := sq_nonneg (μ - c)
    linarith
  · rw [hT2]
    have hsq : (μ - c) ^ 2 ≤ (ρ / d / E) ^ 2 := by
      rw [← sq_abs]
      exact pow_le_pow_left₀ (abs_nonneg _) hcen 2
    have g1 : (2 * half2 a - 2 * ρ) / (1 + 2 * half a) ≤ (Qc + Qb) / E := by
      have h1 : 2 * half2 a - 2 * ρ ≤ Qc + Qb := by linarith
      refine (div_le_div_of_nonneg_right h1 hFp.le).trans ?_
      exact div_le_div_of_nonneg_left (by positivity) hE0 hEF
    have hfull : 2 * half2 a / (1 + 2 * half a) = 1 / (2 * Real.pi * a) - 1 / (Real.sqrt a * a ^ 2) * (2 * half2 (1 / a)) / (1 + 2 * half a) := by
      rw [hsm, sub_div]
      congr 1
      rw [div_right_comm, div_self hFp.ne']
    have hd1 : 1 / (Real.sqrt a * a ^ 2) * (2 * half2 (1 / a)) / (1 + 2 * half a) ≤ 1 / a ^ 2 * (2 * half2 (1 / a)) := by
      rw [div_le_iff₀ hFp]
      calc 1 / (Real.sqrt a * a ^ 2) * (2 * half2 (1 / a)) = 1 / a ^ 2 * (2 * half2 (1 / a)) * (1 / Real.sqrt a) := by field_simp
        _ ≤ _ := by gcongr
    have hd2 : 2 * ρ / (1 + 2 * half a) ≤ 2 * ρ * Real.sqrt a := by
      rw [div_le_iff₀ hFp]
      calc 2 * ρ = 2 * ρ * Real.sqrt a * (1 / Real.sqrt a) := by field_simp
        _ ≤ _ := by gcongr
    rw [sub_div, hfull] at g1
    have hb1 : 4 * Real.pi * (1 / a ^ 2 * (2 * half2 (1 / a))) ≤ 2 * Real.pi * s ^ 4 * rest2 (s ^ 2 / 2) 1 := by
      have e : 2 * Real.pi * s ^ 4 * rest2 (s ^ 2 / 2) 1 = 4 * Real.pi * (1 / a ^ 2 * (2 * rest2 (1 / a) 1)) := by
        rw [hia]
        generalize rest2 (s ^ 2 / 2) 1 = r
        rw [ha]
        field_simp
        ring
      rw [e]
      gcongr
    have hb2 : 4 * Real.pi * (2 * ρ * Real.sqrt a) = 8 * Real.sqrt 2 * Real.pi / s * ρ := by
      rw [hsa]
      ring
    have hfin : 1 / (2 * Real.pi * a) - ((Qc + Qb) / E - (μ - c) ^ 2) ≤ 1 / a ^ 2 * (2 * half2 (1 / a)) + 2 * ρ * Real.sqrt a + (ρ / d / E) ^ 2 := by
      linarith
    have := mul_le_mul_of_nonneg_left hfin (by positivity : 0 ≤ 4 * Real.pi)
    rw [mul_sub, mul_add, mul_add, h4, hb2] at this
    linarith

/-- `loctime` of a signal under `amgauss(160, 80, 50)` (the case of the repository's tests): the centre is 79 and the duration 50, up to 1/10000 each. -/
example (y : Vec ℝ) (hy : amgauss 160 (some 80) (some 50) = .ok y) (x : Vec ℂ) (hl : x.len = 160) (hx : ∀ i < 160, ‖x.get i‖ = y.get i) :
    ∃ tm T : ℝ, loctime x = .ok (tm, T) ∧ |tm - 79| ≤ 1 / 10000 ∧ |T - 50| ≤ 1 / 10000 := by
  obtain ⟨tm, T, h1, hT0, h2, h3, h4⟩ := C132_duration_anywhere 160 79 80 (by norm_num) (by norm_num) (by norm_num) 50 (by norm_num) y
    (by rw [← hy]; norm_num) x hl hx
  refine ⟨tm, T, h1, ?_⟩
  have hE : 1 ≤ energy x := by
    obtain ⟨y', e1, _, e3, _⟩ := C07_amgauss 160 (by norm_num) 80 50 (by norm_num)
    rw [show ((160 : ℕ) : ℤ) = 160 by norm_num, hy] at e1
    injection e1 with e1
    subst e1
    have h79 : ‖x.get 79‖ = 1 := by rw [hx 79 (by norm_num), e3 79 (by norm_num)]; norm_num
    have : ‖x.get 79‖ ^ 2 ≤ energy x := by
      unfold energy
      rw [hl]
      exact Finset.single_le_sum (f := fun i => ‖x.get i‖ ^ 2) (fun i _ => by positivity) (Finset.mem_range.2 (by norm_num))
    rwa [h79, one_pow] at this
  have hpi := Real.pi_gt_d2
  have hpi' := Real.pi_lt_d2
  have hpi0 := Real.pi_pos
  have he1 : Real.exp (-1) ≤ 3 / 8 := by
    have := Real.exp_one_gt_d9
    rw [Real.exp_neg, inv_eq_one_div, div_le_div_iff₀ (Real.exp_pos 1) (by norm_num)]
    linarith
  have b0 : 0 ≤ rest2 (2 / 50 ^ 2) (80 : ℕ) := rest2_nonneg (by norm_num) (by norm_num)
  have b1 : rest2 (2 / 50 ^ 2) (80 : ℕ) ≤ 1 / 250 := by
    unfold rest2
    push_cast
    have hq : Real.exp (-2 * Real.pi * (2 / 50 ^ 2) * 80) ≤ 25 / 37 := by
      have h : Real.exp (-2 * Real.pi * (2 / 50 ^ 2) * 80) ≤ Real.exp (-(2 / 5)) := Real.exp_le_exp.2 (by linarith)
      have h' := Real.quadratic_le_exp_of_nonneg (show (0 : ℝ) ≤ 2 / 5 by norm_num)
      refine h.trans ?_
      rw [Real.exp_neg, inv_eq_one_div, div_le_div_iff₀ (Real.exp_pos _) (by norm_num)]
      norm_num at h'
      linarith
    have hg : 1 / (1 - Real.exp (-2 * Real.pi * (2 / 50 ^ 2) * 80)) ≤ 37 / 12 := by
      rw [div_le_iff₀ (by linarith)]; linarith
    have hg0 : 0 < 1 / (1 - Real.exp (-2 * Real.pi * (2 / 50 ^ 2) * 80)) := by
      have : 0 < 1 - Real.exp (-2 * Real.pi * (2 / 50 ^ 2) * 80) := by linarith
      positivity
    set g := 1 / (1 - Real.exp (-2 * Real.pi * (2 / 50 ^ 2) * 80))
    have hX : (80 : ℝ) ^ 2 * g + 2 * 80 * g ^ 2 + 2 * g ^ 3 ≤ 80 ^ 2 * (37 / 12) + 2 * 80 * (37 / 12) ^ 2 + 2 * (37 / 12) ^ 3 := by gcongr
    have hX0 : 0 ≤ (80 : ℝ) ^ 2 * g + 2 * 80 * g ^ 2 + 2 * g ^ 3 := by positivity
    have hX1 : (80 : ℝ) ^ 2 * g + 2 * 80 * g ^ 2 + 2 * g ^ 3 ≤ 22000 := by norm_num at hX ⊢; linarith
    have hsmall : Real.exp (-Real.pi * (2 / 50 ^ 2) * 80 ^ 2) ≤ (3 / 8) ^ 16 := by
      have h : Real.exp (-Real.pi * (2 / 50 ^ 2) * 80 ^ 2) ≤ Real.exp (-1) ^ 16 := by
        rw [← Real.exp_nat_mul, Real.exp_le_exp]; push_cast; linarith
      exact h.trans (pow_le_pow_left₀ (Real.exp_pos _).le he1 _)
    calc _ ≤ (3 / 8 : ℝ) ^ 16 * 22000 := mul_le_mul hsmall hX1 hX0 (by positivity)
      _ ≤ _ := by norm_num
  have b2 : rest2 (50 ^ 2 / 2) 1 ≤ 1 / 10 ^ 20 := by
    unfold rest2
    have hq : Real.exp (-2 * Real.pi * (50 ^ 2 / 2) * 1) ≤ 3 / 8 := (Real.exp_le_exp.2 (by linarith)).trans he1
    have hg : 1 / (1 - Real.exp (-2 * Real.pi * (50 ^ 2 / 2) * 1)) ≤ 2 := by
      rw [div_le_iff₀ (by linarith)]; linarith
    have hg0 : 0 < 1 / (1 - Real.exp (-2 * Real.pi * (50 ^ 2 / 2) * 1)) := by
      have : 0 < 1 - Real.exp (-2 * Real.pi * (50 ^ 2 / 2) * 1) := by linarith
      positivity
    set g := 1 / (1 - Real.exp (-2 * Real.pi * (50 ^ 2 / 2) * 1))
    have hX : (1 : ℝ) ^ 2 * g + 2 * 1 * g ^ 2 + 2 * g ^ 3 ≤ 1 ^ 2 * 2 + 2 * 1 * 2 ^ 2 + 2 * 2 ^ 3 := by gcongr
    have hX0 : 0 ≤ (1 : ℝ) ^ 2 * g + 2 * 1 * g ^ 2 + 2 * g ^ 3 := by positivity
    have hsmall : Real.exp (-Real.pi * (50 ^ 2 / 2) * 1 ^ 2) ≤ (3 / 8) ^ 100 := by
      have h : Real.exp (-Real.pi * (50 ^ 2 / 2) * 1 ^ 2) ≤ Real.exp (-1) ^ 100 := by
        rw [← Real.exp_nat_mul, Real.exp_le_exp]; push_cast; linarith
      exact h.trans (pow_le_pow_left₀ (Real.exp_pos _).le he1 _)
    calc _ ≤ (3 / 8 : ℝ) ^ 100 * (1 ^ 2 * 2 + 2 * 1 * 2 ^ 2 + 2 * 2 ^ 3) := mul_le_mul hsmall hX hX0 (by positivity)
      _ ≤ _ := by norm_num
  have b3 : 0 ≤ rest2 (50 ^ 2 / 2) 1 := rest2_nonneg (by norm_num) (by norm_num)
  push_cast at h2 h3 h4
  push_cast at b0 b1
  generalize rest2 (2 / 50 ^ 2) 80 = ρ at *
  generalize rest2 (50 ^ 2 / 2) 1 = σ at *
  have c1 : ρ / 80 / energy x ≤ 1 / 20000 := by
    refine (div_le_self (by positivity) hE).trans ?_
    linarith
  have c10 : 0 ≤ ρ / 80 / energy x := by positivity
  have c2 : 2 * ρ / 80 ^ 2 / energy x ≤ 1 / 800000 := by
    refine (div_le_self (by positivity) hE).trans ?_
    linarith
  have hr2 : Real.sqrt 2 ≤ 3 / 2 := Real.sqrt_le_iff.2 ⟨by norm_num, by norm_num⟩
  have c3 : 8 * Real.sqrt 2 * Real.pi / 50 * ρ ≤ 8 * (3 / 2) * 3.15 / 50 * (1 / 250) := by gcongr
  have c4 : 2 * Real.pi * 50 ^ 4 * σ ≤ 2 * 3.15 * 50 ^ 4 * (1 / 10 ^ 20) := by gcongr
  have c5 : 4 * Real.pi * (ρ / 80 / energy x) ^ 2 ≤ 4 * 3.15 * (1 / 20000) ^ 2 := by gcongr
  refine ⟨h2.trans (by linarith), ?_⟩
  rw [abs_le]
  constructor
  · norm_num at c3 c4 c5
    nlinarith
  · nlinarith

end Tftb.Props
