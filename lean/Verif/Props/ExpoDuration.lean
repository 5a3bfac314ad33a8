import Verif.Props.Duration
import Verif.Props.GaussDuration
import Mathlib.Analysis.SpecialFunctions.Trigonometric.Series

/-! # C135 — centre and duration of exponential pulses -/

namespace Tftb.Props

open Tftb Tftb.Spec Tftb.AM Tftb.TF Finset

/-! ## Geometric sums -/

theorem geo_zero (q : ℝ) (K : ℕ) : (∑ k ∈ range K, q ^ k) * (1 - q) = 1 - q ^ K := by
  induction K with
  | zero => simp
  | succ K ih => rw [Finset.sum_range_succ, add_mul, ih]; ring

theorem geo_one (q : ℝ) (K : ℕ) : (∑ k ∈ range K, (k : ℝ) * q ^ k) * (1 - q) ^ 2 = q * (1 - q ^ K) - K * q ^ K * (1 - q) := by
  induction K with
  | zero => simp
  | succ K ih => rw [Finset.sum_range_succ, add_mul, ih]; push_cast; ring

theorem geo_two (q : ℝ) (K : ℕ) :
    (∑ k ∈ range K, (k : ℝ) ^ 2 * q ^ k) * (1 - q) ^ 3 = q * (1 + q) - q ^ K * (K ^ 2 * (1 - q) ^ 2 + 2 * K * q * (1 - q) + q * (1 + q)) := by
  induction K with
  | zero => simp
  | succ K ih => rw [Finset.sum_range_succ, add_mul, ih]; push_cast; ring

/-! ## Hyperbolic functions -/

theorem exp_div_sinh {u : ℝ} (hu : 0 < u) : Real.exp (-2 * u) / (1 - Real.exp (-2 * u)) ^ 2 = 1 / (4 * Real.sinh u ^ 2) := by
  have e2 : Real.exp (-2 * u) = (Real.exp u)⁻¹ ^ 2 := by rw [← Real.exp_neg, ← Real.exp_nat_mul]; congr 1; push_cast; ring
  have h1 : 1 < Real.exp u := Real.one_lt_exp_iff.2 hu
  rw [Real.sinh_eq, Real.exp_neg, e2]
  generalize Real.exp u = t at h1
  have h0 : t ≠ 0 := by linarith
  have h2 : t ^ 2 - 1 ≠ 0 := by nlinarith
  have h3 : 1 - t⁻¹ ^ 2 ≠ 0 := by
    have : 1 - t⁻¹ ^ 2 = (t ^ 2 - 1) / t ^ 2 := by field_simp
    rw [this]; positivity
  have h4 : t - t⁻¹ ≠ 0 := by
    have : t - t⁻¹ = (t ^ 2 - 1) / t := by field_simp
    rw [this]; positivity
  rw [div_eq_div_iff (by positivity) (by positivity)]
  field_simp
  ring

theorem inv_sinh_le {u : ℝ} (hu : 0 < u) : 1 / Real.sinh u ^ 2 ≤ 1 / u ^ 2 :=
  one_div_le_one_div_of_le (by positivity) (pow_le_pow_left₀ hu.le (Real.self_le_sinh_iff.2 hu.le) 2)

/-- `sinh² u (3 - u²) ≤ 3 u²`, from the power series. -/
theorem sinh_sq_le (u : ℝ) : Real.sinh u ^ 2 * (3 - u ^ 2) ≤ 3 * u ^ 2 := by
  rcases le_or_gt 3 (u ^ 2) with h | h
  · have := sq_nonneg (Real.sinh u)
    nlinarith
  have hr0 : 0 ≤ u ^ 2 / 3 := by positivity
  have hr1 : u ^ 2 / 3 < 1 := by linarith
  have hg : HasSum (fun n : ℕ => 2 * u ^ 2 * (u ^ 2 / 3) ^ n) (2 * u ^ 2 * (1 - u ^ 2 / 3)⁻¹) := (hasSum_geometric_of_lt_one hr0 hr1).mul_left _
  have hc := (hasSum_nat_add_iff' 1).2 (Real.hasSum_cosh (2 * u))
  simp only [Finset.range_one, Finset.sum_singleton, mul_zero, pow_zero, Nat.factorial_zero, Nat.cast_one, div_one] at hc
  have hle : Real.cosh (2 * u) - 1 ≤ 2 * u ^ 2 * (1 - u ^ 2 / 3)⁻¹ := by
    refine hasSum_le (fun n => ?_) hc hg
    induction n with
    | zero => norm_num [Nat.factorial]; ring_nf; exact le_rfl
    | succ n ih =>
      have e1 : (2 * u) ^ (2 * (n + 1 + 1)) / ((2 * (n + 1 + 1)).factorial : ℝ) = (2 * u) ^ (2 * (n + 1)) / ((2 * (n + 1)).factorial : ℝ) * (4 * u ^ 2 / ((2 * n + 4) * (2 * n + 3))) := by
        rw [show 2 * (n + 1 + 1) = 2 * (n + 1) + 1 + 1 by ring, Nat.factorial_succ, Nat.factorial_succ, pow_succ, pow_succ]
        push_cast
        have : ((2 * (n + 1)).factorial : ℝ) ≠ 0 := by positivity
        field_simp
        ring
      rw [e1, pow_succ (u ^ 2 / 3) n, ← mul_assoc]
      refine mul_le_mul ih ?_ (by positivity) (by positivity)
      rw [div_le_div_iff₀ (by positivity) (by norm_num)]
      have hn : (0 : ℝ) ≤ n := Nat.cast_nonneg n
      have : (12 : ℝ) ≤ (2 * n + 4) * (2 * n + 3) := by nlinarith
      nlinarith [sq_nonneg u]
  rw [Real.cosh_two_mul, Real.cosh_sq, ← div_eq_mul_inv, le_div_iff₀ (by linarith)] at hle
  nlinarith

theorem le_inv_sinh {u : ℝ} (hu : 0 < u) : 1 / u ^ 2 - 1 / 3 ≤ 1 / Real.sinh u ^ 2 := by
  have h := sinh_sq_le u
  have hs : 0 < Real.sinh u := Real.sinh_pos_iff.2 hu
  rw [le_div_iff₀ (by positivity)]
  have e : (1 / u ^ 2 - 1 / 3) * Real.sinh u ^ 2 = Real.sinh u ^ 2 * (3 - u ^ 2) / (3 * u ^ 2) := by field_simp
  rw [e, div_le_one (by positivity)]
  exact h

/-- `1/v - 1/2 ≤ 1/(e^v - 1) ≤ 1/v`. -/
theorem inv_exp_sub {v : ℝ} (hv : 0 < v) : 1 / v - 1 / 2 ≤ 1 / (Real.exp v - 1) ∧ 1 / (Real.exp v - 1) ≤ 1 / v := by
  have h1 := Real.add_one_le_exp v
  have hp : 0 < Real.exp v - 1 := by linarith
  refine ⟨?_, one_div_le_one_div_of_le hv (by linarith)⟩
  have hm : MonotoneOn (fun w : ℝ => w * Real.cosh w - Real.sinh w) (Set.Ici 0) := by
    refine monotoneOn_of_deriv_nonneg (convex_Ici 0) (by fun_prop) (by fun_prop) fun w hw => ?_
    have hd : HasDerivAt (fun w : ℝ => w * Real.cosh w - Real.sinh w) (1 * Real.cosh w + w * Real.sinh w - Real.cosh w) w :=
      ((hasDerivAt_id w).mul (Real.hasDerivAt_cosh w)).sub (Real.hasDerivAt_sinh w)
    rw [hd.deriv]
    rw [interior_Ici] at hw
    have := (Real.sinh_pos_iff.2 hw).le
    have hw' : (0 : ℝ) ≤ w := le_of_lt hw
    nlinarith [mul_nonneg hw' this]
  have h2 := hm (Set.mem_Ici.2 le_rfl) (Set.mem_Ici.2 (by positivity : (0 : ℝ) ≤ v / 2)) (by positivity)
  simp only [zero_mul, Real.sinh_zero, sub_zero] at h2
  rw [Real.sinh_eq, Real.cosh_eq, Real.exp_neg] at h2
  have e : Real.exp v = Real.exp (v / 2) ^ 2 := by rw [← Real.exp_nat_mul]; congr 1; push_cast; ring
  have ht : 0 < Real.exp (v / 2) := Real.exp_pos _
  rw [e] at hp ⊢
  generalize Real.exp (v / 2) = t at *
  have h3 : 0 ≤ v * (t ^ 2 + 1) - 2 * (t ^ 2 - 1) := by
    have := mul_nonneg h2 (by positivity : 0 ≤ 4 * t)
    have e' : (v / 2 * ((t + t⁻¹) / 2) - (t - t⁻¹) / 2) * (4 * t) = v * (t ^ 2 + 1) - 2 * (t ^ 2 - 1) := by field_simp; ring
    rwa [e'] at this
  rw [le_div_iff₀ hp]
  have e'' : (1 / v - 1 / 2) * (t ^ 2 - 1) = (2 * (t ^ 2 - 1) - v * (t ^ 2 - 1)) / (2 * v) := by field_simp
  rw [e'', div_le_one (by positivity)]
  linarith

/-! ## One-sided pulses -/

set_option maxHeartbeats 1600000 in
/-- **A one-sided exponential.**  A signal of `c + K` samples under `amexpos(…, kind="unilateral")` that begins with sample `c` (the first one not before `t0`): its
measured centre and duration in closed form. The duration is the one asked for (its square at most π/3 smaller, but for what the end cuts off); the centre is not `t0`
but lies about `s / (2 √π)` after the beginning. -/
theorem C135_unilateral (c K : ℕ) (hK : 1 ≤ K) (t0 s : ℝ) (hs : 0 < s) (h0 : t0 ≤ c) (h1 : ∀ i < c, (i : ℝ) < t0) (y : Vec ℝ)
    (hy : amexpos ((c + K : ℕ) : ℤ) (some t0) (some s) .unilateral = .ok y) (x : Vec ℂ) (hl : x.len = c + K) (hx : ∀ i < c + K, ‖x.get i‖ = y.get i) :
    ∃ tm T : ℝ, loctime x = .ok (tm, T) ∧ 0 ≤ T ∧
      tm = c + 1 / (Real.exp (2 * Real.sqrt Real.pi / s) - 1) - K / (Real.exp (2 * Real.sqrt Real.pi / s * K) - 1) ∧
      T ^ 2 = Real.pi * (1 / Real.sinh (Real.sqrt Real.pi / s) ^ 2 - K ^ 2 / Real.sinh (Real.sqrt Real.pi / s * K) ^ 2) ∧
      tm ≤ c + s / (2 * Real.sqrt Real.pi) ∧ c + s / (2 * Real.sqrt Real.pi) - 1 / 2 - K / (Real.exp (2 * Real.sqrt Real.pi / s * K) - 1) ≤ tm ∧
      T ≤ s ∧ s ^ 2 - T ^ 2 ≤ Real.pi / 3 + Real.pi * (K ^ 2 / Real.sinh (Real.sqrt Real.pi / s * K) ^ 2) := by
  obtain ⟨y', e1, e2, e3, e4, _⟩ := C07_amexpos_unilateral (c + K) (by omega) t0 s hs
  rw [hy] at e1
  injection e1 with e1
  subst e1
  have hpi := Real.pi_pos
  have hr : 0 < Real.sqrt Real.pi := Real.sqrt_pos.2 hpi
  have hrr : Real.sqrt Real.pi ^ 2 = Real.pi := Real.sq_sqrt hpi.le
  set u := Real.sqrt Real.pi / s with hu
  have hu0 : 0 < u := by positivity
  have hK0 : (0 : ℝ) < K := by exact_mod_cast hK
  set q := Real.exp (-2 * u) with hq
  have hq0 : 0 < q := Real.exp_pos _
  have hq1 : q < 1 := (by rw [← Real.exp_zero]; exact Real.exp_lt_exp.2 (by linarith))
  have hQ : q ^ K = Real.exp (-2 * (u * K)) := by rw [hq, ← Real.exp_nat_mul]; congr 1; ring
  have hQ1 : q ^ K < 1 := pow_lt_one₀ hq0.le hq1 (by omega)
  have hQ0 : 0 < q ^ K := by positivity
  set A := Real.exp (-2 * u * ((c : ℝ) - t0)) with hA
  have hA0 : 0 < A := Real.exp_pos _
  have hw : ∀ k < K, ‖x.get (c + k)‖ ^ 2 = A * q ^ k := by
    intro k hk
    have hk0 : (0 : ℝ) ≤ k := Nat.cast_nonneg k
    rw [hx _ (by omega), e4 _ (by omega) (by push_cast; linarith), ← Real.exp_nat_mul, hA, hq, ← Real.exp_nat_mul, ← Real.exp_add, hu]
    congr 1
    push_cast
    ring
  have hz : ∀ i < c, ‖x.get i‖ ^ 2 = 0 := by
    intro i hi
    rw [hx i (by omega), e3 i (by omega) (h1 i hi)]
    norm_num
  have hsum : ∀ f : ℕ → ℝ, ∑ i ∈ range (c + K), f i * ‖x.get i‖ ^ 2 = A * ∑ k ∈ range K, f (c + k) * q ^ k := by
    intro f
    rw [Finset.sum_range_add, Finset.sum_eq_zero fun i hi => by rw [hz i (Finset.mem_range.1 hi), mul_zero], zero_add, Finset.mul_sum]
    exact Finset.sum_congr rfl fun k hk => by rw [hw k (Finset.mem_range.1 hk)]; ring
  have s0 : ∑ i ∈ range (c + K), ‖x.get i‖ ^ 2 = A * ∑ k ∈ range K, q ^ k := by
    have := hsum fun _ => 1
    simpa only [one_mul] using this
  have s1 : ∑ i ∈ range (c + K), ((i : ℝ) - c) * ‖x.get i‖ ^ 2 = A * ∑ k ∈ range K, (k : ℝ) * q ^ k := by
    rw [hsum fun i => (i : ℝ) - c]
    congr 1
    exact Finset.sum_congr rfl fun k _ => by push_cast; ring
  have s2 : ∑ i ∈ range (c + K), ((i : ℝ) - c) ^ 2 * ‖x.get i‖ ^ 2 = A * ∑ k ∈ range K, (k : ℝ) ^ 2 * q ^ k := by
    rw [hsum fun i => ((i : ℝ) - c) ^ 2]
    congr 1
    exact Finset.sum_congr rfl fun k _ => by push_cast; ring
  have hp : 0 < 1 - q := by linarith
  have hp' : 0 < 1 - q ^ K := by linarith
  have g0 : ∑ k ∈ range K, q ^ k = (1 - q ^ K) / (1 - q) := by rw [eq_div_iff hp.ne', geo_zero]
  have g1 : ∑ k ∈ range K, (k : ℝ) * q ^ k = (q * (1 - q ^ K) - K * q ^ K * (1 - q)) / (1 - q) ^ 2 := by rw [eq_div_iff (by positivity), geo_one]
  have g2 : ∑ k ∈ range K, (k : ℝ) ^ 2 * q ^ k = (q * (1 + q) - q ^ K * (K ^ 2 * (1 - q) ^ 2 + 2 * K * q * (1 - q) + q * (1 + q))) / (1 - q) ^ 3 := by
    rw [eq_div_iff (by positivity), geo_two]
  have hE : energy x = ∑ i ∈ range (c + K), ‖x.get i‖ ^ 2 := by unfold energy; rw [hl]
  have hS0 : (∑ i ∈ range (c + K), ‖x.get i‖ ^ 2) ≠ 0 := by
    rw [s0, g0]
    positivity
  have hloc := C44_loctime x (by rw [hE]; exact hS0)
  rw [hl] at hloc
  obtain ⟨m1, m2⟩ := wmean_wvar_about (n := c + K) (w := fun i => ‖x.get i‖ ^ 2) hS0 (c : ℝ)
  rw [s1, s0, g1, g0] at m1
  rw [s2, s0, g2, g0] at m2
  have hW0 : 0 ≤ wvar (c + K) (fun i => (i : ℝ)) (fun i => ‖x.get i‖ ^ 2) :=
    div_nonneg (Finset.sum_nonneg fun i _ => by positivity) (Finset.sum_nonneg fun i _ => by positivity)
  set μ := wmean (c + K) (fun i => (i : ℝ)) (fun i => ‖x.get i‖ ^ 2)
  set V := wvar (c + K) (fun i => (i : ℝ)) (fun i => ‖x.get i‖ ^ 2)
  have m1' : μ - c = q / (1 - q) - K * (q ^ K / (1 - q ^ K)) := by
    rw [m1]
    field_simp
  have m2' : V = q / (1 - q) ^ 2 - K ^ 2 * (q ^ K / (1 - q ^ K) ^ 2) := by
    rw [m2, m1']
    generalize q ^ K = Q at *
    field_simp
    ring
  have hgeo : ∀ v : ℝ, 0 < v → Real.exp (-2 * v) / (1 - Real.exp (-2 * v)) = 1 / (Real.exp (2 * v) - 1) := by
    intro v hv
    have h : 1 < Real.exp (2 * v) := Real.one_lt_exp_iff.2 (by linarith)
    rw [show -2 * v = -(2 * v) by ring, Real.exp_neg]
    generalize Real.exp (2 * v) = t at *
    have h0 : t ≠ 0 := by linarith
    have h2 : t - 1 ≠ 0 := by linarith
    have h3 : 1 - t⁻¹ ≠ 0 := by
      have : 1 - t⁻¹ = (t - 1) / t := by field_simp
      rw [this]; positivity
    rw [div_eq_div_iff h3 h2]
    field_simp
  have hmu : μ = c + 1 / (Real.exp (2 * Real.sqrt Real.pi / s) - 1) - K / (Real.exp (2 * Real.sqrt Real.pi / s * K) - 1) := by
    rw [hQ, hq, hgeo u hu0, hgeo (u * K) (by positivity)] at m1'
    rw [show 2 * Real.sqrt Real.pi / s = 2 * u by rw [hu]; ring, show 2 * u * (K : ℝ) = 2 * (u * K) by ring]
    rw [mul_one_div] at m1'
    linarith
  have hV : 4 * V = 1 / Real.sinh u ^ 2 - K ^ 2 / Real.sinh (u * K) ^ 2 := by
    rw [m2', hQ, hq, exp_div_sinh hu0, exp_div_sinh (show 0 < u * K by positivity)]
    have h1 : Real.sinh u ≠ 0 := (Real.sinh_pos_iff.2 hu0).ne'
    have h2 : Real.sinh (u * K) ≠ 0 := (Real.sinh_pos_iff.2 (by positivity)).ne'
    field_simp
  have hT2 : (2 * Real.sqrt (Real.pi * V)) ^ 2 = Real.pi * (1 / Real.sinh u ^ 2 - K ^ 2 / Real.sinh (u * K) ^ 2) := by
    rw [mul_pow, Real.sq_sqrt (by positivity), ← hV]; ring
  have hKe : 0 ≤ (K : ℝ) / (Real.exp (2 * Real.sqrt Real.pi / s * K) - 1) := by
    have : 1 < Real.exp (2 * Real.sqrt Real.pi / s * K) := Real.one_lt_exp_iff.2 (by positivity)
    exact div_nonneg hK0.le (by linarith)
  obtain ⟨b1, b2⟩ := inv_exp_sub (show 0 < 2 * Real.sqrt Real.pi / s by positivity)
  rw [one_div_div] at b1 b2
  have hsu : Real.pi * (1 / u ^ 2) = s ^ 2 := by
    rw [hu, div_pow, hrr]; field_simp
  have hT0 : 0 ≤ 2 * Real.sqrt (Real.pi * V) := by positivity
  refine ⟨_, _, hloc, hT0, hmu, hT2, ?_, ?_, ?_, ?_⟩
  · rw [hmu]; linarith
  · rw [hmu]; linarith
  · refine (pow_le_pow_iff_left₀ hT0 hs.le two_ne_zero).1 ?_
    rw [hT2, ← hsu]
    refine mul_le_mul_of_nonneg_left ?_ hpi.le
    have : 0 ≤ (K : ℝ) ^ 2 / Real.sinh (u * K) ^ 2 := by positivity
    have := inv_sinh_le hu0
    linarith
  · rw [hT2, ← hsu]
    have := mul_le_mul_of_nonneg_left (le_inv_sinh hu0) hpi.le
    linarith

/-! ## Two-sided pulses -/

set_option maxHeartbeats 1600000 in
/-- **A two-sided exponential** in the middle of `2c + 1` samples: the measured centre is `t0 = c`, and the duration is never larger than the one asked for, its square
at most 2π/3 smaller but for what the two ends cut off. -/
theorem C135_bilateral (c : ℕ) (s : ℝ) (hs : 0 < s) (y : Vec ℝ) (hy : amexpos ((2 * c + 1 : ℕ) : ℤ) (some c) (some s) .bilateral = .ok y) (x : Vec ℂ)
    (hl : x.len = 2 * c + 1) (hx : ∀ i < 2 * c + 1, ‖x.get i‖ = y.get i) (q : ℝ) (hq : q = Real.exp (-2 * (Real.sqrt (2 * Real.pi) / s))) :
    ∃ T : ℝ, loctime x = .ok ((c : ℝ), T) ∧ 0 ≤ T ∧ T ≤ s ∧
      s ^ 2 - T ^ 2 ≤ 2 * Real.pi / 3 + 8 * Real.pi * q ^ (c + 1) * (((c : ℝ) + 1) ^ 2 + 2 * ((c : ℝ) + 1) / (1 - q) + 2 / (1 - q) ^ 2) := by
  obtain ⟨y', e1, e2, e3, _⟩ := C07_amexpos_bilateral (2 * c + 1) (by omega) c s hs
  rw [hy] at e1
  injection e1 with e1
  subst e1
  have hpi := Real.pi_pos
  have hr : 0 < Real.sqrt (2 * Real.pi) := Real.sqrt_pos.2 (by positivity)
  have hrr : Real.sqrt (2 * Real.pi) ^ 2 = 2 * Real.pi := Real.sq_sqrt (by positivity)
  set u := Real.sqrt (2 * Real.pi) / s with hu
  have hu0 : 0 < u := by positivity
  have hq0 : 0 < q := by rw [hq]; exact Real.exp_pos _
  have hq1 : q < 1 := by rw [hq]; exact (by rw [← Real.exp_zero]; exact Real.exp_lt_exp.2 (by linarith))
  have hp : 0 < 1 - q := by linarith
  set φ : ℕ → ℝ := fun k => if k ≤ c then q ^ k else 0 with hφ
  have hmod : ∀ i < x.len, ‖x.get i‖ ^ 2 = φ ((i : ℤ) - c).natAbs := by
    intro i hi
    rw [hφ]
    dsimp only
    rw [if_pos (by omega), hx i (by omega), e3 i (by omega), ← Real.exp_nat_mul, hq, ← Real.exp_nat_mul, Nat.cast_natAbs, hu]
    congr 1
    push_cast
    ring
  have a1 : ∑ k ∈ range c, φ (k + 1) = ∑ k ∈ range (c + 1), q ^ k - 1 := by
    rw [Finset.sum_range_succ', pow_zero, add_sub_cancel_right]
    exact Finset.sum_congr rfl fun k hk => by rw [hφ]; dsimp only; rw [if_pos (by have := Finset.mem_range.1 hk; omega)]
  have a2 : ∑ k ∈ range c, ((k : ℝ) + 1) ^ 2 * φ (k + 1) = ∑ k ∈ range (c + 1), (k : ℝ) ^ 2 * q ^ k := by
    rw [Finset.sum_range_succ']
    simp only [Nat.cast_zero, ne_eq, OfNat.ofNat_ne_zero, not_false_eq_true, zero_pow, zero_mul, add_zero]
    exact Finset.sum_congr rfl fun k hk => by rw [hφ]; dsimp only; rw [if_pos (by have := Finset.mem_range.1 hk; omega)]; push_cast; rfl
  have hφ0 : φ 0 = 1 := by simp [hφ]
  have g0 := geo_zero q (c + 1)
  have g2 := geo_two q (c + 1)
  push_cast at g2
  set P := ∑ k ∈ range (c + 1), q ^ k
  set R := ∑ k ∈ range (c + 1), (k : ℝ) ^ 2 * q ^ k
  have hP1 : 1 ≤ P := by
    have := Finset.single_le_sum (f := fun k => q ^ k) (fun k _ => by positivity) (Finset.mem_range.2 (show 0 < c + 1 by omega))
    simpa using this
  have hR0 : 0 ≤ R := Finset.sum_nonneg fun _ _ => by positivity
  have hloc := C130_symmetric x c c φ le_rfl (by omega) hmod (fun k hk => by rw [hφ]; dsimp only; rw [if_neg (by omega)])
    (by rw [a1, hφ0]; exact ne_of_gt (by linarith))
  rw [a1, a2, hφ0, show (1 : ℝ) + 2 * (P - 1) = 2 * P - 1 by ring] at hloc
  have hD : 0 < 2 * P - 1 := by linarith
  have hQ0 : 0 < q ^ (c + 1) := by positivity
  set Q := q ^ (c + 1)
  set k := (c : ℝ) + 1 with hk
  have hk1 : 1 ≤ k := by have : (0 : ℝ) ≤ c := Nat.cast_nonneg c; linarith
  have hDq : (2 * P - 1) * (1 - q) = 1 + q - 2 * Q := by linarith
  -- the duration of the whole pulse
  have hfull : 8 * Real.pi * (q / (1 - q) ^ 2) = 2 * Real.pi * (1 / Real.sinh u ^ 2) := by
    rw [hq, exp_div_sinh hu0]
    have h1 : Real.sinh u ≠ 0 := (Real.sinh_pos_iff.2 hu0).ne'
    field_simp
    ring
  have hsu : 2 * Real.pi * (1 / u ^ 2) = s ^ 2 := by
    rw [hu, div_pow, hrr]; field_simp
  have hup : 2 * R / (2 * P - 1) ≤ 2 * (q / (1 - q) ^ 2) := by
    rw [div_le_iff₀ hD]
    have h3 : R * (1 - q) ^ 3 ≤ q * (1 + q - 2 * Q) := by
      rw [g2]
      have : 2 * q ≤ k ^ 2 * (1 - q) ^ 2 + 2 * k * q * (1 - q) + q * (1 + q) := by
        have h1 : 1 * (1 - q) ^ 2 ≤ k ^ 2 * (1 - q) ^ 2 := mul_le_mul_of_nonneg_right (by nlinarith) (by positivity)
        have h2 : 2 * 1 * (q * (1 - q)) ≤ 2 * k * (q * (1 - q)) := mul_le_mul_of_nonneg_right (by linarith) (by positivity)
        nlinarith
      have := mul_le_mul_of_nonneg_left this hQ0.le
      linarith
    rw [← hDq] at h3
    have h4 : R * (1 - q) ^ 2 ≤ q * (2 * P - 1) := by
      have : R * (1 - q) ^ 2 * (1 - q) ≤ q * (2 * P - 1) * (1 - q) := by linarith
      exact le_of_mul_le_mul_right this hp
    have e : 2 * (q / (1 - q) ^ 2) * (2 * P - 1) = 2 * (q * (2 * P - 1)) / (1 - q) ^ 2 := by ring
    rw [e, le_div_iff₀ (by positivity)]
    linarith
  have hlow : 2 * (q / (1 - q) ^ 2) - 2 * Q * (k ^ 2 + 2 * k / (1 - q) + 2 / (1 - q) ^ 2) ≤ 2 * R / (2 * P - 1) := by
    have hF : 2 * P - 1 ≤ (1 + q) / (1 - q) := by rw [le_div_iff₀ hp]; linarith
    refine le_trans ?_ (div_le_div_of_nonneg_left (by positivity) hD hF)
    have hR : R = (q * (1 + q) - Q * (k ^ 2 * (1 - q) ^ 2 + 2 * k * q * (1 - q) + q * (1 + q))) / (1 - q) ^ 3 := by rw [eq_div_iff (by positivity), g2]
    have e : 2 * R / ((1 + q) / (1 - q)) = 2 * (q / (1 - q) ^ 2) - 2 * Q * ((k ^ 2 + 2 * k * q / (1 - q) + q * (1 + q) / (1 - q) ^ 2) / (1 + q)) := by
      rw [hR]
      field_simp
    rw [e]
    have h1 : (k ^ 2 + 2 * k * q / (1 - q) + q * (1 + q) / (1 - q) ^ 2) / (1 + q) ≤ k ^ 2 + 2 * k / (1 - q) + 2 / (1 - q) ^ 2 := by
      refine (div_le_self (by positivity) (by linarith)).trans ?_
      have h2 : 2 * k * q / (1 - q) ≤ 2 * k / (1 - q) := div_le_div_of_nonneg_right (by nlinarith) hp.le
      have h3 : q * (1 + q) / (1 - q) ^ 2 ≤ 2 / (1 - q) ^ 2 := div_le_div_of_nonneg_right (by nlinarith) (by positivity)
      linarith
    have := mul_le_mul_of_nonneg_left h1 (by positivity : 0 ≤ 2 * Q)
    linarith
  have hT2 : (2 * Real.sqrt (Real.pi * (2 * R / (2 * P - 1)))) ^ 2 = 4 * Real.pi * (2 * R / (2 * P - 1)) := by
    rw [mul_pow, Real.sq_sqrt (by positivity)]; ring
  have hT0 : 0 ≤ 2 * Real.sqrt (Real.pi * (2 * R / (2 * P - 1))) := by positivity
  refine ⟨_, hloc, hT0, ?_, ?_⟩
  · refine (pow_le_pow_iff_left₀ hT0 hs.le two_ne_zero).1 ?_
    rw [hT2, ← hsu]
    have h1 := mul_le_mul_of_nonneg_left hup (by positivity : 0 ≤ 4 * Real.pi)
    have h2 := mul_le_mul_of_nonneg_left (inv_sinh_le hu0) (by positivity : 0 ≤ 2 * Real.pi)
    linarith
  · rw [hT2, ← hsu]
    have h1 := mul_le_mul_of_nonneg_left hlow (by positivity : 0 ≤ 4 * Real.pi)
    have h2 := mul_le_mul_of_nonneg_left (le_inv_sinh hu0) (by positivity : 0 ≤ 2 * Real.pi)
    linarith

/-- A one-sided exponential of duration 8 that begins between the samples 1 and 2 of 64: the measured duration is between 7.9 and 8. -/
example (y : Vec ℝ) (hy : amexpos 64 (some (3 / 2)) (some 8) .unilateral = .ok y) (x : Vec ℂ) (hl : x.len = 64) (hx : ∀ i < 64, ‖x.get i‖ = y.get i) :
    ∃ tm T : ℝ, loctime x = .ok (tm, T) ∧ tm ≤ 2 + 8 / (2 * Real.sqrt Real.pi) ∧ 7.9 ≤ T ∧ T ≤ 8 := by
  obtain ⟨tm, T, h1, hT0, _, _, h2, _, h3, h4⟩ := C135_unilateral 2 62 (by norm_num) (3 / 2) 8 (by norm_num) (by norm_num)
    (fun i hi => by interval_cases i <;> norm_num) y (by rw [← hy]; norm_num) x hl hx
  refine ⟨tm, T, h1, by simpa using h2, ?_, h3⟩
  have hpi := Real.pi_gt_three
  have hpi' := Real.pi_lt_d2
  have hr : 1.7 ≤ Real.sqrt Real.pi := Real.le_sqrt_of_sq_le (by norm_num; linarith)
  push_cast at h4
  have hsinh : 62 ≤ Real.sinh (Real.sqrt Real.pi / 8 * 62) * (1 / 4) := by
    have h5 : 13 ≤ Real.sqrt Real.pi / 8 * 62 := by linarith
    have h6 : Real.sinh 13 ≤ Real.sinh (Real.sqrt Real.pi / 8 * 62) := Real.sinh_le_sinh.2 h5
    have h7 : (2.7 : ℝ) ^ 13 ≤ Real.exp 13 := by
      have : Real.exp 13 = Real.exp 1 ^ 13 := by rw [← Real.exp_nat_mul]; norm_num
      rw [this]
      exact pow_le_pow_left₀ (by norm_num) (by linarith [Real.exp_one_gt_d9]) _
    have h8 : Real.exp (-13) ≤ 1 := Real.exp_le_one_iff.2 (by norm_num)
    rw [Real.sinh_eq] at h6
    norm_num at h7
    linarith
  have hs0 : 0 < Real.sinh (Real.sqrt Real.pi / 8 * 62) := by linarith
  have hsmall : (62 : ℝ) ^ 2 / Real.sinh (Real.sqrt Real.pi / 8 * 62) ^ 2 ≤ (1 / 4) ^ 2 := by
    rw [div_le_iff₀ (by positivity), ← mul_pow, mul_comm (1 / 4 : ℝ)]
    exact pow_le_pow_left₀ (by norm_num) hsinh 2
  have := mul_le_mul hpi'.le hsmall (by positivity) (by norm_num)
  by_contra hlt
  push Not at hlt
  norm_num at this h4 hlt
  nlinarith

/-- A two-sided exponential of duration 8 in 101 samples: the measured centre is 50 and the duration between 7.8 and 8. -/
example (y : Vec ℝ) (hy : amexpos 101 (some 50) (some 8) .bilateral = .ok y) (x : Vec ℂ) (hl : x.len = 101) (hx : ∀ i < 101, ‖x.get i‖ = y.get i) :
    ∃ T : ℝ, loctime x = .ok (50, T) ∧ 7.8 ≤ T ∧ T ≤ 8 := by
  obtain ⟨T, h1, hT0, h3, h4⟩ := C135_bilateral 50 8 (by norm_num) y (by rw [← hy]; norm_num) x hl hx _ rfl
  refine ⟨T, by simpa using h1, ?_, h3⟩
  have hpi := Real.pi_gt_three
  have hpi' := Real.pi_lt_d2
  have hr : 2.4 ≤ Real.sqrt (2 * Real.pi) := Real.le_sqrt_of_sq_le (by norm_num; linarith)
  set q := Real.exp (-2 * (Real.sqrt (2 * Real.pi) / 8)) with hq
  have hq0 : 0 < q := Real.exp_pos _
  have hqle : q ≤ 5 / 8 := by
    have h : q ≤ Real.exp (-0.6) := Real.exp_le_exp.2 (by linarith)
    refine h.trans ?_
    have := Real.add_one_le_exp (0.6 : ℝ)
    rw [Real.exp_neg, inv_eq_one_div, div_le_div_iff₀ (Real.exp_pos _) (by norm_num)]
    linarith
  have hp : 3 / 8 ≤ 1 - q := by linarith
  have b1 : 2 * (((50 : ℕ) : ℝ) + 1) / (1 - q) ≤ 2 * (50 + 1) / (3 / 8) := by push_cast; gcongr
  have b2 : 2 / (1 - q) ^ 2 ≤ 2 / (3 / 8) ^ 2 := by gcongr
  have b3 : q ^ (50 + 1) ≤ (5 / 8) ^ 51 := pow_le_pow_left₀ hq0.le hqle _
  have hb0 : 0 ≤ (((50 : ℕ) : ℝ) + 1) ^ 2 + 2 * (((50 : ℕ) : ℝ) + 1) / (1 - q) + 2 / (1 - q) ^ 2 := by
    have : 0 < 1 - q := by linarith
    positivity
  have hb : (((50 : ℕ) : ℝ) + 1) ^ 2 + 2 * (((50 : ℕ) : ℝ) + 1) / (1 - q) + 2 / (1 - q) ^ 2 ≤ 3000 := by
    norm_num at b1 b2 ⊢
    linarith
  have hall : 8 * Real.pi * q ^ (50 + 1) * ((((50 : ℕ) : ℝ) + 1) ^ 2 + 2 * (((50 : ℕ) : ℝ) + 1) / (1 - q) + 2 / (1 - q) ^ 2) ≤ 8 * 3.15 * (5 / 8) ^ 51 * 3000 := by
    gcongr
  have hnum : (8 : ℝ) * 3.15 * (5 / 8) ^ 51 * 3000 ≤ 1 / 100 := by norm_num
  by_contra hlt
  push Not at hlt
  norm_num at hlt
  nlinarith

end Tftb.Props
