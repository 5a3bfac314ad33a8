import Verif.Props.Gauss
import Verif.Props.Uncertainty

/-!
# C134: the measured bandwidth of a Gaussian pulse

`amgauss` (/repo/tftb/generators/amplitude_modulated.py) and `locfreq` (/repo/tftb/processing/freq_domain.py).
-/

namespace Tftb.Props

open Tftb Tftb.Spec Tftb.TF Tftb.AM Finset

/-! ## Circular sums of a sequence of real numbers -/

theorem circ_variation (r : ℕ → ℝ) (n : ℕ) (hn : n ≠ 0) :
    ∑ j ∈ range n, (r ((j + 1) % n) - r j) ^ 2 = 2 * ∑ j ∈ range n, r j ^ 2 - 2 * ∑ j ∈ range n, r ((j + 1) % n) * r j := by
  have h1 := sum_rotate 1 (fun j => r j ^ 2) (n := n)
  have e : ∀ j, (r ((j + 1) % n) - r j) ^ 2 = r ((j + 1) % n) ^ 2 + r j ^ 2 - 2 * (r ((j + 1) % n) * r j) := fun j => by ring
  rw [Finset.sum_congr rfl fun j _ => e j, Finset.sum_sub_distrib, Finset.sum_add_distrib, ← Finset.mul_sum]
  linarith

theorem circ_curvature (r : ℕ → ℝ) (n : ℕ) (hn : n ≠ 0) :
    ∑ j ∈ range n, (r ((j + 2) % n) - 2 * r ((j + 1) % n) + r j) ^ 2
      = 6 * ∑ j ∈ range n, r j ^ 2 - 8 * ∑ j ∈ range n, r ((j + 1) % n) * r j + 2 * ∑ j ∈ range n, r ((j + 2) % n) * r j := by
  have h1 := sum_rotate 1 (fun j => r j ^ 2) (n := n)
  have h2 := sum_rotate 2 (fun j => r j ^ 2) (n := n)
  have h3 := sum_rotate 1 (fun j => r ((j + 1) % n) * r j) (n := n)
  have h4 : ∑ j ∈ range n, r ((j + 2) % n) * r ((j + 1) % n) = ∑ j ∈ range n, r ((j + 1) % n) * r j := by
    rw [← h3]
    refine Finset.sum_congr rfl fun j _ => ?_
    rw [Nat.mod_add_mod]
  have e : ∀ j, (r ((j + 2) % n) - 2 * r ((j + 1) % n) + r j) ^ 2 = r ((j + 2) % n) ^ 2 + 4 * r ((j + 1) % n) ^ 2 + r j ^ 2
      - 4 * (r ((j + 2) % n) * r ((j + 1) % n)) - 4 * (r ((j + 1) % n) * r j) + 2 * (r ((j + 2) % n) * r j) := fun j => by ring
  rw [Finset.sum_congr rfl fun j _ => e j, Finset.sum_add_distrib, Finset.sum_sub_distrib, Finset.sum_sub_distrib, Finset.sum_add_distrib,
    Finset.sum_add_distrib, ← Finset.mul_sum, ← Finset.mul_sum, ← Finset.mul_sum, ← Finset.mul_sum, h4]
  linarith

theorem circ_one (r : ℕ → ℝ) (m : ℕ) :
    ∑ j ∈ range (m + 2), r ((j + 1) % (m + 2)) * r j = ∑ j ∈ range (m + 1), r (j + 1) * r j + r 0 * r (m + 1) := by
  rw [Finset.sum_range_succ, show m + 1 + 1 = m + 2 from rfl, Nat.mod_self]
  congr 1
  refine Finset.sum_congr rfl fun j hj => ?_
  have := Finset.mem_range.1 hj
  rw [Nat.mod_eq_of_lt (by omega)]

theorem circ_two (r : ℕ → ℝ) (m : ℕ) :
    ∑ j ∈ range (m + 2), r ((j + 2) % (m + 2)) * r j = ∑ j ∈ range m, r (j + 2) * r j + r 0 * r m + r 1 * r (m + 1) := by
  rw [Finset.sum_range_succ, Finset.sum_range_succ, Nat.mod_self, show m + 1 + 2 = 1 + (m + 2) by ring, Nat.add_mod_right,
    Nat.mod_eq_of_lt (by omega : 1 < m + 2)]
  congr 2
  refine Finset.sum_congr rfl fun j hj => ?_
  have := Finset.mem_range.1 hj
  rw [Nat.mod_eq_of_lt (by omega)]

/-! ## Non-negative signals -/

/-- **Non-negative samples** (up to a common complex factor): the bandwidth itself, without the term of the mean frequency, is at least the relative
variation. -/
theorem C134_nonneg (x : Vec ℂ) (hN : x.len % 4 ≠ 1) (hx : energy x ≠ 0) (A : ℂ) (r : ℕ → ℝ) (hr : ∀ j < x.len, 0 ≤ r j ∧ x.get j = A * r j) :
    ∃ fm B, locfreq x = .ok (fm, B) ∧ variation x 0 ≤ Real.pi * B ^ 2 * energy x := by
  have hn : x.len ≠ 0 := by
    intro h; apply hx; unfold energy; rw [h]; simp
  refine ⟨_, _, C45_locfreq x hN hx, ?_⟩
  have hW : 0 ≤ wvar x.len (binFreq x.len) (fun k => ‖dft x k‖ ^ 2) :=
    div_nonneg (Finset.sum_nonneg fun i _ => by positivity) (Finset.sum_nonneg fun i _ => by positivity)
  have hD := variation_le hx
  have hπ := Real.pi_pos
  rw [mul_pow, Real.sq_sqrt (by positivity)]
  refine le_trans ?_ (hD.trans (le_of_eq (by ring)))
  unfold variation
  refine Finset.sum_le_sum fun j hj => ?_
  have hj := Finset.mem_range.1 hj
  obtain ⟨a1, a2⟩ := hr j hj
  obtain ⟨b1, b2⟩ := hr ((j + 1) % x.len) (Nat.mod_lt _ (Nat.pos_of_ne_zero hn))
  refine pow_le_pow_left₀ (norm_nonneg _) ?_ 2
  set e := expi (2 * Real.pi * wmean x.len (binFreq x.len) fun k => ‖dft x k‖ ^ 2)
  have h1 := abs_norm_sub_norm_le (x.get ((j + 1) % x.len)) (e * x.get j)
  rw [norm_mul, norm_expi, one_mul] at h1
  refine le_trans (le_of_eq ?_) h1
  have e0 : expi (2 * Real.pi * 0) = 1 := by simp [expi]
  rw [e0, one_mul, a2, b2, norm_mul, norm_mul, Complex.norm_real, Complex.norm_real, Real.norm_of_nonneg a1, Real.norm_of_nonneg b1,
    ← mul_sub, ← mul_sub, norm_mul, abs_mul, abs_of_nonneg (norm_nonneg A), ← Complex.ofReal_sub, Complex.norm_real, Real.norm_eq_abs]

/-! ## Gaussian samples -/

/-- The error of `C132_energy`: how far the energy of a sampled Gaussian can be from `s / √2`. -/
noncomputable def gaussError (n t0 s : ℝ) : ℝ :=
  Real.sqrt 2 * s * (Real.exp (-Real.pi * s ^ 2 / 2) / (1 - Real.exp (-Real.pi * s ^ 2)))
    + Real.exp (-2 * Real.pi * (t0 / s) ^ 2) / (1 - Real.exp (-4 * Real.pi * t0 / s ^ 2))
    + Real.exp (-2 * Real.pi * ((n + 1 - t0) / s) ^ 2) / (1 - Real.exp (-4 * Real.pi * (n + 1 - t0) / s ^ 2))

theorem gauss_sum_sq (n : ℕ) (hn : 1 ≤ n) (t0 s : ℝ) (hs : 0 < s) (h0 : 0 < t0) (h1 : t0 < n + 1) :
    |∑ j ∈ range n, Real.exp (-(2 * (Real.pi / s ^ 2)) * ((j : ℝ) + 1 - t0) ^ 2) - s / Real.sqrt 2| ≤ gaussError n t0 s := by
  obtain ⟨y, e1, e2, e3, -⟩ := C07_amgauss n hn t0 s hs
  have := C132_energy n t0 s hs h0 h1 y e1 ⟨n, fun i => (y.get i : ℂ)⟩ rfl (fun i hi => by
    simp only
    rw [Complex.norm_real, Real.norm_of_nonneg (by rw [e3 i hi]; positivity)])
  refine le_trans (le_of_eq ?_) this
  congr 2
  unfold energy
  refine Finset.sum_congr rfl fun j hj => ?_
  simp only
  rw [Complex.norm_real, Real.norm_eq_abs, sq_abs, e3 j (Finset.mem_range.1 hj), ← Real.exp_nat_mul]
  congr 1
  push_cast
  field_simp

theorem exp_neg_le {u : ℝ} (hu : 0 ≤ u) : Real.exp (-u) ≤ 1 - u + u ^ 2 / 2 := by
  have h := Real.quadratic_le_exp_of_nonneg hu
  have h0 : 0 < 1 + u + u ^ 2 / 2 := by positivity
  rw [Real.exp_neg]
  have h1 : (Real.exp u)⁻¹ ≤ (1 + u + u ^ 2 / 2)⁻¹ := inv_anti₀ h0 h
  refine h1.trans ?_
  rw [inv_le_iff_one_le_mul₀ h0]
  nlinarith [sq_nonneg (u ^ 2)]

theorem prod_gauss_le {a d e m : ℝ} (ha : 0 ≤ a) (h : m ^ 2 ≤ (e - d) ^ 2) :
    Real.exp (-a * d ^ 2) * Real.exp (-a * e ^ 2) ≤ Real.exp (-(a * m ^ 2 / 2)) := by
  rw [← Real.exp_add]
  apply Real.exp_le_exp.2
  have : m ^ 2 / 2 ≤ d ^ 2 + e ^ 2 := by nlinarith [sq_nonneg (d + e)]
  nlinarith [mul_le_mul_of_nonneg_left this ha]

theorem band_arith {S H q a G W w1 w2 w3 R : ℝ} (hS0 : 0 < S) (hq0 : 0 < q) (hq1 : q ≤ 1) (hqa : 1 - q ≤ a / 2) (hqb : a / 2 - a ^ 2 / 8 ≤ 1 - q)
    (hSH : |S - H| ≤ G) (hw1 : w1 ≤ W) (hw1' : 0 ≤ w1) (hw2 : w2 ≤ W) (hw3 : w3 ≤ W) (hR : R ≤ q ^ 4 * S) :
    2 * S - 2 * (q * H + w1) ≤ a * S + 2 * G ∧ (a - a ^ 2 / 4) * S - 2 * G - 2 * W ≤ 2 * S - 2 * (q * H + w1) ∧
      6 * S - 8 * (q * H + w1) + 2 * (R + w2 + w3) ≤ 3 * a ^ 2 * S + 8 * G + 4 * W := by
  have hqG : |q * (S - H)| ≤ G := by
    rw [abs_mul, abs_of_pos hq0]
    nlinarith [abs_nonneg (S - H)]
  obtain ⟨hq2, hq3⟩ := abs_le.1 hqG
  have p1 := mul_le_mul_of_nonneg_right hqa hS0.le
  have p2 := mul_le_mul_of_nonneg_right hqb hS0.le
  have p3 : (6 - 8 * q + 2 * q ^ 4) * S ≤ 3 * a ^ 2 * S := by
    refine mul_le_mul_of_nonneg_right ?_ hS0.le
    have f1 : 6 - 8 * q + 2 * q ^ 4 = 2 * (1 - q) ^ 2 * (3 + 2 * q + q ^ 2) := by ring
    have f2 : (1 - q) ^ 2 ≤ (a / 2) ^ 2 := pow_le_pow_left₀ (by linarith) hqa 2
    have f3 : 3 + 2 * q + q ^ 2 ≤ 6 := by nlinarith
    have f4 : 0 ≤ 3 + 2 * q + q ^ 2 := by positivity
    rw [f1]
    calc 2 * (1 - q) ^ 2 * (3 + 2 * q + q ^ 2) ≤ 2 * (a / 2) ^ 2 * 6 := mul_le_mul (by linarith) f3 f4 (by positivity)
      _ = 3 * a ^ 2 := by ring
  refine ⟨?_, ?_, ?_⟩ <;> linarith

theorem band_final {S B2 s a G W V K : ℝ} (hS0 : 0 < S) (hs : 0 < s) (ha : a = Real.pi / s ^ 2) (hG0 : 0 ≤ G) (hW0 : 0 < W) (v1 : V ≤ a * S + 2 * G)
    (v2 : (a - a ^ 2 / 4) * S - 2 * G - 2 * W ≤ V) (k1 : K ≤ 3 * a ^ 2 * S + 8 * G + 4 * W) (l1 : V ≤ Real.pi * B2 * S)
    (u1 : B2 * S ≤ V / Real.pi + Real.pi ^ 3 / 192 * K) : |B2 - 1 / s ^ 2| ≤ 5 / s ^ 4 + (2 * G + W) / S := by
  have hπ := Real.pi_pos
  have pi1 : Real.pi < 3.1416 := Real.pi_lt_d4
  have pi2 : 3.14 < Real.pi := Real.pi_gt_d2
  have pi3 : Real.pi ^ 3 ≤ 31.0065 := by
    calc Real.pi ^ 3 ≤ 3.1416 ^ 3 := pow_le_pow_left₀ hπ.le pi1.le 3
      _ ≤ 31.0065 := by norm_num
  have pi5 : Real.pi ^ 5 ≤ 320 := by
    calc Real.pi ^ 5 ≤ 3.1416 ^ 5 := pow_le_pow_left₀ hπ.le pi1.le 5
      _ ≤ 320 := by norm_num
  have hinv : 1 / Real.pi ≤ 0.32 := by rw [div_le_iff₀ hπ]; linarith
  have hinv0 : 0 < 1 / Real.pi := by positivity
  have has : a / Real.pi = 1 / s ^ 2 := by rw [ha]; field_simp
  have ha2 : a ^ 2 = Real.pi ^ 2 * (1 / s ^ 4) := by rw [ha]; field_simp
  have hs4 : 0 < 1 / s ^ 4 := by positivity
  have key : |B2 - 1 / s ^ 2| * S ≤ 5 / s ^ 4 * S + (2 * G + W) := by
    rw [← abs_of_pos hS0, ← abs_mul, abs_of_pos hS0, abs_le, show (5 : ℝ) / s ^ 4 = 5 * (1 / s ^ 4) by ring]
    constructor
    · have l2 : ((a - a ^ 2 / 4) * S - 2 * G - 2 * W) * (1 / Real.pi) ≤ B2 * S := by
        have := mul_le_mul_of_nonneg_right (v2.trans l1) hinv0.le
        refine this.trans (le_of_eq ?_)
        field_simp
      have e : ((a - a ^ 2 / 4) * S - 2 * G - 2 * W) * (1 / Real.pi) = 1 / s ^ 2 * S - Real.pi / 4 * (1 / s ^ 4) * S - (2 * G + 2 * W) * (1 / Real.pi) := by
        rw [← has, ha2]
        field_simp
        ring
      rw [e] at l2
      have f1 : Real.pi / 4 * (1 / s ^ 4) * S ≤ 5 * (1 / s ^ 4) * S := by
        have : 0 ≤ 1 / s ^ 4 * S := by positivity
        nlinarith
      have f2 : (2 * G + 2 * W) * (1 / Real.pi) ≤ 2 * G + W := by nlinarith
      linarith
    · have u2 : B2 * S ≤ (a * S + 2 * G) * (1 / Real.pi) + Real.pi ^ 3 / 192 * (3 * a ^ 2 * S + 8 * G + 4 * W) := by
        refine u1.trans (add_le_add ?_ (mul_le_mul_of_nonneg_left k1 (by positivity)))
        rw [div_eq_mul_one_div]
        exact mul_le_mul_of_nonneg_right v1 hinv0.le
      have e : (a * S + 2 * G) * (1 / Real.pi) + Real.pi ^ 3 / 192 * (3 * a ^ 2 * S + 8 * G + 4 * W)
          = 1 / s ^ 2 * S + Real.pi ^ 5 / 64 * (1 / s ^ 4 * S) + (2 * (1 / Real.pi) + Real.pi ^ 3 / 24) * G + Real.pi ^ 3 / 48 * W := by
        rw [← has, ha2]
        field_simp
        ring
      rw [e] at u2
      have f1 : Real.pi ^ 5 / 64 * (1 / s ^ 4 * S) ≤ 5 * (1 / s ^ 4 * S) := by
        have : 0 ≤ 1 / s ^ 4 * S := by positivity
        nlinarith
      have f2 : (2 * (1 / Real.pi) + Real.pi ^ 3 / 24) * G ≤ 2 * G := by nlinarith
      have f3 : Real.pi ^ 3 / 48 * W ≤ W := by nlinarith
      linarith
  have := div_le_div_of_nonneg_right key hS0.le
  rw [mul_div_assoc, div_self hS0.ne', mul_one, add_div, mul_div_assoc, div_self hS0.ne', mul_one] at this
  exact this

set_option maxHeartbeats 800000 in
/-- **Bandwidth of a Gaussian pulse.**  The squared bandwidth that `locfreq` measures for `amgauss(n, t0, s)`, `n` even, is `1/s²` up to `5/s⁴`, plus
the (relative) errors of sampling and of what the two ends cut off. -/
theorem C134_bandwidth (n : ℕ) (h2 : 2 ∣ n) (hn : 2 ≤ n) (t0 s : ℝ) (hs : 0 < s) (h0 : 1 / 2 < t0) (h1 : t0 < n + 1 / 2) (y : Vec ℝ)
    (hy : amgauss n (some t0) (some s) = .ok y) (x : Vec ℂ) (hl : x.len = n) (A : ℂ) (hA : A ≠ 0) (hx : ∀ i < n, x.get i = A * y.get i) :
    ∃ fm B, locfreq x = .ok (fm, B) ∧ 0 ≤ B ∧ |B ^ 2 - 1 / s ^ 2| ≤ 5 / s ^ 4
      + (2 * (gaussError n t0 s + gaussError (n - 1) (t0 - 1 / 2) s) + Real.exp (-Real.pi * ((n - 2) / s) ^ 2 / 2)) / ∑ i ∈ range n, y.get i ^ 2 := by
  obtain ⟨y', e1, e2, e3, -⟩ := C07_amgauss n (by omega) t0 s hs
  rw [hy] at e1
  injection e1 with e1
  subst e1
  have hπ := Real.pi_pos
  obtain ⟨m, rfl⟩ : ∃ m, n = m + 2 := ⟨n - 2, by omega⟩
  set a : ℝ := Real.pi / s ^ 2 with ha
  have ha0 : 0 < a := by positivity
  set r : ℕ → ℝ := fun j => Real.exp (-a * ((j : ℝ) + 1 - t0) ^ 2) with hr
  have hr0 : ∀ j, 0 < r j := fun j => Real.exp_pos _
  have hyr : ∀ j < m + 2, y.get j = r j := by
    intro j hj
    rw [e3 j hj]
    simp only [hr]
    congr 1
    rw [ha]
    field_simp
  have hxr : ∀ j < m + 2, x.get j = A * (r j : ℂ) := fun j hj => by rw [hx j hj, hyr j hj]
  have hsum : ∑ i ∈ range (m + 2), y.get i ^ 2 = ∑ j ∈ range (m + 2), r j ^ 2 :=
    Finset.sum_congr rfl fun j hj => by rw [hyr j (Finset.mem_range.1 hj)]
  rw [hsum]
  set S := ∑ j ∈ range (m + 2), r j ^ 2 with hS
  have hS0 : 0 < S := Finset.sum_pos (fun j _ => by have := hr0 j; positivity) ⟨0, Finset.mem_range.2 (by omega)⟩
  have hA0 : 0 < ‖A‖ ^ 2 := by have := norm_pos_iff.2 hA; positivity
  have hE : energy x = ‖A‖ ^ 2 * S := by
    unfold energy
    rw [hl, hS, Finset.mul_sum]
    refine Finset.sum_congr rfl fun j hj => ?_
    rw [hxr j (Finset.mem_range.1 hj), norm_mul, Complex.norm_real, Real.norm_eq_abs, mul_pow, sq_abs]
  have hE0 : energy x ≠ 0 := by rw [hE]; positivity
  have hmod : ∀ k, k % (m + 2) < m + 2 := fun k => Nat.mod_lt _ (by omega)
  have hV : variation x 0 = ‖A‖ ^ 2 * ∑ j ∈ range (m + 2), (r ((j + 1) % (m + 2)) - r j) ^ 2 := by
    unfold variation
    rw [hl, Finset.mul_sum]
    refine Finset.sum_congr rfl fun j hj => ?_
    have e0 : expi (2 * Real.pi * 0) = 1 := by simp [expi]
    rw [hxr j (Finset.mem_range.1 hj), hxr _ (hmod _), e0, one_mul, ← mul_sub, norm_mul, mul_pow, ← Complex.ofReal_sub, Complex.norm_real,
      Real.norm_eq_abs, sq_abs]
  have hK : curvature x = ‖A‖ ^ 2 * ∑ j ∈ range (m + 2), (r ((j + 2) % (m + 2)) - 2 * r ((j + 1) % (m + 2)) + r j) ^ 2 := by
    unfold curvature
    rw [hl, Finset.mul_sum]
    refine Finset.sum_congr rfl fun j hj => ?_
    rw [hxr j (Finset.mem_range.1 hj), hxr _ (hmod _), hxr _ (hmod _),
      show A * (r ((j + 2) % (m + 2)) : ℂ) - 2 * (A * (r ((j + 1) % (m + 2)) : ℂ)) + A * (r j : ℂ)
        = A * ((r ((j + 2) % (m + 2)) - 2 * r ((j + 1) % (m + 2)) + r j : ℝ) : ℂ) by push_cast; ring,
      norm_mul, mul_pow, Complex.norm_real, Real.norm_eq_abs, sq_abs]
  rw [circ_variation r (m + 2) (by omega), ← hS] at hV
  rw [circ_curvature r (m + 2) (by omega), ← hS] at hK
  obtain ⟨fm, B, hB, -, -, hup⟩ := C133_variation x (by rw [hl]; exact h2) hE0
  obtain ⟨fm', B', hB', hlow⟩ := C134_nonneg x (by rw [hl]; omega) hE0 A r (fun j hj => by rw [hl] at hj; exact ⟨(hr0 j).le, hxr j hj⟩)
  rw [hB] at hB'
  injection hB' with hB'
  rw [Prod.mk.injEq] at hB'
  obtain ⟨rfl, rfl⟩ := hB'
  have hBnn : 0 ≤ B := by
    have := C45_locfreq x (by rw [hl]; omega) hE0
    rw [hB] at this
    injection this with this
    rw [Prod.mk.injEq] at this
    rw [this.2]
    positivity
  refine ⟨fm, B, hB, hBnn, ?_⟩
  -- correlations
  set q : ℝ := Real.exp (-(a / 2)) with hq
  have hq0 : 0 < q := Real.exp_pos _
  have hq1 : q ≤ 1 := by rw [hq]; exact Real.exp_le_one_iff.2 (by linarith)
  have hqa : 1 - q ≤ a / 2 := by have := Real.add_one_le_exp (-(a / 2)); linarith
  have hqb : a / 2 - a ^ 2 / 8 ≤ 1 - q := by have := exp_neg_le (u := a / 2) (by positivity); nlinarith
  set H := ∑ j ∈ range (m + 1), Real.exp (-(2 * a) * ((j : ℝ) + 1 - (t0 - 1 / 2)) ^ 2) with hH
  set W := Real.exp (-(a * (m : ℝ) ^ 2 / 2)) with hW
  have hm0 : (0 : ℝ) ≤ m := Nat.cast_nonneg m
  have hrr : ∑ j ∈ range (m + 1), r (j + 1) * r j = q * H := by
    rw [hH, Finset.mul_sum]
    refine Finset.sum_congr rfl fun j _ => ?_
    simp only [hr, hq]
    rw [← Real.exp_add, ← Real.exp_add]
    congr 1
    push_cast
    ring
  have hr2 : ∑ j ∈ range m, r (j + 2) * r j ≤ q ^ 4 * S := by
    have e : ∀ j, r (j + 2) * r j = q ^ 4 * r (j + 1) ^ 2 := by
      intro j
      simp only [hr, hq]
      rw [← Real.exp_add, ← Real.exp_nat_mul, ← Real.exp_nat_mul, ← Real.exp_add]
      congr 1
      push_cast
      ring
    rw [Finset.sum_congr rfl fun j _ => e j, ← Finset.mul_sum]
    refine mul_le_mul_of_nonneg_left ?_ (by positivity)
    rw [hS, Finset.sum_range_succ, Finset.sum_range_succ']
    have h3 := sq_nonneg (r 0)
    have h4 := sq_nonneg (r (m + 1))
    linarith
  have w1 : r 0 * r (m + 1) ≤ W := by
    refine prod_gauss_le ha0.le ?_
    push_cast
    nlinarith
  have w2 : r 0 * r m ≤ W := by
    refine prod_gauss_le ha0.le ?_
    push_cast
    nlinarith
  have w3 : r 1 * r (m + 1) ≤ W := by
    refine prod_gauss_le ha0.le ?_
    push_cast
    nlinarith
  have w1' : 0 ≤ r 0 * r (m + 1) := (mul_pos (hr0 _) (hr0 _)).le
  have hC1 := circ_one r m
  have hC2 := circ_two r m
  rw [hrr] at hC1
  set C1 := ∑ j ∈ range (m + 2), r ((j + 1) % (m + 2)) * r j
  set C2 := ∑ j ∈ range (m + 2), r ((j + 2) % (m + 2)) * r j
  -- the two sums
  have hSg : |S - s / Real.sqrt 2| ≤ gaussError ((m + 2 : ℕ) : ℝ) t0 s := by
    have := gauss_sum_sq (m + 2) (by omega) t0 s hs (by linarith) (by linarith)
    refine le_trans (le_of_eq ?_) this
    congr 2
    refine Finset.sum_congr rfl fun j _ => ?_
    simp only [hr]
    rw [← Real.exp_nat_mul]
    congr 1
    push_cast
    ring
  have hHg : |H - s / Real.sqrt 2| ≤ gaussError (((m + 2 : ℕ) : ℝ) - 1) (t0 - 1 / 2) s := by
    have := gauss_sum_sq (m + 1) (by omega) (t0 - 1 / 2) s hs (by linarith) (by push_cast at h1 ⊢; linarith)
    rw [show ((m + 2 : ℕ) : ℝ) - 1 = ((m + 1 : ℕ) : ℝ) by push_cast; ring]
    exact this
  set G := gaussError ((m + 2 : ℕ) : ℝ) t0 s + gaussError (((m + 2 : ℕ) : ℝ) - 1) (t0 - 1 / 2) s with hG
  have hSH : |S - H| ≤ G := by
    have := abs_sub_le S (s / Real.sqrt 2) H
    rw [abs_sub_comm (s / Real.sqrt 2) H] at this
    linarith
  have hG0 : 0 ≤ G := (abs_nonneg _).trans hSH
  have hWeq : Real.exp (-Real.pi * ((((m + 2 : ℕ) : ℝ) - 2) / s) ^ 2 / 2) = W := by
    rw [hW, ha]
    congr 1
    push_cast
    field_simp
    ring
  rw [hWeq]
  have hW0 : 0 < W := Real.exp_pos _
  obtain ⟨v1, v2, k1⟩ := band_arith hS0 hq0 hq1 hqa hqb hSH w1 w1' w2 w3 hr2
  rw [← hC1] at v1 v2 k1
  rw [← hC2] at k1
  -- conclusion
  rw [hE, hV] at hlow
  rw [hE, hV, hK] at hup
  have l1 : 2 * S - 2 * C1 ≤ Real.pi * B ^ 2 * S := by
    refine le_of_mul_le_mul_left ?_ hA0
    linarith
  have u1 : B ^ 2 * S ≤ (2 * S - 2 * C1) / Real.pi + Real.pi ^ 3 / 192 * (6 * S - 8 * C1 + 2 * C2) := by
    refine le_of_mul_le_mul_left ?_ hA0
    have : 0 ≤ 4 * Real.pi * fm ^ 2 * (‖A‖ ^ 2 * S) := by positivity
    calc ‖A‖ ^ 2 * (B ^ 2 * S) ≤ (B ^ 2 + 4 * Real.pi * fm ^ 2) * (‖A‖ ^ 2 * S) := by linarith
      _ ≤ _ := hup
      _ = _ := by ring
  exact band_final hS0 hs ha hG0 hW0 v1 v2 k1 l1 u1

/-- A pulse of spread 8 in the middle of 64 samples. -/
example : ∃ y fm B, amgauss (64 : ℕ) (some 32) (some 8) = .ok y ∧ locfreq ⟨64, fun i => 2 * (y.get i : ℂ)⟩ = .ok (fm, B) ∧
    |B ^ 2 - 1 / 8 ^ 2| ≤ 5 / 8 ^ 4 + (2 * (gaussError (64 : ℕ) 32 8 + gaussError ((64 : ℕ) - 1) (32 - 1 / 2) 8)
      + Real.exp (-Real.pi * (((64 : ℕ) - 2) / 8) ^ 2 / 2)) / ∑ i ∈ range 64, y.get i ^ 2 := by
  obtain ⟨y, e1, -, -, -⟩ := C07_amgauss 64 (by norm_num) 32 8 (by norm_num)
  obtain ⟨fm, B, h1, -, h2⟩ := C134_bandwidth 64 (by norm_num) (by norm_num) 32 8 (by norm_num) (by norm_num) (by norm_num) y e1
    ⟨64, fun i => 2 * (y.get i : ℂ)⟩ rfl 2 two_ne_zero fun i _ => rfl
  exact ⟨y, fm, B, e1, h1, h2⟩

end Tftb.Props
