import Verif.Model.AffineClass
import Verif.Lemmas.Array
import Mathlib.Analysis.Convex.SpecificFunctions.Basic

/-! # Dilation functions of the affine class: `lambdak`, `umaxdfla_solve` (C66, C67) -/

namespace Tftb.Props

open Tftb AffDist

/-! ## C66 -/

/-- Bertrand: `u / (1 - e^{-u})`, and 1 at the origin. -/
theorem C66_bertrand (u : ℝ) : lambdak u "bertrand" = .ok (if u = 0 then 1 else u / (1 - Real.exp (-u))) := by
  unfold lambdak methodLookup
  simp only [↓reduceIte, ok_bind]
  rw [if_neg (by simp), if_neg (by simp)]
  by_cases h : u = 0
  · rw [if_pos h, if_pos h]
  · rw [if_neg h, if_neg h]
    congr 1
    rw [← neg_sub, div_neg, ← neg_div, neg_neg]

/-- Unterberger: `e^{u/2}`, undefined (NaN) at the origin. -/
theorem C66_unterberger (u : ℝ) : lambdak u "unterberger" = if u = 0 then .error .nonFinite else .ok (Real.exp (u / 2)) := by
  unfold lambdak methodLookup
  rw [if_neg (by decide), if_pos rfl]
  simp only [ok_bind]
  rw [if_pos (by norm_num)]
  by_cases h : u = 0
  · rw [if_pos h, if_pos (by simp [h])]
  · have h1 : Real.exp u - 1 ≠ 0 := by rw [sub_ne_zero]; simpa using h
    have e : -1 * (Real.exp (-u) - 1) / (Real.exp (-(-1) * u) - 1) = Real.exp (-u) := by
      rw [neg_neg, one_mul, div_eq_iff h1, mul_sub (Real.exp (-u)), ← Real.exp_add]
      simp
    rw [if_neg h, if_neg (by simpa using h1), e, if_neg (not_le.2 (Real.exp_pos _)), ← Real.exp_mul]
    congr 2
    norm_num
    ring

/-- D-Flandrin: `4 / (1 + e^{-u/2})²`, undefined (NaN) at the origin. -/
theorem C66_flandrin (u : ℝ) :
    lambdak u "d_flandrin" = if u = 0 then .error .nonFinite else .ok (4 / (1 + Real.exp (-(u / 2))) ^ 2) := by
  unfold lambdak methodLookup
  rw [if_neg (by decide), if_neg (by decide), if_pos rfl]
  simp only [ok_bind]
  rw [if_pos (by norm_num)]
  by_cases h : u = 0
  · rw [if_pos h, if_pos (by simp [h])]
  · set w := Real.exp (-(u / 2)) with hw
    have hw0 : 0 < w := Real.exp_pos _
    have e0 : Real.exp (-0.5 * u) = w := by rw [hw]; congr 1; norm_num; ring
    have h1 : w - 1 ≠ 0 := by rw [sub_ne_zero, hw]; simpa using h
    have e1 : Real.exp (-u) = w ^ 2 := by rw [hw, ← Real.exp_nat_mul]; congr 1; push_cast; ring
    have e : 0.5 * (w ^ 2 - 1) / (w - 1) = (1 + w) / 2 := by field_simp; ring
    rw [if_neg h, e0, e1, if_neg h1, e, if_neg (by linarith), show (1 : ℝ) / (0.5 - 1) = -2 by norm_num, Real.rpow_neg (by linarith),
      Real.rpow_two]
    congr 1
    field_simp
    norm_num

/-- Active Pseudo-Wigner: `2 / (1 + e^{-u})`, undefined (NaN) at the origin. -/
theorem C66_aspwv (u : ℝ) : lambdak u "aspwv" = if u = 0 then .error .nonFinite else .ok (2 / (1 + Real.exp (-u))) := by
  unfold lambdak methodLookup
  rw [if_neg (by decide), if_neg (by decide), if_neg (by decide), if_pos rfl]
  simp only [ok_bind]
  rw [if_pos (by norm_num)]
  by_cases h : u = 0
  · rw [if_pos h, if_pos (by simp [h])]
  · set w := Real.exp (-u) with hw
    have hw0 : 0 < w := Real.exp_pos _
    have e0 : Real.exp (-2 * u) = w ^ 2 := by rw [hw, ← Real.exp_nat_mul]; congr 1; push_cast; ring
    have h1 : w - 1 ≠ 0 := by rw [sub_ne_zero, hw]; simpa using h
    have h2 : w ^ 2 - 1 ≠ 0 := by
      rw [show w ^ 2 - 1 = (w - 1) * (w + 1) by ring]
      exact mul_ne_zero h1 (by linarith)
    have e : 2 * (w - 1) / (w ^ 2 - 1) = 2 / (1 + w) := by
      rw [div_eq_div_iff h2 (by linarith)]; ring
    rw [if_neg h, e0, if_neg h2, e, if_neg (not_le.2 (by positivity)), show (1 : ℝ) / (2 - 1) = 1 by norm_num, Real.rpow_one]

/-- Any other name raises `KeyError`. -/
theorem C66_unknown (u : ℝ) (k : String) (h1 : k ≠ "bertrand") (h2 : k ≠ "unterberger") (h3 : k ≠ "d_flandrin") (h4 : k ≠ "aspwv") :
    lambdak u k = .error .keyError := by
  unfold lambdak methodLookup
  rw [if_neg h1, if_neg h2, if_neg h3, if_neg h4]
  rfl

/-- The four names, with the value away from the origin. -/
theorem lambdak_cases {u : ℝ} {k : String} {y : ℝ} (h : lambdak u k = .ok y) :
    (k = "bertrand" ∧ y = if u = 0 then 1 else u / (1 - Real.exp (-u))) ∨ (k = "unterberger" ∧ u ≠ 0 ∧ y = Real.exp (u / 2)) ∨
    (k = "d_flandrin" ∧ u ≠ 0 ∧ y = 4 / (1 + Real.exp (-(u / 2))) ^ 2) ∨ (k = "aspwv" ∧ u ≠ 0 ∧ y = 2 / (1 + Real.exp (-u))) := by
  by_cases h1 : k = "bertrand"
  · subst h1; rw [C66_bertrand] at h; cases h; exact Or.inl ⟨rfl, rfl⟩
  by_cases h2 : k = "unterberger"
  · subst h2
    rw [C66_unterberger] at h
    by_cases hu : u = 0
    · rw [if_pos hu] at h; cases h
    · rw [if_neg hu] at h; cases h; exact Or.inr (Or.inl ⟨rfl, hu, rfl⟩)
  by_cases h3 : k = "d_flandrin"
  · subst h3
    rw [C66_flandrin] at h
    by_cases hu : u = 0
    · rw [if_pos hu] at h; cases h
    · rw [if_neg hu] at h; cases h; exact Or.inr (Or.inr (Or.inl ⟨rfl, hu, rfl⟩))
  by_cases h4 : k = "aspwv"
  · subst h4
    rw [C66_aspwv] at h
    by_cases hu : u = 0
    · rw [if_pos hu] at h; cases h
    · rw [if_neg hu] at h; cases h; exact Or.inr (Or.inr (Or.inr ⟨rfl, hu, rfl⟩))
  · rw [C66_unknown u k h1 h2 h3 h4] at h; cases h

/-- **Reflection**: the two dilations applied to a pair of spectra differ by the factor `e^u`: `λ(-u) = e^{-u} λ(u)`. -/
theorem C66_reflection (u : ℝ) (k : String) (y : ℝ) (h : lambdak u k = .ok y) : lambdak (-u) k = .ok (Real.exp (-u) * y) := by
  have hE := Real.exp_pos u
  have hi : Real.exp (-u) = (Real.exp u)⁻¹ := Real.exp_neg u
  rcases lambdak_cases h with ⟨rfl, rfl⟩ | ⟨rfl, hu, rfl⟩ | ⟨rfl, hu, rfl⟩ | ⟨rfl, hu, rfl⟩
  · rw [C66_bertrand]
    by_cases hu : u = 0
    · simp [hu]
    · rw [if_neg (by simpa using hu), if_neg hu, neg_neg, hi]
      have h1 : 1 - Real.exp u ≠ 0 := by rw [sub_ne_zero]; exact fun h => hu (by simpa using h.symm)
      have h2 : 1 - (Real.exp u)⁻¹ ≠ 0 := by rw [← hi, sub_ne_zero]; exact fun h => hu (by simpa using h.symm)
      congr 1
      rw [← mul_div_assoc, div_eq_div_iff h1 h2]
      field_simp
      ring
  · rw [C66_unterberger, if_neg (by simpa using hu), ← Real.exp_add]
    congr 2; ring
  · rw [C66_flandrin, if_neg (by simpa using hu)]
    have e1 : Real.exp (-(-u / 2)) = Real.exp (u / 2) := by congr 1; ring
    have e2 : Real.exp (-(u / 2)) = (Real.exp (u / 2))⁻¹ := Real.exp_neg _
    have e3 : Real.exp (-u) = ((Real.exp (u / 2)) ^ 2)⁻¹ := by rw [hi, ← Real.exp_nat_mul]; congr 2; push_cast; ring
    have hw := Real.exp_pos (u / 2)
    rw [e1, e2, e3]
    congr 1
    field_simp
    ring
  · rw [C66_aspwv, if_neg (by simpa using hu), neg_neg, hi]
    congr 1
    field_simp
    ring

/-- **Positivity and growth**: wherever defined, `λ` is positive and strictly increasing. -/
theorem C66_monotone (k : String) (u v y z : ℝ) (hu : lambdak u k = .ok y) (hv : lambdak v k = .ok z) (huv : u < v) : 0 < y ∧ y < z := by
  have hexp : ∀ {s t : ℝ}, s < t → Real.exp (-t) < Real.exp (-s) := fun h => Real.exp_lt_exp.2 (by linarith)
  have hslope : ∀ {s t : ℝ}, s ≠ 0 → t ≠ 0 → s < t → (1 - Real.exp (-t)) / t < (1 - Real.exp (-s)) / s := fun {s t} hs ht hst => by
    have h := strictConvexOn_exp.secant_strict_mono (a := 0) (x := -t) (y := -s) (Set.mem_univ _) (Set.mem_univ _) (Set.mem_univ _)
      (by simpa using ht) (by simpa using hs) (by linarith)
    rw [Real.exp_zero, sub_zero, sub_zero, div_neg, div_neg, ← neg_div, ← neg_div, neg_sub, neg_sub] at h
    exact h
  have hpos : ∀ {s : ℝ}, s ≠ 0 → 0 < (1 - Real.exp (-s)) / s := fun {s} hs => by
    rcases lt_or_gt_of_ne hs with h | h
    · exact div_pos_of_neg_of_neg (by have := Real.one_lt_exp_iff.2 (show 0 < -s by linarith); linarith) h
    · exact div_pos (by have := Real.exp_lt_exp.2 (show -s < 0 by linarith); rw [Real.exp_zero] at this; linarith) h
  rcases lambdak_cases hu with ⟨rfl, rfl⟩ | ⟨rfl, hu0, rfl⟩ | ⟨rfl, hu0, rfl⟩ | ⟨rfl, hu0, rfl⟩
  · rcases lambdak_cases hv with ⟨-, rfl⟩ | ⟨h, -⟩ | ⟨h, -⟩ | ⟨h, -⟩
    · have inv : ∀ s : ℝ, s / (1 - Real.exp (-s)) = ((1 - Real.exp (-s)) / s)⁻¹ := fun s => (inv_div _ _).symm
      by_cases h0 : u = 0
      · subst h0
        rw [if_pos rfl, if_neg huv.ne', inv]
        refine ⟨one_pos, (one_lt_inv₀ (hpos huv.ne')).2 ?_⟩
        rw [div_lt_one huv]
        have := Real.add_one_lt_exp (show -v ≠ 0 by simpa using huv.ne')
        linarith
      · rw [if_neg h0, inv]
        refine ⟨inv_pos.2 (hpos h0), ?_⟩
        by_cases h1 : v = 0
        · subst h1
          rw [if_pos rfl]
          refine inv_lt_one_of_one_lt₀ ?_
          rw [lt_div_iff_of_neg huv]
          have := Real.add_one_lt_exp (show -u ≠ 0 by simpa using h0)
          linarith
        · rw [if_neg h1, inv]
          exact (inv_lt_inv₀ (hpos h0) (hpos h1)).2 (hslope h0 h1 huv)
    all_goals exact absurd h (by decide)
  · rcases lambdak_cases hv with ⟨h, -⟩ | ⟨-, -, rfl⟩ | ⟨h, -⟩ | ⟨h, -⟩
    · exact absurd h (by decide)
    · exact ⟨Real.exp_pos _, Real.exp_lt_exp.2 (by linarith)⟩
    all_goals exact absurd h (by decide)
  · rcases lambdak_cases hv with ⟨h, -⟩ | ⟨h, -⟩ | ⟨-, -, rfl⟩ | ⟨h, -⟩
    · exact absurd h (by decide)
    · exact absurd h (by decide)
    · have h1 := Real.exp_pos (-(v / 2))
      have h2 := hexp (show u / 2 < v / 2 by linarith)
      refine ⟨by positivity, div_lt_div_of_pos_left (by norm_num) (by positivity) ?_⟩
      exact pow_lt_pow_left₀ (by linarith) (by positivity) (by norm_num)
    · exact absurd h (by decide)
  · rcases lambdak_cases hv with ⟨h, -⟩ | ⟨h, -⟩ | ⟨h, -⟩ | ⟨-, -, rfl⟩
    · exact absurd h (by decide)
    · exact absurd h (by decide)
    · exact absurd h (by decide)
    · have h1 := Real.exp_pos (-v)
      have h2 := hexp huv
      exact ⟨by positivity, div_lt_div_of_pos_left (by norm_num) (by positivity) (by linarith)⟩

/-- `λ(2 ln 2) = 2` for Unterberger and hence `λ(-2 ln 2) = 1/2`. -/
example : lambdak (2 * Real.log 2) "unterberger" = .ok 2 ∧ lambdak (-(2 * Real.log 2)) "unterberger" = .ok (1 / 2) := by
  have hl : 0 < Real.log 2 := Real.log_pos (by norm_num)
  have h : lambdak (2 * Real.log 2) "unterberger" = .ok 2 := by
    rw [C66_unterberger, if_neg (by positivity), mul_div_cancel_left₀ _ (by norm_num : (2 : ℝ) ≠ 0), Real.exp_log (by norm_num)]
  refine ⟨h, ?_⟩
  rw [C66_reflection _ _ _ h, Real.exp_neg, ← Real.log_rpow (by norm_num), Real.exp_log (by positivity)]
  norm_num

/-- The growth is not vacuous: Bertrand between `-1` and `1`, through the origin. -/
example : ∃ y z, lambdak (-1) "bertrand" = .ok y ∧ lambdak 0 "bertrand" = .ok 1 ∧ lambdak 1 "bertrand" = .ok z ∧ 0 < y ∧ y < 1 ∧ 1 < z := by
  refine ⟨_, _, C66_bertrand (-1), by rw [C66_bertrand, if_pos rfl], C66_bertrand 1, ?_, ?_, ?_⟩
  · exact (C66_monotone "bertrand" (-1) 0 _ 1 (C66_bertrand _) (by rw [C66_bertrand, if_pos rfl]) (by norm_num)).1
  · exact (C66_monotone "bertrand" (-1) 0 _ 1 (C66_bertrand _) (by rw [C66_bertrand, if_pos rfl]) (by norm_num)).2
  · exact (C66_monotone "bertrand" 0 1 1 _ (by rw [C66_bertrand, if_pos rfl]) (C66_bertrand _) (by norm_num)).2

/-! ## C67 -/

theorem mem_npRoots {a b c : ℝ} (h : a ≠ 0 ∨ b ≠ 0 ∨ c ≠ 0) (z : ℂ) : z ∈ npRoots a b c ↔ (a : ℂ) * z ^ 2 + b * z + c = 0 := by
  unfold npRoots
  rw [Polynomial.mem_roots']
  have hp : (Polynomial.C (a : ℂ) * Polynomial.X ^ 2 + Polynomial.C (b : ℂ) * Polynomial.X + Polynomial.C (c : ℂ)) ≠ 0 := by
    intro h0
    have h2 := congrArg (fun p => Polynomial.coeff p 2) h0
    have h1 := congrArg (fun p => Polynomial.coeff p 1) h0
    have h00 := congrArg (fun p => Polynomial.coeff p 0) h0
    simp [Polynomial.coeff_X, Polynomial.coeff_C, Polynomial.coeff_X_pow] at h2 h1 h00
    rcases h with h | h | h
    · exact h h2
    · exact h h1
    · exact h h00
  simp [hp, Polynomial.IsRoot]

/-- The least modulus is known as soon as a root attains it. -/
theorem umaxdflaSolve_eq {r v : ℝ} (z : ℂ) (hz : z ∈ npRoots ((1 - r) / 16) ((1 + r) / 2) (1 - r)) (hv : ‖z‖ = v)
    (hmin : ∀ w ∈ npRoots ((1 - r) / 16) ((1 + r) / 2) (1 - r), v ≤ ‖w‖) : umaxdflaSolve r = .ok v := by
  unfold umaxdflaSolve
  simp only
  have hne : (npRoots ((1 - r) / 16) ((1 + r) / 2) (1 - r)).toFinset.Nonempty := ⟨z, Multiset.mem_toFinset.2 hz⟩
  rw [dif_pos hne]
  congr 1
  refine le_antisymm ?_ (Finset.le_inf' _ _ (fun w hw => by rw [sub_zero]; exact hmin w (Multiset.mem_toFinset.1 hw)))
  refine (Finset.inf'_le _ (Multiset.mem_toFinset.2 hz)).trans ?_
  rw [sub_zero, hv]

/-- **Value** for a ratio `r ≥ 0`: `4 |√r - 1| / (√r + 1)`. -/
theorem C67_value (r : ℝ) (hr : 0 ≤ r) : umaxdflaSolve r = .ok (4 * |Real.sqrt r - 1| / (Real.sqrt r + 1)) := by
  set s := Real.sqrt r with hs
  have hs0 : 0 ≤ s := Real.sqrt_nonneg r
  have hr2 : r = s ^ 2 := (Real.sq_sqrt hr).symm
  have hs1 : s + 1 ≠ 0 := by linarith
  have hm := fun z => mem_npRoots (a := (1 - r) / 16) (b := (1 + r) / 2) (c := 1 - r) (Or.inr (Or.inl (by linarith))) z
  have hz : ‖((4 * (s - 1) / (s + 1) : ℝ) : ℂ)‖ = 4 * |s - 1| / (s + 1) := by
    rw [Complex.norm_real, Real.norm_eq_abs, abs_div, abs_mul, abs_of_pos (show (0 : ℝ) < 4 by norm_num), abs_of_pos (show 0 < s + 1 by linarith)]
  have hs1c : (s : ℂ) + 1 ≠ 0 := by exact_mod_cast hs1
  refine umaxdflaSolve_eq ((4 * (s - 1) / (s + 1) : ℝ) : ℂ) ((hm _).2 ?_) hz (fun w hw => ?_)
  · rw [hr2]
    push_cast
    field_simp
    ring
  · have hw := (hm w).1 hw
    by_cases h1 : s = 1
    · rw [h1]; simp
    have hf : ((s + 1 : ℂ) * w - 4 * (s - 1)) * ((s - 1) * w - 4 * (s + 1)) = 0 := by
      rw [hr2] at hw
      push_cast at hw
      linear_combination (-16) * hw
    have h1' : s - 1 ≠ 0 := sub_ne_zero.2 h1
    have h1c : (s : ℂ) - 1 ≠ 0 := by exact_mod_cast h1'
    rcases mul_eq_zero.1 hf with h | h
    · have : w = ((4 * (s - 1) / (s + 1) : ℝ) : ℂ) := by
        push_cast
        rw [eq_div_iff hs1c]
        linear_combination h
      rw [this, hz]
    · have : w = ((4 * (s + 1) / (s - 1) : ℝ) : ℂ) := by
        push_cast
        rw [eq_div_iff h1c]
        linear_combination h
      rw [this, Complex.norm_real, Real.norm_eq_abs, abs_div, abs_mul, abs_of_pos (show (0 : ℝ) < 4 by norm_num),
        abs_of_pos (show 0 < s + 1 by linarith), div_le_div_iff₀ (by linarith) (abs_pos.2 h1')]
      have : |s - 1| ≤ s + 1 := abs_le.2 ⟨by linarith, by linarith⟩
      have h0 := abs_nonneg (s - 1)
      nlinarith

/-- For a negative ratio (band edges of opposite signs) the answer is always 4. -/
theorem C67_negative (r : ℝ) (hr : r < 0) : umaxdflaSolve r = .ok 4 := by
  have hm := fun z => mem_npRoots (a := (1 - r) / 16) (b := (1 + r) / 2) (c := 1 - r) (Or.inl (by linarith)) z
  have hall : ∀ w ∈ npRoots ((1 - r) / 16) ((1 + r) / 2) (1 - r), ‖w‖ = 4 := fun w hw => by
    have hw := (hm w).1 hw
    have hre := congrArg Complex.re hw
    have him := congrArg Complex.im hw
    simp only [Complex.add_re, Complex.mul_re, Complex.ofReal_re, Complex.ofReal_im, Complex.add_im, Complex.mul_im, pow_two, zero_mul, sub_zero,
      add_zero, Complex.zero_re, Complex.zero_im] at hre him
    have hn : ‖w‖ ^ 2 = 16 := by
      rw [← Complex.normSq_eq_norm_sq, Complex.normSq_apply]
      have him' : w.im * ((1 - r) / 8 * w.re + (1 + r) / 2) = 0 := by linear_combination him
      rcases mul_eq_zero.1 him' with h | h
      · rw [h] at hre
        exfalso
        have h2 : ((1 - r) / 8 * w.re + (1 + r) / 2) ^ 2 = r := by linear_combination (1 - r) / 4 * hre
        nlinarith [sq_nonneg ((1 - r) / 8 * w.re + (1 + r) / 2)]
      · have h3 : (1 - r) * (w.re * w.re + w.im * w.im - 16) = 0 := by linear_combination 16 * w.re * h - 16 * hre
        have := (mul_eq_zero.1 h3).resolve_left (by linarith)
        linarith
    have h0 := norm_nonneg w
    nlinarith
  have hsq : Real.sqrt (-r) ^ 2 = -r := Real.sq_sqrt (by linarith)
  have hsqc : (Real.sqrt (-r) : ℂ) ^ 2 = -(r : ℂ) := by exact_mod_cast hsq
  have h1r : (1 - r : ℂ) ≠ 0 := by
    have : (1 - r : ℝ) ≠ 0 := by linarith
    exact_mod_cast this
  have hz : (8 * (-(1 + r) / 2 + Real.sqrt (-r) * Complex.I) / (1 - r) : ℂ) ∈ npRoots ((1 - r) / 16) ((1 + r) / 2) (1 - r) := by
    rw [hm]
    push_cast
    field_simp
    ring_nf
    rw [Complex.I_sq, hsqc]
    ring
  exact umaxdflaSolve_eq _ hz (hall _ hz) (fun w hw => (hall w hw).ge)

/-- **Purpose**: for band edges of ratio `r ≥ 1` the answer `u` lies in `[0, 4)` and the two D-Flandrin dilations at `u` differ exactly by
that ratio, `((1 + u/4) / (1 - u/4))² = r`.  A reversed band, ratio `1 / r`, gets the same answer. -/
theorem C67_ratio (r : ℝ) (hr : 1 ≤ r) :
    ∃ u, umaxdflaSolve r = .ok u ∧ umaxdflaSolve r⁻¹ = .ok u ∧ 0 ≤ u ∧ u < 4 ∧ ((1 + u / 4) / (1 - u / 4)) ^ 2 = r := by
  set s := Real.sqrt r with hs
  have hs1 : 1 ≤ s := Real.one_le_sqrt.2 hr
  have hr2 : s ^ 2 = r := Real.sq_sqrt (by linarith)
  have hs0 : 0 < s + 1 := by linarith
  refine ⟨4 * (s - 1) / (s + 1), ?_, ?_, by have := sub_nonneg.2 hs1; positivity, ?_, ?_⟩
  · rw [C67_value r (by linarith), ← hs, abs_of_nonneg (by linarith)]
  · rw [C67_value r⁻¹ (by positivity), Real.sqrt_inv, ← hs]
    have h1 : s⁻¹ - 1 = -((s - 1) / s) := by field_simp; ring
    have h2 : s⁻¹ + 1 = (s + 1) / s := by field_simp; ring
    rw [h1, h2, abs_neg, abs_of_nonneg (div_nonneg (by linarith) (by linarith))]
    congr 1
    field_simp
  · rw [div_lt_iff₀ hs0]; linarith
  · rw [← hr2]
    have h1 : 1 + 4 * (s - 1) / (s + 1) / 4 = 2 * s / (s + 1) := by field_simp; ring
    have h2 : 1 - 4 * (s - 1) / (s + 1) / 4 = 2 / (s + 1) := by field_simp; ring
    rw [h1, h2]
    field_simp

/-- **Growth**: a wider band gives a strictly larger answer. -/
theorem C67_increasing (r r' u u' : ℝ) (hr : 1 ≤ r) (hrr : r < r') (h : umaxdflaSolve r = .ok u) (h' : umaxdflaSolve r' = .ok u') : u < u' := by
  rw [C67_value r (by linarith)] at h
  rw [C67_value r' (by linarith)] at h'
  cases h; cases h'
  have h1 : 1 ≤ Real.sqrt r := Real.one_le_sqrt.2 hr
  have h2 : Real.sqrt r < Real.sqrt r' := Real.sqrt_lt_sqrt (by linarith) hrr
  rw [abs_of_nonneg (by linarith), abs_of_nonneg (by linarith), div_lt_div_iff₀ (by linarith) (by linarith)]
  nlinarith

/-- Ratio 9: the answer is 2. -/
example : umaxdflaSolve 9 = .ok 2 ∧ umaxdflaSolve 1 = .ok 0 ∧ umaxdflaSolve 0 = .ok 4 := by
  have h9 : Real.sqrt 9 = 3 := by rw [show (9 : ℝ) = 3 ^ 2 by norm_num]; exact Real.sqrt_sq (by norm_num)
  refine ⟨?_, ?_, ?_⟩
  · rw [C67_value 9 (by norm_num), h9]; norm_num
  · rw [C67_value 1 (by norm_num)]; norm_num
  · rw [C67_value 0 le_rfl]; norm_num

end Tftb.Props
