import Verif.Props.Analytic

/-! # C19: keyed signals: refused arguments and a single sample -/

namespace Tftb.Props

open Finset Spec Analytic FM

/-- `round(n / 5)` of one and two points. -/
theorem default_block_zero (n : ℤ) (hn : n.natAbs ≤ 2) : roundEven ((n : ℝ) / 5.0) = 0 := by
  have h : n = -2 ∨ n = -1 ∨ n = 0 ∨ n = 1 ∨ n = 2 := by omega
  have e0 : ∀ r : ℝ, 0 ≤ r → r < 1 / 2 → roundEven r = 0 := by
    intro r h0 h1
    have hf : ⌊r⌋ = 0 := by rw [Int.floor_eq_iff]; push_cast; constructor <;> linarith
    unfold roundEven
    rw [hf]
    push_cast
    rw [if_pos (by linarith)]
  have e1 : ∀ r : ℝ, -(1 / 2) < r → r < 0 → roundEven r = 0 := by
    intro r h0 h1
    have hf : ⌊r⌋ = -1 := by rw [Int.floor_eq_iff]; push_cast; constructor <;> linarith
    unfold roundEven
    rw [hf]
    push_cast
    rw [if_neg (by linarith), if_pos (by linarith)]
  rcases h with rfl | rfl | rfl | rfl | rfl
  · exact e1 _ (by norm_num) (by norm_num)
  · exact e1 _ (by norm_num) (by norm_num)
  · exact e0 _ (by norm_num) (by norm_num)
  · exact e0 _ (by norm_num) (by norm_num)
  · exact e0 _ (by norm_num) (by norm_num)

/-- **Refused.**  `anaqpsk` raises `TypeError` exactly for carriers outside `[0, 1/2]`, whatever the other arguments; blocks of no samples (the default for one and two
points) make it and `anafsk` divide by zero, and so do zero frequencies in `anafsk`. -/
theorem C19_refused (n : ℤ) (nc : Option ℤ) (f : ℝ) (M : ℤ) (draw : ℕ → ℝ) :
    (anaqpsk n nc f draw = .error .typeError ↔ f < 0 ∨ 1 / 2 < f) ∧
    (nc = some 0 ∨ (nc = none ∧ n.natAbs ≤ 2) → anafsk n nc M draw = .error .zeroDivisionError ∧
      (0 ≤ f → f ≤ 1 / 2 → anaqpsk n nc f draw = .error .zeroDivisionError)) ∧
    (∀ b : ℕ, 1 ≤ b → 0 ≤ n → anafsk n (some b) 0 draw = .error .zeroDivisionError) := by
  have hiff : (f < 0 ∨ f > 0.5) ↔ (f < 0 ∨ 1 / 2 < f) := by norm_num
  refine ⟨⟨fun h => ?_, fun h => ?_⟩, fun h => ?_, fun b hb hn => ?_⟩
  · by_contra hc
    have d1 : ∀ a b, draws a b draw ≠ .error .typeError := by
      intro a b
      unfold draws
      dsimp only
      split_ifs <;> simp
    have d2 : ∀ v b, repeatPy v b ≠ .error .typeError := by
      intro v b
      unfold repeatPy
      split_ifs <;> simp
    have d3 : ∀ (g : ℝ → ℝ → ℝ) (a b : Vec ℝ), Vec.bcast g a b ≠ .error .typeError := by
      intro g a b
      unfold Vec.bcast
      split_ifs <;> simp
    unfold anaqpsk at h
    dsimp only at h
    rw [if_neg (by rw [hiff]; exact hc)] at h
    generalize hb1 : draws _ _ draw = r1 at h
    cases r1 with
    | error e => injection h with h; rw [h] at hb1; exact d1 _ _ hb1
    | ok u =>
      rw [ok_bind] at h
      generalize hb2 : repeatPy _ _ = r2 at h
      cases r2 with
      | error e => injection h with h; rw [h] at hb2; exact d2 _ _ hb2
      | ok w =>
        rw [ok_bind] at h
        generalize hb3 : Vec.bcast _ _ _ = r3 at h
        cases r3 with
        | error e => injection h with h; rw [h] at hb3; exact d3 _ _ _ hb3
        | ok p => cases h
  · unfold anaqpsk
    rw [if_pos (hiff.2 h)]
  · have h0 : nc.getD (roundEven ((n : ℝ) / 5.0)) = 0 := by
      rcases h with h | ⟨h, hn⟩
      · rw [h]; rfl
      · rw [h]; exact default_block_zero n hn
    refine ⟨?_, fun h1 h2 => ?_⟩
    · unfold anafsk draws
      simp only [h0, if_true]
      rfl
    · unfold anaqpsk draws
      rw [if_neg (by rw [hiff]; push Not; exact ⟨h1, h2⟩)]
      simp only [h0, if_true]
      rfl
  · obtain ⟨m, rfl⟩ := Int.eq_ofNat_of_zero_le hn
    unfold anafsk
    simp only [Option.getD_some]
    rw [show ((m : ℕ) : ℤ) = (m : ℤ) from rfl, draws_ok m b hb, ok_bind, if_pos trivial]

/-- **A single sample.**  `anaqpsk(1, b)` does not raise: it returns `b` equal samples instead of one (`b ≥ 2`). -/
theorem C19_single (b : ℕ) (hb : 2 ≤ b) (f : ℝ) (h0 : 0 ≤ f) (h1 : f ≤ 1 / 2) (draw : ℕ → ℝ) :
    ∃ (y : Vec ℂ) (pm : Vec ℝ), anaqpsk 1 (some b) f draw = .ok (y, pm) ∧ y.len = b ∧ pm.len = b ∧
      ∀ i < b, y.get i = y.get 0 ∧ pm.get i = pm.get 0 ∧ y.get i = expi (pm.get 0 - 2 * Real.pi * f) := by
  have hm : (1 + b - 1) / b = 1 := by rw [Nat.add_sub_cancel_left, Nat.div_self (by omega)]
  have hd := draws_ok 1 b (by omega) draw
  rw [hm] at hd
  have hok : anaqpsk 1 (some b) f draw = .ok (⟨b, fun i => Complex.exp (Complex.I * ((2 * Real.pi * f * (((0 + ((0 : ℕ) : ℤ) : ℤ) : ℝ) - 1)
      + Real.pi * (if (⌊4 * draw (i / b)⌋ : ℝ) = 4 then 3 else (⌊4 * draw (i / b)⌋ : ℝ)) / 2 : ℝ) : ℂ))⟩,
      ⟨b, fun i => Real.pi * (if (⌊4 * draw (i / b)⌋ : ℝ) = 4 then 3 else (⌊4 * draw (i / b)⌋ : ℝ)) / 2⟩) := by
    unfold anaqpsk
    simp only [Option.getD_some]
    rw [if_neg (by norm_num; constructor <;> linarith), show draws 1 (b : ℤ) draw = .ok ⟨1, draw⟩ from hd, ok_bind]
    simp only [Vec.map]
    rw [repeatPy_ok, ok_bind]
    simp only [one_mul, Vec.bcast, arange]
    rw [if_neg (by simp; omega), if_pos (by norm_num), ok_bind]
    rfl
  refine ⟨_, _, hok, rfl, rfl, fun i hi => ?_⟩
  have e : i / b = 0 := Nat.div_eq_of_lt hi
  simp only [e, Nat.zero_div, true_and]
  unfold expi
  congr 1
  push_cast
  ring

/-- `anaqpsk(1, 3)` returns three samples; a carrier of 0.6 is refused. -/
example (draw : ℕ → ℝ) : (∃ y pm, anaqpsk 1 (some (3 : ℕ)) (1 / 4) draw = .ok (y, pm) ∧ y.len = 3) ∧ anaqpsk 1 (some 3) 0.6 draw = .error .typeError := by
  obtain ⟨y, pm, h1, h2, _⟩ := C19_single 3 (by norm_num) (1 / 4) (by norm_num) (by norm_num) draw
  exact ⟨⟨y, pm, h1, h2⟩, ((C19_refused 1 (some 3) 0.6 1 draw).1).2 (Or.inr (by norm_num))⟩

end Tftb.Props
