import Verif.Lemmas.Gabor
import Verif.Props.Utils
import Mathlib.Data.Nat.Prime.Basic
import Mathlib.Tactic.IntervalCases
import Mathlib.Tactic.NormNum.Prime

/-! # C59: Gabor representation -/

namespace Tftb.Props

open Finset Spec Utils Gabor ComplexConjugate

/-- Position of the first sample of the window: the lattice has `Q b` instants, `Q b` frequencies, the signal `Q b²` samples. -/
noncomputable def windowStart (Q b nh : ℕ) : ℤ :=
  roundEven ((((Q * b * b : ℕ) : ℝ) - (nh - 1)) / 2) - roundEven ((2 * (b : ℝ) - 1 - nh) / (2 * Q)) - 1

/-- On a lattice of `Q b` instants for a signal of `Q b²` samples, oversampled `Q` times, and for a window of odd length that fits, `gabor`
returns for every signal: the dual window depends on the window and lattice only, is real of the length of the signal, and its Zak transform is that
of the placed window divided by its power; the coefficients are the inner products of the signal with the dual window moved by steps of `b`
samples and modulated by multiples of `1 / (Q b)`, and the representation is their squared modulus. -/
theorem C59_coefficients (Q b s : ℕ) (hb : 1 ≤ b) (hQ : 1 ≤ Q) (w : Vec ℝ) (hw : w.len % 2 = 1) (hs : (s : ℤ) = windowStart Q b w.len)
    (hfit : s + w.len ≤ Q * b * b) :
    ∃ gam : Vec ℝ, gam.len = Q * b * b ∧
      (∀ k < Q * b, ∀ r < b, (zak (Q * b) b (gam.map Complex.ofReal)).get k r
        = (zak (Q * b) b (placed (Q * b * b) s w)).get k r / (((if zakPower Q b (placed (Q * b * b) s w) k r < eps then 1
          else zakPower Q b (placed (Q * b * b) s w) k r : ℝ) : ℂ) * ((Q * b * b : ℕ) : ℂ))) ∧
      ∀ x : Vec ℂ, x.len = Q * b * b → ∃ R, gabor x (some (Q * b)) (some Q) (some w) = .ok R ∧ R.gam = gam ∧
        R.dgr.rows = Q * b ∧ R.dgr.cols = Q * b ∧ R.tfr.rows = Q * b ∧ R.tfr.cols = Q * b ∧
        (∀ r < Q * b, ∀ n < Q * b, R.tfr.get r n = ‖R.dgr.get r n‖ ^ 2) ∧
        ∀ r < Q * b, ∀ n < Q * b, R.dgr.get r n
          = ∑ j ∈ range (Q * b * b), x.get j * cyc (gam.map Complex.ofReal) ((j : ℤ) - ((Q * b * b / 2 : ℕ) : ℤ) - n * b)
            * expi (-(2 * Real.pi * (r * j / ((Q * b : ℕ) : ℝ)))) := by
  have hb0 : b ≠ 0 := by omega
  have hQ0 : Q ≠ 0 := by omega
  obtain ⟨gam, h1, h2, h3⟩ := gaborDual_ok hb0 hQ0 hw hs hfit
  refine ⟨gam, h2, fun k hk r hr => ?_, fun x hx => ?_⟩
  · rw [h3 k hk r hr, zakDual, div_div]
  · obtain ⟨R, h4, h5, h6, h7, h8, h9⟩ := gabor_ok hb0 hQ0 hx h1 h2
    refine ⟨R, h4, h5, h6, h7, by rw [h8]; exact h6, by rw [h8]; exact h7, fun r _ n _ => by rw [h8]; rfl, fun r hr n hn => ?_⟩
    rw [h9 r hr n hn]
    unfold dftC
    apply Finset.sum_congr rfl
    intro j _
    rw [rootPow_eq_expi]
    congr 3
    have : (b : ℝ) ≠ 0 := Nat.cast_ne_zero.2 hb0
    have : (Q : ℝ) ≠ 0 := Nat.cast_ne_zero.2 hQ0
    push_cast
    field_simp

/-- On the same lattice, if the power of the Zak transform of the window is nowhere below the threshold, the signal is recovered from
its Gabor coefficients with the placed window: `gabor` computes an exact frame dual. -/
theorem C59_reconstruction (Q b s : ℕ) (hb : 1 ≤ b) (hQ : 1 ≤ Q) (w : Vec ℝ) (hw : w.len % 2 = 1) (hs : (s : ℤ) = windowStart Q b w.len)
    (hfit : s + w.len ≤ Q * b * b) (hpow : ∀ k < b, ∀ r < b, eps ≤ zakPower Q b (placed (Q * b * b) s w) k r)
    (x : Vec ℂ) (hx : x.len = Q * b * b) :
    ∃ R, gabor x (some (Q * b)) (some Q) (some w) = .ok R ∧ R.dgr.rows = Q * b ∧ R.dgr.cols = Q * b ∧
      ∀ j < x.len, x.get j = ∑ n ∈ range (Q * b), ∑ r ∈ range (Q * b), R.dgr.get r n
        * cyc (placed (Q * b * b) s w) ((j : ℤ) - ((Q * b * b / 2 : ℕ) : ℤ) - n * b) * expi (2 * Real.pi * (r * j / ((Q * b : ℕ) : ℝ))) := by
  obtain ⟨gam, h1, h2, h3⟩ := C59_coefficients Q b s hb hQ w hw hs hfit
  obtain ⟨R, h4, h5, h6, h7, h8, h9, h10, h11⟩ := h3 x hx
  refine ⟨R, h4, h6, h7, fun j hj => ?_⟩
  have hb0 : b ≠ 0 := by omega
  have hQ0 : Q ≠ 0 := by omega
  have hm : Q * b ≠ 0 := Nat.mul_ne_zero hQ0 hb0
  have hL : Q * b * b ≠ 0 := Nat.mul_ne_zero hm hb0
  set h := placed (Q * b * b) s w with hh
  set γ := gam.map Complex.ofReal with hγ
  have heps : 0 < eps := by unfold eps; positivity
  have hpow0 : ∀ k < b, ∀ r < b, zakPower Q b h k r ≠ 0 := fun k hk r hr => (lt_of_lt_of_le heps (hpow k hk r hr)).ne'
  have hreal : ∀ i, conj (cyc h i) = cyc h i := by
    intro i
    simp only [cyc, hh, placed]
    split_ifs
    · exact Complex.conj_ofReal _
    · exact map_zero _
  have hWR := wexlerRaz (h := h) (g := γ) hb0 hQ0 rfl h1 hpow0 (fun k hk r hr => by
    rw [h2 k hk r hr, if_neg]
    rw [zakPower_congr_mod h (k' := k % b) (by simp) r]
    exact not_lt.2 (hpow _ (Nat.mod_lt _ (by omega)) _ hr))
  set c : ℤ := ((Q * b * b / 2 : ℕ) : ℤ) with hc
  have hrhs : ∑ n ∈ range (Q * b), ∑ r ∈ range (Q * b), R.dgr.get r n * cyc h ((j : ℤ) - c - n * b) * expi (2 * Real.pi * (r * j / ((Q * b : ℕ) : ℝ)))
      = ∑ i ∈ range (Q * b * b), x.get i * ((∑ n ∈ range (Q * b), cyc γ ((i : ℤ) - c - n * b) * conj (cyc h ((j : ℤ) - c - n * b)))
        * ∑ r ∈ range (Q * b), rootPow (Q * b) (((i : ℤ) - j) * (r : ℤ))) := by
    have e1 : ∀ n ∈ range (Q * b), ∀ r ∈ range (Q * b), R.dgr.get r n * cyc h ((j : ℤ) - c - n * b) * expi (2 * Real.pi * (r * j / ((Q * b : ℕ) : ℝ)))
        = ∑ i ∈ range (Q * b * b), x.get i * (cyc γ ((i : ℤ) - c - n * b) * conj (cyc h ((j : ℤ) - c - n * b))
          * rootPow (Q * b) (((i : ℤ) - j) * (r : ℤ))) := by
      intro n hn r hr
      rw [h11 r (Finset.mem_range.1 hr) n (Finset.mem_range.1 hn), Finset.sum_mul, Finset.sum_mul]
      apply Finset.sum_congr rfl
      intro i _
      have e2 : rootPow (Q * b) (((i : ℤ) - j) * (r : ℤ)) = expi (-(2 * Real.pi * (r * i / ((Q * b : ℕ) : ℝ)))) * expi (2 * Real.pi * (r * j / ((Q * b : ℕ) : ℝ))) := by
        have e3 : ((i : ℤ) - j) * (r : ℤ) = (i : ℤ) * r + -((j : ℤ) * r) := by ring
        rw [e3, rootPow_add, rootPow_eq_expi, rootPow_eq_expi]
        congr 2
        · push_cast; ring
        · push_cast; ring
      rw [e2, hreal]
      ring
    rw [Finset.sum_congr rfl (fun n hn => Finset.sum_congr rfl (e1 n hn))]
    rw [Finset.sum_congr rfl (fun n _ => Finset.sum_comm), Finset.sum_comm]
    apply Finset.sum_congr rfl
    intro i _
    rw [Finset.sum_mul_sum, Finset.mul_sum]
    apply Finset.sum_congr rfl
    intro n _
    rw [Finset.mul_sum]
  rw [hrhs]
  have hker : ∀ i ∈ range (Q * b * b), x.get i * ((∑ n ∈ range (Q * b), cyc γ ((i : ℤ) - c - n * b) * conj (cyc h ((j : ℤ) - c - n * b)))
        * ∑ r ∈ range (Q * b), rootPow (Q * b) (((i : ℤ) - j) * (r : ℤ))) = if i = j then x.get i else 0 := by
    intro i hi
    have hi' := Finset.mem_range.1 hi
    rw [sum_rootPow hm]
    by_cases hd : ((Q * b : ℕ) : ℤ) ∣ (i : ℤ) - j
    · rw [if_pos hd]
      obtain ⟨t, ht⟩ := hd
      have e : ∀ n : ℕ, (i : ℤ) - c - n * b = ((j : ℤ) - c) + ((Q * b : ℕ) : ℤ) * t - n * b := fun n => by linear_combination ht
      rw [Finset.sum_congr rfl (fun n _ => by rw [e n]), hWR]
      have hiff : (b : ℤ) ∣ t ↔ i = j := by
        constructor
        · rintro ⟨v, hv⟩
          rw [hx] at hj
          have h12 : ((Q * b * b : ℕ) : ℤ) ∣ (i : ℤ) - j := ⟨v, by rw [ht, hv]; push_cast; ring⟩
          have := (natCast_dvd_sub_iff hi' hj).1 h12
          exact this
        · rintro rfl
          have : t = 0 := by
            have h13 : ((Q * b : ℕ) : ℤ) * t = 0 := by rw [← ht]; ring
            exact (mul_eq_zero.1 h13).resolve_left (by exact_mod_cast hm)
          rw [this]
          exact dvd_zero _
      by_cases hij : i = j
      · rw [if_pos (hiff.2 hij), if_pos hij]
        have h14 : (b : ℂ) ≠ 0 := Nat.cast_ne_zero.2 hb0
        have h15 : (Q : ℂ) ≠ 0 := Nat.cast_ne_zero.2 hQ0
        push_cast
        field_simp
      · rw [if_neg (fun h => hij (hiff.1 h)), if_neg hij]
        simp
    · rw [if_neg hd, if_neg (by rintro rfl; exact hd (by simp))]
      simp
  rw [Finset.sum_congr rfl hker, Finset.sum_ite_eq' (range (Q * b * b)) j, if_pos (Finset.mem_range.2 (by rw [← hx]; exact hj))]

/-- The coefficients are linear in the signal. -/
theorem C59_linear (Q b s : ℕ) (hb : 1 ≤ b) (hQ : 1 ≤ Q) (w : Vec ℝ) (hw : w.len % 2 = 1) (hs : (s : ℤ) = windowStart Q b w.len)
    (hfit : s + w.len ≤ Q * b * b) (x y z : Vec ℂ) (hx : x.len = Q * b * b) (hy : y.len = Q * b * b) (hz : z.len = Q * b * b) (a : ℂ)
    (hxyz : ∀ j < z.len, z.get j = x.get j + a * y.get j) :
    ∃ X Y Z, gabor x (some (Q * b)) (some Q) (some w) = .ok X ∧ gabor y (some (Q * b)) (some Q) (some w) = .ok Y ∧
      gabor z (some (Q * b)) (some Q) (some w) = .ok Z ∧ Z.dgr.rows = X.dgr.rows ∧ Z.dgr.cols = X.dgr.cols ∧
      ∀ r < Z.dgr.rows, ∀ n < Z.dgr.cols, Z.dgr.get r n = X.dgr.get r n + a * Y.dgr.get r n := by
  obtain ⟨gam, -, -, h3⟩ := C59_coefficients Q b s hb hQ w hw hs hfit
  obtain ⟨X, x1, -, x2, x3, -, -, -, x4⟩ := h3 x hx
  obtain ⟨Y, y1, -, y2, y3, -, -, -, y4⟩ := h3 y hy
  obtain ⟨Z, z1, -, z2, z3, -, -, -, z4⟩ := h3 z hz
  refine ⟨X, Y, Z, x1, y1, z1, z2.trans x2.symm, z3.trans x3.symm, fun r hr n hn => ?_⟩
  rw [z2] at hr
  rw [z3] at hn
  rw [x4 r hr n hn, y4 r hr n hn, z4 r hr n hn, Finset.mul_sum, ← Finset.sum_add_distrib]
  apply Finset.sum_congr rfl
  intro j hj
  rw [hxyz j (by rw [hz]; exact Finset.mem_range.1 hj)]
  ring

/-- A window of even length raises `ValueError` (whenever the lattice is not degenerate). -/
theorem C59_even_window (x : Vec ℂ) (N Q : ℕ) (w : Vec ℝ) (hN : 1 ≤ N) (hm : N ≤ Q * x.len) (hw : w.len % 2 = 0) :
    gabor x (some N) (some Q) (some w) = .error .valueError := by
  have h1 : Q * x.len / N ≠ 0 := (Nat.div_pos hm hN).ne'
  show gaborCore x N Q w = _
  unfold gaborCore gaborDual
  rw [if_neg (by omega)]
  simp only [if_neg h1, if_pos hw]
  rfl

/-- A lattice that does not tile the signal is refused: with `m = Q·L / N` samples per frequency step, `ValueError` is raised when `m` does not
divide the length (`reshape`), or when `L / m` is neither `L / N` nor 1 (broadcasting), for every window of odd length that fits. -/
theorem C59_bad_lattice (x : Vec ℂ) (N Q : ℕ) (w : Vec ℝ) (hN : 1 ≤ N) (hm : N ≤ Q * x.len) (hw : w.len % 2 = 1) (s : ℤ)
    (hs : s = roundEven (((x.len : ℝ) - (w.len - 1)) / 2) - roundEven ((2 * (x.len : ℝ) / N - 1 - w.len) / (2 * Q)) - 1)
    (h0 : -(x.len : ℤ) ≤ s) (hfit : s + w.len ≤ x.len)
    (hbad : ¬ Q * x.len / N ∣ x.len ∨ (x.len / (Q * x.len / N) ≠ x.len / N ∧ x.len / (Q * x.len / N) ≠ 1)) :
    gabor x (some N) (some Q) (some w) = .error .valueError := by
  have h1 : Q * x.len / N ≠ 0 := (Nat.div_pos hm hN).ne'
  have hQ : Q ≠ 0 := by rintro rfl; omega
  have hp := placeWindow_total (N := N) (q := Q) hw hs h0 hfit
  have key : gaborDual x.len N Q (Q * x.len / N) (x.len / N) (x.len / (Q * x.len / N)) w = .error .valueError := by
    by_cases hd : Q * x.len / N ∣ x.len
    · obtain ⟨h2, h3⟩ := hbad.resolve_left (not_not.2 hd)
      exact gaborDual_mismatch hw hp (by show x.len = _; exact (Nat.mul_div_cancel' hd).symm) h1 hQ h2 h3
    · unfold gaborDual
      rw [if_neg (by omega), hp, ok_bind]
      unfold zakOf
      rw [if_pos (fun h => hd ⟨_, by rw [mul_comm]; exact h.symm⟩)]
      rfl
  show gaborCore x N Q w = _
  unfold gaborCore
  rw [if_neg (by omega)]
  simp only [if_neg h1]
  rw [key]
  rfl

/-- A window of odd length whose positions are not all indices of the signal is refused with `IndexError`. -/
theorem C59_window_outside (x : Vec ℂ) (N Q : ℕ) (w : Vec ℝ) (hN : 1 ≤ N) (hm : N ≤ Q * x.len) (hw : w.len % 2 = 1) (s : ℤ)
    (hs : s = roundEven (((x.len : ℝ) - (w.len - 1)) / 2) - roundEven ((2 * (x.len : ℝ) / N - 1 - w.len) / (2 * Q)) - 1)
    (hout : s < -(x.len : ℤ) ∨ (x.len : ℤ) < s + w.len) :
    gabor x (some N) (some Q) (some w) = .error .indexError := by
  have h1 : Q * x.len / N ≠ 0 := (Nat.div_pos hm hN).ne'
  have hp := placeWindow_outside (N := N) (q := Q) hw hs hout
  show gaborCore x N Q w = _
  unfold gaborCore
  rw [if_neg (by omega)]
  simp only [if_neg h1]
  unfold gaborDual
  rw [if_neg (by omega), hp]
  rfl

/-- Five samples, two coefficients, no oversampling: frequency steps of two samples do not tile five samples. -/
example (a b c d e : ℂ) : gabor ⟨5, fun i => [a, b, c, d, e].getD i 0⟩ (some 2) (some 1) (some ⟨1, fun _ => 1⟩) = .error .valueError := by
  have r1 : roundEven ((5 - (1 - 1)) / 2 : ℝ) = 2 := by
    rw [show ((5 - (1 - 1)) / 2 : ℝ) = ((2 : ℤ) : ℝ) + 1 / 2 by norm_num, roundEven_half_odd, if_pos (by decide)]
  have r2 : roundEven ((2 * 5 / 2 - 1 - 1) / (2 * 1) : ℝ) = 2 := by
    rw [show ((2 * 5 / 2 - 1 - 1) / (2 * 1) : ℝ) = ((1 : ℤ) : ℝ) + 1 / 2 by norm_num, roundEven_half_odd, if_neg (by decide)]
    norm_num
  refine C59_bad_lattice _ 2 1 _ (by norm_num) (by show 2 ≤ 1 * 5; norm_num) rfl (-1) ?_ (by show -(5 : ℤ) ≤ -1; norm_num)
    (by show (-1 : ℤ) + 1 ≤ 5; norm_num) (Or.inl (by show ¬ 1 * 5 / 2 ∣ 5; decide))
  show (-1 : ℤ) = roundEven ((((5 : ℕ) : ℝ) - (((1 : ℕ) : ℝ) - 1)) / 2) - roundEven ((2 * ((5 : ℕ) : ℝ) / ((2 : ℕ) : ℝ) - 1 - ((1 : ℕ) : ℝ)) / (2 * ((1 : ℕ) : ℝ))) - 1
  push_cast
  rw [r1, r2]
  norm_num

/-- A window of seven points does not fit a signal of four samples. -/
example (a b c d : ℂ) : gabor ⟨4, fun i => [a, b, c, d].getD i 0⟩ (some 2) (some 1) (some ⟨7, fun _ => 1⟩) = .error .indexError := by
  have r1 : roundEven ((4 - (7 - 1)) / 2 : ℝ) = -1 := by
    rw [show ((4 - (7 - 1)) / 2 : ℝ) = ((-1 : ℤ) : ℝ) by norm_num, roundEven_intCast]
  have r2 : roundEven ((2 * 4 / 2 - 1 - 7) / (2 * 1) : ℝ) = -2 := by
    rw [show ((2 * 4 / 2 - 1 - 7) / (2 * 1) : ℝ) = ((-2 : ℤ) : ℝ) by norm_num, roundEven_intCast]
  refine C59_window_outside _ 2 1 _ (by norm_num) (by show 2 ≤ 1 * 4; norm_num) rfl 0 ?_ (Or.inr (by show (4 : ℤ) < 0 + 7; norm_num))
  show (0 : ℤ) = roundEven ((((4 : ℕ) : ℝ) - (((7 : ℕ) : ℝ) - 1)) / 2) - roundEven ((2 * ((4 : ℕ) : ℝ) / ((2 : ℕ) : ℝ) - 1 - ((7 : ℕ) : ℝ)) / (2 * ((1 : ℕ) : ℝ))) - 1
  push_cast
  rw [r1, r2]
  norm_num

/-! ## Default arguments -/

/-- `divider` of a prime other than 2. -/
theorem divider_prime {p : ℕ} (hp : p.Prime) (h3 : 3 ≤ p) : divider (p : ℤ) = .ok (((1 : ℕ) : ℤ), (p : ℤ)) := by
  obtain ⟨a, h1, h2, h4, h5, -⟩ := divider_spec (N := p) (by omega)
  rcases (Nat.dvd_prime hp).1 h4 with rfl | rfl
  · rw [h1, Nat.div_one]
  · exfalso
    have hsq : Real.sqrt a * Real.sqrt a = a := Real.mul_self_sqrt (by positivity)
    have h3r : (3 : ℝ) ≤ a := by exact_mod_cast h3
    have hs0 := Real.sqrt_nonneg (a : ℝ)
    nlinarith

/-- `divider` of the square of a positive number. -/
theorem divider_square {p : ℕ} (hp : 1 ≤ p) : divider ((p * p : ℕ) : ℤ) = .ok ((p : ℤ), (p : ℤ)) := by
  obtain ⟨a, h1, h2, h4, h5, h6⟩ := divider_spec (N := p * p) (Nat.mul_pos hp hp)
  have hs : Real.sqrt ((p * p : ℕ) : ℝ) = p := by push_cast; exact Real.sqrt_mul_self (by positivity)
  rw [hs] at h5 h6
  have h7 := h6 p ⟨p, rfl⟩ le_rfl
  have h8 : a < p + 1 := by exact_mod_cast h5
  have : a = p := by omega
  subst this
  rw [h1, Nat.mul_div_cancel _ hp]

/-- Without arguments, whenever the two closest factors `N ≤ L / N + 1` of the number of samples are such that `N ≥ 3`, except if the length is the
square of a prime, `gabor` raises `ValueError`. -/
theorem C59_default_raises (x : Vec ℂ) (N M : ℕ) (hx : 1 ≤ x.len) (hN : divider (x.len : ℤ) = .ok ((N : ℤ), (M : ℤ))) (h3 : 3 ≤ N)
    (hsq : ¬ (N.Prime ∧ x.len = N * N)) : gabor x none none none = .error .valueError := by
  obtain ⟨a, h1, -, h4, h5, -⟩ := divider_spec hx
  rw [hN] at h1
  injection h1 with h1
  rw [Prod.mk.injEq] at h1
  have hNa : N = a := by exact_mod_cast h1.1
  have hMa : M = x.len / a := by exact_mod_cast h1.2
  subst hNa
  obtain ⟨Q, q1, q2, q3, q4, q5⟩ := divider_spec (N := N) (by omega)
  rw [gabor_default hN q1]
  obtain ⟨M', hM'⟩ := h4
  have hMM : M = M' := by rw [hMa, hM', Nat.mul_div_cancel_left _ (by omega)]
  subst hMM
  obtain ⟨P, hP⟩ := q3
  have hN0 : N ≠ 0 := by omega
  have hQ0 : Q ≠ 0 := by omega
  have hM0 : M ≠ 0 := by rintro rfl; simp at hM'; omega
  have hP0 : P ≠ 0 := by rintro rfl; simp at hP; omega
  -- the second factor is at least N - 1
  have hlow : N ≤ M + 1 := by
    by_contra hlt
    push Not at hlt
    have e : Real.sqrt x.len * Real.sqrt x.len = x.len := Real.mul_self_sqrt (by positivity)
    have hs0 := Real.sqrt_nonneg (x.len : ℝ)
    have e2 : (x.len : ℝ) = N * M := by rw [hM']; push_cast; ring
    have h6 : (M : ℝ) + 2 ≤ N := by exact_mod_cast hlt
    have h7 : (3 : ℝ) ≤ N := by exact_mod_cast h3
    nlinarith
  have hP1 : P ≠ 1 := by
    rintro rfl
    rw [mul_one] at hP
    subst hP
    have e : Real.sqrt N * Real.sqrt N = N := Real.mul_self_sqrt (by positivity)
    have hs0 := Real.sqrt_nonneg (N : ℝ)
    have h7 : (3 : ℝ) ≤ N := by exact_mod_cast h3
    nlinarith
  have hPM : P ≠ M := by
    rintro rfl
    have hQ1 : Q = 1 := by
      by_contra hne
      have : 2 ≤ Q := by omega
      have : 2 * P ≤ Q * P := Nat.mul_le_mul_right _ this
      omega
    subst hQ1
    rw [one_mul] at hP
    subst hP
    refine hsq ⟨?_, hM'⟩
    rw [Nat.prime_def_le_sqrt]
    refine ⟨by omega, fun c hc hcs hcN => ?_⟩
    have h8 : (c : ℝ) ≤ Real.sqrt N := by
      rw [Real.le_sqrt (by positivity) (by positivity)]
      have := Nat.le_sqrt'.1 hcs
      exact_mod_cast this
    have := q5 c hcN h8
    omega
  have hm1 : Q * x.len / N = Q * M := by
    rw [hM', show Q * (N * M) = N * (Q * M) by ring, Nat.mul_div_cancel_left _ (by omega)]
  have hm2 : x.len / N = M := by rw [hM', Nat.mul_div_cancel_left _ (by omega)]
  have hm3 : x.len / (Q * M) = P := by
    rw [hM', hP, show Q * P * M = Q * M * P by ring, Nat.mul_div_cancel_left _ (Nat.pos_of_ne_zero (Nat.mul_ne_zero hQ0 hM0))]
  have hwl : (defaultWindow N).len ≤ N + 1 := by rw [defaultWindow_len]; split_ifs <;> omega
  have hwl0 : N ≤ (defaultWindow N).len := by rw [defaultWindow_len]; split_ifs <;> omega
  have hwo := defaultWindow_odd N
  -- the window fits, possibly with negative positions
  obtain ⟨w, hw⟩ : ∃ w, w = (defaultWindow N).len := ⟨_, rfl⟩
  have hLr : (x.len : ℝ) = N * M := by rw [hM']; push_cast; ring
  have hNr : (3 : ℝ) ≤ N := by exact_mod_cast h3
  have hlr : (N : ℝ) ≤ M + 1 := by exact_mod_cast hlow
  have hwr : (w : ℝ) ≤ N + 1 := by rw [hw]; exact_mod_cast hwl
  have hwr0 : (N : ℝ) ≤ w := by rw [hw]; exact_mod_cast hwl0
  have hQr : (1 : ℝ) ≤ Q := by exact_mod_cast q2
  have hpl := placeWindow_total (L := x.len) (N := N) (q := Q) (w := defaultWindow N) hwo rfl (by
    have b1 := (roundEven_bounds (((x.len : ℝ) - ((defaultWindow N).len - 1)) / 2)).1
    have b2 := (roundEven_bounds ((2 * (x.len : ℝ) / N - 1 - (defaultWindow N).len) / (2 * Q))).2
    rw [← hw] at b1 b2 ⊢
    have e : 2 * (x.len : ℝ) / N = 2 * M := by rw [hLr]; field_simp
    rw [e] at b2 ⊢
    have h9 : (2 * (M : ℝ) - 1 - w) / (2 * Q) ≤ M := by
      rw [div_le_iff₀ (by positivity)]
      nlinarith
    generalize roundEven (((x.len : ℝ) - (w - 1)) / 2) = A at *
    generalize roundEven ((2 * (M : ℝ) - 1 - w) / (2 * Q)) = B at *
    have : -(x.len : ℝ) ≤ A - B - 1 := by nlinarith
    exact_mod_cast this) (by
    have b1 := (roundEven_bounds (((x.len : ℝ) - ((defaultWindow N).len - 1)) / 2)).2
    have b2 := (roundEven_bounds ((2 * (x.len : ℝ) / N - 1 - (defaultWindow N).len) / (2 * Q))).1
    rw [← hw] at b1 b2 ⊢
    have e : 2 * (x.len : ℝ) / N = 2 * M := by rw [hLr]; field_simp
    rw [e] at b2 ⊢
    have h9 : -(1 / 2 : ℝ) ≤ (2 * (M : ℝ) - 1 - w) / (2 * Q) := by
      rw [le_div_iff₀ (by positivity)]
      nlinarith
    generalize roundEven (((x.len : ℝ) - (w - 1)) / 2) = A at *
    generalize roundEven ((2 * (M : ℝ) - 1 - w) / (2 * Q)) = B at *
    have : (A : ℝ) - B - 1 + w ≤ x.len := by nlinarith
    exact_mod_cast this)
  unfold gaborCore
  rw [if_neg hN0]
  simp only [hm1, hm2]
  rw [if_neg (Nat.mul_ne_zero hQ0 hM0), hm3]
  rw [gaborDual_mismatch hwo hpl (by show x.len = Q * M * P; rw [hM', hP]; ring) (Nat.mul_ne_zero hQ0 hM0) hQ0 hPM hP1]
  rfl

/-- Without arguments `gabor` of 128 samples raises `ValueError`. -/
example (x : Vec ℂ) (hx : x.len = 128) : gabor x none none none = .error .valueError := by
  obtain ⟨a, h1, h2, h3, h4, h5⟩ := divider_spec (N := 128) (by norm_num)
  have h6 : (8 : ℕ) ≤ a := h5 8 (by norm_num) (by
    rw [Real.le_sqrt (by norm_num) (by norm_num)]; norm_num)
  refine C59_default_raises x a (128 / a) (by omega) (by rw [hx]; exact h1) (by omega) (fun h => ?_)
  have h7 := h.2
  rw [hx] at h7
  have : a < 12 := by nlinarith
  interval_cases a <;> omega

/-- Without arguments, an empty signal raises `ZeroDivisionError`. -/
theorem C59_default_empty (x : Vec ℂ) (hx : x.len = 0) : gabor x none none none = .error .zeroDivisionError := by
  have h : divider ((x.len : ℕ) : ℤ) = .ok (((0 : ℕ) : ℤ), ((0 : ℕ) : ℤ)) := by rw [hx]; exact C01_divider_zero
  rw [gabor_default h (by exact C01_divider_zero)]
  unfold gaborCore
  rw [if_pos rfl]

/-- Bounds on the samples of the default window. -/
theorem defaultWindow_sq_ge (N i : ℕ) (hN : 2 ≤ N) (hi : i < (defaultWindow N).len) :
    (1 / 40000 : ℝ) / (defaultWindow N).len ≤ (defaultWindow N).get i ^ 2 := by
  have hl := defaultWindow_len N
  obtain ⟨n, hn⟩ : ∃ n, n = (if N % 2 = 0 then N + 1 else N) := ⟨_, rfl⟩
  rw [← hn] at hl
  have hn2 : 2 ≤ n := by rw [hn]; split_ifs <;> omega
  rw [hl] at hi ⊢
  let f : ℕ → ℝ := fun i => Real.exp (Real.log 0.005 * ((linspace (-1) 1 n).get i) ^ 2)
  have hget : (defaultWindow N).get i = f i / Real.sqrt (∑ i ∈ range n, f i ^ 2) := by
    unfold defaultWindow
    rw [← hn]
    rfl
  have hlog : Real.log 0.005 < 0 := Real.log_neg (by norm_num) (by norm_num)
  have hle : ∀ i, f i ≤ 1 := fun i => by
    rw [← Real.exp_zero]
    exact Real.exp_le_exp.2 (mul_nonpos_of_nonpos_of_nonneg hlog.le (sq_nonneg _))
  have hpos : ∀ i, 0 < f i := fun i => Real.exp_pos _
  have hge : (0.005 : ℝ) ≤ f i := by
    have h1 : Real.exp (Real.log 0.005) = 0.005 := Real.exp_log (by norm_num)
    calc (0.005 : ℝ) = Real.exp (Real.log 0.005) := h1.symm
      _ ≤ f i := by
        apply Real.exp_le_exp.2
        have ht : ((linspace (-1) 1 n).get i) ^ 2 ≤ 1 := by
          have e : (linspace (-1) 1 n).get i = -1 + i * ((1 - -1) / (n - 1)) := by
            simp only [linspace]
            rw [if_neg (by omega)]
          have hnr : (2 : ℝ) ≤ n := by exact_mod_cast hn2
          have hir : (i : ℝ) ≤ n - 1 := by
            have : i + 1 ≤ n := hi
            have : ((i + 1 : ℕ) : ℝ) ≤ n := by exact_mod_cast this
            push_cast at this
            linarith
          have h2 : (i : ℝ) * ((1 - -1) / (n - 1)) ≤ 2 := by
            rw [mul_div_assoc', div_le_iff₀ (by linarith)]
            nlinarith
          have h3 : 0 ≤ (i : ℝ) * ((1 - -1) / (n - 1)) := by
            apply mul_nonneg (by positivity)
            apply div_nonneg <;> linarith
          rw [e]
          nlinarith
        nlinarith
  have hS0 : 0 < ∑ i ∈ range n, f i ^ 2 := Finset.sum_pos (fun i _ => by have := hpos i; positivity) ⟨0, Finset.mem_range.2 (by omega)⟩
  have hS : ∑ i ∈ range n, f i ^ 2 ≤ n := by
    calc ∑ i ∈ range n, f i ^ 2 ≤ ∑ _i ∈ range n, (1 : ℝ) := Finset.sum_le_sum (fun i _ => by
          have := hpos i
          have := hle i
          nlinarith)
      _ = n := by simp
  rw [hget, div_pow, Real.sq_sqrt hS0.le]
  apply div_le_div₀ (by positivity) _ hS0 hS
  nlinarith

/-- The lattice `gabor` chooses for the square of an odd prime (up to `10^5`): the default window fits and its Zak transform is nowhere below the threshold. -/
theorem default_square_lattice (p : ℕ) (hp : p.Prime) (h3 : 3 ≤ p) (hmax : p ≤ 100000) :
    ∃ s : ℕ, windowStart 1 p p = (s : ℤ) ∧ p % 2 = 1 ∧ (defaultWindow p).len = p ∧ s + p ≤ p * p ∧
      (∀ k < p, ∀ r < p, eps ≤ zakPower 1 p (placed (1 * p * p) s (defaultWindow p)) k r) ∧
      ∀ x : Vec ℂ, x.len = p * p → gabor x none none none = gabor x (some (1 * p)) (some 1) (some (defaultWindow p)) := by
  have hodd : p % 2 = 1 := (hp.eq_two_or_odd).resolve_left (by omega)
  have hwl : (defaultWindow p).len = p := by rw [defaultWindow_len, if_neg (by omega)]
  have hpr : (3 : ℝ) ≤ p := by exact_mod_cast h3
  have hws : windowStart 1 p p = roundEven ((((1 * p * p : ℕ) : ℝ) - (p - 1)) / 2) - ((p : ℤ) - 1) / 2 - 1 := by
    unfold windowStart
    congr 2
    have e1 : (p : ℤ) - 1 = 2 * (((p : ℤ) - 1) / 2) := by omega
    have e2 : (p : ℝ) - 1 = 2 * ((((p : ℤ) - 1) / 2 : ℤ) : ℝ) := by exact_mod_cast e1
    have : (2 * (p : ℝ) - 1 - p) / (2 * ((1 : ℕ) : ℝ)) = ((((p : ℤ) - 1) / 2 : ℤ) : ℝ) := by
      rw [← sub_eq_zero]
      push_cast
      linarith
    rw [this, roundEven_intCast]
  have hb := roundEven_bounds ((((1 * p * p : ℕ) : ℝ) - (p - 1)) / 2)
  have e1 : (p : ℤ) - 1 = 2 * (((p : ℤ) - 1) / 2) := by omega
  have e2 : (p : ℝ) - 1 = 2 * ((((p : ℤ) - 1) / 2 : ℤ) : ℝ) := by exact_mod_cast e1
  have e3 : ((1 * p * p : ℕ) : ℝ) = (p : ℝ) * p := by push_cast; ring
  generalize roundEven ((((1 * p * p : ℕ) : ℝ) - (p - 1)) / 2) = A at hws hb
  generalize ((p : ℤ) - 1) / 2 = B at hws e1 e2
  rw [e3] at hb
  have hs0 : 0 ≤ windowStart 1 p p := by
    rw [hws]
    have : (0 : ℝ) ≤ (A : ℝ) - B - 1 := by nlinarith [hb.1]
    exact_mod_cast this
  have hs1 : windowStart 1 p p + p ≤ ((p * p : ℕ) : ℤ) := by
    rw [hws]
    have : (A : ℝ) - B - 1 + p ≤ ((p * p : ℕ) : ℝ) := by push_cast; nlinarith [hb.2]
    exact_mod_cast this
  obtain ⟨s, hs⟩ := Int.eq_ofNat_of_zero_le hs0
  have hfit : s + p ≤ p * p := by omega
  have hp0 : p ≠ 0 := by omega
  have hpow : ∀ k < p, ∀ r < p, eps ≤ zakPower 1 p (placed (1 * p * p) s (defaultWindow p)) k r := by
    intro k hk r hr
    unfold zakPower
    rw [Finset.sum_range_one, zak_get_eq, norm_div, div_pow, Complex.norm_real, Real.norm_of_nonneg (Real.sqrt_nonneg _), Real.sq_sqrt (by positivity)]
    -- the only sample of the residue class covered by the window
    have hc : (s + p - 1 - r) / p < 1 * p := by
      rw [one_mul, Nat.div_lt_iff_lt_mul (by omega)]
      omega
    have hdm := Nat.div_add_mod (s + p - 1 - r) p
    have hml := Nat.mod_lt (s + p - 1 - r) (by omega : p > 0)
    obtain ⟨c, hcdef⟩ : ∃ c, c = (s + p - 1 - r) / p := ⟨_, rfl⟩
    rw [← hcdef] at hc hdm
    have hsum : dftC (1 * p) (fun c => (placed (1 * p * p) s (defaultWindow p)).get (r + c * p)) ((k % p + 0 * p : ℕ) : ℤ)
        = (defaultWindow p).get (r + c * p - s) * rootPow (1 * p) ((c : ℤ) * ((k % p + 0 * p : ℕ) : ℤ)) := by
      unfold dftC
      have hcp : c * p = p * c := mul_comm _ _
      rw [Finset.sum_eq_single c]
      · simp only [placed]
        rw [if_pos (by rw [hwl]; omega)]
      · intro c' _ hne
        simp only [placed]
        rw [if_neg, zero_mul]
        rw [hwl]
        rintro ⟨h1, h2⟩
        have hcp' : c' * p = p * c' := mul_comm _ _
        rcases Nat.lt_or_gt_of_ne hne with h | h
        · have : p * (c' + 1) ≤ p * c := Nat.mul_le_mul_left _ h
          rw [mul_add, mul_one] at this
          omega
        · have : p * (c + 1) ≤ p * c' := Nat.mul_le_mul_left _ h
          rw [mul_add, mul_one] at this
          omega
      · intro h
        exact absurd (Finset.mem_range.2 hc) h
    rw [hsum, norm_mul, norm_rootPow, mul_one, Complex.norm_real, Real.norm_eq_abs, sq_abs]
    have hcp : c * p = p * c := mul_comm _ _
    have h4 := defaultWindow_sq_ge p (r + c * p - s) (by omega) (by rw [hwl]; omega)
    rw [hwl] at h4
    have h5 : (p : ℝ) ≤ 100000 := by exact_mod_cast hmax
    have h6 : eps ≤ (1 / 40000 : ℝ) / p / p := by
      unfold eps
      rw [div_div, le_div_iff₀ (by positivity)]
      have : (p : ℝ) * p ≤ 100000 * 100000 := by nlinarith
      calc (2 : ℝ) ^ (-52 : ℤ) * (p * p) ≤ (2 : ℝ) ^ (-52 : ℤ) * (100000 * 100000) := by gcongr
        _ ≤ 1 / 40000 := by norm_num
    calc eps ≤ (1 / 40000 : ℝ) / p / p := h6
      _ ≤ (defaultWindow p).get (r + c * p - s) ^ 2 / p := by gcongr
      _ = _ := by push_cast; rw [one_mul]
  refine ⟨s, hs, hodd, hwl, hfit, hpow, fun x hx => ?_⟩
  rw [gabor_default (N := p) (M := p) (Q := 1) (P := p) (by rw [hx]; exact divider_square (by omega)) (divider_prime hp h3), one_mul]
  rfl

/-- Without arguments, a signal whose length is the square of an odd prime (up to `10^5`) is analysed on the lattice of that many instants and
frequencies with the default window, and is recovered exactly from its coefficients. -/
theorem C59_default_square (p : ℕ) (hp : p.Prime) (h3 : 3 ≤ p) (hmax : p ≤ 100000) (x : Vec ℂ) (hx : x.len = p * p) :
    ∃ (s : ℕ) (R : GaborResult), (s : ℤ) = windowStart 1 p p ∧ (defaultWindow p).len = p ∧ gabor x none none none = .ok R ∧
      R.dgr.rows = p ∧ R.dgr.cols = p ∧
      ∀ j < x.len, x.get j = ∑ n ∈ range p, ∑ r ∈ range p, R.dgr.get r n
        * cyc (placed (p * p) s (defaultWindow p)) ((j : ℤ) - ((p * p / 2 : ℕ) : ℤ) - n * p) * expi (2 * Real.pi * (r * j / (p : ℝ))) := by
  obtain ⟨s, hs, hodd, hwl, hfit, hpow, hdef⟩ := default_square_lattice p hp h3 hmax
  obtain ⟨R, h5, h6, h7, h8⟩ := C59_reconstruction 1 p s (by omega) le_rfl (defaultWindow p) (by rw [hwl]; exact hodd) (by rw [hwl]; exact hs.symm)
    (by rw [hwl, one_mul]; exact hfit) hpow x (by rw [hx, one_mul])
  have hdef := hdef x hx
  simp only [one_mul] at h6 h7 h8
  exact ⟨s, R, hs.symm, hwl, hdef.trans h5, h6, h7, h8⟩

/-- Without arguments, for every signal whose length is an odd prime, `gabor` returns a single column of coefficients, all equal to zero, and a "dual
window" that has as many samples as the square of the length. -/
theorem C59_default_prime (p : ℕ) (hp : p.Prime) (h3 : 3 ≤ p) (x : Vec ℂ) (hx : x.len = p) :
    ∃ R, gabor x none none none = .ok R ∧ R.dgr.rows = p ∧ R.dgr.cols = 1 ∧ R.gam.len = p * p ∧ R.tfr.rows = p ∧ R.tfr.cols = 1 ∧
      ∀ r < p, R.dgr.get r 0 = 0 ∧ R.tfr.get r 0 = 0 := by
  have hodd : p % 2 = 1 := (hp.eq_two_or_odd).resolve_left (by omega)
  have hp0 : p ≠ 0 := by omega
  have hpz : (0 : ℤ) < p := by omega
  have hwl : (defaultWindow 1).len = 1 := rfl
  have h1 : divider ((1 : ℕ) : ℤ) = .ok (((1 : ℕ) : ℤ), ((1 : ℕ) : ℤ)) := by
    have := divider_square (p := 1) le_rfl
    simpa using this
  rw [gabor_default (N := 1) (M := p) (Q := 1) (P := 1) (by rw [hx]; exact divider_prime hp h3) h1]
  -- position of the single sample of the window
  have hhalf := roundEven_half p
  obtain ⟨ρ, hρ⟩ : ∃ ρ : ℕ, roundEven ((p : ℝ) / 2) = ρ ∧ 1 ≤ ρ ∧ ρ < p := by
    have hb := roundEven_bounds ((p : ℝ) / 2)
    have hpr : (3 : ℝ) ≤ p := by exact_mod_cast h3
    have l1 : (0 : ℝ) < roundEven ((p : ℝ) / 2) := by linarith [hb.1]
    have l2 : (roundEven ((p : ℝ) / 2) : ℝ) < p := by linarith [hb.2]
    have l1' : 0 < roundEven ((p : ℝ) / 2) := by exact_mod_cast l1
    have l2' : roundEven ((p : ℝ) / 2) < (p : ℤ) := by exact_mod_cast l2
    exact ⟨(roundEven ((p : ℝ) / 2)).toNat, by omega, by omega, by omega⟩
  have hs : (ρ : ℤ) - p = roundEven (((p : ℝ) - ((defaultWindow 1).len - 1)) / 2)
      - roundEven ((2 * (p : ℝ) / ((1 : ℕ) : ℝ) - 1 - (defaultWindow 1).len) / (2 * ((1 : ℕ) : ℝ))) - 1 := by
    rw [hwl]
    have e1 : ((p : ℝ) - (((1 : ℕ) : ℝ) - 1)) / 2 = (p : ℝ) / 2 := by push_cast; ring
    have e2 : (2 * (p : ℝ) / ((1 : ℕ) : ℝ) - 1 - ((1 : ℕ) : ℝ)) / (2 * ((1 : ℕ) : ℝ)) = ((p - 1 : ℤ) : ℝ) := by push_cast; ring
    rw [e1, e2, roundEven_intCast, hρ.1]
    ring
  have hpl := placeWindow_total (defaultWindow_odd 1) hs (by omega) (by rw [hwl]; omega)
  rw [hwl] at hpl
  set h : Vec ℝ := ⟨p, Vec.scatter (fun _ => 0) (fun j => wrapIdx p ((ρ : ℤ) - p + j)) (defaultWindow 1).get 1⟩ with hh
  have hget : ∀ j, h.get j = if j = ρ then (defaultWindow 1).get 0 else 0 := by
    intro j
    have hwr : wrapIdx p ((ρ : ℤ) - p + ((0 : ℕ) : ℤ)) = ρ := by
      unfold wrapIdx
      rw [if_pos (by omega)]
      omega
    simp only [hh, Vec.scatter_succ, Vec.scatter_zero, hwr, Function.update_apply]
  have hdft : ∀ k : ℤ, dftC p (fun c => (h.map Complex.ofReal).get (0 + c * 1)) k = ((defaultWindow 1).get 0 : ℂ) * rootPow p ((ρ : ℤ) * k) := by
    intro k
    unfold dftC
    rw [Finset.sum_eq_single ρ]
    · simp only [Vec.map_get, zero_add, mul_one, hget, if_pos]
    · intro c _ hne
      simp only [Vec.map_get, zero_add, mul_one, hget, if_neg hne, Complex.ofReal_zero, zero_mul]
    · intro hn
      exact absurd (Finset.mem_range.2 hρ.2.2) hn
  -- its Zak transform has constant modulus
  set Z := zak p 1 (h.map Complex.ofReal) with hZ
  obtain ⟨v, hv⟩ : ∃ v : ℝ, ∀ k : ℕ, ‖Z.get k 0‖ ^ 2 = v :=
    ⟨‖((defaultWindow 1).get 0 : ℂ)‖ ^ 2 / ‖(Real.sqrt p : ℂ)‖ ^ 2, fun k => by
      rw [hZ, zak_get_eq, hdft, norm_div, norm_mul, norm_rootPow, mul_one, div_pow]⟩
  have hstep : zakStep p 1 Z (Mat.zeros p p) 0 = .ok ⟨p, p, fun _ _ => v⟩ := by
    unfold zakStep
    rw [moduloInt_ok (v := ⟨p, fun i => (i : ℝ) + 1 - ((0 : ℕ) : ℝ) * p / ((1 : ℕ) : ℝ)⟩) hp0 hp0 (fun i => (i : ℤ) + 1) (by intro i; push_cast; simp), ok_bind]
    have e : (Vec.map (fun i => i - 1) (⟨p, fun i => ((i : ℤ) + 1 - 1) % (p : ℤ) + 1⟩ : Vec ℤ)) = ⟨p, fun i => ((i : ℤ) + 1 - 1) % (p : ℤ)⟩ := by
      refine congrArg (Vec.mk p) (funext fun i => ?_)
      simp
    rw [e, takeRows_ok (fun j => Int.emod_nonneg _ hpz.ne') (fun j _ => Int.emod_lt_of_pos _ hpz), ok_bind]
    unfold iadd
    rw [if_neg (by show 1 ≠ p; omega), if_pos (by exact rfl)]
    refine congrArg Except.ok (congrArg (Mat.mk p p) (funext fun k => funext fun r => ?_))
    simp only [Mat.map, Mat.zeros, zero_add]
    exact hv _
  obtain ⟨W, hW⟩ : ∃ W : ℝ, W = if v < eps then 1 else v := ⟨_, rfl⟩
  obtain ⟨g, g1, g2⟩ := izak2_ok ⟨p, p, fun k _ => Z.get k 0 / (W : ℂ)⟩ hp0
  have hg0 : ∀ i < p, g i = 0 := by
    intro i hi
    have := g2 i hi 0 (by show 0 < p; omega)
    rw [zero_mul, add_zero] at this
    rw [this]
    have e : (fun r : ℕ => Z.get r 0 / (W : ℂ)) = fun r : ℕ => dftC p (fun c => (h.map Complex.ofReal).get (0 + c * 1) / ((Real.sqrt p : ℂ) * W)) (r : ℤ) := by
      funext r
      rw [hZ, zak_get_eq]
      unfold dftC
      rw [div_div, Finset.sum_div]
      apply Finset.sum_congr rfl
      intro c _
      ring
    have e0 : idftC p (fun r : ℕ => Z.get r 0 / (W : ℂ)) ((0 : ℕ) : ℤ) = 0 := by
      rw [e, idftC_dftC hp0 _ (by omega : 0 < p)]
      simp only [Vec.map_get, zero_add, mul_one, hget]
      rw [if_neg (by omega)]
      simp
    show (Real.sqrt p : ℂ) * idftC p (fun r : ℕ => Z.get r 0 / (W : ℂ)) ((0 : ℕ) : ℤ) = 0
    rw [e0, mul_zero]
  have hdual : gaborDual p 1 1 p p 1 (defaultWindow 1) = .ok ⟨p * p, fun j => (g j).re / (p : ℝ)⟩ := by
    unfold gaborDual
    rw [if_neg (by rw [hwl]; omega), hpl, ok_bind, zakOf_ok hp0 (by rw [mul_one]), ok_bind, ← hZ]
    have : (List.range 1).foldlM (zakStep p 1 Z) (Mat.zeros p p) = .ok ⟨p, p, fun _ _ => v⟩ := by
      rw [List.range_one, List.foldlM_cons, hstep]
      rfl
    rw [this, ok_bind]
    have e : (⟨p, p, fun k c => Z.get k (if 1 = 1 then 0 else c) / ((((⟨p, p, fun _ _ => v⟩ : Mat ℝ).map (fun a => if a < eps then 1 else a)).get k c : ℝ) : ℂ)⟩ : Mat ℂ)
        = ⟨p, p, fun k _ => Z.get k 0 / (W : ℂ)⟩ := by
      simp only [Mat.map, if_pos, hW]
    show (izak2 _ >>= fun g => Except.ok (g.map (fun z => z.re / (p : ℝ)))) = _
    rw [e, g1]
    rfl
  have hcol : ∀ c : Vec ℂ, gaborCol x p 1 ⟨p * p, fun j => (g j).re / (p : ℝ)⟩ 0 c = .ok ⟨p, fun _ => 0⟩ := by
    intro c
    unfold gaborCol
    rw [moduloInt_ok (v := ⟨x.len, fun i => (i : ℝ) + 1 - ((0 : ℕ) : ℝ) * p / ((1 : ℕ) : ℝ)⟩) (by rw [hx]; exact hp0) (by rw [hx]; exact hp0) (fun i => (i : ℤ) + 1)
      (by intro i; push_cast; simp), ok_bind, hx]
    have e : (Vec.map (fun i => i - 1) (⟨p, fun i => ((i : ℤ) + 1 - 1) % (p : ℤ) + 1⟩ : Vec ℤ)) = ⟨p, fun i => ((i : ℤ) + 1 - 1) % (p : ℤ)⟩ := by
      refine congrArg (Vec.mk p) (funext fun i => ?_)
      simp
    have hlt : ∀ j : ℕ, ((j : ℤ) + 1 - 1) % (p : ℤ) < p := fun j => Int.emod_lt_of_pos _ hpz
    have hge : ∀ j : ℕ, 0 ≤ ((j : ℤ) + 1 - 1) % (p : ℤ) := fun j => Int.emod_nonneg _ hpz.ne'
    rw [e, Vec.take_ok (by
      intro j _
      refine ⟨hge j, lt_of_lt_of_le (hlt j) ?_⟩
      show (p : ℤ) ≤ ((p * p : ℕ) : ℤ)
      exact_mod_cast Nat.le_mul_self p), ok_bind, Vec.bcast_ok (by exact hx), ok_bind, fft_ok (by show x.len ≠ 0; omega)]
    refine congrArg Except.ok ?_
    simp only
    rw [hx]
    refine congrArg (Vec.mk p) (funext fun k => ?_)
    unfold dftC
    apply Finset.sum_eq_zero
    intro j _
    simp only [fftshift]
    rw [wrapIdx_of_nonneg (hge _), hg0 _ (by have := hlt ((j + (p - p / 2)) % p); have := hge ((j + (p - p / 2)) % p); omega)]
    simp
  have hcols := Mat.forCols_ok (M := Mat.zeros (α := ℂ) p 1) (T := 1) (body := gaborCol x p 1 ⟨p * p, fun j => (g j).re / (p : ℝ)⟩) (g := fun _ => ⟨p, fun _ => 0⟩)
    (le_refl _) (fun c hc => by
      have : c = 0 := by omega
      subst this
      exact hcol _)
  have hcore : gaborCore x 1 1 (defaultWindow 1) = .ok ⟨(⟨p, 1, fun _ c => if c < 1 then 0 else 0⟩ : Mat ℂ).map (fun z => ‖z‖ ^ 2),
      ⟨p, 1, fun _ c => if c < 1 then 0 else 0⟩, ⟨p * p, fun j => (g j).re / (p : ℝ)⟩⟩ := by
    unfold gaborCore
    rw [if_neg one_ne_zero]
    simp only [one_mul, Nat.div_one, hx]
    rw [if_neg hp0, Nat.div_self (by omega), hdual, ok_bind, hcols, ok_bind, takeRows_ok (by intro j; simp only; omega) (by
      intro j hj
      show ((j * 1 : ℕ) : ℤ) < (p : ℤ)
      simp at hj
      omega), ok_bind]
    simp only [Nat.div_one, Nat.add_sub_cancel]
    rfl
  refine ⟨_, hcore, rfl, rfl, rfl, rfl, rfl, fun r _ => ?_⟩
  simp [Mat.map]

/-- Without arguments `gabor` analyses 9 samples exactly, and annihilates every signal of 7 samples. -/
example : (3 : ℕ).Prime ∧ (7 : ℕ).Prime ∧ 3 ≤ 3 ∧ 3 ≤ 7 := ⟨by norm_num, by norm_num, by norm_num, by norm_num⟩

/-- The hypotheses of `C59_reconstruction` hold for `Q = b = 2` (8 samples, 4 instants) and a window of three ones. -/
theorem three_ones_lattice : ((2 : ℕ) : ℤ) = windowStart 2 2 3 ∧ 2 + 3 ≤ 2 * 2 * 2 ∧
    ∀ k < 2, ∀ r < 2, eps ≤ zakPower 2 2 (placed (2 * 2 * 2) 2 ⟨3, fun _ => 1⟩) k r := by
  refine ⟨?_, by norm_num, ?_⟩
  · unfold windowStart
    have e1 : (((2 * 2 * 2 : ℕ) : ℝ) - (((3 : ℕ) : ℝ) - 1)) / 2 = ((3 : ℤ) : ℝ) := by norm_num
    have e2 : (2 * ((2 : ℕ) : ℝ) - 1 - ((3 : ℕ) : ℝ)) / (2 * ((2 : ℕ) : ℝ)) = ((0 : ℤ) : ℝ) := by norm_num
    rw [e1, e2, roundEven_intCast, roundEven_intCast]
    norm_num
  · have hr2 : rootPow 4 2 = -1 := by
      unfold rootPow
      have e : -(2 * (Real.pi : ℂ) * Complex.I * ((2 : ℤ) : ℂ) / ((4 : ℕ) : ℂ)) = -(Real.pi * Complex.I) := by push_cast; ring
      rw [e, Complex.exp_neg, Complex.exp_pi_mul_I]
      norm_num
    have hr4 : rootPow 4 4 = 1 := by
      have := rootPow_self_mul (n := 4) (by norm_num) 1
      simpa using this
    have heps : eps ≤ 1 / 4 := by unfold eps; norm_num
    have hsq : (Real.sqrt ((2 * 2 : ℕ) : ℝ)) ^ 2 = 4 := by rw [Real.sq_sqrt (by positivity)]; norm_num
    have hval : ∀ (κ : ℕ) (r : ℕ), ‖(zak (2 * 2) 2 (placed (2 * 2 * 2) 2 ⟨3, fun _ => 1⟩)).get κ r‖ ^ 2
        = ‖dftC 4 (fun c => (placed (2 * 2 * 2) 2 ⟨3, fun _ => 1⟩).get (r + c * 2)) (κ : ℤ)‖ ^ 2 / 4 := by
      intro κ r
      rw [zak_get_eq, norm_div, div_pow, Complex.norm_real, Real.norm_of_nonneg (Real.sqrt_nonneg _), hsq]
    have h0 : ∀ κ : ℤ, dftC 4 (fun c => (placed (2 * 2 * 2) 2 ⟨3, fun _ => 1⟩).get (0 + c * 2)) κ = rootPow 4 κ + rootPow 4 (2 * κ) := by
      intro κ
      simp [dftC, Finset.sum_range_succ, placed]
    have h1 : ∀ κ : ℤ, dftC 4 (fun c => (placed (2 * 2 * 2) 2 ⟨3, fun _ => 1⟩).get (1 + c * 2)) κ = rootPow 4 κ := by
      intro κ
      simp [dftC, Finset.sum_range_succ, placed]
    intro k hk r hr
    unfold zakPower
    rw [Finset.sum_range_succ, Finset.sum_range_one, hval, hval, Nat.mod_eq_of_lt hk]
    rcases (by omega : r = 0 ∨ r = 1) with rfl | rfl
    · rw [h0, h0]
      have e1 : ((k + 1 * 2 : ℕ) : ℤ) = (k : ℤ) + 2 := by push_cast; ring
      have e2 : 2 * ((k : ℤ) + 2) = 2 * k + 4 := by ring
      have e3 : ((k + 0 * 2 : ℕ) : ℤ) = k := by push_cast; ring
      rw [e1, e2, e3, rootPow_add, rootPow_add 4 (2 * k), hr2, hr4, mul_one]
      have hpar0 : ∀ a b : ℂ, ‖a + b‖ ^ 2 + ‖a - b‖ ^ 2 = 2 * (‖a‖ ^ 2 + ‖b‖ ^ 2) := by
        intro a b
        simp only [← Complex.normSq_eq_norm_sq, Complex.normSq_apply, Complex.add_re, Complex.add_im, Complex.sub_re, Complex.sub_im]
        ring
      have hpar := hpar0 (rootPow 4 (2 * (k : ℤ))) (rootPow 4 (k : ℤ))
      rw [norm_rootPow, norm_rootPow] at hpar
      have e4 : rootPow 4 (k : ℤ) * -1 + rootPow 4 (2 * (k : ℤ)) = rootPow 4 (2 * (k : ℤ)) - rootPow 4 (k : ℤ) := by ring
      rw [e4, add_comm (rootPow 4 (k : ℤ))]
      nlinarith
    · rw [h1, h1, norm_rootPow, norm_rootPow]
      linarith

end Tftb.Props
