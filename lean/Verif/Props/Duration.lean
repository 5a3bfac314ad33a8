import Verif.Props.AM
import Verif.Props.TimeFreq
import Mathlib.Analysis.Real.Pi.Bounds

/-! # C130 — the duration asked for and the duration measured -/

namespace Tftb.Props

open Tftb Tftb.Spec Tftb.AM Tftb.TF Finset

theorem sum_Icc_around (c : ℕ) (G : ℕ → ℝ) : ∀ K ≤ c, ∑ i ∈ Finset.Icc (c - K) (c + K), G i = G c + ∑ k ∈ range K, (G (c + (k + 1)) + G (c - (k + 1))) := by
  intro K
  induction K with
  | zero => intro _; simp
  | succ K ih =>
    intro hK
    have hset : Finset.Icc (c - (K + 1)) (c + (K + 1)) = insert (c + (K + 1)) (insert (c - (K + 1)) (Finset.Icc (c - K) (c + K))) := by
      ext j
      simp only [Finset.mem_insert, Finset.mem_Icc]
      omega
    rw [hset, Finset.sum_insert, Finset.sum_insert, ih (by omega), Finset.sum_range_succ]
    · ring
    · simp only [Finset.mem_Icc]; omega
    · simp only [Finset.mem_insert, Finset.mem_Icc]; omega

/-- **Symmetric envelopes.**  A signal whose squared modulus is `φ(|i - c|)` with `φ` vanishing beyond `K`, all inside the signal: the centre is `c`, and the
duration is `2 √(π Σ k² φ(k) / Σ φ(k))`, sums over `-K..K`. -/
theorem C130_symmetric (x : Vec ℂ) (c K : ℕ) (φ : ℕ → ℝ) (hKc : K ≤ c) (hKn : c + K < x.len) (hx : ∀ i < x.len, ‖x.get i‖ ^ 2 = φ ((i : ℤ) - c).natAbs)
    (hφ : ∀ k, K < k → φ k = 0) (hS : φ 0 + 2 * ∑ k ∈ range K, φ (k + 1) ≠ 0) :
    loctime x = .ok ((c : ℝ), 2 * Real.sqrt (Real.pi * (2 * (∑ k ∈ range K, ((k : ℝ) + 1) ^ 2 * φ (k + 1)) / (φ 0 + 2 * ∑ k ∈ range K, φ (k + 1))))) := by
  have hsum : ∀ F : ℕ → ℝ, ∑ i ∈ range x.len, F i * ‖x.get i‖ ^ 2 = F c * φ 0 + ∑ k ∈ range K, (F (c + (k + 1)) + F (c - (k + 1))) * φ (k + 1) := by
    intro F
    have h1 : ∑ i ∈ range x.len, F i * ‖x.get i‖ ^ 2 = ∑ i ∈ Finset.Icc (c - K) (c + K), F i * φ ((i : ℤ) - c).natAbs := by
      rw [Finset.sum_congr rfl (fun i hi => by rw [hx i (Finset.mem_range.1 hi)])]
      symm
      refine Finset.sum_subset ?_ ?_
      · intro i hi
        rw [Finset.mem_Icc] at hi
        rw [Finset.mem_range]; omega
      · intro i _ hi
        rw [Finset.mem_Icc] at hi
        rw [hφ _ (by omega), mul_zero]
    rw [h1, sum_Icc_around c _ K hKc]
    congr 1
    · simp
    · refine Finset.sum_congr rfl fun k hk => ?_
      have := Finset.mem_range.1 hk
      rw [show (((c + (k + 1) : ℕ) : ℤ) - c).natAbs = k + 1 by omega, show (((c - (k + 1) : ℕ) : ℤ) - c).natAbs = k + 1 by omega, add_mul]
  have hw : ∑ i ∈ range x.len, ‖x.get i‖ ^ 2 = φ 0 + 2 * ∑ k ∈ range K, φ (k + 1) := by
    have := hsum (fun _ => 1)
    simp only [one_mul] at this
    rw [this, Finset.mul_sum]
    congr 1
    exact Finset.sum_congr rfl fun k _ => by ring
  have hcast : ∀ k ∈ range K, ((c - (k + 1) : ℕ) : ℝ) = c - (k + 1) := by
    intro k hk
    have := Finset.mem_range.1 hk
    rw [Nat.cast_sub (by omega)]
    push_cast
    ring
  have hm : wmean x.len (fun i => (i : ℝ)) (fun i => ‖x.get i‖ ^ 2) = c := by
    unfold wmean
    rw [hsum (fun i => (i : ℝ)), hw, div_eq_iff hS, mul_add, Finset.mul_sum, Finset.mul_sum]
    congr 1
    refine Finset.sum_congr rfl fun k hk => ?_
    rw [hcast k hk]
    push_cast
    ring
  rw [C44_loctime x (by unfold energy; rw [hw]; exact hS), hm]
  unfold wvar
  rw [hm]
  unfold wmean
  have hv : ∑ i ∈ range x.len, ((i : ℝ) - c) ^ 2 * ‖x.get i‖ ^ 2 = 2 * ∑ k ∈ range K, ((k : ℝ) + 1) ^ 2 * φ (k + 1) := by
    rw [hsum (fun i => ((i : ℝ) - c) ^ 2), Finset.mul_sum, sub_self, zero_pow (by norm_num), zero_mul, zero_add]
    refine Finset.sum_congr rfl fun k hk => ?_
    rw [hcast k hk]
    push_cast
    ring
  rw [hv, hw]

theorem sum_sq_succ (K : ℕ) : ∑ k ∈ range K, ((k : ℝ) + 1) ^ 2 = (K : ℝ) * (K + 1) * (2 * K + 1) / 6 := by
  induction K with
  | zero => simp
  | succ K ih => rw [Finset.sum_range_succ, ih]; push_cast; ring

/-- **Rectangles.**  A signal with the envelope `amrect(n, c, s)` that fits into the signal: the centre is exact, and the measured duration is
`2 √(π K (K + 1) / 3)`, `K` the number of samples on each side of the centre: the duration asked for, within about two samples. -/
theorem C130_amrect (n c : ℕ) (s : ℝ) (hs : 0 < s) (K : ℕ) (hK : K = ⌊s / 2 * Real.sqrt (3 / Real.pi)⌋₊) (hc : K ≤ c) (hn : c + K < n) (y : Vec ℝ)
    (hy : amrect n (some c) (some s) = .ok y) (x : Vec ℂ) (hl : x.len = n) (hx : ∀ i < n, ‖x.get i‖ = y.get i) :
    ∃ T : ℝ, loctime x = .ok ((c : ℝ), T) ∧ T = 2 * Real.sqrt (Real.pi * (K * (K + 1) / 3)) ∧ s - 2.05 < T ∧ T < s + 1.03 := by
  obtain ⟨y', e1, _, e2, e3, _⟩ := C07_amrect n (by omega) c s hs
  rw [hy] at e1
  injection e1 with e1
  subst e1
  have hpi := Real.pi_pos
  set W := s / 2 * Real.sqrt (3 / Real.pi) with hW
  have hW0 : 0 ≤ W := by positivity
  have hKW : (K : ℝ) ≤ W := by rw [hK]; exact Nat.floor_le hW0
  have hWK : W < K + 1 := by rw [hK]; exact Nat.lt_floor_add_one W
  have hv : ∀ i < n, ‖x.get i‖ ^ 2 = if ((i : ℤ) - c).natAbs ≤ K then (1 : ℝ) else 0 := by
    intro i hi
    have hab : |(i : ℝ) - c| = (((i : ℤ) - c).natAbs : ℝ) := by
      rw [Nat.cast_natAbs]; push_cast; rfl
    rw [hx i hi]
    by_cases h : ((i : ℤ) - c).natAbs ≤ K
    · rw [if_pos h, (e3 i hi).2, one_pow]
      rw [hab]
      exact le_trans (by exact_mod_cast h) hKW
    · rw [if_neg h]
      rcases e2 i hi with h1 | h1
      · exfalso
        have := (e3 i hi).1 h1
        rw [hab] at this
        have h3 : ((K + 1 : ℕ) : ℝ) ≤ (((i : ℤ) - c).natAbs : ℝ) := by exact_mod_cast not_le.1 h
        push_cast at h3
        linarith
      · rw [h1]; norm_num
  have hone : ∀ k ∈ range K, (if k + 1 ≤ K then (1 : ℝ) else 0) = 1 := fun k hk => if_pos (by have := Finset.mem_range.1 hk; omega)
  have hS : (if 0 ≤ K then (1 : ℝ) else 0) + 2 * ∑ k ∈ range K, (if k + 1 ≤ K then (1 : ℝ) else 0) = 2 * K + 1 := by
    rw [if_pos (Nat.zero_le _), Finset.sum_congr rfl hone]
    simp
    ring
  have h2 : ∑ k ∈ range K, ((k : ℝ) + 1) ^ 2 * (if k + 1 ≤ K then (1 : ℝ) else 0) = (K : ℝ) * (K + 1) * (2 * K + 1) / 6 := by
    rw [← sum_sq_succ]
    exact Finset.sum_congr rfl fun k hk => by rw [hone k hk, mul_one]
  have hk1 : (0 : ℝ) < 2 * K + 1 := by positivity
  have key := C130_symmetric x c K (fun k => if k ≤ K then 1 else 0) hc (by omega) (by intro i hi; exact hv i (by omega)) (fun k hk => if_neg (by omega))
    (by rw [hS]; exact hk1.ne')
  rw [hS, h2] at key
  have hq : 2 * ((K : ℝ) * (K + 1) * (2 * K + 1) / 6) / (2 * K + 1) = K * (K + 1) / 3 := by field_simp; ring
  rw [hq] at key
  refine ⟨_, key, rfl, ?_⟩
  -- `s = 2 √(π/3) W`
  set r := Real.sqrt (Real.pi / 3) with hr
  have hr0 : 0 < r := Real.sqrt_pos.2 (by positivity)
  have hrr : r * r = Real.pi / 3 := Real.mul_self_sqrt (by positivity)
  have hprod : Real.sqrt (3 / Real.pi) * r = 1 := by
    rw [hr, ← Real.sqrt_mul (by positivity), show 3 / Real.pi * (Real.pi / 3) = 1 by field_simp, Real.sqrt_one]
  have hsW : s = 2 * (r * W) := by
    rw [hW]
    calc s = s * (Real.sqrt (3 / Real.pi) * r) := by rw [hprod, mul_one]
      _ = _ := by ring
  have hrb : r < 1.025 := by
    by_contra h
    have h := not_lt.1 h
    have := Real.pi_lt_d2
    nlinarith
  have hroot : Real.sqrt (Real.pi * ((K : ℝ) * (K + 1) / 3)) = r * Real.sqrt ((K : ℝ) * (K + 1)) := by
    rw [hr, ← Real.sqrt_mul (by positivity)]
    congr 1
    ring
  have hlow : (K : ℝ) ≤ Real.sqrt ((K : ℝ) * (K + 1)) := Real.le_sqrt_of_sq_le (by nlinarith [show (0 : ℝ) ≤ K by positivity])
  have hup : Real.sqrt ((K : ℝ) * (K + 1)) ≤ K + 1 / 2 := by
    rw [Real.sqrt_le_left (by positivity)]
    nlinarith
  rw [hroot, hsW]
  constructor
  · have : r * (W - Real.sqrt ((K : ℝ) * (K + 1))) < 1.025 := by
      rcases le_or_gt (W - Real.sqrt ((K : ℝ) * (K + 1))) 0 with h | h
      · nlinarith
      · calc r * (W - Real.sqrt ((K : ℝ) * (K + 1))) ≤ r * 1 := by gcongr; linarith
          _ < 1.025 := by linarith
    linarith
  · have : r * (Real.sqrt ((K : ℝ) * (K + 1)) - W) ≤ r * (1 / 2) := by gcongr; linarith
    linarith

theorem sum_tri (K : ℕ) (L : ℝ) : ∑ k ∈ range K, (L - ((k : ℝ) + 1)) ^ 2 = (K : ℝ) * L ^ 2 - L * (K * (K + 1)) + K * (K + 1) * (2 * K + 1) / 6 := by
  induction K with
  | zero => simp
  | succ K ih => rw [Finset.sum_range_succ, ih]; push_cast; ring

theorem sum_tri_sq (K : ℕ) (L : ℝ) : ∑ k ∈ range K, ((k : ℝ) + 1) ^ 2 * (L - ((k : ℝ) + 1)) ^ 2
    = L ^ 2 * (K * (K + 1) * (2 * K + 1) / 6) - 2 * L * (K ^ 2 * (K + 1) ^ 2 / 4) + K * (K + 1) * (2 * K + 1) * (3 * K ^ 2 + 3 * K - 1) / 30 := by
  induction K with
  | zero => simp
  | succ K ih => rw [Finset.sum_range_succ, ih]; push_cast; ring

/-- **Triangles.**  A signal with the envelope `amtriang(n, c, s)` whose feet are the samples `c - L` and `c + L`: the centre is exact, the measured duration
is never larger than the one asked for, and its square at most `2π/5` smaller. -/
theorem C130_amtriang (n c L : ℕ) (hL : 1 ≤ L) (s : ℝ) (hs : s = 2 * L * Real.sqrt (Real.pi / 10)) (hc : L ≤ c + 1) (hn : c + L ≤ n) (y : Vec ℝ)
    (hy : amtriang n (some c) (some s) = .ok y) (x : Vec ℂ) (hl : x.len = n) (hx : ∀ i < n, ‖x.get i‖ = y.get i) :
    ∃ T : ℝ, loctime x = .ok ((c : ℝ), T) ∧ T = 2 * Real.sqrt (Real.pi * (((L : ℝ) ^ 4 - 1) / (5 * (2 * L ^ 2 + 1)))) ∧ 0 ≤ T ∧ T ≤ s ∧ s ^ 2 - T ^ 2 ≤ 2 * Real.pi / 5 := by
  have hpi := Real.pi_pos
  have hL0 : (0 : ℝ) < L := by exact_mod_cast hL
  have hL1 : (1 : ℝ) ≤ L := by exact_mod_cast hL
  have hr0 : 0 < Real.sqrt (Real.pi / 10) := Real.sqrt_pos.2 (by positivity)
  have hs0 : 0 < s := by rw [hs]; positivity
  obtain ⟨y', e1, _, e2, _⟩ := C07_amtriang n (by omega) c s hs0
  rw [hy] at e1
  injection e1 with e1
  subst e1
  have hfoot : Real.sqrt (10 / Real.pi) * s / 2 = L := by
    have hp : Real.sqrt (10 / Real.pi) * Real.sqrt (Real.pi / 10) = 1 := by
      rw [← Real.sqrt_mul (by positivity), show 10 / Real.pi * (Real.pi / 10) = 1 by field_simp, Real.sqrt_one]
    rw [hs]
    calc _ = L * (Real.sqrt (10 / Real.pi) * Real.sqrt (Real.pi / 10)) := by ring
      _ = L := by rw [hp, mul_one]
  obtain ⟨K, rfl⟩ : ∃ K, L = K + 1 := ⟨L - 1, by omega⟩
  have hv : ∀ i < n, ‖x.get i‖ ^ 2 = (max (1 - (((i : ℤ) - c).natAbs : ℝ) / ((K + 1 : ℕ) : ℝ)) 0) ^ 2 := by
    intro i hi
    have hab : |(i : ℝ) - c| = (((i : ℤ) - c).natAbs : ℝ) := by
      rw [Nat.cast_natAbs]; push_cast; rfl
    rw [hx i hi, e2 i hi, hfoot, hab]
  have hmax : ∀ k ∈ range K, (max (1 - ((k + 1 : ℕ) : ℝ) / ((K + 1 : ℕ) : ℝ)) 0) ^ 2 = (((K + 1 : ℕ) : ℝ) - ((k : ℝ) + 1)) ^ 2 / ((K + 1 : ℕ) : ℝ) ^ 2 := by
    intro k hk
    have h1 : ((k : ℝ) + 1) ≤ ((K + 1 : ℕ) : ℝ) := by
      have := Finset.mem_range.1 hk
      exact_mod_cast (by omega : k + 1 ≤ K + 1)
    rw [max_eq_left]
    · field_simp
      push_cast
      ring
    · rw [sub_nonneg, div_le_one hL0]; push_cast at h1 ⊢; linarith
  have hS : (max (1 - ((0 : ℕ) : ℝ) / ((K + 1 : ℕ) : ℝ)) 0) ^ 2 + 2 * ∑ k ∈ range K, (max (1 - ((k + 1 : ℕ) : ℝ) / ((K + 1 : ℕ) : ℝ)) 0) ^ 2
      = (2 * ((K + 1 : ℕ) : ℝ) ^ 2 + 1) / (3 * ((K + 1 : ℕ) : ℝ)) := by
    rw [Finset.sum_congr rfl hmax, ← Finset.sum_div, sum_tri]
    rw [Nat.cast_zero, zero_div, sub_zero, max_eq_left (by norm_num)]
    push_cast
    field_simp
    ring
  have hV : ∑ k ∈ range K, ((k : ℝ) + 1) ^ 2 * (max (1 - ((k + 1 : ℕ) : ℝ) / ((K + 1 : ℕ) : ℝ)) 0) ^ 2
      = (((K + 1 : ℕ) : ℝ) ^ 4 - 1) / (30 * ((K + 1 : ℕ) : ℝ)) := by
    rw [Finset.sum_congr rfl (fun k hk => by rw [hmax k hk, ← mul_div_assoc]), ← Finset.sum_div, sum_tri_sq]
    push_cast
    field_simp
    ring
  have hden : 0 < (2 * ((K + 1 : ℕ) : ℝ) ^ 2 + 1) / (3 * ((K + 1 : ℕ) : ℝ)) := by positivity
  have key := C130_symmetric x c K (fun k => (max (1 - (k : ℝ) / ((K + 1 : ℕ) : ℝ)) 0) ^ 2) (by omega) (by omega) (by intro i hi; exact hv i (by omega))
    (by
      intro k hk
      have h1 : ((K + 1 : ℕ) : ℝ) ≤ k := by exact_mod_cast hk
      rw [max_eq_right, zero_pow (by norm_num)]
      rw [sub_nonpos, one_le_div hL0]; exact h1)
    (by rw [hS]; exact hden.ne')
  rw [hS, hV] at key
  generalize ((K + 1 : ℕ) : ℝ) = l at *
  have hq : 2 * ((l ^ 4 - 1) / (30 * l)) / ((2 * l ^ 2 + 1) / (3 * l)) = (l ^ 4 - 1) / (5 * (2 * l ^ 2 + 1)) := by
    field_simp; ring
  rw [hq] at key
  have hl4 : 0 ≤ l ^ 4 - 1 := by nlinarith [sq_nonneg (l ^ 2 - 1), sq_nonneg l]
  have hV0 : 0 ≤ Real.pi * ((l ^ 4 - 1) / (5 * (2 * l ^ 2 + 1))) := by positivity
  have hT2 : (2 * Real.sqrt (Real.pi * ((l ^ 4 - 1) / (5 * (2 * l ^ 2 + 1))))) ^ 2 = 4 * (Real.pi * ((l ^ 4 - 1) / (5 * (2 * l ^ 2 + 1)))) := by
    rw [mul_pow, Real.sq_sqrt hV0]; norm_num
  have hs2 : s ^ 2 = 4 * l ^ 2 * (Real.pi / 10) := by
    rw [hs, mul_pow, Real.sq_sqrt (by positivity)]; ring
  have hdiff : 4 * l ^ 2 * (Real.pi / 10) - 4 * (Real.pi * ((l ^ 4 - 1) / (5 * (2 * l ^ 2 + 1)))) = 2 * Real.pi / 5 * ((l ^ 2 + 2) / (2 * l ^ 2 + 1)) := by
    field_simp; ring
  have hfrac : (l ^ 2 + 2) / (2 * l ^ 2 + 1) ≤ 1 := by
    rw [div_le_one (by positivity)]; nlinarith
  have hfrac0 : 0 ≤ (l ^ 2 + 2) / (2 * l ^ 2 + 1) := by positivity
  refine ⟨_, key, rfl, by positivity, ?_, ?_⟩
  · refine (sq_le_sq₀ (by positivity) hs0.le).1 ?_
    rw [hT2, hs2]
    have : 0 ≤ 2 * Real.pi / 5 * ((l ^ 2 + 2) / (2 * l ^ 2 + 1)) := by positivity
    linarith
  · rw [hT2, hs2, hdiff]
    calc 2 * Real.pi / 5 * ((l ^ 2 + 2) / (2 * l ^ 2 + 1)) ≤ 2 * Real.pi / 5 * 1 := by gcongr
      _ = _ := mul_one _

/-- **Centres.**  In `2c + 1` samples, `amexpos` (bilateral) centred at `c` and `amgauss` centred at `c + 1` — its samples are counted from one — both have
the measured centre `c`. -/
theorem C130_centre (c : ℕ) (s : ℝ) (hs : 0 < s) (x : Vec ℂ) (hl : x.len = 2 * c + 1) (y : Vec ℝ)
    (hy : amexpos ((2 * c + 1 : ℕ) : ℤ) (some c) (some s) .bilateral = .ok y ∨ amgauss ((2 * c + 1 : ℕ) : ℤ) (some ((c : ℝ) + 1)) (some s) = .ok y)
    (hx : ∀ i < 2 * c + 1, ‖x.get i‖ = y.get i) : ∃ T, loctime x = .ok ((c : ℝ), T) := by
  obtain ⟨φ, hφ0, hφ⟩ : ∃ φ : ℕ → ℝ, (∀ k, 0 < φ k) ∧ ∀ i < 2 * c + 1, y.get i = φ ((i : ℤ) - c).natAbs := by
    have hab : ∀ i : ℕ, |(i : ℝ) - c| = (((i : ℤ) - c).natAbs : ℝ) := by
      intro i; rw [Nat.cast_natAbs]; push_cast; rfl
    rcases hy with hy | hy
    · obtain ⟨y', e1, _, e2, _⟩ := C07_amexpos_bilateral (2 * c + 1) (by omega) c s hs
      rw [hy] at e1
      injection e1 with e1
      subst e1
      exact ⟨fun k => Real.exp (-(Real.sqrt (2 * Real.pi) * k / s)), fun k => Real.exp_pos _, fun i hi => by rw [e2 i hi, hab]⟩
    · obtain ⟨y', e1, _, e2, _⟩ := C07_amgauss (2 * c + 1) (by omega) ((c : ℝ) + 1) s hs
      rw [hy] at e1
      injection e1 with e1
      subst e1
      refine ⟨fun k => Real.exp (-Real.pi * ((k : ℝ) / s) ^ 2), fun k => Real.exp_pos _, fun i hi => ?_⟩
      dsimp only
      rw [e2 i hi, ← hab i, show (i : ℝ) + 1 - (c + 1) = i - c by ring, div_pow, div_pow, sq_abs]
  refine ⟨_, C130_symmetric x c c (fun k => if k ≤ c then φ k ^ 2 else 0) le_rfl (by omega) ?_ (fun k hk => if_neg (by omega)) ?_⟩
  · intro i hi
    rw [hx i (by omega), hφ i (by omega), if_pos (by omega)]
  · have h0 : 0 < (if 0 ≤ c then φ 0 ^ 2 else 0) := by rw [if_pos (Nat.zero_le _)]; exact pow_pos (hφ0 0) 2
    have h1 : 0 ≤ ∑ k ∈ range c, (if k + 1 ≤ c then φ (k + 1) ^ 2 else 0) := Finset.sum_nonneg fun k _ => by split <;> positivity
    positivity

/-- `amrect(128)` with its defaults times any unit-modulus signal: centre 64, duration `2 √(44 π)`, about 23.5 for the 22.6 asked for. -/
example (x : Vec ℂ) (hl : x.len = 128) (y : Vec ℝ) (hy : amrect (128 : ℕ) none none = .ok y) (hx : ∀ i < 128, ‖x.get i‖ = y.get i) :
    loctime x = .ok (64, 2 * Real.sqrt (Real.pi * 44)) := by
  have hpi3 := Real.pi_gt_d2
  have hpi4 := Real.pi_lt_d2
  have hs0 : (0 : ℝ) < 2 * Real.sqrt (128 : ℕ) := by positivity
  rw [(C07_defaults_explicit 128 .bilateral).2.2.1, show (((roundEven (((128 : ℕ) : ℝ) / 2) : ℤ) : ℝ)) = ((64 : ℕ) : ℝ) by rw [roundEven_half]; norm_num] at hy
  have hK : 11 = ⌊2 * Real.sqrt (128 : ℕ) / 2 * Real.sqrt (3 / Real.pi)⌋₊ := by
    have e : 2 * Real.sqrt (128 : ℕ) / 2 * Real.sqrt (3 / Real.pi) = Real.sqrt (384 / Real.pi) := by
      rw [mul_div_cancel_left₀ _ (by norm_num), ← Real.sqrt_mul (by positivity)]
      congr 1
      push_cast; ring
    rw [e]
    symm
    rw [Nat.floor_eq_iff (by positivity)]
    constructor
    · refine Real.le_sqrt_of_sq_le ?_
      rw [le_div_iff₀ (by linarith)]
      push_cast
      linarith
    · rw [Real.sqrt_lt' (by norm_num), div_lt_iff₀ (by linarith)]
      push_cast
      linarith
  obtain ⟨T, h1, h2, _⟩ := C130_amrect 128 64 _ hs0 11 hK (by norm_num) (by norm_num) y hy x hl hx
  rw [h1, h2]
  norm_num

/-- Five samples of a triangle with its feet just outside: `1/3, 2/3, 1, 2/3, 1/3`; the centre is 2 and the duration `2 √(16 π / 19)`. -/
example : loctime ⟨5, fun i => [1 / 3, 2 / 3, 1, 2 / 3, 1 / 3].getD i 0⟩ = .ok (2, 2 * Real.sqrt (Real.pi * (16 / 19))) := by
  have hs0 : (0 : ℝ) < 2 * ((3 : ℕ) : ℝ) * Real.sqrt (Real.pi / 10) := by
    have := Real.sqrt_pos.2 (show 0 < Real.pi / 10 by positivity)
    positivity
  obtain ⟨y, e1, e0, e2, _⟩ := C07_amtriang 5 (by norm_num) ((2 : ℕ) : ℝ) _ hs0
  have hfoot : Real.sqrt (10 / Real.pi) * (2 * ((3 : ℕ) : ℝ) * Real.sqrt (Real.pi / 10)) / 2 = 3 := by
    have hp : Real.sqrt (10 / Real.pi) * Real.sqrt (Real.pi / 10) = 1 := by
      rw [← Real.sqrt_mul (by positivity), show 10 / Real.pi * (Real.pi / 10) = 1 by field_simp, Real.sqrt_one]
    push_cast
    linear_combination 3 * hp
  obtain ⟨T, h1, h2, _⟩ := C130_amtriang 5 2 3 (by norm_num) _ rfl (by norm_num) (by norm_num) y e1
    ⟨5, fun i => [1 / 3, 2 / 3, 1, 2 / 3, 1 / 3].getD i 0⟩ rfl (by
      intro i hi
      rw [e2 i hi, hfoot]
      rcases (show i = 0 ∨ i = 1 ∨ i = 2 ∨ i = 3 ∨ i = 4 by omega) with rfl | rfl | rfl | rfl | rfl <;> norm_num [abs_of_neg, abs_of_pos])
  rw [h1, h2]
  norm_num

end Tftb.Props
