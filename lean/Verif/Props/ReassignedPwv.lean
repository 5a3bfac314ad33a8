import Verif.Lemmas.ReassignedPwv
import Verif.Props.Reassigned

/-! # Property C71: the reassigned pseudo Wigner-Ville distribution -/

namespace Tftb

open Finset Spec ProcUtils Reassigned ComplexConjugate

/-- The reassigned pseudo Wigner-Ville distribution in closed form, for an odd window of three samples or more with a non-zero middle
sample and instants none of which is further than half the bins (rounded to even, minus one) from both borders, unless the window is
shorter than that: entry `(k, c)` of the distribution is the real part of the windowed lag sum around sample `t_c - 1` (not `t_c`); entry
`(p, c)` of the reassigned one collects the bins of the same column whose destination is `p`. -/
theorem C71_closed (x : Vec ℂ) (ts : Vec ℤ) (n L : ℕ) (w : Vec ℝ) (hn : n ≠ 0) (hw : w.len = 2 * L + 1) (hL : 1 ≤ L) (hmid : w.get L ≠ 0)
    (a b : ℤ) (hab : IsRange ts a b) (h0 : 0 ≤ a) (h1 : a < x.len)
    (hr : ∀ c < ts.len, ts.get c ≤ roundEven ((n : ℝ) / 2) ∨ (x.len : ℤ) - ts.get c < roundEven ((n : ℝ) / 2) ∨
      (L : ℤ) < roundEven ((n : ℝ) / 2) - 1) :
    ∃ dw : ℕ → ℝ,
      (∀ j, 1 ≤ j → j < 2 * L → dw j = (w.get (j + 1) - w.get (j - 1)) / (2 * w.get L)) ∧
      dw 0 = (w.get 0 + w.get 1) / (2 * w.get L) + (w.get 0 - w.get (2 * L)) / (4 * L * w.get L) ∧
      dw (2 * L) = -(w.get (2 * L - 1) + w.get (2 * L)) / (2 * w.get L) + (w.get 0 - w.get (2 * L)) / (4 * L * w.get L) ∧
    ∃ tfr rtfr v, pseudoWignerVille x (some ts) (some n) (some w) = .ok (tfr, rtfr, v) ∧ tfr.rows = n ∧ tfr.cols = ts.len ∧
      rtfr.rows = n ∧ rtfr.cols = ts.len ∧ v.rows = n ∧ v.cols = ts.len ∧
      (∀ k < n, ∀ c < ts.len, tfr.get k c = (pwvSum x (fun j => w.get j / w.get L) n L (ts.get c) k).re) ∧
      (∀ k < n, ∀ c < ts.len, v.get k c = if 1e-6 * slicePower x a b < |tfr.get k c| then
        some (((pwvDest n (1e-6 * slicePower x a b) (tfr.get k c) (pwvSum x dw n L (ts.get c) k).im k : ℤ) : ℂ) + 1) else none) ∧
      ∀ p < n, ∀ c < ts.len, rtfr.get p c = ∑ k ∈ range n,
        if pwvDest n (1e-6 * slicePower x a b) (tfr.get k c) (pwvSum x dw n L (ts.get c) k).im k = (p : ℤ) then tfr.get k c else 0 := by
  have hlen : (w.map (· / w.get L)).len = 2 * L + 1 := hw
  obtain ⟨dw, e, hl, d1, d2, d3⟩ := deriveWindow_eq (w.map (· / w.get L)) (by omega)
  have hl' : (dw.len) = w.len := hl
  obtain ⟨tfr, rtfr, v, e, r1, r2, r3, r4, r5, r6, r7, r8, r9⟩ := pwv_ok (x := x) (ts? := some ts) (n? := some n) (w? := some w) (ts := ts) (n := n) (w := w)
    rfl rfl rfl hn hw hmid e hl' hab h0 h1 (fun c hc => by have := hr c hc; omega)
  have hL' : (L : ℝ) ≠ 0 := by exact_mod_cast (by omega : L ≠ 0)
  refine ⟨dw.get, ?_, ?_, ?_, tfr, rtfr, v, e, r1, r2, r3, r4, r5, r6, fun k _ c hc => r7 k c hc, r8, fun p _ c hc => r9 p c hc⟩
  · intro j hj hj2
    rw [d1 j hj (by omega)]
    simp only [Vec.map]
    field_simp
  · rw [d2]
    simp only [Vec.map]
    rw [hw]
    push_cast
    field_simp
    ring
  · rw [hlen] at d3
    rw [show 2 * L + 1 - 1 = 2 * L by omega] at d3
    rw [d3]
    simp only [Vec.map]
    push_cast
    field_simp
    ring

theorem pwvSum_zero {x : Vec ℂ} {g : ℕ → ℝ} {n L : ℕ} {t k : ℤ} (h : t ≤ 0 ∨ (x.len : ℤ) < t) : pwvSum x g n L t k = 0 := by
  unfold pwvSum lagSum
  refine Finset.sum_eq_zero (fun τ _ => ?_)
  simp only
  rw [wignerKernel_outside, mul_zero, zero_mul]
  have := abs_nonneg τ
  omega

/-- The column of instant `0` (and of any instant beyond the number of samples) is zero before and after reassignment: the
distribution of the first sample is found in the column of instant `1`. -/
theorem C71_outside (x : Vec ℂ) (ts : Vec ℤ) (n L : ℕ) (w : Vec ℝ) (hn : n ≠ 0) (hw : w.len = 2 * L + 1) (hL : 1 ≤ L) (hmid : w.get L ≠ 0)
    (a b : ℤ) (hab : IsRange ts a b) (h0 : 0 ≤ a) (h1 : a < x.len)
    (hr : ∀ c < ts.len, ts.get c ≤ roundEven ((n : ℝ) / 2) ∨ (x.len : ℤ) - ts.get c < roundEven ((n : ℝ) / 2) ∨
      (L : ℤ) < roundEven ((n : ℝ) / 2) - 1) :
    ∃ tfr rtfr v, pseudoWignerVille x (some ts) (some n) (some w) = .ok (tfr, rtfr, v) ∧
      ∀ k < n, ∀ c < ts.len, ts.get c = 0 ∨ (x.len : ℤ) < ts.get c → tfr.get k c = 0 ∧ rtfr.get k c = 0 := by
  obtain ⟨dw, -, -, -, tfr, rtfr, v, e, -, -, -, -, -, -, r7, -, r9⟩ := C71_closed x ts n L w hn hw hL hmid a b hab h0 h1 hr
  have hz : ∀ k < n, ∀ c < ts.len, ts.get c = 0 ∨ (x.len : ℤ) < ts.get c → tfr.get k c = 0 := by
    intro k hk c hc h
    rw [r7 k hk c hc, pwvSum_zero (by omega)]
    rfl
  refine ⟨tfr, rtfr, v, e, fun k hk c hc h => ⟨hz k hk c hc h, ?_⟩⟩
  rw [r9 k hk c hc]
  refine Finset.sum_eq_zero (fun j hj => ?_)
  rw [hz j (Finset.mem_range.1 hj) c hc h, ite_self]

/-- A tone of frequency `k0/(2n)`, a window without negative values: bin `k0`, the right one, is moved to bin `k0 - 1` at every instant
`1 ≤ t ≤ N`. -/
theorem C71_tone_misplaced (N n L k0 c : ℕ) (ts : Vec ℤ) (w : Vec ℝ) (hk : k0 < n) (hw : w.len = 2 * L + 1) (hL : 1 ≤ L)
    (hw0 : ∀ j < w.len, 0 ≤ w.get j) (hmid : w.get L ≠ 0)
    (a b : ℤ) (hab : IsRange ts a b) (h0 : 0 ≤ a) (h1 : a < N) (hb : b ≤ N)
    (hR : (L : ℤ) < roundEven ((n : ℝ) / 2) - 1) (hc : c < ts.len) (ht : 1 ≤ ts.get c) :
    ∃ tfr rtfr v, pseudoWignerVille ⟨N, fun m => expi (2 * Real.pi * (k0 * m / (2 * n)))⟩ (some ts) (some n) (some w) = .ok (tfr, rtfr, v) ∧
      1 ≤ tfr.get k0 c ∧
      tfr.get k0 c = ∑ τ ∈ Finset.Icc (-(min (min (ts.get c - 1) (N - ts.get c)) (L : ℤ))) (min (min (ts.get c - 1) (N - ts.get c)) (L : ℤ)),
        w.get ((L : ℤ) + τ).toNat / w.get L ∧
      v.get k0 c = some (((((k0 : ℤ) - 1) % n : ℤ) : ℂ) + 1) := by
  have hn : n ≠ 0 := by omega
  have hn' : (n : ℝ) ≠ 0 := by exact_mod_cast hn
  set x : Vec ℂ := ⟨N, fun m => expi (2 * Real.pi * (k0 * m / (2 * n)))⟩ with hx
  have hxl : x.len = N := rfl
  obtain ⟨dw, -, -, -, tfr, rtfr, v, e, -, -, -, -, -, -, r7, r8, -⟩ := C71_closed x ts n L w hn hw hL hmid a b hab h0 h1
    (fun c _ => .inr (.inr hR))
  set t := ts.get c with htc
  have htb := hab.2.2 c hc
  rw [← htc] at htb
  -- the lag products of a tone at its own bin
  have hker : ∀ (g : ℕ → ℝ), pwvSum x g n L t k0
      = ((∑ τ ∈ Finset.Icc (-(min (min (t - 1) (N - t)) (L : ℤ))) (min (min (t - 1) (N - t)) (L : ℤ)), g ((L : ℤ) + τ).toNat : ℝ) : ℂ) := by
    intro g
    unfold pwvSum lagSum
    rw [Complex.ofReal_sum, ← Finset.sum_subset
      (s₁ := Finset.Icc (-(min (min (t - 1) (N - t)) (L : ℤ))) (min (min (t - 1) (N - t)) (L : ℤ))) (fun τ hτ => ?_) (fun τ hτ hτ' => ?_)]
    rotate_left
    · rw [Finset.mem_Icc] at hτ ⊢; omega
    · rw [Finset.mem_Icc] at hτ hτ'
      simp only
      rw [wignerKernel_outside, mul_zero, zero_mul]
      rw [hxl]
      rcases abs_cases τ with ⟨e, h0⟩ | ⟨e, h0⟩ <;> omega
    · refine Finset.sum_congr rfl (fun τ hτ => ?_)
      rw [Finset.mem_Icc] at hτ
      unfold wignerKernel zext
      simp only
      rw [if_pos (by rw [hxl]; omega), if_pos (by rw [hxl]; omega)]
      simp only [hx]
      rw [mul_assoc, conj_expi, ← expi_add, ← expi_add]
      have e1 : (((t - 1 + τ).toNat : ℕ) : ℝ) = (t : ℝ) - 1 + τ := by
        have : (((t - 1 + τ).toNat : ℤ) : ℝ) = ((t - 1 + τ : ℤ) : ℝ) := by rw [Int.toNat_of_nonneg (by omega)]
        push_cast at this; exact_mod_cast this
      have e2 : (((t - 1 - τ).toNat : ℕ) : ℝ) = (t : ℝ) - 1 - τ := by
        have : (((t - 1 - τ).toNat : ℤ) : ℝ) = ((t - 1 - τ : ℤ) : ℝ) := by rw [Int.toNat_of_nonneg (by omega)]
        push_cast at this; exact_mod_cast this
      rw [e1, e2]
      have : 2 * Real.pi * ((k0 : ℝ) * ((t : ℝ) - 1 + τ) / (2 * n)) + -(2 * Real.pi * ((k0 : ℝ) * ((t : ℝ) - 1 - τ) / (2 * n)))
          + -(2 * Real.pi * ((((k0 : ℕ) : ℤ) : ℝ) * τ / n)) = 0 := by
        push_cast; field_simp; ring
      rw [this, expi_zero, mul_one]
  have hv : tfr.get k0 c = ∑ τ ∈ Finset.Icc (-(min (min (t - 1) (N - t)) (L : ℤ))) (min (min (t - 1) (N - t)) (L : ℤ)),
      w.get ((L : ℤ) + τ).toNat / w.get L := by
    rw [r7 k0 hk c hc, ← htc, hker, Complex.ofReal_re]
  have hmp : 0 < w.get L := lt_of_le_of_ne (hw0 L (by omega)) (Ne.symm hmid)
  have h1' : 1 ≤ tfr.get k0 c := by
    rw [hv]
    have : (1 : ℝ) = w.get ((L : ℤ) + 0).toNat / w.get L := by
      rw [show ((L : ℤ) + 0).toNat = L by omega, div_self hmid]
    rw [this]
    refine Finset.single_le_sum (f := fun τ : ℤ => w.get ((L : ℤ) + τ).toNat / w.get L) (fun τ hτ => ?_) ?_
    · rw [Finset.mem_Icc] at hτ
      exact div_nonneg (hw0 _ (by omega)) hmp.le
    · rw [Finset.mem_Icc]; omega
  have hpow : slicePower x a b = 1 := by
    unfold slicePower
    have hle : a ≤ b := by omega
    have hm : a ≤ min b ((x.len : ℤ) - 1) := by rw [hxl]; omega
    have : ∀ s ∈ Finset.Icc a (min b ((x.len : ℤ) - 1)), ‖zext x s‖ ^ 2 = 1 := by
      intro s hs
      rw [Finset.mem_Icc] at hs
      unfold zext
      rw [if_pos (by omega), hx]
      simp only [norm_expi, one_pow]
    rw [Finset.sum_congr rfl this, Finset.sum_const, Int.card_Icc, nsmul_eq_mul, mul_one]
    have h2 : (((min b ((x.len : ℤ) - 1) + 1 - a).toNat : ℤ) : ℝ) = ((min b ((x.len : ℤ) - 1) + 1 - a : ℤ) : ℝ) := by
      rw [Int.toNat_of_nonneg (by omega)]
    push_cast at h2
    rw [h2, div_self]
    have h3 : ((a : ℤ) : ℝ) ≤ ((min b ((x.len : ℤ) - 1) : ℤ) : ℝ) := by exact_mod_cast hm
    push_cast at h3
    linarith
  refine ⟨tfr, rtfr, v, e, h1', hv, ?_⟩
  have hth : 1e-6 * slicePower x a b < |tfr.get k0 c| := by
    rw [hpow, abs_of_nonneg (by linarith)]
    norm_num at h1' ⊢
    linarith
  rw [r8 k0 hk c hc, if_pos hth]
  unfold pwvDest
  rw [if_pos hth, ← htc, hker, Complex.ofReal_im, zero_div, mul_zero]
  have : roundEven (0 : ℝ) = 0 := by simpa using roundEven_intCast 0
  rw [this, sub_zero]

/-- Windowed lag sum of an impulse. -/
theorem pwvSum_impulse {N p : ℕ} (hp : p < N) (A : ℂ) (n L : ℕ) (g : ℕ → ℝ) (t k : ℤ) :
    pwvSum ⟨N, fun i => if i = p then A else 0⟩ g n L t k = if t = p + 1 then ((g L * ‖A‖ ^ 2 : ℝ) : ℂ) else 0 := by
  set x : Vec ℂ := ⟨N, fun i => if i = p then A else 0⟩ with hx
  have hxl : x.len = N := rfl
  have hz : ∀ i : ℤ, zext x i = if i = p then A else 0 := by
    intro i
    unfold zext
    by_cases hi : 0 ≤ i ∧ i < (x.len : ℤ)
    · rw [if_pos hi, hx]
      simp only
      by_cases h : i = p
      · rw [if_pos h, if_pos (by omega)]
      · rw [if_neg h, if_neg (by omega)]
    · rw [if_neg hi, if_neg (by rw [hxl] at hi; omega)]
  unfold pwvSum lagSum wignerKernel
  have hterm : ∀ τ ∈ Finset.Icc (-(L : ℤ)) L, (fun τ : ℤ => (g ((L : ℤ) + τ).toNat : ℂ) * (zext x (t - 1 + τ) * conj (zext x (t - 1 - τ)))) τ
      * expi (-(2 * Real.pi * (k * τ / n))) = if τ = 0 then (if t = p + 1 then ((g L * ‖A‖ ^ 2 : ℝ) : ℂ) else 0) else 0 := by
    intro τ _
    simp only [hz]
    by_cases hτ : τ = 0
    · subst hτ
      by_cases ht : t = p + 1
      · rw [if_pos (by omega), if_pos (by omega), if_pos rfl, if_pos ht, Complex.mul_conj, Complex.normSq_eq_norm_sq]
        rw [show ((L : ℤ) + 0).toNat = L by omega]
        have : -(2 * Real.pi * ((k : ℝ) * ((0 : ℤ) : ℝ) / n)) = 0 := by push_cast; ring
        rw [this, expi_zero]
        push_cast
        ring
      · rw [if_neg (by omega), if_pos rfl, if_neg ht]
        ring
    · rw [if_neg hτ]
      by_cases h1 : t - 1 + τ = p
      · rw [if_neg (c := t - 1 - τ = p) (by omega), map_zero]
        ring
      · rw [if_neg h1]
        ring
  rw [Finset.sum_congr rfl hterm, Finset.sum_ite_eq', if_pos (by rw [Finset.mem_Icc]; omega)]

/-- An impulse of amplitude `A` at sample `p`: the distribution and the reassigned one are both `|A|²` in every bin of the columns of
instant `p + 1` (one late) and zero in all the others. -/
theorem C71_impulse (N p n L : ℕ) (A : ℂ) (ts : Vec ℤ) (w : Vec ℝ) (hn : n ≠ 0) (hp : p < N) (hw : w.len = 2 * L + 1) (hL : 1 ≤ L)
    (hmid : w.get L ≠ 0) (a b : ℤ) (hab : IsRange ts a b) (h0 : 0 ≤ a) (h1 : a < N)
    (hr : ∀ c < ts.len, ts.get c ≤ roundEven ((n : ℝ) / 2) ∨ (N : ℤ) - ts.get c < roundEven ((n : ℝ) / 2) ∨
      (L : ℤ) < roundEven ((n : ℝ) / 2) - 1) :
    ∃ tfr rtfr v, pseudoWignerVille ⟨N, fun i => if i = p then A else 0⟩ (some ts) (some n) (some w) = .ok (tfr, rtfr, v) ∧
      ∀ k < n, ∀ c < ts.len, tfr.get k c = (if ts.get c = p + 1 then ‖A‖ ^ 2 else 0) ∧
        rtfr.get k c = if ts.get c = p + 1 then ‖A‖ ^ 2 else 0 := by
  set x : Vec ℂ := ⟨N, fun i => if i = p then A else 0⟩ with hx
  have hxl : x.len = N := rfl
  obtain ⟨dw, -, -, -, tfr, rtfr, v, e, -, -, -, -, -, -, r7, -, r9⟩ := C71_closed x ts n L w hn hw hL hmid a b hab h0 h1 hr
  have hS : ∀ (g : ℕ → ℝ) (t : ℤ) (k : ℤ), pwvSum x g n L t k = if t = p + 1 then ((g L * ‖A‖ ^ 2 : ℝ) : ℂ) else 0 :=
    fun g t k => pwvSum_impulse hp A n L g t k
  have htv : ∀ k < n, ∀ c < ts.len, tfr.get k c = if ts.get c = p + 1 then ‖A‖ ^ 2 else 0 := by
    intro k hk c hc
    rw [r7 k hk c hc, hS, div_self hmid, one_mul]
    split_ifs
    · rw [Complex.ofReal_re]
    · rfl
  refine ⟨tfr, rtfr, v, e, fun k hk c hc => ⟨htv k hk c hc, ?_⟩⟩
  rw [r9 k hk c hc]
  by_cases ht : ts.get c = p + 1
  · rw [if_pos ht]
    have hround : roundEven (0 : ℝ) = 0 := by simpa using roundEven_intCast 0
    have him : ∀ j : ℕ, (pwvSum x dw n L (ts.get c) j).im = 0 := by
      intro j; rw [hS, if_pos ht, Complex.ofReal_im]
    -- the destinations are a permutation of the bins
    by_cases hth : 1e-6 * slicePower x a b < |‖A‖ ^ 2|
    · have hd : ∀ j ∈ range n, (if pwvDest n (1e-6 * slicePower x a b) (tfr.get j c) (pwvSum x dw n L (ts.get c) j).im j = (k : ℤ)
          then tfr.get j c else 0) = if j = (k + 1) % n then ‖A‖ ^ 2 else 0 := by
        intro j hj
        rw [Finset.mem_range] at hj
        rw [htv j hj c hc, if_pos ht, him]
        unfold pwvDest
        rw [if_pos hth, zero_div, mul_zero, hround, sub_zero]
        have hk1 : ((j : ℤ) - 1) % n = k ↔ j = (k + 1) % n := by
          by_cases hj0 : j = 0
          · subst hj0
            have e1 : (((0 : ℕ) : ℤ) - 1) % n = n - 1 := by
              rw [show ((0 : ℕ) : ℤ) - 1 = ((n : ℤ) - 1) + n * (-1) by push_cast; ring, Int.add_mul_emod_self_left,
                Int.emod_eq_of_lt (by omega) (by omega)]
            rw [e1]
            by_cases hkn : k + 1 = n
            · rw [hkn, Nat.mod_self]; omega
            · rw [Nat.mod_eq_of_lt (by omega)]; omega
          · rw [Int.emod_eq_of_lt (by omega) (by omega)]
            by_cases hkn : k + 1 = n
            · rw [hkn, Nat.mod_self]; omega
            · rw [Nat.mod_eq_of_lt (by omega)]; omega
        by_cases h : ((j : ℤ) - 1) % n = k
        · rw [if_pos h, if_pos (hk1.1 h)]
        · rw [if_neg h, if_neg (fun h' => h (hk1.2 h'))]
      rw [Finset.sum_congr rfl hd, Finset.sum_ite_eq', if_pos (Finset.mem_range.2 (Nat.mod_lt _ (by omega)))]
    · have hd : ∀ j ∈ range n, (if pwvDest n (1e-6 * slicePower x a b) (tfr.get j c) (pwvSum x dw n L (ts.get c) j).im j = (k : ℤ)
          then tfr.get j c else 0) = if j = k then ‖A‖ ^ 2 else 0 := by
        intro j hj
        rw [Finset.mem_range] at hj
        rw [htv j hj c hc, if_pos ht]
        unfold pwvDest
        rw [if_neg hth]
        norm_cast
      rw [Finset.sum_congr rfl hd, Finset.sum_ite_eq', if_pos (Finset.mem_range.2 hk)]
  · rw [if_neg ht]
    refine Finset.sum_eq_zero (fun j hj => ?_)
    rw [htv j (Finset.mem_range.1 hj) c hc, if_neg ht, ite_self]

/-- A window reaching half the bins (rounded to even, minus one) makes the call fail as soon as one instant is further than that from
both borders: the lags are then floats, which NumPy refuses as indices. -/
theorem C71_long_window (x : Vec ℂ) (ts : Vec ℤ) (n L : ℕ) (w : Vec ℝ) (hn : n ≠ 0) (hw : w.len = 2 * L + 1) (hL : 1 ≤ L)
    (hmid : w.get L ≠ 0) (hR : roundEven ((n : ℝ) / 2) - 1 ≤ (L : ℤ))
    (h : ∃ c < ts.len, roundEven ((n : ℝ) / 2) < ts.get c ∧ roundEven ((n : ℝ) / 2) ≤ (x.len : ℤ) - ts.get c) :
    pseudoWignerVille x (some ts) (some n) (some w) = .error .indexError := by
  classical
  have hlen : (w.map (· / w.get L)).len = 2 * L + 1 := hw
  obtain ⟨dw, e, hl, -⟩ := deriveWindow_eq (w.map (· / w.get L)) (by omega)
  have hlh : ((w.len : ℤ) - 1) / 2 = (L : ℤ) := by rw [hw]; push_cast; omega
  have hdw' : deriveWindow? (w.map (· / w.get L)) = .ok (some dw) := by unfold deriveWindow?; rw [e]
  have hitem : w.item (L : ℤ) = .ok (w.get L) := by rw [Vec.item_ok (by omega) (by omega)]; simp
  have hc0 := Nat.find_spec h
  have hmin : ∀ c < Nat.find h, ¬(c < ts.len ∧ roundEven ((n : ℝ) / 2) < ts.get c ∧ roundEven ((n : ℝ) / 2) ≤ (x.len : ℤ) - ts.get c) :=
    fun c hc => Nat.find_min h hc
  set c0 := Nat.find h
  have herr : (Mat.zeros n ts.len : Mat ℂ).forCols ts.len (pwvCol x n (L : ℤ) (w.map (· / w.get L)) ts) = .error .indexError := by
    refine Mat.forCols_error (M := Mat.zeros n ts.len) (T := ts.len) (le_refl _) hc0.1 (fun c hc => pwvCol_ok hn hlen (by omega) ?_) ?_
    · intro h'
      exact hmin c hc ⟨by omega, by omega, by omega⟩
    · unfold pwvCol
      rw [ts_item hc0.1, ok_bind]
      norm_num only [Nat.cast_ofNat]
      rw [if_pos (by omega)]
  unfold pseudoWignerVille
  simp only [Option.getD_some]
  rw [if_neg (by rw [hw]; omega), hlh, hitem, ok_bind, if_neg hmid, hdw', ok_bind, herr]
  rfl

/-- Windows of even length are refused; a zero middle sample gives NaN. -/
theorem C71_refused (x : Vec ℂ) (ts? : Option (Vec ℤ)) (n? : Option ℕ) (w : Vec ℝ) :
    (w.len % 2 = 0 → pseudoWignerVille x ts? n? (some w) = .error .valueError) ∧
    (∀ L, w.len = 2 * L + 1 → w.get L = 0 → pseudoWignerVille x ts? n? (some w) = .error .nonFinite) := by
  constructor
  · intro h
    unfold pseudoWignerVille
    simp only [Option.getD_some]
    rw [if_pos h]
  · intro L hw h0
    have hlh : ((w.len : ℤ) - 1) / 2 = (L : ℤ) := by rw [hw]; push_cast; omega
    have hitem : w.item (L : ℤ) = .ok (w.get L) := by rw [Vec.item_ok (by omega) (by omega)]; simp
    unfold pseudoWignerVille
    simp only [Option.getD_some]
    rw [if_neg (by rw [hw]; omega), hlh, hitem, ok_bind, if_pos h0]

/-- Omitted arguments: all the instants, as many bins as samples, and a Hamming window whose length is a quarter of the number of bins,
plus one if that is even. -/
theorem C71_defaults (x : Vec ℂ) (ts? : Option (Vec ℤ)) (n? : Option ℕ) (w? : Option (Vec ℝ)) :
    pseudoWignerVille x none n? w? = pseudoWignerVille x (some ⟨x.len, fun i => (i : ℤ)⟩) n? w? ∧
    pseudoWignerVille x ts? none w? = pseudoWignerVille x ts? (some x.len) w? ∧
    ∀ n M : ℕ, n / 4 = M → pseudoWignerVille x ts? (some n) none
      = pseudoWignerVille x ts? (some n) (some (hamming (if M % 2 = 0 then M + 1 else M))) := by
  refine ⟨?_, rfl, ?_⟩
  · have : arange 0 (x.len : ℤ) = ⟨x.len, fun i => (i : ℤ)⟩ := by simp [arange]
    unfold pseudoWignerVille
    rw [Option.getD_none, this]
    rfl
  · intro n M hM
    have : defaultLength n = if M % 2 = 0 then M + 1 else M := by unfold defaultLength; rw [hM]; split_ifs <;> omega
    rw [← this]
    rfl

/-- The default call raises `ValueError` on signals of two to seven samples unless all the samples but the last are negligible (square at
most a millionth of the mean square): the default window has one sample, its derivative is NaN, and NaN cannot be converted to an
integer. -/
theorem C71_default_short (x : Vec ℂ) (h2 : 2 ≤ x.len) (h7 : x.len ≤ 7)
    (hx : ∃ i, i + 1 < x.len ∧ 1e-6 * (∑ j ∈ range x.len, ‖x.get j‖ ^ 2) / x.len < ‖x.get i‖ ^ 2) :
    pseudoWignerVille x none none none = .error .valueError := by
  set N := x.len with hN
  set ts : Vec ℤ := arange 0 (N : ℤ) with hts
  set w : Vec ℝ := hamming 1 with hw
  have hd : defaultLength N = 1 := by unfold defaultLength; omega
  have hmid : w.get 0 = 1 := by simp [hw, hamming]
  have hwl : w.len = 2 * 0 + 1 := rfl
  have hab : IsRange ts 0 ((N : ℤ) - 1) := arange_range (by omega)
  have hlen : ts.len = N := by simp [hts, arange]
  have hget : ∀ c : ℕ, ts.get c = (c : ℤ) := fun c => by simp [hts, arange]
  have hw' : (w.map (· / w.get 0)).len = 2 * 0 + 1 := rfl
  have hr : ∀ c < ts.len, ¬(roundEven ((N : ℝ) / 2) - 1 < ts.get c - 1 ∧ roundEven ((N : ℝ) / 2) - 1 < (x.len : ℤ) - ts.get c ∧
      roundEven ((N : ℝ) / 2) - 1 ≤ ((0 : ℕ) : ℤ)) := by
    intro c hc h
    rw [hget, ← hN] at h
    rw [roundEven_half] at h
    rw [hlen] at hc
    split_ifs at h <;> omega
  obtain ⟨A, F, hA, hF, f1, f2, f3⟩ := pwv_columns (x := x) (g := w.map (· / w.get 0)) (by omega : N ≠ 0) hw' hr
  have hdw : deriveWindow? (w.map (· / w.get 0)) = .ok none := by unfold deriveWindow?; rw [(C48_short _).2 rfl]
  have hitem : w.item 0 = .ok (w.get 0) := by rw [Vec.item_ok (by omega) (by rw [hwl]; norm_num)]; rfl
  have hthr := pwvThreshold_eq (x := x) (a := 0) (b := (N : ℤ) - 1) (le_refl 0) (by omega) (by omega)
  have hsp : slicePower x 0 ((N : ℤ) - 1) = (∑ j ∈ range N, ‖x.get j‖ ^ 2) / N := by
    unfold slicePower
    rw [← hN, min_self, ← sum_arange]
    congr 1
    · rw [show ((N : ℤ) - 1 + 1 - 0).toNat = N by omega]
      refine Finset.sum_congr rfl (fun j hj => ?_)
      rw [Finset.mem_range] at hj
      unfold zext
      rw [if_pos (by omega), show ((0 : ℤ) + j).toNat = j by omega]
    · push_cast
      rw [min_self]
      ring
  obtain ⟨i, hi, hlt⟩ := hx
  unfold pseudoWignerVille
  simp only [Option.getD_none, ← hN, ← hts, hd, ← hw]
  rw [if_neg (by rw [hwl]; norm_num), show ((w.len : ℤ) - 1) / 2 = 0 by rw [hwl]; norm_num, hitem, ok_bind, if_neg (by rw [hmid]; norm_num), hdw, ok_bind]
  have hA' : (Mat.zeros N ts.len : Mat ℂ).forCols ts.len (pwvCol x N 0 (w.map (· / w.get 0)) ts) = .ok A := by exact_mod_cast hA
  rw [hA', ok_bind]
  unfold pwvFinish
  rw [hF, ok_bind]
  show ((Except.ok _ : Py _) >>= _) = _
  rw [ok_bind, amin_range hab, ok_bind, amax_range hab, ok_bind, Int.floor_intCast, Int.floor_intCast]
  simp only
  rw [hthr, hsp, scatterAdd_error (e := .valueError)]
  · rfl
  · intro k hk c hc
    unfold pwvTarget
    split_ifs with h
    · exact .inr rfl
    · exact .inl ⟨(k : ℤ), (c : ℤ), if_neg h, idxOk_of_lt (by omega) (by exact_mod_cast hk), idxOk_of_lt (by omega) (by exact_mod_cast hc)⟩
  · have hc : i + 1 < ts.len := by omega
    refine ⟨0, by show 0 < F.rows; omega, i + 1, by show i + 1 < F.cols; omega, ?_⟩
    unfold pwvTarget
    rw [if_pos]
    · rfl
    · have hv : (F.map Complex.re).get 0 (i + 1) = ‖x.get i‖ ^ 2 := by
        show (F.get 0 (i + 1)).re = _
        rw [f3 0 (i + 1) hc, hget]
        unfold pwvSum lagSum wignerKernel zext
        have : Finset.Icc (-((0 : ℕ) : ℤ)) ((0 : ℕ) : ℤ) = {0} := by simp
        rw [this, Finset.sum_singleton]
        simp only
        rw [if_pos (by push_cast; omega), if_pos (by push_cast; omega)]
        have e1 : (((i + 1 : ℕ) : ℤ) - 1 + 0).toNat = i := by push_cast; omega
        have e2 : (((i + 1 : ℕ) : ℤ) - 1 - 0).toNat = i := by push_cast; omega
        rw [e1, e2, Complex.mul_conj, Complex.normSq_eq_norm_sq]
        have e3 : (w.map (· / w.get 0)).get (((0 : ℕ) : ℤ) + 0).toNat = 1 := by
          show w.get 0 / w.get 0 = 1
          rw [hmid, div_one]
        rw [e3]
        simp only [expi, Complex.ofReal_one, one_mul, Int.cast_zero, mul_zero, zero_div, neg_zero, Complex.ofReal_zero, zero_mul,
          Complex.exp_zero, mul_one, Complex.ofReal_re]
      rw [above_iff, hv, abs_of_nonneg (sq_nonneg _), ← mul_div_assoc]
      exact hlt

/-! ## Concrete cases -/

/-- Twelve samples of a tone at frequency `3/16`, eight bins, window 1, 2, 1: bin 3 at instant 5 holds `1/2 + 1 + 1/2` and is moved to
bin 2 (stored as 3, the vectors being counted from 1). -/
example : ∃ tfr rtfr v, pseudoWignerVille ⟨12, fun m => expi (2 * Real.pi * ((3 : ℕ) * m / (2 * (8 : ℕ))))⟩ (some (arange 0 (12 : ℕ))) (some 8)
      (some hann3) = .ok (tfr, rtfr, v) ∧ 1 ≤ tfr.get 3 5 ∧ v.get 3 5 = some 3 := by
  have hR : ((1 : ℕ) : ℤ) < roundEven (((8 : ℕ) : ℝ) / 2) - 1 := by rw [roundEven_half]; norm_num
  obtain ⟨tfr, rtfr, v, h, h1, -, h2⟩ := C71_tone_misplaced 12 8 1 3 5 (arange 0 (12 : ℕ)) hann3 (by norm_num) rfl (le_refl 1)
    (by intro j hj; have : j < 3 := hj; interval_cases j <;> norm_num [hann3]) (by norm_num [hann3]) 0 11 (arange_range (by norm_num))
    (le_refl 0) (by norm_num) (by norm_num) hR (by simp [arange]) (by simp [arange])
  exact ⟨tfr, rtfr, v, h, h1, by rw [h2]; norm_num⟩

/-- An impulse of amplitude 3 at sample 2 of 6 appears in column 3 only. -/
example : ∃ tfr rtfr v, pseudoWignerVille ⟨6, fun i => if i = 2 then (3 : ℂ) else 0⟩ (some (arange 0 (6 : ℕ))) (some 8) (some hann3)
      = .ok (tfr, rtfr, v) ∧ tfr.get 4 3 = 9 ∧ rtfr.get 4 3 = 9 ∧ tfr.get 4 2 = 0 ∧ rtfr.get 4 2 = 0 := by
  have hR : ((1 : ℕ) : ℤ) < roundEven (((8 : ℕ) : ℝ) / 2) - 1 := by rw [roundEven_half]; norm_num
  obtain ⟨tfr, rtfr, v, h, hv⟩ := C71_impulse 6 2 8 1 3 (arange 0 (6 : ℕ)) hann3 (by norm_num) (by norm_num) rfl (le_refl 1)
    (by norm_num [hann3]) 0 5 (arange_range (by norm_num)) (le_refl 0) (by norm_num) (fun _ _ => .inr (.inr hR))
  have h3 := hv 4 (by norm_num) 3 (by simp [arange])
  have h2 := hv 4 (by norm_num) 2 (by simp [arange])
  rw [if_pos (by simp [arange])] at h3
  rw [if_neg (by simp [arange])] at h2
  refine ⟨tfr, rtfr, v, h, ?_, ?_, h2.1, h2.2⟩
  · rw [h3.1]; norm_num
  · rw [h3.2]; norm_num

/-- Four bins only, same window: instant 4 of 12 samples makes the call fail. -/
example (x : Vec ℂ) (hx : x.len = 12) : pseudoWignerVille x (some (arange 0 (12 : ℕ))) (some 4) (some hann3) = .error .indexError := by
  have hR : roundEven (((4 : ℕ) : ℝ) / 2) = 2 := by rw [roundEven_half]; norm_num
  refine C71_long_window x _ 4 1 hann3 (by norm_num) rfl (le_refl 1) (by norm_num [hann3]) (by rw [hR]; norm_num)
    ⟨4, by simp [arange], by rw [hR]; simp [arange], by rw [hR, hx]; simp [arange]⟩

/-- Four samples: the default call raises. -/
example : pseudoWignerVille ⟨4, fun _ => 1⟩ none none none = .error .valueError :=
  C71_default_short _ (by norm_num) (by norm_num) ⟨0, by norm_num, by simp; norm_num⟩

end Tftb
