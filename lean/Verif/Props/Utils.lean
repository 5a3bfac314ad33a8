import Verif.Lemmas.Utils

/-! # Properties of `tftb/utils.py` (C01 – C06) -/

namespace Tftb.Props

open Tftb Tftb.Utils Finset

/-! ## C01 `divider` -/

/-- For every `N ≥ 1`, `divider(N)` is a factor pair of `N` and no factorisation is closer. -/
theorem C01_divider_closest (N : ℤ) (hN : 1 ≤ N) :
    ∃ a b : ℤ, divider N = .ok (a, b) ∧ 1 ≤ a ∧ 1 ≤ b ∧ a * b = N ∧
      ∀ c d : ℤ, c * d = N → |a - b| ≤ |c - d| := by
  have hNr : (0 : ℝ) ≤ N := by exact_mod_cast (by omega : (0 : ℤ) ≤ N)
  have hsq : Real.sqrt N * Real.sqrt N = N := Real.mul_self_sqrt hNr
  -- enough: a positive pair with the smaller member maximal
  have key : ∀ a b : ℤ, 1 ≤ a → 1 ≤ b → a * b = N →
      (∀ c d : ℤ, 1 ≤ c → c ≤ d → c * d = N → c ≤ a ∧ c ≤ b) →
      ∀ c d : ℤ, c * d = N → |a - b| ≤ |c - d| := by
    intro a b ha hb hab hmax
    have pos : ∀ c d : ℤ, 1 ≤ c → c ≤ d → c * d = N → |a - b| ≤ |c - d| := by
      intro c d hc hcd h
      obtain ⟨h1, h2⟩ := hmax c d hc hcd h
      have hb' : b ≤ d := by
        by_contra hlt
        push Not at hlt
        nlinarith
      have ha' : a ≤ d := by
        by_contra hlt
        push Not at hlt
        nlinarith
      rw [abs_sub_comm c d, abs_of_nonneg (by omega : 0 ≤ d - c), abs_le]
      constructor <;> omega
    intro c d h
    have hc0 : c ≠ 0 := by rintro rfl; simp at h; omega
    rcases lt_or_gt_of_ne hc0 with hneg | hpos
    · have hd : d < 0 := by
        by_contra hd; push Not at hd; nlinarith
      have h' : (-c) * (-d) = N := by linarith
      have e : |c - d| = |(-c) - (-d)| := by rw [abs_sub_comm]; congr 1; ring
      rw [e]
      rcases le_total (-c) (-d) with hle | hle
      · exact pos _ _ (by omega) hle h'
      · rw [abs_sub_comm (-c)]; exact pos _ _ (by omega) hle (by linarith)
    · have hd : 0 < d := by
        by_contra hd; push Not at hd; nlinarith
      rcases le_total c d with hle | hle
      · exact pos _ _ (by omega) hle h
      · rw [abs_sub_comm c]; exact pos _ _ (by omega) hle (by linarith)
  unfold divider
  rw [if_neg (by omega)]
  by_cases hs : Real.sqrt N - ⌊Real.sqrt N⌋ = 0
  · simp only [hs, if_true]
    set s := ⌊Real.sqrt (N : ℝ)⌋ with hsdef
    have he : Real.sqrt N = (s : ℝ) := by linarith
    rw [he, truncInt_intCast]
    have hss : s * s = N := by
      have : ((s * s : ℤ) : ℝ) = (N : ℝ) := by push_cast; rw [← he]; exact hsq
      exact_mod_cast this
    have hs1 : 1 ≤ s := by
      have : (0 : ℝ) ≤ s := by rw [← he]; exact Real.sqrt_nonneg _
      have h0 : 0 ≤ s := by exact_mod_cast this
      rcases eq_or_lt_of_le h0 with h | h
      · rw [← h] at hss; omega
      · omega
    refine ⟨s, s, rfl, hs1, hs1, hss, ?_⟩
    intro c d _
    simp
  · simp only [hs, if_false]
    set u := ⌈Real.sqrt (N : ℝ)⌉ with hu
    have hpos : 0 < Real.sqrt N := Real.sqrt_pos.2 (by exact_mod_cast (by omega : 0 < N))
    have hu1 : 1 ≤ u := by
      have : 0 < u := Int.ceil_pos.2 hpos
      omega
    have hle : Real.sqrt N ≤ u := Int.le_ceil _
    have hlt : (u : ℝ) < Real.sqrt N + 1 := Int.ceil_lt_add_one _
    obtain ⟨a, h1, h2, h3, h4, h5⟩ := dividerLoop_spec N u.toNat (by omega)
    have hau : a ≤ u := by
      have : (u.toNat : ℤ) = u := Int.toNat_of_nonneg (by omega)
      omega
    have hab : a * (N / a) = N := Int.mul_ediv_cancel' h4
    have hb : 1 ≤ N / a := by
      by_contra hlt'; push Not at hlt'; nlinarith
    refine ⟨a, N / a, h1, h2, hb, hab, key a (N / a) h2 hb hab ?_⟩
    intro c d hc hcd h
    have hcs : (c : ℝ) ≤ Real.sqrt N := by
      apply Real.le_sqrt_of_sq_le
      have : c ^ 2 ≤ N := by nlinarith
      exact_mod_cast this
    have hca : c ≤ a := by
      apply h5 c hc
      · have : (c : ℝ) ≤ u := hcs.trans hle
        have : c ≤ u := by exact_mod_cast this
        omega
      · exact ⟨d, h.symm⟩
    refine ⟨hca, ?_⟩
    -- `c ≤ N / a`: otherwise `a > d` is impossible as `a ≤ ⌈√N⌉ ≤ d`
    have hud : u ≤ d := by
      rw [hu, Int.ceil_le]
      by_contra hlt'
      push Not at hlt'
      have hd0 : (0 : ℝ) < d := by exact_mod_cast (by omega : 0 < d)
      have : (c : ℝ) * d < Real.sqrt N * Real.sqrt N := by
        have hc0 : (0 : ℝ) < c := by exact_mod_cast hc
        nlinarith
      rw [hsq] at this
      have h' : (c : ℝ) * d = N := by exact_mod_cast h
      linarith
    by_contra hlt'
    push Not at hlt'
    nlinarith

/-- `divider(0)` is `(0, 0)`. -/
theorem C01_divider_zero : divider 0 = .ok (0, 0) := by
  unfold divider truncInt; simp

/-- A negative argument raises `ValueError`. -/
theorem C01_divider_negative (N : ℤ) (hN : N < 0) : divider N = .error .valueError := by
  unfold divider; rw [if_pos hN]

example : (1 : ℤ) ≤ 10 := by norm_num

/-! ## C02 `nearest_odd` -/

/-- The scalar form returns an odd integer to which no odd integer is closer. -/
theorem C02_nearest_odd_scalar (N : ℝ) :
    ∃ z : ℤ, Odd z ∧ nearestOdd N = (z : ℝ) ∧ ∀ w : ℤ, Odd w → |N - z| ≤ |N - w| := by
  have h0 := Int.floor_le N
  have h1 := Int.lt_floor_add_one N
  have close : ∀ z : ℤ, |N - z| ≤ 1 → Odd z → ∀ w : ℤ, Odd w → |N - z| ≤ |N - w| := by
    intro z hz hzo w hwo
    rcases eq_or_ne w z with rfl | hne
    · exact le_rfl
    · have h2 : 2 ≤ |w - z| := by
        obtain ⟨a, rfl⟩ := hzo
        obtain ⟨b, rfl⟩ := hwo
        rw [le_abs]; omega
      have h2' : (2 : ℝ) ≤ |(w : ℝ) - z| := by exact_mod_cast h2
      have h3 : |(w : ℝ) - z| ≤ |N - z| + |N - w| := by
        have e : (w : ℝ) - z = (N - z) - (N - w) := by ring
        rw [e]; exact abs_sub _ _
      linarith
  rw [nearestOdd_eq]
  by_cases h : ⌊N⌋ % 2 = 0
  · rw [if_pos h]
    have ho : Odd (⌊N⌋ + 1) := by rw [Int.odd_iff]; omega
    refine ⟨_, ho, rfl, close _ ?_ ho⟩
    rw [abs_le]; push_cast; constructor <;> linarith
  · rw [if_neg h]
    have ho : Odd ⌊N⌋ := by rw [Int.odd_iff]; omega
    refine ⟨_, ho, rfl, close _ ?_ ho⟩
    rw [abs_le]; constructor <;> linarith

/-- The array form has the length of its argument and agrees with the scalar form. -/
theorem C02_nearest_odd_array (N : Vec ℝ) :
    (nearestOddArr N).len = N.len ∧
      ∀ i < N.len, (((nearestOddArr N).get i : ℤ) : ℝ) = nearestOdd (N.get i) := by
  refine ⟨rfl, fun i _ => ?_⟩
  rw [nearestOdd_eq]
  simp only [nearestOddArr, Vec.map_get]
  rw [pyMod_two_intCast]
  by_cases h : ⌊N.get i⌋ % 2 = 0
  · rw [if_pos (by rw [h]; simp), if_pos h]
    congr 1
    have : ((⌊N.get i⌋ : ℤ) : ℝ) + 1 = ((⌊N.get i⌋ + 1 : ℤ) : ℝ) := by push_cast; ring
    rw [this, truncInt_intCast]
  · rw [if_neg (by exact_mod_cast h), if_neg h, truncInt_intCast]

/-! ## C03 `modulo` -/

/-- Every entry of `modulo(x, N)` is the representative in `(0, N]` of the entry of `x`. -/
theorem C03_modulo_real (x : Vec ℝ) (N : ℝ) (hx : 0 < x.len) (hN : 0 < N) :
    ∃ y : Vec ℝ, modulo (.real x) N = .ok (.real y) ∧ y.len = x.len ∧
      ∀ k < x.len, 0 < y.get k ∧ y.get k ≤ N ∧ ∃ q : ℤ, x.get k - y.get k = q * N := by
  simp only [modulo, if_pos hx, if_neg hN.ne']
  refine ⟨_, rfl, rfl, fun k _ => ?_⟩
  obtain ⟨h0, h1⟩ := pyMod_pos_lt (x := x.get k) hN
  simp only [Vec.map_get]
  by_cases h : pyMod (x.get k) N = 0
  · rw [if_pos h]
    refine ⟨hN, le_rfl, ⌊x.get k / N⌋ - 1, ?_⟩
    unfold pyMod at h; push_cast; linarith
  · rw [if_neg h]
    refine ⟨lt_of_le_of_ne h0 (Ne.symm h), h1.le, ⌊x.get k / N⌋, ?_⟩
    unfold pyMod; ring

/-- The representative in `(0, N]` is unique, so `C03_modulo_real` determines the result. -/
theorem C03_representative_unique (N a y z : ℝ) (hN : 0 < N)
    (hy : 0 < y ∧ y ≤ N ∧ ∃ q : ℤ, a - y = q * N) (hz : 0 < z ∧ z ≤ N ∧ ∃ q : ℤ, a - z = q * N) :
    y = z := by
  obtain ⟨hy0, hy1, p, hp⟩ := hy
  obtain ⟨hz0, hz1, q, hq⟩ := hz
  have h : y - z = (q - p : ℤ) * N := by push_cast; linarith
  have hlt : |y - z| < N := by rw [abs_lt]; constructor <;> linarith
  rw [h, abs_mul, abs_of_pos hN] at hlt
  have h1 : |((q - p : ℤ) : ℝ)| < 1 := by
    by_contra hge; push Not at hge; nlinarith
  have h2 : |q - p| < 1 := by exact_mod_cast h1
  have h3 : q - p = 0 := Int.abs_lt_one_iff.1 h2
  rw [h3] at h; simp at h; linarith

/-- An empty real array gives an empty (complex) array. -/
theorem C03_modulo_empty (x : Vec ℝ) (N : ℝ) (hx : x.len = 0) :
    ∃ y : Vec ℂ, modulo (.real x) N = .ok (.complex y) ∧ y.len = 0 := by
  refine ⟨⟨0, fun _ => 0⟩, ?_, rfl⟩
  simp [modulo, hx]

example : 0 < (Vec.ofList [(1 : ℝ), 5, -3]).len ∧ (0 : ℝ) < 4 := by simp [Vec.ofList]

/-- Complex arrays: a sample with zero imaginary part sends the array to `np.mod`, which refuses it; otherwise real and imaginary parts are
reduced separately, to `[0, N)` this time.  A zero modulus gives NaN. -/
theorem C03_modulo_complex (x : Vec ℂ) (N : ℝ) :
    ((∃ i < x.len, (x.get i).im = 0) → modulo (.complex x) N = .error .typeError) ∧
    ((∀ i < x.len, (x.get i).im ≠ 0) → 0 < N → ∃ y : Vec ℂ, modulo (.complex x) N = .ok (.complex y) ∧ y.len = x.len ∧
      ∀ k < x.len, (0 ≤ (y.get k).re ∧ (y.get k).re < N ∧ ∃ q : ℤ, (x.get k).re - (y.get k).re = q * N) ∧
        0 ≤ (y.get k).im ∧ (y.get k).im < N ∧ ∃ q : ℤ, (x.get k).im - (y.get k).im = q * N) ∧
    ((∀ i < x.len, (x.get i).im ≠ 0) → 0 < x.len → modulo (.complex x) 0 = .error .nonFinite) := by
  refine ⟨fun h => ?_, fun h hN => ?_, fun h hx => ?_⟩
  · unfold modulo
    simp only
    rw [if_pos h]
  · have h' : ¬ ∃ i < x.len, (x.get i).im = 0 := fun ⟨i, hi, hz⟩ => h i hi hz
    refine ⟨x.map (fun z => (⟨pyMod z.re N, pyMod z.im N⟩ : ℂ)), ?_, rfl, fun k hk => ?_⟩
    · unfold modulo
      simp only
      rw [if_neg h', if_neg (fun hc => hN.ne' hc.1)]
    · obtain ⟨a0, a1⟩ := pyMod_pos_lt (x := (x.get k).re) hN
      obtain ⟨b0, b1⟩ := pyMod_pos_lt (x := (x.get k).im) hN
      refine ⟨⟨a0, a1, ⌊(x.get k).re / N⌋, ?_⟩, b0, b1, ⌊(x.get k).im / N⌋, ?_⟩
      · show (x.get k).re - pyMod (x.get k).re N = _
        unfold pyMod; ring
      · show (x.get k).im - pyMod (x.get k).im N = _
        unfold pyMod; ring
  · have h' : ¬ ∃ i < x.len, (x.get i).im = 0 := fun ⟨i, hi, hz⟩ => h i hi hz
    unfold modulo
    simp only [if_neg h', true_and, if_pos hx]

/-- A real non-empty array with modulus zero gives NaN. -/
theorem C03_modulo_zero (x : Vec ℝ) (hx : 0 < x.len) : modulo (.real x) 0 = .error .nonFinite := by
  unfold modulo
  simp only [if_pos hx, if_true]

example : modulo (.complex ⟨2, fun i => if i = 0 then 1 else Complex.I⟩) 3 = .error .typeError :=
  (C03_modulo_complex _ 3).1 ⟨0, by norm_num, by simp⟩

/-! ## C04 `nextpow2` -/

/-- For `n ≥ 1` the result is the least exponent whose power of two reaches `n`. -/
theorem C04_nextpow2_least (n : ℤ) (hn : 1 ≤ n) :
    ∃ k : ℕ, nextpow2 n = .ok (k : ℤ) ∧ n ≤ 2 ^ k ∧ ∀ j : ℕ, n ≤ 2 ^ j → k ≤ j := by
  unfold nextpow2
  rw [if_neg (by omega)]
  have hn0 : (0 : ℝ) < n := by exact_mod_cast (by omega : 0 < n)
  have hnn : 0 ≤ ⌈Real.logb 2 n⌉ := by
    apply Int.ceil_nonneg
    apply Real.logb_nonneg (by norm_num)
    exact_mod_cast hn
  have key : ∀ j : ℕ, n ≤ 2 ^ j ↔ Real.logb 2 n ≤ (j : ℝ) := by
    intro j
    rw [Real.logb_le_iff_le_rpow (by norm_num) hn0, Real.rpow_natCast]
    constructor
    · intro h; exact_mod_cast h
    · intro h; exact_mod_cast h
  refine ⟨⌈Real.logb 2 n⌉.toNat, by rw [Int.toNat_of_nonneg hnn], ?_, ?_⟩
  · rw [key]
    have : ((⌈Real.logb 2 n⌉.toNat : ℤ) : ℝ) = (⌈Real.logb 2 n⌉ : ℝ) := by
      rw [Int.toNat_of_nonneg hnn]
    have h2 : ((⌈Real.logb 2 n⌉.toNat : ℕ) : ℝ) = (⌈Real.logb 2 n⌉ : ℝ) := by exact_mod_cast this
    rw [h2]; exact Int.le_ceil _
  · intro j hj
    rw [key] at hj
    have : ⌈Real.logb 2 n⌉ ≤ (j : ℤ) := by rw [Int.ceil_le]; exact_mod_cast hj
    omega

/-- Non-positive arguments raise `ValueError`. -/
theorem C04_nextpow2_nonpos (n : ℤ) (hn : n ≤ 0) : nextpow2 n = .error .valueError := by
  unfold nextpow2; rw [if_pos hn]

/-! ## C05 `is_linear` -/

/-- Arithmetic progressions of at least two samples are accepted at every precision. -/
theorem C05_accepts_affine (x : Vec ℝ) (d : ℤ) (a r : ℝ) (h2 : 2 ≤ x.len)
    (h : ∀ i < x.len, x.get i = a + i * r) : isLinear x d = true := by
  classical
  unfold isLinear
  simp only [decide_eq_true_eq]
  rw [Finset.card_eq_one]
  refine ⟨(roundEven (r * (10 : ℝ) ^ d) : ℝ) / (10 : ℝ) ^ d, ?_⟩
  ext y
  simp only [Finset.mem_image, Finset.mem_range, Finset.mem_singleton, Vec.map_get, Vec.diff_get, Vec.map_len,
    Vec.diff_len]
  have hd : ∀ i, i < x.len - 1 → x.get (i + 1) - x.get i = r := by
    intro i hi
    rw [h i (by omega), h (i + 1) (by omega)]; push_cast; ring
  constructor
  · rintro ⟨i, hi, rfl⟩; rw [hd i hi]
  · rintro rfl; exact ⟨0, by omega, by rw [hd 0 (by omega)]⟩

/-- Accepted arrays have at least two samples and consecutive differences within `10^-d`. -/
theorem C05_accepted_almost_affine (x : Vec ℝ) (d : ℤ) (h : isLinear x d = true) :
    2 ≤ x.len ∧ ∀ i j : ℕ, i + 1 < x.len → j + 1 < x.len →
      |(x.get (i + 1) - x.get i) - (x.get (j + 1) - x.get j)| ≤ (10 : ℝ) ^ (-d) := by
  classical
  unfold isLinear at h
  simp only [decide_eq_true_eq, Finset.card_eq_one] at h
  obtain ⟨y, hy⟩ := h
  have hmem : ∀ z, z ∈ image _ _ ↔ z ∈ ({y} : Finset ℝ) := fun z => by rw [hy]
  simp only [Finset.mem_image, Finset.mem_range, Finset.mem_singleton, Vec.map_get, Vec.diff_get, Vec.map_len,
    Vec.diff_len] at hmem
  have hp : (0 : ℝ) < (10 : ℝ) ^ d := by positivity
  constructor
  · obtain ⟨i, hi, _⟩ := (hmem y).2 rfl; omega
  · have near : ∀ i : ℕ, i + 1 < x.len →
        |(x.get (i + 1) - x.get i) - y| ≤ (10 : ℝ) ^ (-d) / 2 := by
      intro i hi
      have e := (hmem _).1 ⟨i, by omega, rfl⟩
      have hr := abs_sub_roundEven_le ((x.get (i + 1) - x.get i) * (10 : ℝ) ^ d)
      have e' : (roundEven ((x.get (i + 1) - x.get i) * (10 : ℝ) ^ d) : ℝ) = y * (10 : ℝ) ^ d := by
        rw [← e]; field_simp
      rw [e', ← sub_mul, abs_mul, abs_of_pos hp] at hr
      rw [zpow_neg, div_eq_mul_inv, mul_comm, ← div_eq_mul_inv]
      rw [le_div_iff₀ hp]; linarith
    intro i j hi hj
    have h1 := near i hi
    have h2 := near j hj
    have e : (x.get (i + 1) - x.get i) - (x.get (j + 1) - x.get j)
        = ((x.get (i + 1) - x.get i) - y) - ((x.get (j + 1) - x.get j) - y) := by ring
    rw [e]
    exact (abs_sub _ _).trans (by linarith)

/-- Fewer than two samples: not linear. -/
theorem C05_short_not_linear (x : Vec ℝ) (d : ℤ) (h : x.len < 2) : isLinear x d = false := by
  by_contra hne
  rw [Bool.not_eq_false] at hne
  have := (C05_accepted_almost_affine x d hne).1
  omega

example : 2 ≤ (⟨3, fun i => 1 + i * (1 / 2 : ℝ)⟩ : Vec ℝ).len ∧
    ∀ i < 3, (⟨3, fun i => 1 + i * (1 / 2 : ℝ)⟩ : Vec ℝ).get i = 1 + i * (1 / 2 : ℝ) :=
  ⟨by norm_num, fun _ _ => rfl⟩

/-! ## C06 `izak` -/

/-- `izak` returns `n*m` samples of the same energy as its argument. -/
theorem C06_izak_energy (X : Mat ℂ) (hn : 1 ≤ X.rows) :
    ∃ s : Vec ℂ, izak (.two X) = .ok s ∧ s.len = X.rows * X.cols ∧
      Spec.energy s = Spec.energy2 X := by
  obtain ⟨g, h1, h2⟩ := izak2_ok X (by omega)
  refine ⟨_, h1, rfl, ?_⟩
  have hn0 : X.rows ≠ 0 := by omega
  have hnr : (X.rows : ℝ) ≠ 0 := by exact_mod_cast hn0
  unfold Spec.energy Spec.energy2
  rw [sum_range_mul]
  rw [Finset.sum_comm (s := range X.rows)]
  apply Finset.sum_congr rfl
  intro r hr
  have e : ∀ j ∈ range X.rows, ‖g (r + j * X.cols)‖ ^ 2
      = X.rows * ‖idftC X.rows (fun k => X.get k r) j‖ ^ 2 := by
    intro j hj
    rw [h2 r (Finset.mem_range.1 hr) j (Finset.mem_range.1 hj), norm_mul, mul_pow,
      Complex.norm_real, Real.norm_of_nonneg (Real.sqrt_nonneg _),
      Real.sq_sqrt (by positivity)]
  rw [Finset.sum_congr rfl e, ← Finset.mul_sum]
  have hp := parseval hn0 (fun j => idftC X.rows (fun k => X.get k r) j)
  rw [← hp]
  apply Finset.sum_congr rfl
  intro k hk
  rw [dftC_idftC hn0 _ (Finset.mem_range.1 hk)]

/-- `izak` inverts the Zak transform. -/
theorem C06_izak_inverts_zak (n m : ℕ) (hn : 1 ≤ n) (x : Vec ℂ) (hx : x.len = n * m) :
    ∃ s : Vec ℂ, izak (.two (Spec.zak n m x)) = .ok s ∧ s.Same x := by
  obtain ⟨g, h1, h2⟩ := izak2_ok (Spec.zak n m x) (by show n ≠ 0; omega)
  refine ⟨_, h1, hx.symm, ?_⟩
  have hn0 : n ≠ 0 := by omega
  have hs : (Real.sqrt n : ℂ) ≠ 0 := by
    rw [Ne, Complex.ofReal_eq_zero, Real.sqrt_eq_zero (by positivity)]
    exact_mod_cast hn0
  intro i hi
  change i < n * m at hi
  have hm : 0 < m := by
    rcases Nat.eq_zero_or_pos m with h | h
    · subst h; simp at hi
    · exact h
  have hdm : i % m + i / m * m = i := by rw [mul_comm]; exact Nat.mod_add_div i m
  have := h2 (i % m) (Nat.mod_lt _ hm) (i / m) (Nat.div_lt_of_lt_mul (by rw [mul_comm]; exact hi))
  change g (i % m + i / m * m) = (Real.sqrt n : ℂ)
    * idftC n (fun r => (Spec.zak n m x).get r (i % m)) ((i / m : ℕ) : ℤ) at this
  show g i = x.get i
  rw [hdm] at this
  rw [this]
  have e : (fun r : ℕ => (Spec.zak n m x).get r (i % m))
      = fun r : ℕ => dftC n (fun c => x.get (i % m + c * m) / (Real.sqrt n : ℂ)) r := by
    funext r
    simp only [Spec.zak, dftC]
    rw [Finset.sum_div]
    apply Finset.sum_congr rfl
    intro c _
    rw [rootPow_eq_expi]
    have : (r : ℝ) * c / n = ((((c : ℤ) * (r : ℤ) : ℤ)) : ℝ) / n := by push_cast; ring
    rw [this]; ring
  rw [e, idftC_dftC hn0 _ (Nat.div_lt_of_lt_mul (by rw [mul_comm]; exact hi)), hdm]
  field_simp

/-- A one-dimensional argument always raises `IndexError`. -/
theorem C06_izak_one_dim (x : Vec ℂ) : izak (.one x) = .error .indexError := rfl

example : 1 ≤ (⟨2, 3, fun r c => (r + c : ℂ)⟩ : Mat ℂ).rows := by norm_num

end Tftb.Props
