import Verif.Lemmas.Post

/-! # Property C53: Hough transform -/

namespace Tftb

open Finset Spec ProcUtils Post

theorem houghAxis_eq (k : ℕ) : (houghAxis k).1 = ((k : ℤ) - 1) / 2 + 1 ∧ (1 ≤ k → (houghAxis k).2 + 1 - (1 - (houghAxis k).1) = k) := by
  unfold houghAxis
  split_ifs with h
  · simp only; omega
  · simp only; omega

theorem centred_abs_le {k i : ℕ} (hi : i < k) : |(centred k i : ℝ)| ≤ (k : ℝ) / 2 := by
  unfold centred
  have h1 : 2 * ((i : ℤ) - ((k : ℤ) - 1) / 2) ≤ k := by omega
  have h2 : -(k : ℤ) ≤ 2 * ((i : ℤ) - ((k : ℤ) - 1) / 2) := by omega
  have h1' : 2 * (((i : ℤ) - ((k : ℤ) - 1) / 2 : ℤ) : ℝ) ≤ k := by exact_mod_cast h1
  have h2' : -(k : ℝ) ≤ 2 * (((i : ℤ) - ((k : ℤ) - 1) / 2 : ℤ) : ℝ) := by exact_mod_cast h2
  rw [abs_le]
  constructor <;> linarith

theorem rhomax_nonneg (image : Mat ℝ) : 0 ≤ rhomax image := by unfold rhomax; positivity

theorem lineDist_le {image : Mat ℝ} {i j : ℕ} (hi : i < image.rows) (hj : j < image.cols) (θ : ℝ) :
    lineDist image.rows image.cols i j θ ≤ rhomax image := by
  unfold lineDist rhomax
  have h1 := centred_abs_le hi
  have h2 := centred_abs_le hj
  set x : ℝ := (centred image.rows i : ℝ)
  set y : ℝ := (centred image.cols j : ℝ)
  have hx : x ^ 2 ≤ ((image.rows : ℝ) / 2) ^ 2 := sq_le_sq' (by linarith [(abs_le.1 h1).1]) (abs_le.1 h1).2
  have hy : y ^ 2 ≤ ((image.cols : ℝ) / 2) ^ 2 := sq_le_sq' (by linarith [(abs_le.1 h2).1]) (abs_le.1 h2).2
  have hcs := Real.cos_sq_add_sin_sq θ
  set c := Real.cos θ
  set s := Real.sin θ
  rw [show (2.0 : ℝ) = 2 by norm_num, le_div_iff₀ (by norm_num)]
  refine Real.le_sqrt_of_sq_le ?_
  have e : (x * c - y * s) ^ 2 = (x ^ 2 + y ^ 2) * (c ^ 2 + s ^ 2) - (x * s + y * c) ^ 2 := by ring
  rw [hcs] at e
  nlinarith [sq_nonneg (x * s + y * c)]

theorem rhomax_pos {image : Mat ℝ} (h : 1 ≤ image.rows) : 0 < rhomax image := by
  unfold rhomax
  have : (0 : ℝ) < image.rows := by exact_mod_cast h
  have : (0 : ℝ) < (image.rows : ℝ) ^ 2 + (image.cols : ℝ) ^ 2 := by positivity
  have := Real.sqrt_pos.2 this
  rw [show (2.0 : ℝ) = 2 by norm_num]
  positivity

theorem rhoIndex_eq {rmax : ℝ} {m : ℕ} (h0 : 0 < rmax) (ρ : ℝ) :
    rhoIndex rmax m ρ = roundEven (ρ * ((m : ℝ) - 1) / rmax) := by
  unfold rhoIndex
  split_ifs with h
  · subst h
    have := roundEven_intCast 0
    simpa using this.symm
  · have hm : (m : ℝ) - 1 ≠ 0 := by
      intro e
      have : (m : ℝ) = 1 := by linarith
      exact h (by exact_mod_cast this)
    rw [show (1.0 : ℝ) = 1 by norm_num]
    congr 1
    field_simp

theorem rhoIndex_bounds {rmax : ℝ} {m : ℕ} (hm : 1 ≤ m) (h0 : 0 < rmax) {ρ : ℝ} (h1 : 0 ≤ ρ) (h2 : ρ ≤ rmax) :
    0 ≤ rhoIndex rmax m ρ ∧ rhoIndex rmax m ρ < m := by
  rw [rhoIndex_eq h0]
  have hm' : (1 : ℝ) ≤ m := by exact_mod_cast hm
  have a1 : 0 ≤ ρ * ((m : ℝ) - 1) / rmax := div_nonneg (mul_nonneg h1 (by linarith)) h0.le
  have a2 : ρ * ((m : ℝ) - 1) / rmax ≤ (m : ℝ) - 1 := by
    rw [div_le_iff₀ h0]
    nlinarith
  have h := abs_le.1 (abs_sub_roundEven_le (ρ * ((m : ℝ) - 1) / rmax))
  set z := roundEven (ρ * ((m : ℝ) - 1) / rmax)
  constructor
  · have : (-1 : ℝ) < z := by linarith
    have : (-1 : ℤ) < z := by exact_mod_cast this
    omega
  · have : (z : ℝ) < m := by linarith
    exact_mod_cast this

/-- The `k`-th angle and its accumulator column. -/
theorem hough_theta {n k : ℕ} (hk : k < n) :
    (linspace 0 (2 * Real.pi - 2 * Real.pi / n) n).get k = 2 * Real.pi * k / n := by
  unfold linspace
  have hn : (0 : ℝ) < n := by exact_mod_cast (by omega : 0 < n)
  simp only
  split_ifs with h
  · subst h
    have : k = 0 := by omega
    subst this
    simp
  · have hn1 : (n : ℝ) - 1 ≠ 0 := by
      intro e
      have : (n : ℝ) = 1 := by linarith
      exact h (by exact_mod_cast this)
    field_simp
    ring

theorem hough_col {n k : ℕ} (hk : k < n) : roundEven (2 * Real.pi * k / n / (2 * Real.pi / n)) = k := by
  have hn : (0 : ℝ) < n := by exact_mod_cast (by omega : 0 < n)
  have : 2 * Real.pi * k / n / (2 * Real.pi / n) = ((k : ℤ) : ℝ) := by
    have := Real.pi_pos
    push_cast
    field_simp
  rw [this, roundEven_intCast]

/-- The vote of pixel `(i, j)` for cell `(r, k)`. -/
noncomputable def houghWeight (image : Mat ℝ) (mx : ℝ) (m n i j r k : ℕ) : ℝ := by
  classical
  exact if mx / 20 < |image.get i j| ∧ 0 ≤ lineDist image.rows image.cols i j (2 * Real.pi * k / n) ∧
      (r : ℤ) = roundEven (lineDist image.rows image.cols i j (2 * Real.pi * k / n) * ((m : ℝ) - 1) / rhomax image)
    then image.get i j else 0

theorem houghVotes_ok {image : Mat ℝ} {m n i j : ℕ} (hm : 1 ≤ m) (hi : i < image.rows) (hj : j < image.cols) {p : ℝ}
    {M : Mat ℝ} (hr : M.rows = m) (hc : M.cols = n) :
    ∃ M', houghVotes (rhomax image) m n (centred image.rows i) (centred image.cols j) p M = .ok M' ∧ M'.rows = m ∧ M'.cols = n ∧
      ∀ r : ℕ, ∀ k < n,
        (0 ≤ lineDist image.rows image.cols i j (2 * Real.pi * k / n) ∧
          (r : ℤ) = roundEven (lineDist image.rows image.cols i j (2 * Real.pi * k / n) * ((m : ℝ) - 1) / rhomax image) →
          M'.get r k = M.get r k + p) ∧
        (¬ (0 ≤ lineDist image.rows image.cols i j (2 * Real.pi * k / n) ∧
          (r : ℤ) = roundEven (lineDist image.rows image.cols i j (2 * Real.pi * k / n) * ((m : ℝ) - 1) / rhomax image)) →
          M'.get r k = M.get r k) := by
  unfold houghVotes
  simp only []
  obtain ⟨M', e, h1, h2, h3⟩ := foldlM_range_ok
    (f := fun ht k =>
      if 0 ≤ (centred image.rows i : ℝ) * Real.cos ((linspace 0 (2 * Real.pi - 2 * Real.pi / n) n).get k)
          - (centred image.cols j : ℝ) * Real.sin ((linspace 0 (2 * Real.pi - 2 * Real.pi / n) n).get k) ∧
        (centred image.rows i : ℝ) * Real.cos ((linspace 0 (2 * Real.pi - 2 * Real.pi / n) n).get k)
          - (centred image.cols j : ℝ) * Real.sin ((linspace 0 (2 * Real.pi - 2 * Real.pi / n) n).get k) ≤ rhomax image then
        ht.addItem (rhoIndex (rhomax image) m ((centred image.rows i : ℝ) * Real.cos ((linspace 0 (2 * Real.pi - 2 * Real.pi / n) n).get k)
          - (centred image.cols j : ℝ) * Real.sin ((linspace 0 (2 * Real.pi - 2 * Real.pi / n) n).get k)))
          (roundEven ((linspace 0 (2 * Real.pi - 2 * Real.pi / n) n).get k / (2 * Real.pi / n))) p
      else .ok ht) (N := n) (s := M)
    (P := fun q (M' : Mat ℝ) => M'.rows = m ∧ M'.cols = n ∧ ∀ r k : ℕ,
        (k < q ∧ (0 ≤ lineDist image.rows image.cols i j (2 * Real.pi * k / n) ∧
          (r : ℤ) = roundEven (lineDist image.rows image.cols i j (2 * Real.pi * k / n) * ((m : ℝ) - 1) / rhomax image)) →
          M'.get r k = M.get r k + p) ∧
        (¬ (k < q ∧ (0 ≤ lineDist image.rows image.cols i j (2 * Real.pi * k / n) ∧
          (r : ℤ) = roundEven (lineDist image.rows image.cols i j (2 * Real.pi * k / n) * ((m : ℝ) - 1) / rhomax image))) →
          M'.get r k = M.get r k))
    ⟨hr, hc, fun r k => ⟨fun h => absurd h.1 (by omega), fun _ => rfl⟩⟩ (by
      rintro q hq A ⟨ha, hb, hA⟩
      rw [hough_theta hq, hough_col hq]
      have hle := lineDist_le hi hj (2 * Real.pi * q / n)
      have hd : (centred image.rows i : ℝ) * Real.cos (2 * Real.pi * q / n) - (centred image.cols j : ℝ) * Real.sin (2 * Real.pi * q / n)
        = lineDist image.rows image.cols i j (2 * Real.pi * q / n) := rfl
      rw [hd]
      have hrp : 0 < rhomax image := rhomax_pos (by omega)
      by_cases h0 : 0 ≤ lineDist image.rows image.cols i j (2 * Real.pi * q / n)
      · rw [if_pos ⟨h0, hle⟩]
        obtain ⟨b0, b1⟩ := rhoIndex_bounds hm hrp h0 hle
        rw [Mat.addItem_ok (idxOk_of_lt b0 (by rw [ha]; exact b1)) (idxOk_of_lt (by omega) (by rw [hb]; exact_mod_cast hq))]
        refine ⟨_, rfl, ha, hb, fun r k => ?_⟩
        simp only [wrapIdx_natCast, wrapIdx_of_nonneg b0]
        obtain ⟨p1, p2⟩ := hA r k
        rw [rhoIndex_eq hrp] at b0 ⊢
        by_cases hkq : k = q
        · subst hkq
          have hold : A.get r k = M.get r k := p2 (fun h => absurd h.1 (by omega))
          rw [hold]
          refine ⟨fun h => ?_, fun h => ?_⟩
          · rw [if_pos ⟨by have := h.2.2; omega, rfl⟩]
          · rw [if_neg, add_zero]
            rintro ⟨h', -⟩
            exact h ⟨by omega, h0, by omega⟩
        · rw [if_neg (fun h => hkq h.2), add_zero]
          exact ⟨fun h => p1 ⟨by have := h.1; omega, h.2⟩, fun h => p2 (fun h' => h ⟨by omega, h'.2⟩)⟩
      · rw [if_neg (fun h => h0 h.1)]
        refine ⟨A, rfl, ha, hb, fun r k => ?_⟩
        obtain ⟨p1, p2⟩ := hA r k
        by_cases hkq : k = q
        · subst hkq
          exact ⟨fun h => absurd h.2.1 h0, fun _ => p2 (fun h => absurd h.1 (by omega))⟩
        · exact ⟨fun h => p1 ⟨by have := h.1; omega, h.2⟩, fun h => p2 (fun h' => h ⟨by omega, h'.2⟩)⟩)
  refine ⟨M', e, h1, h2, fun r k hk => ?_⟩
  obtain ⟨p1, p2⟩ := h3 r k
  exact ⟨fun h => p1 ⟨hk, h⟩, fun h => p2 (fun h' => h h'.2)⟩

/-- The accumulator after all votes. -/
theorem hough_run (image : Mat ℝ) (m n : ℕ) (hR : 1 ≤ image.rows) (hC : 1 ≤ image.cols) (hm : 1 ≤ m) (hn : 1 ≤ n) :
    ∃ (ht : Mat ℝ) (mx : ℝ), houghTransform image (some m) (some n)
        = .ok (ht, linspace 0 (rhomax image) n, linspace 0 (2 * Real.pi - 2 * Real.pi / n) n) ∧
      (∀ i < image.rows, ∀ j < image.cols, image.get i j ≤ mx) ∧ (∃ i < image.rows, ∃ j < image.cols, image.get i j = mx) ∧
      ht.rows = m ∧ ht.cols = n ∧
      ∀ r : ℕ, ∀ k < n, ht.get r k = ∑ i ∈ range image.rows, ∑ j ∈ range image.cols, houghWeight image mx m n i j r k := by
  obtain ⟨mx, emx, hle, i0, hi0, hmx⟩ := Vec.amax_spec
    (v := ⟨image.rows * image.cols, fun i => image.get (i / image.cols) (i % image.cols)⟩) (Nat.mul_ne_zero (by omega) (by omega))
  have hmx1 : ∀ i < image.rows, ∀ j < image.cols, image.get i j ≤ mx := by
    intro i hi j hj
    have hlt : i * image.cols + j < image.rows * image.cols := by
      calc i * image.cols + j < i * image.cols + image.cols := by omega
        _ = (i + 1) * image.cols := by ring
        _ ≤ _ := Nat.mul_le_mul_right _ (by omega)
    have := hle (i * image.cols + j) hlt
    simp only at this
    rwa [Nat.mul_comm i, Nat.mul_add_div (by omega), Nat.div_eq_of_lt hj, Nat.mul_add_mod, Nat.mod_eq_of_lt hj, add_zero] at this
  have hmx2 : ∃ i < image.rows, ∃ j < image.cols, image.get i j = mx :=
    ⟨i0 / image.cols, Nat.div_lt_of_lt_mul (by rw [Nat.mul_comm]; exact hi0), i0 % image.cols, Nat.mod_lt _ (by omega), hmx⟩
  obtain ⟨x1, x2⟩ := houghAxis_eq image.rows
  obtain ⟨y1, y2⟩ := houghAxis_eq image.cols
  obtain ⟨ht, e, h1, h2, h3⟩ := foldlM_range_ok
    (f := fun ht (i : ℕ) => (List.range image.cols).foldlM (fun ht (j : ℕ) => do
        let p ← image.item (1 - (houghAxis image.rows).1 + i + (houghAxis image.rows).1 - 1)
          (1 - (houghAxis image.cols).1 + j + (houghAxis image.cols).1 - 1)
        if |p| > mx / 20.0 then houghVotes (rhomax image) m n (1 - (houghAxis image.rows).1 + i) (1 - (houghAxis image.cols).1 + j) p ht
        else .ok ht) ht) (N := image.rows) (s := (Mat.zeros m n : Mat ℝ))
    (P := fun q (M : Mat ℝ) => M.rows = m ∧ M.cols = n ∧ ∀ r : ℕ, ∀ k < n, M.get r k
        = ∑ i ∈ range q, ∑ j ∈ range image.cols, houghWeight image mx m n i j r k)
    ⟨rfl, rfl, fun r k _ => by simp [Mat.zeros]⟩ (by
      rintro i hi A ⟨a1, a2, a3⟩
      obtain ⟨B, e, b1, b2, b3⟩ := foldlM_range_ok
        (f := fun ht (j : ℕ) => do
          let p ← image.item (1 - (houghAxis image.rows).1 + i + (houghAxis image.rows).1 - 1)
            (1 - (houghAxis image.cols).1 + j + (houghAxis image.cols).1 - 1)
          if |p| > mx / 20.0 then houghVotes (rhomax image) m n (1 - (houghAxis image.rows).1 + i) (1 - (houghAxis image.cols).1 + j) p ht
          else .ok ht) (N := image.cols) (s := A)
        (P := fun q (M : Mat ℝ) => M.rows = m ∧ M.cols = n ∧ ∀ r : ℕ, ∀ k < n, M.get r k
            = A.get r k + ∑ j ∈ range q, houghWeight image mx m n i j r k)
        ⟨a1, a2, fun r k _ => by simp⟩ (by
          rintro j hj M ⟨m1, m2, m3⟩
          have ei : (1 - (houghAxis image.rows).1 + i + (houghAxis image.rows).1 - 1 : ℤ) = i := by ring
          have ej : (1 - (houghAxis image.cols).1 + j + (houghAxis image.cols).1 - 1 : ℤ) = j := by ring
          have cx : (1 - (houghAxis image.rows).1 + i : ℤ) = centred image.rows i := by rw [x1]; unfold centred; ring
          have cy : (1 - (houghAxis image.cols).1 + j : ℤ) = centred image.cols j := by rw [y1]; unfold centred; ring
          rw [ei, ej, cx, cy, Mat.item_ok (idxOk_of_lt (by omega) (by omega)) (idxOk_of_lt (by omega) (by omega)), ok_bind,
            wrapIdx_natCast, wrapIdx_natCast]
          by_cases hp : |image.get i j| > mx / 20.0
          · rw [if_pos hp]
            obtain ⟨V, ev, v1, v2, v3⟩ := houghVotes_ok (p := image.get i j) hm hi hj m1 m2
            refine ⟨V, ev, v1, v2, fun r k hk => ?_⟩
            rw [Finset.sum_range_succ, ← add_assoc, ← m3 r k hk]
            obtain ⟨w1, w2⟩ := v3 r k hk
            unfold houghWeight
            rw [show (20.0 : ℝ) = 20 by norm_num] at hp
            split_ifs with hw
            · exact w1 hw.2
            · rw [add_zero]; exact w2 (fun h => hw ⟨hp, h⟩)
          · rw [if_neg hp]
            refine ⟨M, rfl, m1, m2, fun r k hk => ?_⟩
            rw [Finset.sum_range_succ, ← add_assoc, ← m3 r k hk]
            unfold houghWeight
            rw [show (20.0 : ℝ) = 20 by norm_num] at hp
            rw [if_neg (fun h => hp h.1), add_zero])
      refine ⟨B, e, b1, b2, fun r k hk => ?_⟩
      rw [b3 r k hk, Finset.sum_range_succ, a3 r k hk])
  refine ⟨ht, mx, ?_, hmx1, hmx2, h1, h2, h3⟩
  unfold houghTransform
  simp only [Option.getD_some]
  rw [if_neg (by omega), emx, ok_bind]
  simp only [foldlM_pyRange, x2 hR, y2 hC, Int.toNat_natCast]
  rw [e, ok_bind]

/-- C53: for every non-empty image and positive sizes the transform returns (no vote falls outside the accumulator), and cell
`(r, k)` holds the sum of the pixels above 5 % of the maximum whose line at angle `2πk/n` has a non-negative distance to the centre
that rounds to `r` radial steps, the step being half the diagonal over `m - 1`. -/
theorem C53_votes (image : Mat ℝ) (m n : ℕ) (hR : 1 ≤ image.rows) (hC : 1 ≤ image.cols) (hm : 1 ≤ m) (hn : 1 ≤ n) :
    ∃ (ht : Mat ℝ) (rho theta : Vec ℝ) (mx : ℝ), houghTransform image (some m) (some n) = .ok (ht, rho, theta) ∧
      (∀ i < image.rows, ∀ j < image.cols, image.get i j ≤ mx) ∧ (∃ i < image.rows, ∃ j < image.cols, image.get i j = mx) ∧
      ht.rows = m ∧ ht.cols = n ∧ theta.len = n ∧ (∀ k < n, theta.get k = 2 * Real.pi * k / n) ∧
      ∀ r < m, ∀ k < n, ht.get r k = ∑ i ∈ range image.rows, ∑ j ∈ range image.cols,
        open Classical in
        if mx / 20 < |image.get i j| ∧ 0 ≤ lineDist image.rows image.cols i j (2 * Real.pi * k / n) ∧
          (r : ℤ) = roundEven (lineDist image.rows image.cols i j (2 * Real.pi * k / n) * ((m : ℝ) - 1)
            / (Real.sqrt ((image.rows : ℝ) ^ 2 + (image.cols : ℝ) ^ 2) / 2))
        then image.get i j else 0 := by
  obtain ⟨ht, mx, e, h1, h2, h3, h4, h5⟩ := hough_run image m n hR hC hm hn
  refine ⟨ht, _, _, mx, e, h1, h2, h3, h4, rfl, fun k hk => hough_theta hk, fun r _ k hk => ?_⟩
  rw [h5 r k hk]
  unfold houghWeight rhomax
  rw [show (2.0 : ℝ) = 2 by norm_num]

/-- The default sizes are those of the image. -/
theorem C53_default (image : Mat ℝ) :
    houghTransform image none none = houghTransform image (some image.rows) (some image.cols) := rfl

/-- C53: no vote is lost: column `k` sums to the sum of all significant pixels lying at a non-negative distance. -/
theorem C53_column_sum (image : Mat ℝ) (m n : ℕ) (hR : 1 ≤ image.rows) (hC : 1 ≤ image.cols) (hm : 1 ≤ m) (hn : 1 ≤ n) :
    ∃ (ht : Mat ℝ) (rho theta : Vec ℝ) (mx : ℝ), houghTransform image (some m) (some n) = .ok (ht, rho, theta) ∧
      (∀ i < image.rows, ∀ j < image.cols, image.get i j ≤ mx) ∧ (∃ i < image.rows, ∃ j < image.cols, image.get i j = mx) ∧
      ∀ k < n, ∑ r ∈ range m, ht.get r k = ∑ i ∈ range image.rows, ∑ j ∈ range image.cols,
        open Classical in
        if mx / 20 < |image.get i j| ∧ 0 ≤ lineDist image.rows image.cols i j (2 * Real.pi * k / n)
        then image.get i j else 0 := by
  classical
  obtain ⟨ht, mx, e, h1, h2, h3, h4, h5⟩ := hough_run image m n hR hC hm hn
  refine ⟨ht, _, _, mx, e, h1, h2, fun k hk => ?_⟩
  rw [Finset.sum_congr rfl (fun r _ => h5 r k hk), Finset.sum_comm]
  refine Finset.sum_congr rfl fun i hi => ?_
  rw [Finset.sum_comm]
  refine Finset.sum_congr rfl fun j hj => ?_
  have hrp : 0 < rhomax image := rhomax_pos hR
  have hle := lineDist_le (Finset.mem_range.1 hi) (Finset.mem_range.1 hj) (2 * Real.pi * k / n)
  by_cases h : mx / 20 < |image.get i j| ∧ 0 ≤ lineDist image.rows image.cols i j (2 * Real.pi * k / n)
  · rw [if_pos h]
    obtain ⟨b0, b1⟩ := rhoIndex_bounds hm hrp h.2 hle
    rw [rhoIndex_eq hrp] at b0 b1
    set z := roundEven (lineDist image.rows image.cols i j (2 * Real.pi * k / n) * ((m : ℝ) - 1) / rhomax image) with hz
    rw [Finset.sum_eq_single z.toNat]
    · unfold houghWeight
      rw [if_pos ⟨h.1, h.2, by rw [← hz]; omega⟩]
    · intro r _ hr
      unfold houghWeight
      rw [if_neg]
      rintro ⟨-, -, h'⟩
      rw [← hz] at h'
      omega
    · intro h'
      rw [Finset.mem_range] at h'
      omega
  · rw [if_neg h]
    refine Finset.sum_eq_zero fun r _ => ?_
    unfold houghWeight
    rw [if_neg (fun h' => h ⟨h'.1, h'.2.1⟩)]

/-- C53: non-negative images give non-negative accumulators. -/
theorem C53_nonneg (image : Mat ℝ) (m n : ℕ) (hR : 1 ≤ image.rows) (hC : 1 ≤ image.cols) (hm : 1 ≤ m) (hn : 1 ≤ n)
    (hnn : ∀ i < image.rows, ∀ j < image.cols, 0 ≤ image.get i j) :
    ∃ (ht : Mat ℝ) (rho theta : Vec ℝ), houghTransform image (some m) (some n) = .ok (ht, rho, theta) ∧
      ∀ r < m, ∀ k < n, 0 ≤ ht.get r k := by
  obtain ⟨ht, mx, e, -, -, -, -, h5⟩ := hough_run image m n hR hC hm hn
  refine ⟨ht, _, _, e, fun r _ k hk => ?_⟩
  rw [h5 r k hk]
  refine Finset.sum_nonneg fun i hi => Finset.sum_nonneg fun j hj => ?_
  unfold houghWeight
  split_ifs
  · exact hnn i (Finset.mem_range.1 hi) j (Finset.mem_range.1 hj)
  · exact le_rfl

/-- C53: line detection.  For a non-negative image, take any set of pixels above 5 % of the maximum that lie on one line, at angle
`2πk/n` and non-negative distance `d`: the cell of that line collects at least their sum. -/
theorem C53_line (image : Mat ℝ) (m n : ℕ) (hR : 1 ≤ image.rows) (hC : 1 ≤ image.cols) (hm : 1 ≤ m) (hn : 1 ≤ n)
    (hnn : ∀ i < image.rows, ∀ j < image.cols, 0 ≤ image.get i j) :
    ∃ (ht : Mat ℝ) (rho theta : Vec ℝ) (mx : ℝ), houghTransform image (some m) (some n) = .ok (ht, rho, theta) ∧
      (∀ i < image.rows, ∀ j < image.cols, image.get i j ≤ mx) ∧ (∃ i < image.rows, ∃ j < image.cols, image.get i j = mx) ∧
      ∀ (S : Finset (ℕ × ℕ)) (k : ℕ) (d : ℝ), k < n → 0 ≤ d →
        (∀ p ∈ S, p.1 < image.rows ∧ p.2 < image.cols ∧ mx / 20 < image.get p.1 p.2 ∧
          lineDist image.rows image.cols p.1 p.2 (2 * Real.pi * k / n) = d) →
        ∃ r : ℕ, (S.Nonempty → r < m) ∧
          |(r : ℝ) - d * ((m : ℝ) - 1) / (Real.sqrt ((image.rows : ℝ) ^ 2 + (image.cols : ℝ) ^ 2) / 2)| ≤ 1 / 2 ∧
          ∑ p ∈ S, image.get p.1 p.2 ≤ ht.get r k := by
  obtain ⟨ht, mx, e, h1, h2, -, -, h5⟩ := hough_run image m n hR hC hm hn
  refine ⟨ht, _, _, mx, e, h1, h2, fun S k d hk hd hS => ?_⟩
  have hrp : 0 < rhomax image := rhomax_pos hR
  have hm' : (1 : ℝ) ≤ m := by exact_mod_cast hm
  have hrm : Real.sqrt ((image.rows : ℝ) ^ 2 + (image.cols : ℝ) ^ 2) / 2 = rhomax image := by
    unfold rhomax; norm_num
  rw [hrm]
  have hab := abs_sub_roundEven_le (d * ((m : ℝ) - 1) / rhomax image)
  have hz0 : 0 ≤ roundEven (d * ((m : ℝ) - 1) / rhomax image) := by
    have a1 : 0 ≤ d * ((m : ℝ) - 1) / rhomax image := div_nonneg (mul_nonneg hd (by linarith)) hrp.le
    have : (-1 : ℝ) < roundEven (d * ((m : ℝ) - 1) / rhomax image) := by linarith [(abs_le.1 hab).2]
    have : (-1 : ℤ) < roundEven (d * ((m : ℝ) - 1) / rhomax image) := by exact_mod_cast this
    omega
  set z := roundEven (d * ((m : ℝ) - 1) / rhomax image) with hz
  have hzc : ((z.toNat : ℕ) : ℝ) = (z : ℝ) := by exact_mod_cast congrArg (Int.cast : ℤ → ℝ) (Int.toNat_of_nonneg hz0)
  refine ⟨z.toNat, ?_, ?_, ?_⟩
  · rintro ⟨p, hp⟩
    obtain ⟨q1, q2, -, q4⟩ := hS p hp
    have := rhoIndex_bounds hm hrp hd (q4 ▸ lineDist_le q1 q2 _)
    rw [rhoIndex_eq hrp, ← hz] at this
    omega
  · rw [hzc, abs_sub_comm]
    exact hab
  · rw [h5 _ k hk, ← Finset.sum_product' (range image.rows) (range image.cols)
      (fun i j => houghWeight image mx m n i j z.toNat k)]
    calc ∑ p ∈ S, image.get p.1 p.2 = ∑ p ∈ S, houghWeight image mx m n p.1 p.2 z.toNat k := by
          refine Finset.sum_congr rfl fun p hp => ?_
          obtain ⟨q1, q2, q3, q4⟩ := hS p hp
          unfold houghWeight
          rw [if_pos ⟨lt_of_lt_of_le q3 (le_abs_self _), by rw [q4]; exact hd, by rw [q4, ← hz]; omega⟩]
      _ ≤ _ := Finset.sum_le_sum_of_subset_of_nonneg
          (fun p hp => Finset.mem_product.2 ⟨Finset.mem_range.2 (hS p hp).1, Finset.mem_range.2 (hS p hp).2.1⟩)
          (fun p hp _ => by
            obtain ⟨p1, p2⟩ := Finset.mem_product.1 hp
            unfold houghWeight
            split_ifs
            · exact hnn _ (Finset.mem_range.1 p1) _ (Finset.mem_range.1 p2)
            · exact le_rfl)

/-- C53 (defect): the returned distance axis has one entry per *angle*: its length is `n`, not `m`, so with `m ≠ n` it does not
label the rows.  Its step is half the diagonal over `n - 1`, and only for `m = n` is that the step used by the votes. -/
theorem C53_rho_axis (image : Mat ℝ) (m n : ℕ) (hR : 1 ≤ image.rows) (hC : 1 ≤ image.cols) (hm : 1 ≤ m) (hn : 1 ≤ n) :
    ∃ (ht : Mat ℝ) (rho theta : Vec ℝ), houghTransform image (some m) (some n) = .ok (ht, rho, theta) ∧
      ht.rows = m ∧ rho.len = n ∧
      (2 ≤ n → ∀ r < n, rho.get r = r * (Real.sqrt ((image.rows : ℝ) ^ 2 + (image.cols : ℝ) ^ 2) / 2) / ((n : ℝ) - 1)) := by
  obtain ⟨ht, mx, e, -, -, h3, -, -⟩ := hough_run image m n hR hC hm hn
  refine ⟨ht, _, _, e, h3, rfl, fun h2 r _ => ?_⟩
  unfold linspace rhomax
  simp only
  rw [if_neg (by omega), show (2.0 : ℝ) = 2 by norm_num]
  ring

/-- C53: the refusals: no angle at all is a division by zero, and an empty image has no maximum. -/
theorem C53_refuses (image : Mat ℝ) (m n : ℕ) :
    houghTransform image (some m) (some 0) = .error .zeroDivisionError ∧
    (1 ≤ n → image.rows * image.cols = 0 → houghTransform image (some m) (some n) = .error .valueError) := by
  refine ⟨rfl, fun hn h0 => ?_⟩
  unfold houghTransform
  simp only [Option.getD_some]
  rw [if_neg (by omega)]
  unfold Vec.amax
  rw [dif_pos h0]
  rfl

/-- C53: multiplying the image by a positive constant multiplies the accumulator. -/
theorem C53_scale (image : Mat ℝ) (m n : ℕ) (a : ℝ) (ha : 0 < a) (hR : 1 ≤ image.rows) (hC : 1 ≤ image.cols) (hm : 1 ≤ m)
    (hn : 1 ≤ n) :
    ∃ (ht ht' : Mat ℝ) (rho theta : Vec ℝ), houghTransform image (some m) (some n) = .ok (ht, rho, theta) ∧
      houghTransform (image.map (a * ·)) (some m) (some n) = .ok (ht', rho, theta) ∧
      ∀ r < m, ∀ k < n, ht'.get r k = a * ht.get r k := by
  obtain ⟨ht, mx, e, h1, h2, -, -, h5⟩ := hough_run image m n hR hC hm hn
  obtain ⟨ht', mx', e', h1', h2', -, -, h5'⟩ := hough_run (image.map (a * ·)) m n hR hC hm hn
  have hmx : mx' = a * mx := by
    obtain ⟨i, hi, j, hj, rfl⟩ := h2
    obtain ⟨i', hi', j', hj', rfl⟩ := h2'
    refine le_antisymm ?_ (h1' i hi j hj)
    exact mul_le_mul_of_nonneg_left (h1 i' hi' j' hj') ha.le
  refine ⟨ht, ht', _, _, e, e', fun r _ k hk => ?_⟩
  rw [h5 r k hk, h5' r k hk, Finset.mul_sum]
  refine Finset.sum_congr rfl fun i _ => ?_
  rw [Finset.mul_sum]
  refine Finset.sum_congr rfl fun j _ => ?_
  have hs : mx' / 20 < |a * image.get i j| ↔ mx / 20 < |image.get i j| := by
    rw [hmx, abs_mul, abs_of_pos ha, mul_div_assoc]
    exact mul_lt_mul_iff_right₀ ha
  unfold houghWeight
  show (if mx' / 20 < |a * image.get i j| ∧ _ ∧ _ then a * image.get i j else 0) = _
  rw [mul_ite, mul_zero]
  refine if_congr (and_congr hs Iff.rfl) rfl rfl

/-- C53: with an even number of angles, a significant pixel votes in direction `k` or in the opposite direction (in both exactly
when it is at distance zero): the two opposite columns together collect all the significant mass. -/
theorem C53_opposite (image : Mat ℝ) (m q : ℕ) (hR : 1 ≤ image.rows) (hC : 1 ≤ image.cols) (hm : 1 ≤ m) (hq : 1 ≤ q) :
    ∃ (ht : Mat ℝ) (rho theta : Vec ℝ) (mx : ℝ), houghTransform image (some m) (some (2 * q)) = .ok (ht, rho, theta) ∧
      (∀ i < image.rows, ∀ j < image.cols, image.get i j ≤ mx) ∧ (∃ i < image.rows, ∃ j < image.cols, image.get i j = mx) ∧
      ∀ k < q, ∑ r ∈ range m, ht.get r k + ∑ r ∈ range m, ht.get r (k + q)
        = ∑ i ∈ range image.rows, ∑ j ∈ range image.cols, open Classical in
          ((if mx / 20 < |image.get i j| then image.get i j else 0) +
            if mx / 20 < |image.get i j| ∧ lineDist image.rows image.cols i j (Real.pi * k / q) = 0 then image.get i j else 0) := by
  classical
  obtain ⟨ht, rho, theta, mx, e, h1, h2, h⟩ := C53_column_sum image m (2 * q) hR hC hm (by omega)
  refine ⟨ht, rho, theta, mx, e, h1, h2, fun k hk => ?_⟩
  rw [h k (by omega), h (k + q) (by omega), ← Finset.sum_add_distrib]
  refine Finset.sum_congr rfl fun i _ => ?_
  rw [← Finset.sum_add_distrib]
  refine Finset.sum_congr rfl fun j _ => ?_
  have hq0 : (q : ℝ) ≠ 0 := by exact_mod_cast (by omega : q ≠ 0)
  have t1 : 2 * Real.pi * (k : ℝ) / ((2 * q : ℕ) : ℝ) = Real.pi * k / q := by push_cast; field_simp
  have t2 : 2 * Real.pi * ((k + q : ℕ) : ℝ) / ((2 * q : ℕ) : ℝ) = Real.pi * k / q + Real.pi := by push_cast; field_simp
  have hopp : lineDist image.rows image.cols i j (Real.pi * k / q + Real.pi) = - lineDist image.rows image.cols i j (Real.pi * k / q) := by
    unfold lineDist
    rw [Real.cos_add_pi, Real.sin_add_pi]
    ring
  rw [t1, t2, hopp]
  set d := lineDist image.rows image.cols i j (Real.pi * k / q)
  by_cases hs : mx / 20 < |image.get i j|
  · simp only [hs, true_and, if_true]
    rcases lt_trichotomy d 0 with hd | hd | hd
    · rw [if_neg (not_le.2 hd), if_pos (by linarith), if_neg hd.ne]; ring
    · rw [if_pos hd.ge, if_pos (by linarith), if_pos hd]
    · rw [if_pos hd.le, if_neg (by linarith), if_neg hd.ne']
  · simp [hs]

/-- A `3 × 3` image with a diagonal. -/
example : ∃ (ht : Mat ℝ) (rho theta : Vec ℝ),
    houghTransform ⟨3, 3, fun i j => if i = j then 1 else 0⟩ none none = .ok (ht, rho, theta) ∧ ∀ r < 3, ∀ k < 3, 0 ≤ ht.get r k := by
  rw [C53_default]
  exact C53_nonneg ⟨3, 3, fun i j => if i = j then 1 else 0⟩ 3 3 (by norm_num) (by norm_num) (by norm_num) (by norm_num)
    (fun i _ j _ => by simp only; split_ifs <;> norm_num)

end Tftb
