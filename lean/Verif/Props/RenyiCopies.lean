import Verif.Props.Renyi

/-! # What `renyi_information` counts (C85): uniform distributions and disjoint copies -/

namespace Tftb.Props

open Tftb Tftb.Spec Tftb.Post Tftb.ProcUtils Finset

theorem trapz2_add (A B : Mat ℝ) (hr : B.rows = A.rows) (hc : B.cols = A.cols) (x y : ℕ → ℝ) :
    trapz2 ⟨A.rows, A.cols, fun r c => A.get r c + B.get r c⟩ x y = trapz2 A x y + trapz2 B x y := by
  unfold trapz2
  rw [hr, hc, ← trapz_add]
  congr 1
  funext j
  exact trapz_add _ _ _ _

theorem trapz2_congr {A B : Mat ℝ} (hr : A.rows = B.rows) (hc : A.cols = B.cols)
    (h : ∀ r < B.rows, ∀ c < B.cols, A.get r c = B.get r c) (x y : ℕ → ℝ) : trapz2 A x y = trapz2 B x y := by
  unfold trapz2
  rw [hr, hc]
  exact trapz_congr (fun _ _ => rfl) (fun r h1 => trapz_congr (fun _ _ => rfl) (fun c h2 => h r h1 c h2))

theorem trapz2_smul (A : Mat ℝ) (a : ℝ) (x y : ℕ → ℝ) :
    trapz2 ⟨A.rows, A.cols, fun r c => a * A.get r c⟩ x y = a * trapz2 A x y := by
  unfold trapz2
  rw [← trapz_smul]
  congr 1
  funext j
  exact trapz_smul _ _ _ _

theorem trapz2_const (m n : ℕ) (hm : 1 ≤ m) (hn : 1 ≤ n) (a : ℝ) (x y : ℕ → ℝ) :
    trapz2 ⟨m, n, fun _ _ => a⟩ x y = a * ((x (n - 1) - x 0) * (y (m - 1) - y 0)) := by
  have h : ∀ (k : ℕ), 1 ≤ k → ∀ (z : ℕ → ℝ) (b : ℝ), trapz k z (fun _ => b) = (z (k - 1) - z 0) * b := by
    intro k hk z b
    have := trapz_affine hk z b 0
    simpa using this
  unfold trapz2
  simp only [h n hn]
  rw [h m hm]
  ring

/-- Halving commutes with the power for non-negative numbers, and for natural exponents. -/
theorem half_rpow {a α : ℝ} (h : 0 ≤ a ∨ ∃ k : ℕ, α = k) : (a / 2) ^ α = a ^ α * (1 / 2) ^ α := by
  rcases h with h | ⟨k, rfl⟩
  · rw [div_eq_mul_one_div, Real.mul_rpow h (by norm_num)]
  · rw [Real.rpow_natCast, Real.rpow_natCast, Real.rpow_natCast, ← mul_pow, div_eq_mul_one_div]

/-- Two disjoint copies `A`, `B` of a distribution (nowhere both non-zero, same integral, same integral of the power) carry one bit more than
one, up to the constant `eps` added inside the logarithm; and never more than one. -/
theorem C85_two_copies (A B : Mat ℝ) (t f : Vec ℝ) (α : ℝ) (h0 : 0 < α) (h1 : α ≠ 1) (hn : 2 ≤ A.cols) (ht : t.len = A.cols)
    (hf : f.len = A.rows) (hr : A.rows ≠ 0) (d : ℝ) (hd : ∀ i, i + 1 < A.cols → t.get (i + 1) - t.get i = d)
    (hBr : B.rows = A.rows) (hBc : B.cols = A.cols)
    (hdis : ∀ r < A.rows, ∀ c < A.cols, A.get r c = 0 ∨ B.get r c = 0)
    (hpos : (∀ r < A.rows, ∀ c < A.cols, 0 ≤ A.get r c ∧ 0 ≤ B.get r c) ∨ ∃ k : ℕ, α = k)
    (I K : ℝ) (hI : trapz2 A t.get f.sort.get = I) (hI' : trapz2 B t.get f.sort.get = I) (hI0 : 0 < I)
    (hK : trapz2 (A.map (fun a => (a / I) ^ α)) t.get f.sort.get = K)
    (hK' : trapz2 (B.map (fun a => (a / I) ^ α)) t.get f.sort.get = K) (hK0 : 0 ≤ K) :
    ∃ v w : ℝ, (Prod.fst <$> renyiInformation A (some t) (some f) α) = .ok v ∧
      (Prod.fst <$> renyiInformation ⟨A.rows, A.cols, fun r c => A.get r c + B.get r c⟩ (some t) (some f) α) = .ok w ∧
      v = Real.logb 2 (K + eps) / (1 - α) ∧ w = Real.logb 2 (K + eps * 2 ^ (α - 1)) / (1 - α) + 1 ∧ w ≤ v + 1 := by
  have heps : (0 : ℝ) < eps := by unfold eps; positivity
  set S : Mat ℝ := ⟨A.rows, A.cols, fun r c => A.get r c + B.get r c⟩ with hS
  have hSI : trapz2 S t.get f.sort.get = 2 * I := by
    rw [hS, trapz2_add A B hBr hBc, hI, hI']; ring
  have hbadA : ¬ ∃ r < A.rows, ∃ c < A.cols, (A.get r c / I < 0 ∧ ¬ ∃ z : ℤ, α = z) ∨ (A.get r c = 0 ∧ α < 0) := by
    rintro ⟨r, hr1, c, hc1, ⟨h2, h3⟩ | ⟨_, h2⟩⟩
    · rcases hpos with hp | ⟨k, hk⟩
      · exact absurd (div_nonneg (hp r hr1 c hc1).1 hI0.le) (not_le.2 h2)
      · exact h3 ⟨k, by rw [hk]; simp⟩
    · linarith
  have hbadS : ¬ ∃ r < S.rows, ∃ c < S.cols, (S.get r c / (2 * I) < 0 ∧ ¬ ∃ z : ℤ, α = z) ∨ (S.get r c = 0 ∧ α < 0) := by
    rintro ⟨r, hr1, c, hc1, ⟨h2, h3⟩ | ⟨_, h2⟩⟩
    · rcases hpos with hp | ⟨k, hk⟩
      · have := hp r hr1 c hc1
        exact absurd (div_nonneg (add_nonneg this.1 this.2) (by linarith)) (not_le.2 h2)
      · exact h3 ⟨k, by rw [hk]; simp⟩
    · linarith
  have hJS : trapz2 (S.map (fun a => (a / (2 * I)) ^ α)) t.get f.sort.get = 2 ^ (1 - α) * K := by
    have e : trapz2 (S.map (fun a => (a / (2 * I)) ^ α)) t.get f.sort.get
        = trapz2 ⟨A.rows, A.cols, fun r c => (1 / 2 : ℝ) ^ α * ((A.map (fun a => (a / I) ^ α)).get r c
          + (B.map (fun a => (a / I) ^ α)).get r c)⟩ t.get f.sort.get := by
      refine trapz2_congr (by rfl) (by rfl) ?_ _ _
      intro r hr1 c hc1
      change ((A.get r c + B.get r c) / (2 * I)) ^ α = (1 / 2 : ℝ) ^ α * ((A.get r c / I) ^ α + (B.get r c / I) ^ α)
      rcases hdis r hr1 c hc1 with h | h
      · rw [h, zero_add, zero_div, Real.zero_rpow h0.ne', zero_add, mul_comm 2 I, ← div_div, half_rpow, mul_comm]
        exact hpos.imp (fun hp => div_nonneg (hp r hr1 c hc1).2 hI0.le) id
      · rw [h, add_zero, zero_div, Real.zero_rpow h0.ne', add_zero, mul_comm 2 I, ← div_div, half_rpow, mul_comm]
        exact hpos.imp (fun hp => div_nonneg (hp r hr1 c hc1).1 hI0.le) id
    rw [e, trapz2_smul ⟨A.rows, A.cols, fun r c => (A.map (fun a => (a / I) ^ α)).get r c + (B.map (fun a => (a / I) ^ α)).get r c⟩]
    have e2 := trapz2_add (A.map (fun a => (a / I) ^ α)) (B.map (fun a => (a / I) ^ α)) hBr hBc t.get f.sort.get
    rw [hK, hK'] at e2
    rw [show trapz2 ⟨A.rows, A.cols, fun r c => (A.map (fun a => (a / I) ^ α)).get r c + (B.map (fun a => (a / I) ^ α)).get r c⟩ t.get f.sort.get
      = K + K from e2, Real.rpow_sub (by norm_num), Real.rpow_one, one_div, Real.inv_rpow (by norm_num)]
    ring
  have h2 : (0 : ℝ) < 2 ^ (1 - α) := by positivity
  have h2' : (0 : ℝ) < 2 ^ (α - 1) := by positivity
  have h22 : (2 : ℝ) ^ (1 - α) * 2 ^ (α - 1) = 1 := by
    rw [← Real.rpow_add (by norm_num)]; simp
  have hA := C49_cases A t f α h1 hn ht hf hr d hd
  have hSc := C49_cases S t f α h1 hn ht hf hr d hd
  dsimp only at hA hSc
  rw [hI, hK] at hA
  rw [hSI, hJS] at hSc
  have hJA : 0 < K + eps := by linarith
  have hJS0 : 0 < 2 ^ (1 - α) * K + eps := by positivity
  rw [if_neg (by rintro (h | h | h); exacts [hI0.ne' h, hbadA h, absurd h (not_le.2 hJA)])] at hA
  rw [if_neg (by rintro (h | h | h); exacts [by linarith, hbadS h, absurd h (not_le.2 hJS0)])] at hSc
  have h1' : 1 - α ≠ 0 := sub_ne_zero.2 (Ne.symm h1)
  have hw : Real.logb 2 (2 ^ (1 - α) * K + eps) / (1 - α) = Real.logb 2 (K + eps * 2 ^ (α - 1)) / (1 - α) + 1 := by
    have : 2 ^ (1 - α) * K + eps = 2 ^ (1 - α) * (K + eps * 2 ^ (α - 1)) := by
      linear_combination (-eps) * h22
    rw [this, Real.logb_mul h2.ne' (by positivity), Real.logb_rpow (by norm_num) (by norm_num), add_div, div_self h1', add_comm]
  refine ⟨_, _, hA, hSc, rfl, hw, ?_⟩
  rw [hw]
  apply add_le_add_left ?_ 1
  rcases lt_or_gt_of_ne h1 with hlt | hgt
  · apply div_le_div_of_nonneg_right _ (by linarith)
    apply Real.logb_le_logb_of_le (by norm_num) (by positivity)
    have : (2 : ℝ) ^ (α - 1) ≤ 1 := Real.rpow_le_one_of_one_le_of_nonpos (by norm_num) (by linarith)
    nlinarith
  · apply div_le_div_of_nonpos_of_le (by linarith)
    apply Real.logb_le_logb_of_le (by norm_num) (by positivity)
    have : (1 : ℝ) ≤ 2 ^ (α - 1) := Real.one_le_rpow (by norm_num) (by linarith)
    nlinarith

/-- A constant distribution over an area `S` has `log2` of `S` bits, up to `eps`. -/
theorem C85_uniform (m n : ℕ) (a : ℝ) (t f : Vec ℝ) (α : ℝ) (h1 : α ≠ 1) (hm : 1 ≤ m) (hn : 2 ≤ n) (ht : t.len = n) (hf : f.len = m)
    (d : ℝ) (hd : ∀ i, i + 1 < n → t.get (i + 1) - t.get i = d) (ha : a ≠ 0) (S : ℝ)
    (hS : S = (t.get (n - 1) - t.get 0) * (f.sort.get (m - 1) - f.sort.get 0)) (hS0 : 0 < S) :
    ∃ v, (Prod.fst <$> renyiInformation ⟨m, n, fun _ _ => a⟩ (some t) (some f) α) = .ok v ∧
      v = Real.logb 2 (S ^ (1 - α) + eps) / (1 - α) ∧
      |v - Real.logb 2 S| ≤ eps / (S ^ (1 - α) * Real.log 2 * |1 - α|) := by
  have heps : (0 : ℝ) < eps := by unfold eps; positivity
  have hI : trapz2 ⟨m, n, fun _ _ => a⟩ t.get f.sort.get = a * S := by rw [trapz2_const m n hm (by omega), hS]
  have hI0 : a * S ≠ 0 := mul_ne_zero ha hS0.ne'
  have hJ : trapz2 (Mat.map (fun b => (b / (a * S)) ^ α) ⟨m, n, fun _ _ => a⟩) t.get f.sort.get = S ^ (1 - α) := by
    have := trapz2_const m n hm (by omega) ((a / (a * S)) ^ α) t.get f.sort.get
    rw [← hS] at this
    rw [show Mat.map (fun b => (b / (a * S)) ^ α) ⟨m, n, fun _ _ => a⟩ = ⟨m, n, fun _ _ => (a / (a * S)) ^ α⟩ from rfl, this,
      div_mul_cancel_left₀ ha, Real.inv_rpow hS0.le, Real.rpow_sub hS0, Real.rpow_one]
    field_simp
  have hc := C49_cases ⟨m, n, fun _ _ => a⟩ t f α h1 hn ht hf (by dsimp only; omega) d hd
  have hp : 0 < S ^ (1 - α) := by positivity
  dsimp only at hc
  rw [hI, hJ] at hc
  rw [if_neg] at hc
  · refine ⟨_, hc, rfl, ?_⟩
    have h1' : 1 - α ≠ 0 := sub_ne_zero.2 (Ne.symm h1)
    have e : Real.logb 2 (S ^ (1 - α) + eps) / (1 - α) - Real.logb 2 S
        = Real.log (1 + eps / S ^ (1 - α)) / (Real.log 2 * (1 - α)) := by
      have : S ^ (1 - α) + eps = S ^ (1 - α) * (1 + eps / S ^ (1 - α)) := by field_simp
      have hl2 : Real.log 2 ≠ 0 := (Real.log_pos (by norm_num)).ne'
      unfold Real.logb
      rw [this, Real.log_mul hp.ne' (by positivity), Real.log_rpow hS0]
      field_simp
      ring
    rw [e, abs_div, abs_mul, abs_of_pos (Real.log_pos (by norm_num : (1:ℝ) < 2)),
      abs_of_nonneg (Real.log_nonneg (by linarith [div_pos heps hp]))]
    rw [mul_assoc, ← div_div eps]
    apply div_le_div_of_nonneg_right _ (by positivity)
    have := Real.log_le_sub_one_of_pos (show 0 < 1 + eps / S ^ (1 - α) by positivity)
    linarith
  · rintro (h | ⟨r, _, c, _, ⟨h, _⟩ | ⟨h, _⟩⟩ | h)
    · exact hI0 h
    · rw [div_mul_cancel_left₀ ha] at h
      exact absurd (inv_pos.2 hS0) (not_lt.2 h.le)
    · exact ha h
    · linarith

/-- The matrix `M` moved `d` columns to the right, zeros coming in. -/
def delayCols (d : ℕ) (M : Mat ℝ) : Mat ℝ := ⟨M.rows, M.cols, fun r c => if c < d then 0 else M.get r (c - d)⟩

theorem trapz_delay (n d : ℕ) (hn : 2 * d + 2 ≤ n) (x : ℕ → ℝ) (δ : ℝ) (hx : ∀ i, i + 1 < n → x (i + 1) - x i = δ) (g : ℕ → ℝ)
    (hg : ∀ c < n, g c ≠ 0 → 0 < c ∧ c ≤ d) : trapz n x (fun c => if c < d then 0 else g (c - d)) = trapz n x g := by
  have h0 : ∀ c < n, ¬ (0 < c ∧ c ≤ d) → g c = 0 := fun c hc h => by by_contra h'; exact h (hg c hc h')
  rw [trapz_uniform (by omega) hx, trapz_uniform (by omega) hx]
  have e1 : g 0 = 0 := h0 0 (by omega) (by omega)
  have e2 : g (n - 1) = 0 := h0 (n - 1) (by omega) (by omega)
  have e3 : (if 0 < d then (0 : ℝ) else g (0 - d)) = 0 := by split_ifs <;> simp [e1]
  have e4 : (if n - 1 < d then (0 : ℝ) else g (n - 1 - d)) = 0 := by
    split_ifs
    · rfl
    · exact h0 _ (by omega) (by omega)
  rw [e1, e2, e3, e4]
  congr 3
  obtain ⟨k, rfl⟩ : ∃ k, n = d + k := ⟨n - d, by omega⟩
  rw [Finset.sum_range_add]
  have z1 : ∑ c ∈ range d, (if c < d then (0 : ℝ) else g (c - d)) = 0 :=
    Finset.sum_eq_zero (fun c hc => if_pos (Finset.mem_range.1 hc))
  rw [z1, zero_add, add_comm d k, Finset.sum_range_add]
  have z2 : ∑ c ∈ range d, g (k + c) = 0 :=
    Finset.sum_eq_zero (fun c hc => h0 _ (by have := Finset.mem_range.1 hc; omega) (by omega))
  rw [z2, add_zero]
  exact Finset.sum_congr rfl (fun c _ => by rw [if_neg (by omega), Nat.add_sub_cancel_left])

/-- A distribution confined to columns `1 … d`, and the same one with its copy `d` columns later added: one bit more, up to `eps`. -/
theorem C85_delayed_copy (A : Mat ℝ) (t f : Vec ℝ) (α : ℝ) (h0 : 0 < α) (h1 : α ≠ 1) (d : ℕ) (hn : 2 * d + 2 ≤ A.cols)
    (ht : t.len = A.cols) (hf : f.len = A.rows) (hr : A.rows ≠ 0) (δ : ℝ) (hd : ∀ i, i + 1 < A.cols → t.get (i + 1) - t.get i = δ)
    (hsup : ∀ r < A.rows, ∀ c < A.cols, A.get r c ≠ 0 → 0 < c ∧ c ≤ d)
    (hpos : (∀ r < A.rows, ∀ c < A.cols, 0 ≤ A.get r c) ∨ ∃ k : ℕ, α = k)
    (I K : ℝ) (hI : trapz2 A t.get f.sort.get = I) (hI0 : 0 < I)
    (hK : trapz2 (A.map (fun a => (a / I) ^ α)) t.get f.sort.get = K) (hK0 : 0 ≤ K) :
    ∃ v w : ℝ, (Prod.fst <$> renyiInformation A (some t) (some f) α) = .ok v ∧
      (Prod.fst <$> renyiInformation ⟨A.rows, A.cols, fun r c => A.get r c + (delayCols d A).get r c⟩ (some t) (some f) α) = .ok w ∧
      v = Real.logb 2 (K + eps) / (1 - α) ∧ w = Real.logb 2 (K + eps * 2 ^ (α - 1)) / (1 - α) + 1 ∧ w ≤ v + 1 := by
  refine C85_two_copies A (delayCols d A) t f α h0 h1 (by omega) ht hf hr δ hd rfl rfl ?_ ?_ I K hI ?_ hI0 hK ?_ hK0
  · intro r hr1 c hc1
    by_cases h : c ≤ d
    · right
      change (if c < d then (0 : ℝ) else A.get r (c - d)) = 0
      split_ifs with h2
      · rfl
      · by_contra h3
        have := hsup r hr1 (c - d) (by omega) h3
        omega
    · left
      by_contra h3
      have := hsup r hr1 c hc1 h3
      omega
  · refine hpos.imp (fun hp r hr1 c hc1 => ⟨hp r hr1 c hc1, ?_⟩) id
    change 0 ≤ (if c < d then (0 : ℝ) else A.get r (c - d))
    split_ifs
    · exact le_rfl
    · exact hp r hr1 _ (by omega)
  · rw [← hI]
    exact trapz_congr (fun _ _ => rfl) (fun r hr1 => trapz_delay _ d hn _ δ hd _ (hsup r hr1))
  · rw [← hK]
    refine trapz_congr (fun _ _ => rfl) (fun r hr1 => ?_)
    rw [← trapz_delay (A.map (fun a => (a / I) ^ α)).cols d hn _ δ hd ((A.map (fun a => (a / I) ^ α)).get r) ?_]
    · refine trapz_congr (fun _ _ => rfl) (fun c _ => ?_)
      change ((if c < d then (0 : ℝ) else A.get r (c - d)) / I) ^ α = if c < d then 0 else (A.get r (c - d) / I) ^ α
      split_ifs
      · rw [zero_div, Real.zero_rpow h0.ne']
      · rfl
    · intro c hc1 h
      refine hsup r hr1 c hc1 (fun h2 => h ?_)
      change (A.get r c / I) ^ α = 0
      rw [h2, zero_div, Real.zero_rpow h0.ne']

/-- Leaving out the axes is passing the sample numbers. -/
theorem C85_default_axes (M : Mat ℝ) (α : ℝ) :
    (Prod.fst <$> renyiInformation M none none α)
      = Prod.fst <$> renyiInformation M (some ⟨M.cols, fun i => (i : ℝ)⟩) (some ⟨M.rows, fun i => (i : ℝ)⟩) α := by
  have har : ∀ n : ℕ, (arange 0 n).map (fun j : ℤ => (j : ℝ)) = ⟨n, fun i => (i : ℝ)⟩ := by
    intro n
    simp [arange, Vec.map]
  have har1 : ∀ n : ℕ, (arange 0 n).map (fun j : ℤ => (j : ℝ) + 1) = Vec.map (· + 1) (⟨n, fun i => (i : ℝ)⟩ : Vec ℝ) := by
    intro n
    simp [arange, Vec.map]
  have ht : renyiTimes M.cols (some ⟨M.cols, fun i => (i : ℝ)⟩)
      = .ok (Vec.map (· + 1) ⟨M.cols, fun i => (i : ℝ)⟩, some (Vec.map (· + 1) ⟨M.cols, fun i => (i : ℝ)⟩)) := by
    unfold renyiTimes
    simp only
    rw [har, Vec.bcast_ok rfl, ok_bind, if_pos]
    intro i _
    simp only [sub_self, abs_zero]
    positivity
  have ht0 : renyiTimes M.cols none = .ok (Vec.map (· + 1) ⟨M.cols, fun i => (i : ℝ)⟩, none) := by
    unfold renyiTimes
    simp only [har1]
  unfold renyiInformation
  split_ifs
  · rfl
  · rw [ht, ht0]
    simp only [ok_bind, har, Option.getD_none, Option.getD_some]
    cases integrate2d M (some (Vec.map (· + 1) ⟨M.cols, fun i => (i : ℝ)⟩)) (some (Vec.sort ⟨M.rows, fun i => (i : ℝ)⟩)) with
    | error e => rfl
    | ok i =>
      simp only [ok_bind]
      split_ifs
      · rfl
      · cases renyiValue (M.map (· / i)) (Vec.map (· + 1) ⟨M.cols, fun i => (i : ℝ)⟩) (Vec.sort ⟨M.rows, fun i => (i : ℝ)⟩) α <;> rfl

/-- An instance: two rows, one column of ones among four, and its copy on the next column. -/
example : ∃ v w : ℝ,
    (Prod.fst <$> renyiInformation ⟨2, 4, fun _ c => if c = 1 then 1 else 0⟩ none none 2) = .ok v ∧
      (Prod.fst <$> renyiInformation ⟨2, 4, fun _ c => if c = 1 ∨ c = 2 then 1 else 0⟩ none none 2) = .ok w ∧
      v = -Real.logb 2 (1 + eps) ∧ w = 1 - Real.logb 2 (1 + 2 * eps) := by
  set f : Vec ℝ := ⟨2, fun i => (i : ℝ)⟩ with hf
  have hs : f.sort.get 0 = 0 ∧ f.sort.get 1 = 1 := by
    have hspec := sort_spec f
    have hl1 : f.toList = [0, 1] := by
      unfold Vec.toList
      simp [hf, List.range_succ]
    rw [hl1] at hspec
    have hl2 : f.sort.toList = [0, 1] :=
      List.Perm.eq_of_pairwise (fun a b _ _ h1 h2 => le_antisymm h1 h2) hspec.2 (by simp) hspec.1
    unfold Vec.toList at hl2
    rw [sort_len] at hl2
    simpa [hf, List.range_succ] using hl2
  have hI : trapz2 ⟨2, 4, fun _ c => if c = 1 then 1 else 0⟩ (fun i => (i : ℝ)) f.sort.get = 1 := by
    simp [trapz2, trapz, Finset.sum_range_succ, hs.1, hs.2]
    norm_num
  have hK : trapz2 (Mat.map (fun a => (a / 1) ^ (2 : ℝ)) ⟨2, 4, fun _ c => if c = 1 then 1 else 0⟩) (fun i => (i : ℝ)) f.sort.get = 1 := by
    simp [trapz2, trapz, Finset.sum_range_succ, hs.1, hs.2, Mat.map]
    norm_num
  obtain ⟨v, w, h1, h2, h3, h4, -⟩ := C85_delayed_copy ⟨2, 4, fun _ c => if c = 1 then 1 else 0⟩ ⟨4, fun i => (i : ℝ)⟩ f 2 (by norm_num)
    (by norm_num) 1 (by norm_num) rfl rfl (by norm_num) 1 (fun i _ => by push_cast; ring)
    (by intro r _ c _ h; dsimp only at h; split_ifs at h with h' <;> simp_all) (Or.inr ⟨2, by norm_num⟩) 1 1 hI one_pos hK zero_le_one
  refine ⟨v, w, ?_, ?_, ?_, ?_⟩
  · rw [C85_default_axes]; exact h1
  · rw [C85_default_axes, ← h2]
    congr 3
    funext r c
    change _ = (if c = 1 then (1 : ℝ) else 0) + if c < 1 then 0 else if c - 1 = 1 then 1 else 0
    rcases c with _ | _ | _ | c <;> simp
  · rw [h3, show (1 - 2 : ℝ) = -1 by norm_num, div_neg, div_one]
  · rw [h4]; norm_num; rw [show (1 + eps * 2 : ℝ) = 1 + 2 * eps by ring]; ring

end Tftb.Props
