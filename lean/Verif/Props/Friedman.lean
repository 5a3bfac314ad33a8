import Verif.Lemmas.Post

/-! # Property C52: Friedman's instantaneous frequency density -/

namespace Tftb

open Finset Spec ProcUtils

theorem halfMean_eq (tfr : Mat ℝ) : Post.halfMean tfr = Spec.halfMean tfr := by
  unfold Post.halfMean Spec.halfMean
  rw [show (0.5 : ℝ) = 1 / 2 by norm_num, mul_one_div, div_div]

theorem inBin_iff {m k : ℕ} (hk : k < m) (v : ℝ) : Post.inBin m k (some v) ↔ clampRow m v = k := by
  unfold Post.inBin clampRow
  rcases lt_or_ge v 0 with hv | hv
  · rw [Nat.floor_of_nonpos hv.le]
    constructor
    · rintro ⟨h | h, -⟩
      · omega
      · have : (0 : ℝ) ≤ k := Nat.cast_nonneg k
        linarith
    · intro h
      have : k = 0 := by omega
      subst this
      refine ⟨Or.inl rfl, Or.inr ?_⟩
      push_cast
      linarith
  · constructor
    · rintro ⟨h1, h2⟩
      have a1 : k ≤ ⌊v⌋₊ := by
        rcases h1 with h | h
        · omega
        · exact Nat.le_floor h
      rcases h2 with h | h
      · omega
      · have a2 : ⌊v⌋₊ < k + 1 := (Nat.floor_lt hv).2 (by exact_mod_cast h)
        omega
    · intro h
      refine ⟨Or.inr ?_, ?_⟩
      · exact (Nat.le_floor_iff hv).1 (by omega)
      · by_cases hm : k + 1 = m
        · exact Or.inl hm
        · refine Or.inr ?_
          have : ⌊v⌋₊ < k + 1 := by omega
          exact_mod_cast (Nat.floor_lt hv).1 this

theorem filter_range_length (n : ℕ) (p : ℕ → Prop) [DecidablePred p] :
    ((List.range n).filter (fun i => decide (p i))).length = count n p := by
  classical
  unfold count
  rw [Finset.card_def, Finset.filter_val]
  have : (range n).val = (List.range n : Multiset ℕ) := rfl
  rw [this, Multiset.filter_coe, Multiset.coe_card]
  congr 1
  exact List.filter_congr (fun i _ => by simp)

theorem count_eq_zero {n : ℕ} {p : ℕ → Prop} (h : ∀ i < n, ¬ p i) : count n p = 0 := by
  classical
  unfold count
  rw [Finset.card_eq_zero, Finset.filter_eq_empty_iff]
  intro i hi
  exact h i (Finset.mem_range.1 hi)

theorem count_pos {n i : ℕ} {p : ℕ → Prop} (hi : i < n) (h : p i) : 0 < count n p := by
  classical
  unfold count
  exact Finset.card_pos.2 ⟨i, Finset.mem_filter.2 ⟨Finset.mem_range.2 hi, h⟩⟩

/-- The counts over the rows of a partition add up. -/
theorem sum_count_fiber {m n : ℕ} {p : ℕ → Prop} {g : ℕ → ℕ} (hg : ∀ i < n, p i → g i < m) :
    ∑ k ∈ range m, count n (fun i => p i ∧ g i = k) = count n p := by
  classical
  unfold count
  rw [Finset.card_eq_sum_card_fiberwise (f := g) (t := range m)]
  · refine Finset.sum_congr rfl fun k _ => ?_
    congr 1
    ext i
    simp only [Finset.mem_filter]
    tauto
  · intro i hi
    have hi' := Finset.mem_filter.1 (Finset.mem_coe.1 hi)
    exact Finset.mem_coe.2 (Finset.mem_range.2 (hg i (Finset.mem_range.1 hi'.1) hi'.2))

theorem clampRow_lt {m : ℕ} (hm : 1 ≤ m) (v : ℝ) : clampRow m v < m := by
  unfold clampRow; omega

/-- The row for which a reassigned place votes: its real part clamped to the grid, the last row for an infinite one. -/
noncomputable def voteRow (m : ℕ) : Option ℂ → ℕ
  | some z => clampRow m z.re
  | none => m - 1

theorem voteRow_lt {m : ℕ} (hm : 1 ≤ m) (z : Option ℂ) : voteRow m z < m := by
  cases z with
  | none => show m - 1 < m; omega
  | some z => exact clampRow_lt hm z.re

theorem inBin_vote {m k : ℕ} (hk : k < m) (z : Option ℂ) : Post.inBin m k (z.map Complex.re) ↔ voteRow m z = k := by
  cases z with
  | none => show k + 1 = m ↔ m - 1 = k; omega
  | some z => exact inBin_iff hk z.re

theorem friedmanCol_eq (tfr : Mat ℝ) (reMat : Mat (Option ℂ)) (j : ℕ) (hrow : reMat.rows = tfr.rows) (hcol : j < reMat.cols) :
    ∃ v : Vec ℝ, Post.friedmanCol tfr reMat j ⟨tfr.rows, fun _ => 0⟩ = .ok v ∧ ∀ k < tfr.rows,
      v.get k = count tfr.rows (fun i => Spec.halfMean tfr < tfr.get i j ∧ voteRow tfr.rows (reMat.get i j) = k) := by
  classical
  unfold Post.friedmanCol
  simp only []
  by_cases h : Vec.positions tfr.rows (fun i => Post.halfMean tfr < tfr.get i j) = []
  · rw [if_pos h]
    refine ⟨_, rfl, fun k _ => ?_⟩
    rw [count_eq_zero]
    · simp
    · rintro i hi ⟨h1, -⟩
      unfold Vec.positions at h
      rw [List.filter_eq_nil_iff] at h
      refine h i (List.mem_range.2 hi) ?_
      rw [halfMean_eq]
      simpa using h1
  · rw [if_neg h, if_neg (by rw [hrow]; omega)]
    refine ⟨_, rfl, fun k hk => ?_⟩
    simp only [Vec.positions, List.filter_filter]
    have : ((List.range tfr.rows).filter (fun i => decide (Post.inBin tfr.rows k ((reMat.get i j).map Complex.re)) &&
        decide (Post.halfMean tfr < tfr.get i j))).length
        = count tfr.rows (fun i => Spec.halfMean tfr < tfr.get i j ∧ voteRow tfr.rows (reMat.get i j) = k) := by
      rw [← filter_range_length]
      congr 1
      refine List.filter_congr fun i _ => ?_
      rw [halfMean_eq, ← Bool.decide_and]
      exact decide_eq_decide.2 (by rw [inBin_vote hk]; exact and_comm)
    exact_mod_cast this

/-- The number of entries of a representation above half its mean. -/
noncomputable def aboveCount (tfr : Mat ℝ) : ℕ :=
  ∑ c ∈ range tfr.cols, count tfr.rows (fun i => Spec.halfMean tfr < tfr.get i c)

theorem friedman_run (tfr : Mat ℝ) (reMat : Mat (Option ℂ)) (hrow : reMat.rows = tfr.rows) (hcol : tfr.cols ≤ reMat.cols) :
    ∃ D : Mat ℝ, D.rows = tfr.rows ∧ D.cols = tfr.cols ∧
      (∀ r < tfr.rows, ∀ c < tfr.cols, D.get r c
        = count tfr.rows (fun i => Spec.halfMean tfr < tfr.get i c ∧ voteRow tfr.rows (reMat.get i c) = r)) ∧
      (∑ r ∈ range D.rows, ∑ c ∈ range D.cols, D.get r c = aboveCount tfr) ∧
      Post.friedmanDensity tfr reMat
        = if (aboveCount tfr : ℝ) = 0 ∧ tfr.rows ≠ 0 ∧ tfr.cols ≠ 0 then .error .nonFinite
          else .ok (D.map (· / (aboveCount tfr : ℝ))) := by
  have hc : ∀ j : ℕ, ∃ v : Vec ℝ, j < tfr.cols → (Post.friedmanCol tfr reMat j ⟨tfr.rows, fun _ => 0⟩ = .ok v ∧ ∀ k < tfr.rows,
      v.get k = count tfr.rows (fun i => Spec.halfMean tfr < tfr.get i j ∧ voteRow tfr.rows (reMat.get i j) = k)) := by
    intro j
    by_cases hj : j < tfr.cols
    · obtain ⟨v, hv⟩ := friedmanCol_eq tfr reMat j hrow (by omega)
      exact ⟨v, fun _ => hv⟩
    · exact ⟨⟨0, fun _ => 0⟩, fun h => absurd h hj⟩
  choose g hg using hc
  have hrun := Mat.forCols_ok (M := (Mat.zeros tfr.rows tfr.cols : Mat ℝ)) (T := tfr.cols) (body := Post.friedmanCol tfr reMat) (g := g)
    (le_refl _) (fun c hc => (hg c hc).1)
  set D : Mat ℝ := ⟨tfr.rows, tfr.cols, fun r c => if c < tfr.cols then (g c).get r else 0⟩ with hD
  have hval : ∀ r < tfr.rows, ∀ c < tfr.cols, D.get r c
        = count tfr.rows (fun i => Spec.halfMean tfr < tfr.get i c ∧ voteRow tfr.rows (reMat.get i c) = r) := by
    intro r hr c hc
    show (if c < tfr.cols then (g c).get r else 0) = _
    rw [if_pos hc]
    exact (hg c hc).2 r hr
  have htot : ∑ r ∈ range D.rows, ∑ c ∈ range D.cols, D.get r c = aboveCount tfr := by
    rw [Finset.sum_comm]
    unfold aboveCount
    push_cast
    refine Finset.sum_congr rfl fun c hc => ?_
    rw [← sum_count_fiber (m := tfr.rows) (g := fun i => voteRow tfr.rows (reMat.get i c))
      (fun i hi _ => voteRow_lt (by omega) _)]
    push_cast
    exact Finset.sum_congr rfl fun r hr => hval r (Finset.mem_range.1 hr) c (Finset.mem_range.1 hc)
  refine ⟨D, rfl, rfl, hval, htot, ?_⟩
  unfold Post.friedmanDensity
  have hrun' : (Mat.zeros tfr.rows tfr.cols : Mat ℝ).forCols tfr.cols (Post.friedmanCol tfr reMat) = .ok D := hrun
  rw [hrun', ok_bind]
  simp only []
  rw [htot]

/-- C52: when some entry exceeds half the mean, entry `(r, c)` of the result is the proportion, among *all* entries above half the
mean, of those in column `c` whose reassigned row, clamped to the grid (the last row if it is infinite), is `r`. -/
theorem C52_proportion (tfr : Mat ℝ) (reMat : Mat (Option ℂ)) (hrow : reMat.rows = tfr.rows) (hcol : tfr.cols ≤ reMat.cols)
    (hab : ∃ r < tfr.rows, ∃ c < tfr.cols, Spec.halfMean tfr < tfr.get r c) :
    ∃ T : Mat ℝ, Post.friedmanDensity tfr reMat = .ok T ∧ T.rows = tfr.rows ∧ T.cols = tfr.cols ∧
      ∀ r < tfr.rows, ∀ c < tfr.cols, T.get r c
        = (count tfr.rows (fun i => Spec.halfMean tfr < tfr.get i c ∧ voteRow tfr.rows (reMat.get i c) = r) : ℝ)
          / ∑ j ∈ range tfr.cols, (count tfr.rows (fun i => Spec.halfMean tfr < tfr.get i j) : ℝ) := by
  obtain ⟨D, hr, hc, hval, -, e⟩ := friedman_run tfr reMat hrow hcol
  obtain ⟨r0, hr0, c0, hc0, h0⟩ := hab
  have hpos : 0 < aboveCount tfr :=
    Finset.sum_pos' (fun _ _ => Nat.zero_le _) ⟨c0, Finset.mem_range.2 hc0, count_pos hr0 h0⟩
  rw [if_neg (by rintro ⟨h, -⟩; rw [Nat.cast_eq_zero] at h; omega)] at e
  refine ⟨_, e, hr, hc, fun r hr c hc => ?_⟩
  show D.get r c / (aboveCount tfr : ℝ) = _
  rw [hval r hr c hc]
  unfold aboveCount
  push_cast
  rfl

/-- C52: the result is a probability distribution: entries in `[0, 1]`, total one; and the weight of a column is its share of the
entries above half the mean. -/
theorem C52_distribution (tfr : Mat ℝ) (reMat : Mat (Option ℂ)) (hrow : reMat.rows = tfr.rows) (hcol : tfr.cols ≤ reMat.cols)
    (hab : ∃ r < tfr.rows, ∃ c < tfr.cols, Spec.halfMean tfr < tfr.get r c) :
    ∃ T : Mat ℝ, Post.friedmanDensity tfr reMat = .ok T ∧
      (∀ r < tfr.rows, ∀ c < tfr.cols, 0 ≤ T.get r c ∧ T.get r c ≤ 1) ∧
      (∑ r ∈ range tfr.rows, ∑ c ∈ range tfr.cols, T.get r c = 1) ∧
      ∀ c < tfr.cols, ∑ r ∈ range tfr.rows, T.get r c
        = (count tfr.rows (fun i => Spec.halfMean tfr < tfr.get i c) : ℝ)
          / ∑ j ∈ range tfr.cols, (count tfr.rows (fun i => Spec.halfMean tfr < tfr.get i j) : ℝ) := by
  obtain ⟨T, e, hr, hc, hT⟩ := C52_proportion tfr reMat hrow hcol hab
  obtain ⟨r0, hr0, c0, hc0, h0⟩ := hab
  have hpos : (0 : ℝ) < ∑ j ∈ range tfr.cols, (count tfr.rows (fun i => Spec.halfMean tfr < tfr.get i j) : ℝ) := by
    have : 0 < ∑ j ∈ range tfr.cols, count tfr.rows (fun i => Spec.halfMean tfr < tfr.get i j) :=
      Finset.sum_pos' (fun _ _ => Nat.zero_le _) ⟨c0, Finset.mem_range.2 hc0, count_pos hr0 h0⟩
    exact_mod_cast this
  have hcols : ∀ c < tfr.cols, ∑ r ∈ range tfr.rows, T.get r c
        = (count tfr.rows (fun i => Spec.halfMean tfr < tfr.get i c) : ℝ)
          / ∑ j ∈ range tfr.cols, (count tfr.rows (fun i => Spec.halfMean tfr < tfr.get i j) : ℝ) := by
    intro c hc
    rw [Finset.sum_congr rfl (fun r hr => hT r (Finset.mem_range.1 hr) c hc), ← Finset.sum_div]
    congr 1
    rw [← sum_count_fiber (m := tfr.rows) (g := fun i => voteRow tfr.rows (reMat.get i c))
      (fun i hi _ => voteRow_lt (by omega) _)]
    push_cast
    rfl
  have hnn : ∀ r < tfr.rows, ∀ c < tfr.cols, 0 ≤ T.get r c := fun r hr c hc => by
    rw [hT r hr c hc]; positivity
  have htot : ∑ r ∈ range tfr.rows, ∑ c ∈ range tfr.cols, T.get r c = 1 := by
    rw [Finset.sum_comm, Finset.sum_congr rfl (fun c hc => hcols c (Finset.mem_range.1 hc)), ← Finset.sum_div, div_self hpos.ne']
  refine ⟨T, e, fun r hr c hc => ⟨hnn r hr c hc, ?_⟩, htot, hcols⟩
  rw [← htot]
  calc T.get r c ≤ ∑ c ∈ range tfr.cols, T.get r c :=
        Finset.single_le_sum (f := fun c => T.get r c) (fun j hj => hnn r hr j (Finset.mem_range.1 hj)) (Finset.mem_range.2 hc)
    _ ≤ _ := Finset.single_le_sum (f := fun r => ∑ c ∈ range tfr.cols, T.get r c)
        (fun i hi => Finset.sum_nonneg fun j hj => hnn i (Finset.mem_range.1 hi) j (Finset.mem_range.1 hj)) (Finset.mem_range.2 hr)

/-- C52: on a non-empty representation with matching reassignment matrix the call yields numbers exactly when some entry exceeds
half the mean; otherwise every entry is `0 / 0`. -/
theorem C52_returns_iff (tfr : Mat ℝ) (reMat : Mat (Option ℂ)) (hrow : reMat.rows = tfr.rows) (hcol : tfr.cols ≤ reMat.cols)
    (hr : 1 ≤ tfr.rows) (hc : 1 ≤ tfr.cols) :
    ((∃ T, Post.friedmanDensity tfr reMat = .ok T) ↔ ∃ r < tfr.rows, ∃ c < tfr.cols, Spec.halfMean tfr < tfr.get r c) ∧
    ((¬ ∃ r < tfr.rows, ∃ c < tfr.cols, Spec.halfMean tfr < tfr.get r c) →
      Post.friedmanDensity tfr reMat = .error .nonFinite) := by
  have key : (¬ ∃ r < tfr.rows, ∃ c < tfr.cols, Spec.halfMean tfr < tfr.get r c) →
      Post.friedmanDensity tfr reMat = .error .nonFinite := by
    intro h
    obtain ⟨D, -, -, -, -, e⟩ := friedman_run tfr reMat hrow hcol
    rw [e, if_pos]
    refine ⟨?_, by omega, by omega⟩
    rw [Nat.cast_eq_zero]
    refine Finset.sum_eq_zero fun c hc => count_eq_zero fun i hi hlt => h ⟨i, hi, c, Finset.mem_range.1 hc, hlt⟩
  refine ⟨⟨fun ⟨T, hT⟩ => ?_, fun h => ?_⟩, key⟩
  · by_contra h
    rw [key h] at hT
    cases hT
  · obtain ⟨T, e, -⟩ := C52_proportion tfr reMat hrow hcol h
    exact ⟨T, e⟩

/-- C52: a non-negative representation gives a density as soon as it is not identically zero. -/
theorem C52_nonneg_returns (tfr : Mat ℝ) (reMat : Mat (Option ℂ)) (hrow : reMat.rows = tfr.rows) (hcol : tfr.cols ≤ reMat.cols)
    (hnn : ∀ r < tfr.rows, ∀ c < tfr.cols, 0 ≤ tfr.get r c) (hne : ∃ r < tfr.rows, ∃ c < tfr.cols, tfr.get r c ≠ 0) :
    ∃ T, Post.friedmanDensity tfr reMat = .ok T := by
  obtain ⟨r0, hr0, c0, hc0, h0⟩ := hne
  refine ((C52_returns_iff tfr reMat hrow hcol (by omega) (by omega)).1).2 ?_
  by_contra h
  push Not at h
  have h0' : 0 < tfr.get r0 c0 := lt_of_le_of_ne (hnn r0 hr0 c0 hc0) (Ne.symm h0)
  have hR : (0 : ℝ) < tfr.rows := by exact_mod_cast (by omega : 0 < tfr.rows)
  have hC : (0 : ℝ) < tfr.cols := by exact_mod_cast (by omega : 0 < tfr.cols)
  have hH : 0 < Spec.halfMean tfr := lt_of_lt_of_le h0' (h r0 hr0 c0 hc0)
  have hle : ∑ r ∈ range tfr.rows, ∑ c ∈ range tfr.cols, tfr.get r c ≤ tfr.rows * tfr.cols * Spec.halfMean tfr := by
    calc _ ≤ ∑ r ∈ range tfr.rows, ∑ c ∈ range tfr.cols, Spec.halfMean tfr :=
          Finset.sum_le_sum fun r hr => Finset.sum_le_sum fun c hc => h r (Finset.mem_range.1 hr) c (Finset.mem_range.1 hc)
      _ = _ := by simp [mul_assoc]
  have he : ∑ r ∈ range tfr.rows, ∑ c ∈ range tfr.cols, tfr.get r c = 2 * (tfr.rows * tfr.cols) * Spec.halfMean tfr := by
    unfold Spec.halfMean
    field_simp
  rw [he] at hle
  have : 0 < tfr.rows * tfr.cols * Spec.halfMean tfr := by positivity
  linarith

/-- C52: a reassignment matrix with a different number of rows, or too few columns, is refused as soon as a column of interest is not
covered. -/
theorem C52_shape (tfr : Mat ℝ) (reMat : Mat (Option ℂ))
    (hab : ∃ r < tfr.rows, ∃ c < tfr.cols, Spec.halfMean tfr < tfr.get r c ∧ (reMat.rows ≠ tfr.rows ∨ reMat.cols ≤ c)) :
    Post.friedmanDensity tfr reMat = .error .indexError := by
  classical
  have hab' : ∃ c, c < tfr.cols ∧ (∃ r < tfr.rows, Spec.halfMean tfr < tfr.get r c) ∧ (reMat.rows ≠ tfr.rows ∨ reMat.cols ≤ c) := by
    obtain ⟨r, hr, c, hc, h1, h2⟩ := hab
    exact ⟨c, hc, ⟨r, hr, h1⟩, h2⟩
  obtain ⟨hc, ⟨r0, hr0, h0⟩, hbad⟩ := Nat.find_spec hab'
  set c0 := Nat.find hab' with hc0
  have he : Post.friedmanCol tfr reMat c0 ((Mat.zeros tfr.rows tfr.cols : Mat ℝ).col c0) = .error .indexError := by
    unfold Post.friedmanCol
    simp only []
    rw [if_neg, if_pos hbad]
    unfold Vec.positions
    rw [List.filter_eq_nil_iff]
    intro h
    refine h r0 (List.mem_range.2 hr0) ?_
    rw [halfMean_eq]
    simpa using h0
  have hok : ∀ c : ℕ, ∃ v, c < c0 → Post.friedmanCol tfr reMat c ((Mat.zeros tfr.rows tfr.cols : Mat ℝ).col c) = .ok v := by
    intro c
    by_cases hlt : c < c0
    · have hn := Nat.find_min hab' hlt
      by_cases h : Vec.positions tfr.rows (fun i => Post.halfMean tfr < tfr.get i c) = []
      · refine ⟨(Mat.zeros tfr.rows tfr.cols : Mat ℝ).col c, fun _ => ?_⟩
        unfold Post.friedmanCol
        exact if_pos h
      · have hex : ∃ r < tfr.rows, Spec.halfMean tfr < tfr.get r c := by
          by_contra hno
          apply h
          unfold Vec.positions
          rw [List.filter_eq_nil_iff]
          intro r hr
          rw [halfMean_eq]
          simp only [decide_eq_true_eq]
          exact fun h1 => hno ⟨r, List.mem_range.1 hr, h1⟩
        have : ¬ (reMat.rows ≠ tfr.rows ∨ reMat.cols ≤ c) := fun hb => hn ⟨by omega, hex, hb⟩
        push Not at this
        obtain ⟨v, hv, -⟩ := friedmanCol_eq tfr reMat c this.1 this.2
        exact ⟨v, fun _ => hv⟩
    · exact ⟨⟨0, fun _ => 0⟩, fun h => absurd h hlt⟩
  choose g hg using hok
  have := Mat.forCols_error (M := (Mat.zeros tfr.rows tfr.cols : Mat ℝ)) (T := tfr.cols) (body := Post.friedmanCol tfr reMat)
    (g := g) (c0 := c0) (le_refl _) hc (fun c hc => hg c hc) he
  unfold Post.friedmanDensity
  rw [this]
  rfl

/-- A `2 × 2` representation with entries `1, 2, 3, 4` and the identity reassignment meets the hypotheses. -/
example : ∃ T : Mat ℝ, Post.friedmanDensity ⟨2, 2, fun r c => 2 * r + c + 1⟩ ⟨2, 2, fun r _ => some (r : ℂ)⟩ = .ok T ∧
    ∑ r ∈ range 2, ∑ c ∈ range 2, T.get r c = 1 := by
  obtain ⟨T, e, -, h, -⟩ := C52_distribution ⟨2, 2, fun r c => 2 * r + c + 1⟩ ⟨2, 2, fun r _ => some (r : ℂ)⟩ rfl le_rfl
    ⟨1, by norm_num, 1, by norm_num, by
      simp only [Spec.halfMean, Finset.sum_range_succ, Finset.sum_range_zero]
      norm_num⟩
  exact ⟨T, e, h⟩

end Tftb
