import Verif.Lemmas.Post

/-! # Property C51: ideal time-frequency representation -/

namespace Tftb

open Finset Spec ProcUtils Post

/-- Row in which a law value is marked. -/
theorem ideal_row {f : ℝ} {n : ℕ} (hn : 1 ≤ n) (h0 : 0 ≤ f) (h1 : f ≤ 1 / 2) :
    0 ≤ roundEven (f * 2 * ((n : ℝ) - 1)) ∧ roundEven (f * 2 * ((n : ℝ) - 1)) < n := by
  have hn' : (1 : ℝ) ≤ n := by exact_mod_cast hn
  have h := abs_le.1 (abs_sub_roundEven_le (f * 2 * ((n : ℝ) - 1)))
  have a1 : 0 ≤ f * 2 * ((n : ℝ) - 1) := mul_nonneg (by linarith) (by linarith)
  have a2 : f * 2 * ((n : ℝ) - 1) ≤ (n : ℝ) - 1 := by nlinarith
  constructor
  · have : (-1 : ℝ) < roundEven (f * 2 * ((n : ℝ) - 1)) := by linarith
    have : (-1 : ℤ) < roundEven (f * 2 * ((n : ℝ) - 1)) := by exact_mod_cast this
    omega
  · have : (roundEven (f * 2 * ((n : ℝ) - 1)) : ℝ) < n := by linarith
    exact_mod_cast this

/-- The marks of one instant: NaN in the transposed cells, ones in the column. -/
theorem idealCol_ok {iflaws : Mat (Option ℝ)} {n icol : ℕ} {ti : ℤ} {tfr : Mat (Option ℝ)} {law : ℕ → ℝ} (hn : 1 ≤ n)
    (hrows : tfr.rows = n) (hcol : icol < tfr.cols) (h0 : 0 ≤ ti) (h1 : ti < iflaws.cols)
    (hlaw : ∀ i < iflaws.rows, iflaws.get i ti.toNat = some (law i)) (hb : ∀ i < iflaws.rows, 0 ≤ law i ∧ law i ≤ 1 / 2) :
    ∃ tfr', idealCol iflaws n icol ti tfr = .ok tfr' ∧ tfr'.rows = n ∧ tfr'.cols = tfr.cols ∧
      ∀ r c, (c ≠ icol → tfr'.get r c = tfr.get r c) ∧
        ((∃ i < iflaws.rows, (r : ℤ) = roundEven (law i * 2 * ((n : ℝ) - 1))) → tfr'.get r icol = some 1) ∧
        ((¬ ∃ i < iflaws.rows, (r : ℤ) = roundEven (law i * 2 * ((n : ℝ) - 1))) → tfr'.get r icol = tfr.get r icol) := by
  unfold idealCol
  refine foldlM_range_ok (P := fun k (M : Mat (Option ℝ)) => M.rows = n ∧ M.cols = tfr.cols ∧
      ∀ r c, (c ≠ icol → M.get r c = tfr.get r c) ∧
        ((∃ i < k, (r : ℤ) = roundEven (law i * 2 * ((n : ℝ) - 1))) → M.get r icol = some 1) ∧
        ((¬ ∃ i < k, (r : ℤ) = roundEven (law i * 2 * ((n : ℝ) - 1))) → M.get r icol = tfr.get r icol)) ?_ ?_
  · refine ⟨hrows, rfl, fun r c => ⟨fun _ => rfl, ?_, fun _ => rfl⟩⟩
    rintro ⟨i, hi, _⟩
    omega
  · rintro k hk M ⟨hr, hc, hM⟩
    have hrow := ideal_row hn (hb k hk).1 (hb k hk).2
    have e1 : iflaws.item (k : ℕ) ti = .ok (some (law k)) := by
      rw [Mat.item_ok (idxOk_of_lt (by omega) (by omega)) (idxOk_of_lt h0 h1), wrapIdx_natCast, wrapIdx_of_nonneg h0, hlaw k hk]
    have e2 := Mat.setItem_ok (M := M) (a := some (1 : ℝ)) (idxOk_of_lt hrow.1 (by rw [hr]; exact hrow.2))
      (idxOk_of_lt (i := (icol : ℤ)) (by omega) (by rw [hc]; exact_mod_cast hcol))
    refine ⟨_, Eq.trans (by rw [e1, ok_bind]) e2, hr, hc, ?_⟩
    · intro r c
      obtain ⟨m1, -, -⟩ := hM r c
      obtain ⟨-, m2, m3⟩ := hM r icol
      simp only [wrapIdx_natCast, wrapIdx_of_nonneg hrow.1]
      refine ⟨fun hne => ?_, ?_, ?_⟩
      · rw [if_neg (fun h => hne h.2)]; exact m1 hne
      · rintro ⟨i, hi, e⟩
        by_cases hik : i = k
        · subst hik
          rw [if_pos ⟨by omega, trivial⟩]
        · split
          · rfl
          · exact m2 ⟨i, by omega, e⟩
      · intro hno
        rw [if_neg]
        · exact m3 (fun ⟨i, hi, e⟩ => hno ⟨i, by omega, e⟩)
        · rintro ⟨hr', -⟩
          exact hno ⟨k, by omega, by omega⟩

/-- C51: for laws inside `[0, 0.5]` sampled at valid instants, the result has a one exactly in the rows nearest to a law, zeros
elsewhere, and the axes are the given instants and `k / (2n)`. -/
theorem C51_marks (iflaws : Mat (Option ℝ)) (law : ℕ → ℕ → ℝ) (ts : Vec ℤ) (n : ℕ) (hn : 1 ≤ n)
    (hlaw : ∀ i < iflaws.rows, ∀ t < iflaws.cols, iflaws.get i t = some (law i t))
    (hb : ∀ i < iflaws.rows, ∀ t < iflaws.cols, 0 ≤ law i t ∧ law i t ≤ 1 / 2)
    (hts : ∀ c < ts.len, 0 ≤ ts.get c ∧ ts.get c < iflaws.cols) :
    ∃ (tfr : Mat (Option ℝ)) (freqs : Vec ℝ), idealTfr iflaws (some ts) (some n) = .ok (tfr, ts, freqs) ∧
      tfr.rows = n ∧ tfr.cols = ts.len ∧ freqs.len = n ∧ (∀ k < n, freqs.get k = (k : ℝ) / (2 * n)) ∧
      ∀ r < n, ∀ c < ts.len,
        ((∃ i < iflaws.rows, (r : ℤ) = roundEven (law i (ts.get c).toNat * 2 * ((n : ℝ) - 1))) → tfr.get r c = some 1) ∧
        ((¬ ∃ i < iflaws.rows, (r : ℤ) = roundEven (law i (ts.get c).toNat * 2 * ((n : ℝ) - 1))) → tfr.get r c = some 0) := by
  obtain ⟨tfr, e, hr, hc, hM⟩ := foldlM_range_ok
    (f := fun tfr (icol : ℕ) => do
      let ti ← ts.item icol
      idealCol iflaws n icol ti tfr) (N := ts.len) (s := (⟨n, ts.len, fun _ _ => some 0⟩ : Mat (Option ℝ)))
    (P := fun k (M : Mat (Option ℝ)) => M.rows = n ∧ M.cols = ts.len ∧ ∀ r c, (k ≤ c → M.get r c = some 0) ∧ (c < k →
        ((∃ i < iflaws.rows, (r : ℤ) = roundEven (law i (ts.get c).toNat * 2 * ((n : ℝ) - 1))) → M.get r c = some 1) ∧
        ((¬ ∃ i < iflaws.rows, (r : ℤ) = roundEven (law i (ts.get c).toNat * 2 * ((n : ℝ) - 1))) → M.get r c = some 0)))
    ⟨rfl, rfl, fun r c => ⟨fun _ => rfl, fun h => by omega⟩⟩ (by
      rintro k hk M ⟨hr, hc, hM⟩
      obtain ⟨t0, t1⟩ := hts k hk
      have htn : (ts.get k).toNat < iflaws.cols := by omega
      obtain ⟨M', e, r', c', hM'⟩ := idealCol_ok (tfr := M) (icol := k) (law := fun i => law i (ts.get k).toNat) hn hr
        (by rw [hc]; exact hk) t0 t1 (fun i hi => hlaw i hi _ htn) (fun i hi => hb i hi _ htn)
      refine ⟨M', ?_, r', c'.trans hc, ?_⟩
      · rw [Vec.item_ok (by omega) (by omega), ok_bind, Int.toNat_natCast]
        exact e
      · intro r c
        obtain ⟨p1, -, -⟩ := hM' r c
        obtain ⟨-, p2, p3⟩ := hM' r k
        refine ⟨fun h => ?_, fun h => ?_⟩
        · rw [p1 (by omega)]; exact (hM r c).1 (by omega)
        · by_cases hck : c = k
          · subst hck
            exact ⟨p2, fun hno => (p3 hno).trans ((hM r c).1 le_rfl)⟩
          · rw [p1 hck]; exact (hM r c).2 (by omega))
  refine ⟨tfr, (arange 0 n).map (fun j : ℤ => (j : ℝ) / (n : ℝ) * 0.5), ?_, hr, hc, ?_, ?_, fun r _ c hc => (hM r c).2 hc⟩
  · unfold idealTfr
    rw [if_neg (by simp)]
    simp only [Option.getD_some]
    rw [e, ok_bind]
  · simp [arange, Vec.map]
  · intro k _
    rw [Vec.map_get, arange_get]
    push_cast
    ring

/-- C51: read as distances, every law has a one within half a bin of its position `2 (n - 1) f` in each column, and every one lies
within half a bin of a law; in particular a column has no ones exactly when there is no law. -/
theorem C51_within_half_bin (iflaws : Mat (Option ℝ)) (law : ℕ → ℕ → ℝ) (ts : Vec ℤ) (n : ℕ) (hn : 1 ≤ n)
    (hlaw : ∀ i < iflaws.rows, ∀ t < iflaws.cols, iflaws.get i t = some (law i t))
    (hb : ∀ i < iflaws.rows, ∀ t < iflaws.cols, 0 ≤ law i t ∧ law i t ≤ 1 / 2)
    (hts : ∀ c < ts.len, 0 ≤ ts.get c ∧ ts.get c < iflaws.cols) :
    ∃ (tfr : Mat (Option ℝ)) (freqs : Vec ℝ), idealTfr iflaws (some ts) (some n) = .ok (tfr, ts, freqs) ∧
      ∀ c < ts.len,
        (∀ i < iflaws.rows, ∃ r < n, tfr.get r c = some 1 ∧ |(r : ℝ) - 2 * ((n : ℝ) - 1) * law i (ts.get c).toNat| ≤ 1 / 2) ∧
        (∀ r < n, (tfr.get r c = some 1 ∧ ∃ i < iflaws.rows, |(r : ℝ) - 2 * ((n : ℝ) - 1) * law i (ts.get c).toNat| ≤ 1 / 2) ∨
          tfr.get r c = some 0) := by
  obtain ⟨tfr, fr, e, hr, hc, -, -, hM⟩ := C51_marks iflaws law ts n hn hlaw hb hts
  refine ⟨tfr, fr, e, fun c hcl => ⟨fun i hi => ?_, fun r hrn => ?_⟩⟩
  · have htn : (ts.get c).toNat < iflaws.cols := by have := hts c hcl; omega
    have hrow := ideal_row hn (hb i hi _ htn).1 (hb i hi _ htn).2
    set z := roundEven (law i (ts.get c).toNat * 2 * ((n : ℝ) - 1)) with hz
    refine ⟨z.toNat, by omega, (hM z.toNat (by omega) c hcl).1 ⟨i, hi, by omega⟩, ?_⟩
    have := abs_sub_roundEven_le (law i (ts.get c).toNat * 2 * ((n : ℝ) - 1))
    rw [← hz, abs_sub_comm] at this
    have e2 : ((z.toNat : ℕ) : ℝ) = (z : ℝ) := by exact_mod_cast congrArg (Int.cast : ℤ → ℝ) (Int.toNat_of_nonneg hrow.1)
    rw [e2, show 2 * ((n : ℝ) - 1) * law i (ts.get c).toNat = law i (ts.get c).toNat * 2 * ((n : ℝ) - 1) by ring]
    exact this
  · by_cases h : ∃ i < iflaws.rows, (r : ℤ) = roundEven (law i (ts.get c).toNat * 2 * ((n : ℝ) - 1))
    · refine Or.inl ⟨(hM r hrn c hcl).1 h, ?_⟩
      obtain ⟨i, hi, hz⟩ := h
      refine ⟨i, hi, ?_⟩
      have := abs_sub_roundEven_le (law i (ts.get c).toNat * 2 * ((n : ℝ) - 1))
      rw [← hz, abs_sub_comm] at this
      rw [show 2 * ((n : ℝ) - 1) * law i (ts.get c).toNat = law i (ts.get c).toNat * 2 * ((n : ℝ) - 1) by ring]
      exact_mod_cast this
    · exact Or.inr ((hM r hrn c hcl).2 h)

/-- C51: the number of ones of a column is at least one (when there is a law) and at most the number of laws. -/
theorem C51_count (iflaws : Mat (Option ℝ)) (law : ℕ → ℕ → ℝ) (ts : Vec ℤ) (n : ℕ) (hn : 1 ≤ n) (hrows : 1 ≤ iflaws.rows)
    (hlaw : ∀ i < iflaws.rows, ∀ t < iflaws.cols, iflaws.get i t = some (law i t))
    (hb : ∀ i < iflaws.rows, ∀ t < iflaws.cols, 0 ≤ law i t ∧ law i t ≤ 1 / 2)
    (hts : ∀ c < ts.len, 0 ≤ ts.get c ∧ ts.get c < iflaws.cols) :
    ∃ (tfr : Mat (Option ℝ)) (freqs : Vec ℝ), idealTfr iflaws (some ts) (some n) = .ok (tfr, ts, freqs) ∧
      ∀ c < ts.len, 1 ≤ count n (fun r => tfr.get r c = some 1) ∧ count n (fun r => tfr.get r c = some 1) ≤ iflaws.rows := by
  classical
  obtain ⟨tfr, fr, e, hr, hc, -, -, hM⟩ := C51_marks iflaws law ts n hn hlaw hb hts
  refine ⟨tfr, fr, e, fun c hcl => ?_⟩
  have htn : (ts.get c).toNat < iflaws.cols := by have := hts c hcl; omega
  have hset : (range n).filter (fun r => tfr.get r c = some 1)
      = (range iflaws.rows).image (fun i => (roundEven (law i (ts.get c).toNat * 2 * ((n : ℝ) - 1))).toNat) := by
    ext r
    simp only [Finset.mem_filter, Finset.mem_range, Finset.mem_image]
    constructor
    · rintro ⟨hrn, h1⟩
      by_contra hno
      have : tfr.get r c = some 0 := (hM r hrn c hcl).2 (fun ⟨i, hi, hz⟩ => hno ⟨i, hi, by omega⟩)
      rw [this] at h1
      injection h1 with h1
      norm_num at h1
    · rintro ⟨i, hi, hz⟩
      have hrow := ideal_row hn (hb i hi _ htn).1 (hb i hi _ htn).2
      exact ⟨by omega, (hM r (by omega) c hcl).1 ⟨i, hi, by omega⟩⟩
  have hcount : count n (fun r => tfr.get r c = some 1)
      = ((range iflaws.rows).image (fun i => (roundEven (law i (ts.get c).toNat * 2 * ((n : ℝ) - 1))).toNat)).card := by
    rw [← hset]
    unfold count
    congr 1
    ext r
    simp
  rw [hcount]
  refine ⟨Finset.card_pos.2 ((Finset.nonempty_range_iff.2 (by omega)).image _), ?_⟩
  exact Finset.card_image_le.trans (by simp)

/-- C51: without optional arguments the instants are `0 … N-1` and there are `N` rows. -/
theorem C51_default (iflaws : Mat (Option ℝ)) (h : 1 ≤ iflaws.rows) :
    idealTfr iflaws none none = idealTfr iflaws (some (arange 0 iflaws.cols)) (some iflaws.cols) := by
  unfold idealTfr
  rw [if_neg (by simp; omega), if_neg (by simp)]
  rfl

/-- No frequency law at all: a default cannot be computed from `iflaws[0, :]`. -/
theorem C51_empty (iflaws : Mat (Option ℝ)) (h : iflaws.rows = 0) (ts? : Option (Vec ℤ)) (n? : Option ℕ) (hd : ts? = none ∨ n? = none) :
    idealTfr iflaws ts? n? = .error .indexError := by
  unfold idealTfr
  rw [if_pos ⟨hd, h⟩]

/-- C51 (defect): the marked row does not match the returned frequency axis.  A constant law equal to the label of row `k`, where
`n/2 < k < n`, is marked in row `k - 1` and row `k` stays empty. -/
theorem C51_label_mismatch (n N k : ℕ) (h1 : n < 2 * k) (h2 : k < n) :
    ∃ (tfr : Mat (Option ℝ)) (freqs : Vec ℝ),
      idealTfr ⟨1, N, fun _ _ => some ((k : ℝ) / (2 * n))⟩ (some (arange 0 N)) (some n) = .ok (tfr, arange 0 N, freqs) ∧
      freqs.get k = (k : ℝ) / (2 * n) ∧ ∀ c < N, tfr.get k c = some 0 ∧ tfr.get (k - 1) c = some 1 := by
  have hn0 : (0 : ℝ) < n := by exact_mod_cast (by omega : 0 < n)
  have hk2 : (k : ℝ) < n := by exact_mod_cast h2
  have hk1 : (n : ℝ) < 2 * k := by exact_mod_cast h1
  have hk0 : (0 : ℝ) ≤ k := Nat.cast_nonneg k
  obtain ⟨tfr, fr, e, -, -, -, hf, hM⟩ := C51_marks ⟨1, N, fun _ _ => some ((k : ℝ) / (2 * n))⟩ (fun _ _ => (k : ℝ) / (2 * n))
    (arange 0 N) n (by omega) (fun _ _ _ _ => rfl)
    (fun _ _ _ _ => ⟨by positivity, by rw [div_le_div_iff₀ (by positivity) (by norm_num)]; linarith⟩)
    (fun c hc => by simp [arange] at hc ⊢; omega)
  have hr : roundEven ((k : ℝ) / (2 * n) * 2 * ((n : ℝ) - 1)) = (k : ℤ) - 1 := by
    have e1 : (k : ℝ) / (2 * n) * 2 * ((n : ℝ) - 1) = k - k / n := by field_simp
    rw [e1]
    have a1 : (1 : ℝ) / 2 < k / n := by rw [div_lt_div_iff₀ (by norm_num) hn0]; linarith
    have a2 : (k : ℝ) / n < 1 := by rw [div_lt_one hn0]; exact hk2
    have h := abs_le.1 (abs_sub_roundEven_le ((k : ℝ) - k / n))
    set z := roundEven ((k : ℝ) - k / n)
    have b1 : (z : ℝ) < ((k : ℤ) : ℝ) := by push_cast; linarith
    have b2 : (((k : ℤ) - 2 : ℤ) : ℝ) < z := by push_cast; linarith
    have c1 : z < k := by exact_mod_cast b1
    have c2 : (k : ℤ) - 2 < z := by exact_mod_cast b2
    omega
  refine ⟨tfr, fr, e, hf k h2, fun c hc => ⟨?_, ?_⟩⟩
  · refine (hM k h2 c (by simpa [arange] using hc)).2 ?_
    rintro ⟨i, _, hi⟩
    rw [hr] at hi
    omega
  · refine (hM (k - 1) (by omega) c (by simpa [arange] using hc)).1 ⟨0, by simp, ?_⟩
    rw [hr]
    omega

/-- C51 (defect): an undefined (NaN) law value is written with row and column exchanged.  For a single law on `N` samples whose
defined values are inside `[0, 0.5]`, the NaN entries of the result are exactly those of column `0` in the rows whose *number* is
an instant at which the law is undefined; no other column ever shows a NaN. -/
theorem C51_nan_misplaced (N : ℕ) (law : ℕ → Option ℝ) (hN : 1 ≤ N) (hb : ∀ t < N, ∀ f, law t = some f → 0 ≤ f ∧ f ≤ 1 / 2) :
    ∃ (tfr : Mat (Option ℝ)) (ts : Vec ℤ) (freqs : Vec ℝ),
      idealTfr ⟨1, N, fun _ t => law t⟩ none none = .ok (tfr, ts, freqs) ∧ tfr.rows = N ∧ tfr.cols = N ∧
      ∀ r < N, ∀ c < N, (tfr.get r c = none ↔ c = 0 ∧ law r = none) := by
  obtain ⟨tfr, e, hr, hc, hM⟩ := foldlM_range_ok
    (f := fun tfr (icol : ℕ) => do
      let ti ← (arange 0 N).item icol
      idealCol ⟨1, N, fun _ t => law t⟩ N icol ti tfr) (N := N) (s := (⟨N, N, fun _ _ => some 0⟩ : Mat (Option ℝ)))
    (P := fun k (M : Mat (Option ℝ)) => M.rows = N ∧ M.cols = N ∧ ∀ r c, (M.get r c = none ↔ c = 0 ∧ r < k ∧ law r = none))
    ⟨rfl, rfl, fun r c => by simp⟩ (by
      rintro k hk M ⟨hr, hc, hM⟩
      have e0 : (arange 0 N).item (k : ℕ) = .ok (k : ℤ) := by
        rw [Vec.item_ok (by omega) (by simpa [arange] using hk), arange_get]; simp
      have e1 : (⟨1, N, fun _ t => law t⟩ : Mat (Option ℝ)).item ((0 : ℕ) : ℤ) (k : ℤ) = .ok (law k) := by
        rw [Mat.item_ok (idxOk_of_lt (by simp) (by simp)) (idxOk_of_lt (by omega) (by exact_mod_cast hk)), wrapIdx_natCast, wrapIdx_natCast]
      simp only [e0, ok_bind, idealCol, List.range_one, List.foldlM_cons, List.foldlM_nil, e1]
      cases hl : law k with
      | none =>
        simp only []
        rw [Mat.setItem_ok (idxOk_of_lt (by omega) (by rw [hr]; exact_mod_cast hk)) (idxOk_of_lt (by simp) (by rw [hc]; exact_mod_cast hN)),
          ok_bind]
        refine ⟨_, rfl, hr, hc, fun r c => ?_⟩
        simp only [wrapIdx_natCast]
        split_ifs with h
        · obtain ⟨rfl, rfl⟩ := h
          simp [hl]
        · rw [hM r c]
          constructor
          · rintro ⟨a, b, d⟩; exact ⟨a, by omega, d⟩
          · rintro ⟨a, b, d⟩
            refine ⟨a, ?_, d⟩
            by_contra hb'
            exact h ⟨by omega, a⟩
      | some f =>
        simp only []
        have hrow := ideal_row hN (hb k hk f hl).1 (hb k hk f hl).2
        rw [Mat.setItem_ok (idxOk_of_lt hrow.1 (by rw [hr]; exact hrow.2)) (idxOk_of_lt (by omega) (by rw [hc]; exact_mod_cast hk)),
          ok_bind]
        refine ⟨_, rfl, hr, hc, fun r c => ?_⟩
        simp only [wrapIdx_natCast]
        split_ifs with h
        · obtain ⟨h1, rfl⟩ := h
          constructor
          · intro h; cases h
          · rintro ⟨rfl, b, d⟩
            have : r = 0 := by omega
            subst this
            rw [hl] at d; cases d
        · rw [hM r c]
          constructor
          · rintro ⟨a, b, d⟩; exact ⟨a, by omega, d⟩
          · rintro ⟨a, b, d⟩
            refine ⟨a, ?_, d⟩
            by_contra hb'
            have : r = k := by omega
            rw [this, hl] at d
            cases d)
  have hl : (arange 0 (N : ℤ)).len = N := by simp [arange]
  refine ⟨tfr, arange 0 N, (arange 0 N).map (fun j : ℤ => (j : ℝ) / (N : ℝ) * 0.5), ?_, hr, hc, fun r hrN c _ => ?_⟩
  · unfold idealTfr
    rw [if_neg (by simp)]
    simp only [Option.getD_none, hl]
    rw [e, ok_bind]
  · rw [hM r c]
    constructor
    · rintro ⟨a, _, d⟩; exact ⟨a, d⟩
    · rintro ⟨a, d⟩; exact ⟨a, hrN, d⟩

/-- Two constant laws `1/5`, `2/5` on four samples meet the hypotheses of `C51_marks`. -/
example : ∃ (tfr : Mat (Option ℝ)) (freqs : Vec ℝ),
    idealTfr ⟨2, 4, fun i _ => some (((i : ℝ) + 1) / 5)⟩ (some (arange 0 4)) (some 6) = .ok (tfr, arange 0 4, freqs) ∧
      tfr.get 2 3 = some 1 := by
  obtain ⟨tfr, fr, e, -, -, -, -, hM⟩ := C51_marks ⟨2, 4, fun i _ => some (((i : ℝ) + 1) / 5)⟩ (fun i _ => ((i : ℝ) + 1) / 5)
    (arange 0 4) 6 (by norm_num) (fun _ _ _ _ => rfl)
    (fun i hi _ _ => by
      have h2 : i < 2 := hi
      have : (i : ℝ) ≤ 1 := by exact_mod_cast (by omega : i ≤ 1)
      constructor
      · positivity
      · linarith)
    (fun c hc => by simp [arange] at hc ⊢; omega)
  refine ⟨tfr, fr, e, (hM 2 (by norm_num) 3 (by simp [arange])).1 ⟨0, by simp, ?_⟩⟩
  have : (((0 : ℕ) : ℝ) + 1) / 5 * 2 * (((6 : ℕ) : ℝ) - 1) = ((2 : ℤ) : ℝ) := by norm_num
  rw [this, roundEven_intCast]
  rfl

/-- Four rows: a law at the label of row `3` is marked in row `2`. -/
example : ∃ (tfr : Mat (Option ℝ)) (freqs : Vec ℝ),
    idealTfr ⟨1, 5, fun _ _ => some (((3 : ℕ) : ℝ) / (2 * (4 : ℕ)))⟩ (some (arange 0 5)) (some 4) = .ok (tfr, arange 0 5, freqs) ∧
      freqs.get 3 = ((3 : ℕ) : ℝ) / (2 * (4 : ℕ)) ∧ ∀ c < 5, tfr.get 3 c = some 0 ∧ tfr.get 2 c = some 1 :=
  C51_label_mismatch 4 5 3 (by norm_num) (by norm_num)

/-- A law undefined at instant `1` only: column `1` has no NaN, entry `(1, 0)` has. -/
example : ∃ (tfr : Mat (Option ℝ)) (ts : Vec ℤ) (freqs : Vec ℝ),
    idealTfr ⟨1, 3, fun _ t => if t = 1 then none else some (1 / 4)⟩ none none = .ok (tfr, ts, freqs) ∧
      tfr.get 1 0 = none ∧ ∀ r < 3, tfr.get r 1 ≠ none := by
  obtain ⟨tfr, ts, fr, e, -, -, h⟩ := C51_nan_misplaced 3 (fun t => if t = 1 then none else some (1 / 4)) (by norm_num) (by
    intro t _ f hf
    split at hf
    · cases hf
    · cases hf; norm_num)
  exact ⟨tfr, ts, fr, e, (h 1 (by norm_num) 0 (by norm_num)).2 ⟨rfl, by simp⟩,
    fun r hr hne => absurd ((h r hr 1 (by norm_num)).1 hne).1 (by norm_num)⟩

end Tftb
