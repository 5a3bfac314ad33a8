import Verif.Props.ReassignedPwv
import Verif.Props.Ridges

/-! # Property C102: ridges and Friedman density of reassigned representations -/

namespace Tftb

open Finset Spec ProcUtils Reassigned Post

/-- What entry `(j, i)` contributes when its target is a cell of the matrix. -/
theorem hit_of_ok {tfr : Mat ℝ} {target : ℕ → ℕ → Py (ℤ × ℤ)} {j i a b : ℕ} (h : target j i = .ok ((a : ℤ), (b : ℤ))) (p q : ℕ) :
    hit tfr target j i p q = if a = p ∧ b = q then tfr.get j i else 0 := by
  unfold hit
  rw [h]
  simp only
  have e : ∀ m k : ℕ, wrapIdx m (k : ℤ) = k := fun m k => by unfold wrapIdx; rw [if_neg (by omega)]; simp
  rw [e, e]
  congr 1
  exact propext ⟨fun h => ⟨h.1.symm, h.2.symm⟩, fun h => ⟨h.1.symm, h.2.symm⟩⟩

theorem spec_place_inj {p p' q q' : ℕ} : (p : ℂ) + Complex.I * ((q : ℂ) + 1) = (p' : ℂ) + Complex.I * ((q' : ℂ) + 1) ↔ p = p' ∧ q = q' := by
  constructor
  · intro h
    have h1 := congrArg Complex.re h
    have h2 := congrArg Complex.im h
    simp at h1 h2
    exact ⟨by exact_mod_cast h1, by exact_mod_cast h2⟩
  · rintro ⟨rfl, rfl⟩; rfl

theorem fft0_shape_eq {A F : Mat ℂ} (h : A.fft0 = .ok F) : F.rows = A.rows ∧ F.cols = A.cols := by
  unfold Mat.fft0 at h
  split_ifs at h
  injection h with h
  subst h
  exact ⟨rfl, rfl⟩

theorem specFinish_places {x : Vec ℂ} {n : ℕ} {ts : Vec ℤ} {A B : Mat ℂ} {D : Option (Mat ℂ)} {tfr rtfr : Mat ℝ} {v : Mat (Option ℂ)}
    (hA : A.rows = n) (hA' : A.cols = ts.len) (h : specFinish x n ts A B D = .ok (tfr, rtfr, v)) :
    (∀ k < n, ∀ c < ts.len, v.get k c = none ∨ ∃ p < n, ∃ q < ts.len, v.get k c = some ((p : ℂ) + Complex.I * ((q : ℂ) + 1))) ∧
    ∀ p q, rtfr.get p q = ∑ c ∈ range ts.len, ∑ k ∈ range n,
      if v.get k c = some ((p : ℂ) + Complex.I * ((q : ℂ) + 1)) ∨ (v.get k c = none ∧ k = p ∧ c = q) then tfr.get k c else 0 := by
  unfold specFinish at h
  obtain ⟨F, hF, h⟩ := bind_eq_ok.1 h
  obtain ⟨G, hG, h⟩ := bind_eq_ok.1 h
  obtain ⟨tf3, -, h⟩ := bind_eq_ok.1 h
  obtain ⟨tmin, -, h⟩ := bind_eq_ok.1 h
  obtain ⟨tmax, -, h⟩ := bind_eq_ok.1 h
  obtain ⟨s, -, h⟩ := bind_eq_ok.1 h
  obtain ⟨m, -, h⟩ := bind_eq_ok.1 h
  obtain ⟨R, hR, h⟩ := bind_eq_ok.1 h
  injection h with h
  simp only [Prod.mk.injEq] at h
  obtain ⟨h1, h2, h3⟩ := h
  subst h1 h2 h3
  obtain ⟨f1, f2⟩ := fft0_shape_eq hF
  obtain ⟨t1, -, -, t4⟩ := scatterAdd_inv hR
  have hr : (F.map (fun z => ‖z‖ ^ 2)).rows = n := f1.trans hA
  have hc : (F.map (fun z => ‖z‖ ^ 2)).cols = ts.len := f2.trans hA'
  rw [hr, hc] at t4
  have key : ∀ k < n, ∀ c < ts.len,
      (above (some (1e-6 * m)) ((F.map (fun z => ‖z‖ ^ 2)).get k c) = true ∧ ∃ p < n, ∃ q < ts.len,
        specTarget n ts.len (1e-6 * m) F G tf3 k c = .ok ((p : ℤ), (q : ℤ))) ∨
      (¬ above (some (1e-6 * m)) ((F.map (fun z => ‖z‖ ^ 2)).get k c) = true ∧
        specTarget n ts.len (1e-6 * m) F G tf3 k c = .ok ((k : ℤ), (c : ℤ))) := by
    intro k hk c hc'
    by_cases ha : above (some (1e-6 * m)) ((F.map (fun z => ‖z‖ ^ 2)).get k c) = true
    · refine Or.inl ⟨ha, ?_⟩
      obtain ⟨r, q, e, -, -⟩ := t1 k (by rw [hr]; exact hk) c (by rw [hc]; exact hc')
      have e' := e
      unfold specTarget at e'
      rw [if_pos (show above (some (1e-6 * m)) (‖F.get k c‖ ^ 2) = true from ha)] at e'
      obtain ⟨d, -, e'⟩ := bind_eq_ok.1 e'
      injection e' with e'
      simp only [Prod.mk.injEq] at e'
      have b1 : 0 ≤ r ∧ r < n := by
        rw [← e'.1]
        exact ⟨Int.emod_nonneg _ (by omega), Int.emod_lt_of_pos _ (by omega)⟩
      have b2 : 0 ≤ q ∧ q < ts.len := by
        rw [← e'.2]
        unfold specColHat
        omega
      exact ⟨r.toNat, by omega, q.toNat, by omega, by rw [e, Int.toNat_of_nonneg b1.1, Int.toNat_of_nonneg b2.1]⟩
    · refine Or.inr ⟨ha, ?_⟩
      unfold specTarget
      exact if_neg ha
  refine ⟨fun k hk c hc' => ?_, fun p q => ?_⟩
  · dsimp only
    rcases key k hk c hc' with ⟨ha, p, hp, q, hq, e⟩ | ⟨ha, -⟩
    · right
      rw [if_pos ha, e]
      exact ⟨p, hp, q, hq, by push_cast; rfl⟩
    · left
      rw [if_neg ha]
  · rw [t4]
    refine Finset.sum_congr rfl fun c hc' => Finset.sum_congr rfl fun k hk => ?_
    dsimp only
    rcases key k (Finset.mem_range.1 hk) c (Finset.mem_range.1 hc') with ⟨ha, p', -, q', -, e⟩ | ⟨ha, e⟩
    · rw [hit_of_ok e]
      refine if_congr ?_ rfl rfl
      rw [if_pos ha, e]
      simp only [Int.cast_natCast, Option.some.injEq, spec_place_inj, reduceCtorEq, false_and, or_false]
    · rw [hit_of_ok e]
      refine if_congr ?_ rfl rfl
      rw [if_neg ha]
      simp

/-- The three results of the reassigned spectrogram fit together: whenever the call returns, the third matrix holds, for each cell of the first, either infinity
or the row (from 0) and the column (from 1) of a cell of the second, and the second is obtained by adding each cell of the first to the
indicated cell, or to the same cell if infinity is indicated. -/
theorem C102_spectrogram_consistent (x : Vec ℂ) (ts? : Option (Vec ℤ)) (n? : Option ℕ) (w? : Option (Vec ℝ)) (tfr rtfr : Mat ℝ) (v : Mat (Option ℂ))
    (h : Reassigned.spectrogram x ts? n? w? = .ok (tfr, rtfr, v)) :
    v.rows = tfr.rows ∧ v.cols = tfr.cols ∧
    (∀ k < tfr.rows, ∀ c < tfr.cols, v.get k c = none ∨
      ∃ p < tfr.rows, ∃ q < tfr.cols, v.get k c = some ((p : ℂ) + Complex.I * ((q : ℂ) + 1))) ∧
    ∀ p < tfr.rows, ∀ q < tfr.cols, rtfr.get p q = ∑ c ∈ range tfr.cols, ∑ k ∈ range tfr.rows,
      if v.get k c = some ((p : ℂ) + Complex.I * ((q : ℂ) + 1)) ∨ (v.get k c = none ∧ k = p ∧ c = q) then tfr.get k c else 0 := by
  obtain ⟨h1, h2, -, -, h5, h6⟩ := spectrogram_inv h
  unfold Reassigned.spectrogram at h
  simp only at h
  split_ifs at h with c1 c2
  obtain ⟨th, -, h⟩ := bind_eq_ok.1 h
  obtain ⟨dw, -, h⟩ := bind_eq_ok.1 h
  obtain ⟨A, hA, h⟩ := bind_eq_ok.1 h
  obtain ⟨B, -, h⟩ := bind_eq_ok.1 h
  obtain ⟨a1, a2, -⟩ := Mat.forCols_inv hA
  have fin : ∀ D, specFinish x (n?.getD x.len) (ts?.getD (arange 0 x.len)) A B D = .ok (tfr, rtfr, v) → _ :=
    fun D h => specFinish_places a1 a2 h
  rw [h1, h2]
  refine ⟨h5, h6, ?_⟩
  cases dw with
  | none => exact ⟨(fin _ h).1, fun p _ q _ => (fin _ h).2 p q⟩
  | some dw =>
    obtain ⟨D, -, h⟩ := bind_eq_ok.1 h
    exact ⟨(fin _ h).1, fun p _ q _ => (fin _ h).2 p q⟩

/-- Row `p` of the third matrix of the reassigned pseudo Wigner-Ville distribution is numbered `p + 1`. -/
theorem pwvFinish_places {x : Vec ℂ} {n : ℕ} {ts : Vec ℤ} {A : Mat ℂ} {D : Option (Mat ℂ)} {tfr rtfr : Mat ℝ} {v : Mat (Option ℂ)}
    (hA : A.rows = n) (hA' : A.cols = ts.len) (h : pwvFinish x n ts A D = .ok (tfr, rtfr, v)) :
    (v.rows = n ∧ v.cols = ts.len) ∧
    (∀ k < n, ∀ c < ts.len, v.get k c = none ∨ ∃ p < n, v.get k c = some ((p : ℂ) + 1)) ∧
    ∀ p, ∀ q < ts.len, rtfr.get p q = ∑ k ∈ range n,
      if v.get k q = some ((p : ℂ) + 1) ∨ (v.get k q = none ∧ k = p) then tfr.get k q else 0 := by
  unfold pwvFinish at h
  obtain ⟨F, hF, h⟩ := bind_eq_ok.1 h
  obtain ⟨tf2, -, h⟩ := bind_eq_ok.1 h
  obtain ⟨tmin, -, h⟩ := bind_eq_ok.1 h
  obtain ⟨tmax, -, h⟩ := bind_eq_ok.1 h
  obtain ⟨R, hR, h⟩ := bind_eq_ok.1 h
  injection h with h
  simp only [Prod.mk.injEq] at h
  obtain ⟨h1, h2, h3⟩ := h
  subst h1 h2 h3
  obtain ⟨f1, f2⟩ := fft0_shape_eq hF
  obtain ⟨t1, -, -, t4⟩ := scatterAdd_inv hR
  generalize pwvThreshold x ⌊tmin⌋ ⌊tmax⌋ = thr at *
  have hr : (F.map Complex.re).rows = n := f1.trans hA
  have hc : (F.map Complex.re).cols = ts.len := f2.trans hA'
  rw [hr, hc] at t4
  have key : ∀ k < n, ∀ c < ts.len,
      (above thr ((F.map Complex.re).get k c) = true ∧ ∃ p < n,
        pwvTarget n thr (F.map Complex.re) tf2 k c = .ok ((p : ℤ), (c : ℤ))) ∨
      (¬ above thr ((F.map Complex.re).get k c) = true ∧
        pwvTarget n thr (F.map Complex.re) tf2 k c = .ok ((k : ℤ), (c : ℤ))) := by
    intro k hk c hc'
    by_cases ha : above thr ((F.map Complex.re).get k c) = true
    · refine Or.inl ⟨ha, ?_⟩
      obtain ⟨r, q, e, -, -⟩ := t1 k (by rw [hr]; exact hk) c (by rw [hc]; exact hc')
      have e' := e
      unfold pwvTarget at e'
      rw [if_pos ha] at e'
      obtain ⟨d, -, e'⟩ := bind_eq_ok.1 e'
      injection e' with e'
      simp only [Prod.mk.injEq] at e'
      have b1 : 0 ≤ r ∧ r < n := by
        rw [← e'.1]
        exact ⟨Int.emod_nonneg _ (by omega), Int.emod_lt_of_pos _ (by omega)⟩
      exact ⟨r.toNat, by omega, by rw [e, Int.toNat_of_nonneg b1.1, e'.2]⟩
    · refine Or.inr ⟨ha, ?_⟩
      unfold pwvTarget
      exact if_neg ha
  refine ⟨⟨rfl, rfl⟩, fun k hk c hc' => ?_, fun p q hq => ?_⟩
  · dsimp only
    rcases key k hk c hc' with ⟨ha, p, hp, e⟩ | ⟨ha, -⟩
    · right
      rw [if_pos ha, e]
      exact ⟨p, hp, by push_cast; rfl⟩
    · left
      rw [if_neg ha]
  · rw [t4, Finset.sum_eq_single q]
    · refine Finset.sum_congr rfl fun k hk => ?_
      dsimp only
      rcases key k (Finset.mem_range.1 hk) q hq with ⟨ha, p', -, e⟩ | ⟨ha, e⟩
      · rw [hit_of_ok e]
        refine if_congr ?_ rfl rfl
        rw [if_pos ha, e]
        simp only [Int.cast_natCast, Option.some.injEq, add_left_inj, Nat.cast_inj, reduceCtorEq, false_and, or_false, and_true]
      · rw [hit_of_ok e]
        refine if_congr ?_ rfl rfl
        rw [if_neg ha]
        simp
    · intro c hc' hne
      refine Finset.sum_eq_zero fun k hk => ?_
      rcases key k (Finset.mem_range.1 hk) c (Finset.mem_range.1 hc') with ⟨-, p', -, e⟩ | ⟨-, e⟩ <;>
        rw [hit_of_ok e, if_neg (fun h => hne h.2)]
    · intro h; exact absurd (Finset.mem_range.2 hq) h

/-- The same for the reassigned pseudo Wigner-Ville distribution, where energy stays in its column and rows are counted from 1 in the third matrix. -/
theorem C102_pwv_consistent (x : Vec ℂ) (ts? : Option (Vec ℤ)) (n? : Option ℕ) (w? : Option (Vec ℝ)) (tfr rtfr : Mat ℝ) (v : Mat (Option ℂ))
    (h : pseudoWignerVille x ts? n? w? = .ok (tfr, rtfr, v)) :
    v.rows = tfr.rows ∧ v.cols = tfr.cols ∧
    (∀ k < tfr.rows, ∀ c < tfr.cols, v.get k c = none ∨ ∃ p < tfr.rows, v.get k c = some ((p : ℂ) + 1)) ∧
    ∀ p < tfr.rows, ∀ c < tfr.cols, rtfr.get p c = ∑ k ∈ range tfr.rows,
      if v.get k c = some ((p : ℂ) + 1) ∨ (v.get k c = none ∧ k = p) then tfr.get k c else 0 := by
  obtain ⟨h1, h2, -⟩ := pwv_inv h
  unfold pseudoWignerVille at h
  simp only at h
  split_ifs at h with c1
  obtain ⟨mid, -, h⟩ := bind_eq_ok.1 h
  split_ifs at h with c2
  obtain ⟨dh, -, h⟩ := bind_eq_ok.1 h
  obtain ⟨A, hA, h⟩ := bind_eq_ok.1 h
  obtain ⟨a1, a2, -⟩ := Mat.forCols_inv hA
  have fin : ∀ D, pwvFinish x (n?.getD x.len) (ts?.getD (arange 0 x.len)) A D = .ok (tfr, rtfr, v) → _ :=
    fun D h => pwvFinish_places a1 a2 h
  rw [h1, h2]
  cases dh with
  | none => exact ⟨(fin _ h).1.1, (fin _ h).1.2, (fin _ h).2.1, fun p _ q hq => (fin _ h).2.2 p q hq⟩
  | some dh =>
    obtain ⟨D, -, h⟩ := bind_eq_ok.1 h
    exact ⟨(fin _ h).1.1, (fin _ h).1.2, (fin _ h).2.1, fun p _ q hq => (fin _ h).2.2 p q hq⟩

/-! ## Ridges -/

/-- `ridges` (method `rsp`) of a reassigned spectrogram: since it counts columns from 0 and the reassignment from 1, the points it returns lie in one column
`c`, never the first, and are the cells whose energy was moved to the same row of the column *on the left*; cells that keep their place are
never returned.  With a single instant there is never a point, so the call raises. -/
theorem C102_ridges_rsp (x : Vec ℂ) (ts? : Option (Vec ℤ)) (n? : Option ℕ) (w? : Option (Vec ℝ)) (tfr rtfr : Mat ℝ) (v : Mat (Option ℂ))
    (h : Reassigned.spectrogram x ts? n? w? = .ok (tfr, rtfr, v)) (ts : Vec ℝ) (ht : tfr.cols ≤ ts.len) :
    (∀ times freqs, ridges tfr v (some ts) .rsp = .ok (times, freqs) → ∃ c, 1 ≤ c ∧ c < tfr.cols ∧ 1 ≤ freqs.len ∧
      (∀ j < times.len, times.get j = ts.get c) ∧
      ∀ j < freqs.len, ∃ k < tfr.rows, freqs.get j = (k : ℝ) / tfr.rows ∧ v.get k c = some ((k : ℂ) + Complex.I * (c : ℂ)) ∧
        tfr.get k c ≤ rtfr.get k (c - 1)) ∧
    (tfr.cols ≤ 1 → ridges tfr v (some ts) .rsp = .error .unboundLocalError) := by
  obtain ⟨d1, d2, d3, d4⟩ := C102_spectrogram_consistent x ts? n? w? tfr rtfr v h
  obtain ⟨-, -, hnn, -⟩ := spectrogram_inv h
  have hpt : ∀ k < tfr.rows, ∀ c < tfr.cols, v.get k c = some ((k : ℂ) + Complex.I * (c : ℂ)) → 1 ≤ c ∧ tfr.get k c ≤ rtfr.get k (c - 1) := by
    intro k hk c hc e
    rcases d3 k hk c hc with h0 | ⟨p, hp, q, hq, h1⟩
    · rw [h0] at e; cases e
    · rw [e] at h1
      injection h1 with h1
      have e1 := congrArg Complex.re h1
      have e2 := congrArg Complex.im h1
      simp at e1 e2
      have e1' : k = p := by exact_mod_cast e1
      have e2' : c = q + 1 := by exact_mod_cast e2
      refine ⟨by omega, ?_⟩
      rw [d4 k hk (c - 1) (by omega)]
      have hterm : ∀ c' ∈ range tfr.cols, 0 ≤ ∑ k' ∈ range tfr.rows,
          if v.get k' c' = some ((k : ℂ) + Complex.I * (((c - 1 : ℕ) : ℂ) + 1)) ∨ (v.get k' c' = none ∧ k' = k ∧ c' = c - 1) then tfr.get k' c' else 0 :=
        fun c' _ => Finset.sum_nonneg fun k' _ => by split_ifs; exacts [hnn _ _, le_rfl]
      refine le_trans ?_ (Finset.single_le_sum hterm (Finset.mem_range.2 hc))
      refine le_trans ?_ (Finset.single_le_sum (f := fun k' => if v.get k' c = some ((k : ℂ) + Complex.I * (((c - 1 : ℕ) : ℂ) + 1)) ∨
        (v.get k' c = none ∧ k' = k ∧ c = c - 1) then tfr.get k' c else 0) (fun k' _ => by split_ifs; exacts [hnn _ _, le_rfl]) (Finset.mem_range.2 hk))
      rw [if_pos]
      left
      rw [e, e2']
      simp
  have hrun := ridges_run .rsp (by decide) tfr v ts d1 d2.ge ht
  constructor
  · intro times freqs e
    rcases hrun with ⟨-, e'⟩ | ⟨c, hc, ⟨i, hi, h2⟩, -, e'⟩
    · rw [e] at e'; cases e'
    · rw [e] at e'
      injection e' with e'
      simp only [Prod.mk.injEq] at e'
      obtain ⟨rfl, rfl⟩ := e'
      have hrows : (0 : ℝ) < tfr.rows := by exact_mod_cast (by omega : 0 < tfr.rows)
      have hd : 0 < ridgeDen .rsp tfr.rows := by unfold ridgeDen; rw [if_pos rfl]; exact hrows
      obtain ⟨f1, -, f3⟩ := ofEntries_positions (n := tfr.rows) (p := RidgePoint .rsp tfr v c) hd
      refine ⟨c, (hpt i hi c hc h2).1, hc, ?_, fun _ _ => rfl, fun j hj => ?_⟩
      · rw [f1]; exact count_pos hi h2
      · obtain ⟨k, hk, hkp, hke⟩ := (f3 _).1 ⟨j, hj, rfl⟩
        exact ⟨k, hk, by rw [hke]; unfold ridgeDen; rw [if_pos rfl], hkp, (hpt k hk c hc hkp).2⟩
  · intro h1
    rcases hrun with ⟨-, e'⟩ | ⟨c, hc, ⟨i, hi, h2⟩, -, -⟩
    · exact e'
    · have := (hpt i hi c hc h2).1
      omega

/-- The reassigned spectrogram of an impulse, all of whose energy is gathered on the impulse, has no ridge at all: the call raises. -/
theorem C102_impulse_no_ridge (N p n L : ℕ) (A : ℂ) (w : Vec ℝ) (hp : p + 1 < N) (hn : 2 ≤ n) (hw : w.len = 2 * L + 1) (hL : 1 ≤ L)
    (hmid : w.get L ≠ 0) (ts : Vec ℝ) (ht : N ≤ ts.len) :
    ∃ tfr rtfr v, Reassigned.spectrogram ⟨N, fun i => if i = p then A else 0⟩ none (some n) (some w) = .ok (tfr, rtfr, v) ∧
      ridges tfr v (some ts) .rsp = .error .unboundLocalError := by
  obtain ⟨tfr, rtfr, v, e, h1, h0, -⟩ := C63_impulse N p n L A w hp hn hw hL hmid
  obtain ⟨d1, d2, d3, d4⟩ := C102_spectrogram_consistent _ _ _ _ tfr rtfr v e
  obtain ⟨g1, -, g2, -⟩ := C54_spectrogram_total _ _ _ _ tfr rtfr v e
  have g1' : tfr.rows = n := g1
  have g2' : tfr.cols = N := g2.trans (by simp [arange])
  refine ⟨tfr, rtfr, v, e, ?_⟩
  rcases ridges_run .rsp (by decide) tfr v ts d1 d2.ge (by omega) with ⟨-, e'⟩ | ⟨c, hc, ⟨i, hi, h2⟩, -, -⟩
  · exact e'
  · exfalso
    have h2' : v.get i c = some ((i : ℂ) + Complex.I * (c : ℂ)) := h2
    rcases lt_or_ge (1e-6 * (‖A‖ ^ 2 / N)) (tfr.get i c) with ha | ha
    · rw [h1 i (by omega) c (by omega) ha] at h2'
      injection h2' with h3
      have e1 := congrArg Complex.re h3
      simp only [Complex.add_re, Complex.intCast_re, Complex.mul_re, Complex.I_re, Complex.I_im, Complex.add_im, Complex.natCast_re, Complex.natCast_im,
        Complex.one_im, zero_mul, one_mul, add_zero, sub_zero] at e1
      have e2 : ((i : ℤ) - 1) % n = i := by exact_mod_cast e1
      rcases Nat.eq_zero_or_pos i with rfl | hi0
      · have : (((0 : ℕ) : ℤ) - 1) % n = n - 1 := by
          rw [show ((0 : ℕ) : ℤ) - 1 = ((n : ℤ) - 1) + n * (-1) by push_cast; ring, Int.add_mul_emod_self_left,
            Int.emod_eq_of_lt (by omega) (by omega)]
        omega
      · rw [Int.emod_eq_of_lt (by omega) (by omega)] at e2
        omega
    · rw [h0 i (by omega) c (by omega) ha] at h2'
      cases h2'

/-- `ridges` (method `rpwv`) of a reassigned pseudo Wigner-Ville distribution: the rows it returns are those whose energy was moved one row *down*, so row 0 (frequency 0)
is never returned; with a single bin the call always raises. -/
theorem C102_ridges_rpwv (x : Vec ℂ) (ts? : Option (Vec ℤ)) (n? : Option ℕ) (w? : Option (Vec ℝ)) (tfr rtfr : Mat ℝ) (v : Mat (Option ℂ))
    (h : pseudoWignerVille x ts? n? w? = .ok (tfr, rtfr, v)) (ts : Vec ℝ) (ht : tfr.cols ≤ ts.len) :
    (∀ times freqs, ridges tfr v (some ts) .rpwv = .ok (times, freqs) → ∃ c < tfr.cols, 1 ≤ freqs.len ∧
      (∀ j < times.len, times.get j = ts.get c) ∧
      ∀ j < freqs.len, ∃ k < tfr.rows, 1 ≤ k ∧ freqs.get j = (k : ℝ) / (2 * tfr.rows) ∧ v.get k c = some (((k - 1 : ℕ) : ℂ) + 1) ∧
        Spec.halfMean tfr < tfr.get k c) ∧
    (tfr.rows ≤ 1 → ridges tfr v (some ts) .rpwv = .error .unboundLocalError) := by
  obtain ⟨d1, d2, d3, d4⟩ := C102_pwv_consistent x ts? n? w? tfr rtfr v h
  have hpt : ∀ k < tfr.rows, ∀ c < tfr.cols, v.get k c = some (k : ℂ) → 1 ≤ k ∧ v.get k c = some (((k - 1 : ℕ) : ℂ) + 1) := by
    intro k hk c hc e
    rcases d3 k hk c hc with h0 | ⟨p, hp, h1⟩
    · rw [h0] at e; cases e
    · have h2 := h1
      rw [e] at h1
      injection h1 with h1
      have e1 : k = p + 1 := by exact_mod_cast h1
      exact ⟨by omega, by rw [h2, show k - 1 = p by omega]⟩
  have hrun := ridges_run .rpwv (by decide) tfr v ts d1 d2.ge ht
  constructor
  · intro times freqs e
    rcases hrun with ⟨-, e'⟩ | ⟨c, hc, ⟨i, hi, h2⟩, -, e'⟩
    · rw [e] at e'; cases e'
    · rw [e] at e'
      injection e' with e'
      simp only [Prod.mk.injEq] at e'
      obtain ⟨rfl, rfl⟩ := e'
      have hrows : (0 : ℝ) < tfr.rows := by exact_mod_cast (by omega : 0 < tfr.rows)
      have hden : ridgeDen .rpwv tfr.rows = 2 * tfr.rows := by
        unfold ridgeDen; rw [if_neg (by decide), show (2.0 : ℝ) = 2 by norm_num]
      have hd : 0 < ridgeDen .rpwv tfr.rows := by rw [hden]; linarith
      obtain ⟨f1, -, f3⟩ := ofEntries_positions (n := tfr.rows) (p := RidgePoint .rpwv tfr v c) hd
      refine ⟨c, hc, ?_, fun _ _ => rfl, fun j hj => ?_⟩
      · rw [f1]; exact count_pos hi h2
      · obtain ⟨k, hk, hkp, hke⟩ := (f3 _).1 ⟨j, hj, rfl⟩
        have := hpt k hk c hc hkp.2
        exact ⟨k, hk, this.1, by rw [hke, hden], this.2, hkp.1⟩
  · intro h1
    rcases hrun with ⟨-, e'⟩ | ⟨c, hc, ⟨i, hi, h2⟩, -, -⟩
    · exact e'
    · have := (hpt i hi c hc h2.2).1
      omega

/-! ## An impulse in the reassigned pseudo Wigner-Ville distribution -/

theorem count_congr' {n : ℕ} {P Q : ℕ → Prop} (h : ∀ i < n, (P i ↔ Q i)) : count n P = count n Q := by
  classical
  unfold count
  congr 1
  ext i
  simp only [Finset.mem_filter, Finset.mem_range]
  exact ⟨fun ⟨a, b⟩ => ⟨a, (h i a).1 b⟩, fun ⟨a, b⟩ => ⟨a, (h i a).2 b⟩⟩

theorem count_eq_card {n : ℕ} {P : ℕ → Prop} [DecidablePred P] : count n P = ((range n).filter P).card := by
  classical
  unfold count
  congr 1
  ext i
  simp

/-- The reassigned pseudo Wigner-Ville distribution of an impulse of amplitude `A ≠ 0` at sample `p` among instants that include `p + 1`: all rows of
that column hold `|A|²`, and every other column is zero. -/
theorem impulse_pwv (N p n L : ℕ) (A : ℂ) (hA : A ≠ 0) (ts : Vec ℤ) (w : Vec ℝ) (hn : n ≠ 0) (hp : p < N) (hw : w.len = 2 * L + 1) (hL : 1 ≤ L)
    (hmid : w.get L ≠ 0) (a b : ℤ) (hab : IsRange ts a b) (h0 : 0 ≤ a) (h1 : a < N)
    (hr : ∀ c < ts.len, ts.get c ≤ roundEven ((n : ℝ) / 2) ∨ (N : ℤ) - ts.get c < roundEven ((n : ℝ) / 2) ∨
      (L : ℤ) < roundEven ((n : ℝ) / 2) - 1) :
    ∃ tfr rtfr v, pseudoWignerVille ⟨N, fun i => if i = p then A else 0⟩ (some ts) (some n) (some w) = .ok (tfr, rtfr, v) ∧
      tfr.rows = n ∧ tfr.cols = ts.len ∧ v.rows = n ∧ v.cols = ts.len ∧
      (∀ k < n, ∀ c < ts.len, tfr.get k c = (if ts.get c = p + 1 then ‖A‖ ^ 2 else 0)) ∧
      ∀ k < n, ∀ c < ts.len, v.get k c = if ts.get c = p + 1 then some (if k = 0 then (n : ℂ) else (k : ℂ)) else none := by
  set x : Vec ℂ := ⟨N, fun i => if i = p then A else 0⟩ with hx
  have hxl : x.len = N := rfl
  obtain ⟨dw, -, -, -, tfr, rtfr, v, e, r1, r2, -, -, r5, r6, r7, r8, -⟩ := C71_closed x ts n L w hn hw hL hmid a b hab h0 h1 hr
  have hS : ∀ (g : ℕ → ℝ) (t : ℤ) (k : ℤ), pwvSum x g n L t k = if t = p + 1 then ((g L * ‖A‖ ^ 2 : ℝ) : ℂ) else 0 :=
    fun g t k => pwvSum_impulse hp A n L g t k
  have htv : ∀ k < n, ∀ c < ts.len, tfr.get k c = if ts.get c = p + 1 then ‖A‖ ^ 2 else 0 := by
    intro k hk c hc
    rw [r7 k hk c hc, hS, div_self hmid, one_mul]
    split_ifs
    · rw [Complex.ofReal_re]
    · rfl
  have hA0 : 0 < ‖A‖ ^ 2 := by have := norm_pos_iff.2 hA; positivity
  have hle : a ≤ b := by obtain ⟨⟨c, hc, e⟩, -, hr⟩ := hab; have := (hr c hc).2; omega
  have hden : (1 : ℝ) ≤ min (b : ℝ) ((x.len : ℝ) - 1) + 1 - a := by
    have i1 : (a : ℝ) ≤ b := by exact_mod_cast hle
    have i2 : (a : ℝ) ≤ (x.len : ℝ) - 1 := by
      have : a ≤ (x.len : ℤ) - 1 := by rw [hxl]; omega
      exact_mod_cast this
    have := le_min i1 i2
    linarith
  have hpow0 : 0 ≤ slicePower x a b := by unfold slicePower; positivity
  have hpow : slicePower x a b ≤ ‖A‖ ^ 2 := by
    have hz : ∀ i : ℤ, ‖zext x i‖ ^ 2 = if i = p then ‖A‖ ^ 2 else 0 := by
      intro i
      unfold zext
      by_cases hi : 0 ≤ i ∧ i < (x.len : ℤ)
      · rw [if_pos hi, hx]
        simp only
        by_cases h : i = p
        · rw [if_pos h, if_pos (by omega)]
        · rw [if_neg h, if_neg (by omega)]; simp
      · rw [if_neg hi, if_neg (by rw [hxl] at hi; omega)]; simp
    unfold slicePower
    simp only [hz]
    rw [Finset.sum_ite_eq']
    rw [div_le_iff₀ (by linarith)]
    split_ifs
    · nlinarith
    · nlinarith
  refine ⟨tfr, rtfr, v, e, r1, r2, r5, r6, htv, fun k hk c hc => ?_⟩
  rw [r8 k hk c hc, htv k hk c hc]
  by_cases ht : ts.get c = p + 1
  · rw [if_pos ht, if_pos ht, if_pos (by rw [abs_of_pos hA0]; linarith), hS, if_pos ht, Complex.ofReal_im]
    unfold pwvDest
    have hround : roundEven (0 : ℝ) = 0 := by simpa using roundEven_intCast 0
    rw [if_pos (by rw [abs_of_pos hA0]; linarith), zero_div, mul_zero, hround, sub_zero]
    by_cases hk0 : k = 0
    · subst hk0
      have e1 : (((0 : ℕ) : ℤ) - 1) % n = n - 1 := by
        rw [show ((0 : ℕ) : ℤ) - 1 = ((n : ℤ) - 1) + n * (-1) by push_cast; ring, Int.add_mul_emod_self_left,
          Int.emod_eq_of_lt (by omega) (by omega)]
      rw [e1, if_pos rfl]
      push_cast
      ring_nf
    · rw [if_neg hk0, Int.emod_eq_of_lt (by omega) (by omega)]
      push_cast
      ring_nf
  · rw [if_neg ht, if_neg ht, if_neg]
    rw [abs_zero, not_lt]
    positivity

/-- Half the mean of that distribution is less than `|A|²`, and not negative. -/
theorem impulse_halfMean {n p : ℕ} {A : ℂ} (hA : A ≠ 0) {ts : Vec ℤ} (hn : n ≠ 0) (hT : 1 ≤ ts.len) {tfr : Mat ℝ} (r1 : tfr.rows = n) (r2 : tfr.cols = ts.len)
    (htv : ∀ k < n, ∀ c < ts.len, tfr.get k c = (if ts.get c = p + 1 then ‖A‖ ^ 2 else 0)) :
    0 ≤ Spec.halfMean tfr ∧ Spec.halfMean tfr < ‖A‖ ^ 2 := by
  have hA0 : 0 < ‖A‖ ^ 2 := by have := norm_pos_iff.2 hA; positivity
  have hn' : (0 : ℝ) < n := by exact_mod_cast (by omega : 0 < n)
  have hT' : (0 : ℝ) < ts.len := by exact_mod_cast (by omega : 0 < ts.len)
  have hsum0 : 0 ≤ ∑ r ∈ range n, ∑ c ∈ range ts.len, tfr.get r c := Finset.sum_nonneg fun k hk => Finset.sum_nonneg fun c hc => by
    rw [htv k (Finset.mem_range.1 hk) c (Finset.mem_range.1 hc)]; split_ifs <;> positivity
  have hsum : ∑ r ∈ range n, ∑ c ∈ range ts.len, tfr.get r c ≤ n * (ts.len * ‖A‖ ^ 2) := by
    calc _ ≤ ∑ r ∈ range n, ∑ c ∈ range ts.len, ‖A‖ ^ 2 := Finset.sum_le_sum fun k hk => Finset.sum_le_sum fun c hc => by
          rw [htv k (Finset.mem_range.1 hk) c (Finset.mem_range.1 hc)]; split_ifs <;> linarith
      _ = _ := by simp
  unfold Spec.halfMean
  rw [r1, r2]
  refine ⟨by positivity, ?_⟩
  rw [div_lt_iff₀ (by positivity)]
  have : 0 < (n : ℝ) * (ts.len * ‖A‖ ^ 2) := by positivity
  nlinarith

/-- The ridge of an impulse in the reassigned pseudo Wigner-Ville distribution (instants increasing, `p + 1` being instant number `c0`): frequencies
`1/2n, …, (n-1)/2n` at that instant: all rows but row 0, though the impulse is in all of them. -/
theorem C102_impulse_rpwv (N p n L c0 : ℕ) (A : ℂ) (hA : A ≠ 0) (ts : Vec ℤ) (w : Vec ℝ) (hn : 2 ≤ n) (hp : p < N) (hw : w.len = 2 * L + 1) (hL : 1 ≤ L)
    (hmid : w.get L ≠ 0) (a b : ℤ) (hab : IsRange ts a b) (h0 : 0 ≤ a) (h1 : a < N)
    (hr : ∀ c < ts.len, ts.get c ≤ roundEven ((n : ℝ) / 2) ∨ (N : ℤ) - ts.get c < roundEven ((n : ℝ) / 2) ∨
      (L : ℤ) < roundEven ((n : ℝ) / 2) - 1) (hc0 : c0 < ts.len) (hts : ∀ c < ts.len, ts.get c = p + 1 ↔ c = c0) :
    ∃ tfr rtfr v times freqs, pseudoWignerVille ⟨N, fun i => if i = p then A else 0⟩ (some ts) (some n) (some w) = .ok (tfr, rtfr, v) ∧
      (∀ k < n, tfr.get k c0 = ‖A‖ ^ 2) ∧
      ridges tfr v (some (ts.map (fun j : ℤ => (j : ℝ)))) .rpwv = .ok (times, freqs) ∧ times.len = n - 1 ∧ freqs.len = n - 1 ∧
      (∀ j < n - 1, times.get j = (p : ℝ) + 1) ∧ ∀ x, (∃ j < n - 1, freqs.get j = x) ↔ ∃ i, 1 ≤ i ∧ i < n ∧ x = (i : ℝ) / (2 * n) := by
  obtain ⟨tfr, rtfr, v, e, r1, r2, r3, r4, htv, hv⟩ := impulse_pwv N p n L A hA ts w (by omega) hp hw hL hmid a b hab h0 h1 hr
  obtain ⟨m0, m1⟩ := impulse_halfMean hA (by omega) (by omega) r1 r2 htv
  have hpt : ∀ c < ts.len, ∀ i < n, (Spec.halfMean tfr < tfr.get i c ∧ v.get i c = some (i : ℂ)) ↔ c = c0 ∧ 1 ≤ i := by
    intro c hc i hi
    rw [htv i hi c hc, hv i hi c hc]
    by_cases h : ts.get c = p + 1
    · rw [if_pos h, if_pos h]
      have := (hts c hc).1 h
      by_cases hi0 : i = 0
      · subst hi0
        rw [if_pos rfl]
        have hn0 : (n : ℂ) ≠ 0 := by exact_mod_cast (by omega : n ≠ 0)
        simp [hn0]
      · rw [if_neg hi0]
        simp only [and_true]
        exact ⟨fun _ => ⟨this, by omega⟩, fun _ => m1⟩
    · rw [if_neg h, if_neg h]
      simp only [reduceCtorEq, and_false, false_iff, not_and]
      exact fun h' => absurd ((hts c hc).2 h') h
  have hpred : ∀ i < n, (Spec.halfMean tfr < tfr.get i c0 ∧ v.get i c0 = some (i : ℂ)) ↔ 1 ≤ i := fun i hi => by
    rw [hpt c0 hc0 i hi]; simp
  obtain ⟨times, freqs, er, l1, l2, l3, -, l5⟩ := C62_last_column_rpwv tfr v (ts.map (fun j : ℤ => (j : ℝ))) (by rw [r1, r3]) (by rw [r2, r4]) (by rw [r2]; exact le_rfl)
    c0 (by omega) ⟨1, by omega, (hpred 1 (by omega)).2 le_rfl⟩ (fun c' hc' hlt i hi h => by
      have := ((hpt c' (by omega) i (by omega)).1 h).1
      omega)
  have hcount : times.len = n - 1 := by
    rw [l1, r1, count_congr' hpred, count_eq_card]
    have : (range n).filter (fun i => 1 ≤ i) = Finset.Ico 1 n := by ext i; simp [and_comm]
    rw [this, Nat.card_Ico]
  refine ⟨tfr, rtfr, v, times, freqs, e, fun k hk => by rw [htv k hk c0 hc0, if_pos ((hts c0 hc0).2 rfl)], er, hcount, l2.trans hcount, fun j hj => ?_, fun x => ?_⟩
  · rw [l3 j (by omega), Vec.map_get, (hts c0 hc0).2 rfl]
    push_cast
    ring
  · rw [← hcount, ← l2, l5 x, r1]
    constructor
    · rintro ⟨i, hi, hp, hx⟩; exact ⟨i, (hpred i hi).1 hp, hi, hx⟩
    · rintro ⟨i, hi, hin, hx⟩; exact ⟨i, hin, (hpred i hin).2 hi, hx⟩

/-! ## Friedman density -/

theorem clampRow_nat {m : ℕ} (p : ℕ) : clampRow m (p : ℝ) = min p (m - 1) := by
  unfold clampRow
  rw [Nat.floor_natCast, min_comm]

/-- The Friedman density of a reassigned pseudo Wigner-Ville distribution (two bins or more, some entry above half the mean): row 0 is zero whatever the signal; the last row
collects the votes for itself, those for row 0, and the entries below the threshold of the reassignment; every other row has its own. -/
theorem C102_friedman_pwv (x : Vec ℂ) (ts? : Option (Vec ℤ)) (n? : Option ℕ) (w? : Option (Vec ℝ)) (tfr rtfr : Mat ℝ) (v : Mat (Option ℂ))
    (h : pseudoWignerVille x ts? n? w? = .ok (tfr, rtfr, v)) (hn : 2 ≤ tfr.rows)
    (hab : ∃ r < tfr.rows, ∃ c < tfr.cols, Spec.halfMean tfr < tfr.get r c) :
    ∃ T : Mat ℝ, friedmanDensity tfr v = .ok T ∧
      (∀ c < tfr.cols, T.get 0 c = 0) ∧
      (∀ r, 1 ≤ r → r + 1 < tfr.rows → ∀ c < tfr.cols, T.get r c
        = (count tfr.rows (fun i => Spec.halfMean tfr < tfr.get i c ∧ v.get i c = some (((r - 1 : ℕ) : ℂ) + 1)) : ℝ)
          / ∑ j ∈ range tfr.cols, (count tfr.rows (fun i => Spec.halfMean tfr < tfr.get i j) : ℝ)) ∧
      ∀ c < tfr.cols, T.get (tfr.rows - 1) c
        = (count tfr.rows (fun i => Spec.halfMean tfr < tfr.get i c ∧ (v.get i c = some (((tfr.rows - 2 : ℕ) : ℂ) + 1) ∨
            v.get i c = some (((tfr.rows - 1 : ℕ) : ℂ) + 1) ∨ v.get i c = none)) : ℝ)
          / ∑ j ∈ range tfr.cols, (count tfr.rows (fun i => Spec.halfMean tfr < tfr.get i j) : ℝ) := by
  classical
  obtain ⟨d1, d2, d3, -⟩ := C102_pwv_consistent x ts? n? w? tfr rtfr v h
  obtain ⟨T, e, t1, t2, t3⟩ := C52_proportion tfr v d1 d2.ge hab
  have hvote : ∀ p : ℕ, voteRow tfr.rows (some ((p : ℂ) + 1)) = min (p + 1) (tfr.rows - 1) := by
    intro p
    unfold voteRow
    simp only [Complex.add_re, Complex.natCast_re, Complex.one_re]
    rw [← clampRow_nat (p + 1)]
    push_cast
    rfl
  have hnone : voteRow tfr.rows none = tfr.rows - 1 := rfl
  have hinj : ∀ p q : ℕ, some ((p : ℂ) + 1) = some ((q : ℂ) + 1) ↔ p = q := fun p q => by simp
  refine ⟨T, e, fun c hc => ?_, fun r hr1 hr2 c hc => ?_, fun c hc => ?_⟩
  · rw [t3 0 (by omega) c hc, count_eq_zero, Nat.cast_zero, zero_div]
    rintro i hi ⟨-, hi2⟩
    rcases d3 i hi c hc with h0 | ⟨p, hp, h1⟩
    · rw [h0, hnone] at hi2; omega
    · rw [h1, hvote] at hi2; omega
  · rw [t3 r (by omega) c hc, count_congr' (fun i hi => ?_)]
    refine and_congr Iff.rfl ?_
    rcases d3 i hi c hc with h0 | ⟨p, hp, h1⟩
    · rw [h0, hnone]
      constructor
      · intro h; omega
      · intro h; cases h
    · rw [h1, hvote, hinj]
      omega
  · rw [t3 (tfr.rows - 1) (by omega) c hc, count_congr' (fun i hi => ?_)]
    refine and_congr Iff.rfl ?_
    rcases d3 i hi c hc with h0 | ⟨p, hp, h1⟩
    · rw [h0, hnone]
      simp
    · rw [h1, hvote, hinj, hinj]
      simp only [reduceCtorEq, or_false]
      omega

/-- The Friedman density of a reassigned spectrogram: entry `(r, c)` counts the cells of column `c` whose energy was moved to row `r` — of any column: the new instant is ignored —
and, in the last row, those below the threshold of the reassignment. -/
theorem C102_friedman_spectrogram (x : Vec ℂ) (ts? : Option (Vec ℤ)) (n? : Option ℕ) (w? : Option (Vec ℝ)) (tfr rtfr : Mat ℝ) (v : Mat (Option ℂ))
    (h : Reassigned.spectrogram x ts? n? w? = .ok (tfr, rtfr, v))
    (hab : ∃ r < tfr.rows, ∃ c < tfr.cols, tfr.get r c ≠ 0) :
    ∃ T : Mat ℝ, friedmanDensity tfr v = .ok T ∧
      ∀ r < tfr.rows, ∀ c < tfr.cols, T.get r c
        = (count tfr.rows (fun i => Spec.halfMean tfr < tfr.get i c ∧ ((∃ q : ℕ, v.get i c = some ((r : ℂ) + Complex.I * ((q : ℂ) + 1))) ∨
            (v.get i c = none ∧ r + 1 = tfr.rows))) : ℝ)
          / ∑ j ∈ range tfr.cols, (count tfr.rows (fun i => Spec.halfMean tfr < tfr.get i j) : ℝ) := by
  classical
  obtain ⟨d1, d2, d3, -⟩ := C102_spectrogram_consistent x ts? n? w? tfr rtfr v h
  obtain ⟨-, -, hnn, -⟩ := spectrogram_inv h
  have hr : 1 ≤ tfr.rows ∧ 1 ≤ tfr.cols := by obtain ⟨r, hr, c, hc, -⟩ := hab; omega
  have hab' : ∃ r < tfr.rows, ∃ c < tfr.cols, Spec.halfMean tfr < tfr.get r c :=
    ((C52_returns_iff tfr v d1 d2.ge hr.1 hr.2).1).1 (C52_nonneg_returns tfr v d1 d2.ge (fun r _ c _ => hnn r c) hab)
  obtain ⟨T, e, t1, t2, t3⟩ := C52_proportion tfr v d1 d2.ge hab'
  refine ⟨T, e, fun r hr' c hc => ?_⟩
  rw [t3 r hr' c hc]
  congr 2
  refine count_congr' fun i hi => ?_
  refine and_congr Iff.rfl ?_
  rcases d3 i hi c hc with h0 | ⟨p, hp, q, hq, h1⟩
  · rw [h0]
    show tfr.rows - 1 = r ↔ _
    simp only [reduceCtorEq, exists_false, false_or, true_and]
    omega
  · rw [h1]
    have hv : voteRow tfr.rows (some ((p : ℂ) + Complex.I * ((q : ℂ) + 1))) = p := by
      unfold voteRow
      simp only [Complex.add_re, Complex.natCast_re, Complex.mul_re, Complex.I_re, Complex.I_im, Complex.add_im, Complex.natCast_im, Complex.one_im,
        zero_mul, add_zero, mul_zero, sub_zero]
      rw [clampRow_nat]
      omega
    rw [hv]
    simp only [Option.some.injEq, spec_place_inj, reduceCtorEq, false_and, or_false]
    exact ⟨fun h => ⟨q, h, rfl⟩, fun ⟨_, h, _⟩ => h⟩

/-- The Friedman density of an impulse: nothing in row 0, twice the share in the last row. -/
theorem C102_impulse_friedman (N p n L c0 : ℕ) (A : ℂ) (hA : A ≠ 0) (ts : Vec ℤ) (w : Vec ℝ) (hn : 2 ≤ n) (hp : p < N) (hw : w.len = 2 * L + 1) (hL : 1 ≤ L)
    (hmid : w.get L ≠ 0) (a b : ℤ) (hab : IsRange ts a b) (h0 : 0 ≤ a) (h1 : a < N)
    (hr : ∀ c < ts.len, ts.get c ≤ roundEven ((n : ℝ) / 2) ∨ (N : ℤ) - ts.get c < roundEven ((n : ℝ) / 2) ∨
      (L : ℤ) < roundEven ((n : ℝ) / 2) - 1) (hc0 : c0 < ts.len) (hts : ∀ c < ts.len, ts.get c = p + 1 ↔ c = c0) :
    ∃ tfr rtfr v T, pseudoWignerVille ⟨N, fun i => if i = p then A else 0⟩ (some ts) (some n) (some w) = .ok (tfr, rtfr, v) ∧
      friedmanDensity tfr v = .ok T ∧
      ∀ r < n, T.get r c0 = if r = 0 then 0 else if r + 1 = n then 2 / (n : ℝ) else 1 / (n : ℝ) := by
  classical
  obtain ⟨tfr, rtfr, v, e, r1, r2, r3, r4, htv, hv⟩ := impulse_pwv N p n L A hA ts w (by omega) hp hw hL hmid a b hab h0 h1 hr
  obtain ⟨m0, m1⟩ := impulse_halfMean hA (by omega) (by omega) r1 r2 htv
  have hiff : ∀ c < ts.len, ∀ i < n, Spec.halfMean tfr < tfr.get i c ↔ c = c0 := by
    intro c hc i hi
    rw [htv i hi c hc]
    by_cases h : ts.get c = p + 1
    · rw [if_pos h]; exact ⟨fun _ => (hts c hc).1 h, fun _ => m1⟩
    · rw [if_neg h]; exact ⟨fun h' => absurd h' (not_lt.2 m0), fun h' => absurd ((hts c hc).2 h') h⟩
  obtain ⟨T, eT, -, -, t3⟩ := C52_proportion tfr v (by rw [r1, r3]) (by rw [r2, r4])
    ⟨0, by omega, c0, by omega, (hiff c0 hc0 0 (by omega)).2 rfl⟩
  refine ⟨tfr, rtfr, v, T, e, eT, fun r hr' => ?_⟩
  rw [t3 r (by omega) c0 (by omega), r1, r2]
  have hden : ∑ j ∈ range ts.len, (count n (fun i => Spec.halfMean tfr < tfr.get i j) : ℝ) = n := by
    rw [Finset.sum_eq_single c0]
    · unfold count
      rw [Finset.filter_true_of_mem (fun i hi => (hiff c0 hc0 i (Finset.mem_range.1 hi)).2 rfl), Finset.card_range]
    · intro c hc hne
      rw [count_eq_zero, Nat.cast_zero]
      exact fun i hi h => hne ((hiff c (Finset.mem_range.1 hc) i hi).1 h)
    · intro h; exact absurd (Finset.mem_range.2 hc0) h
  rw [hden]
  have hvote : ∀ i < n, voteRow n (v.get i c0) = if i = 0 then n - 1 else i := by
    intro i hi
    rw [hv i hi c0 hc0, if_pos ((hts c0 hc0).2 rfl)]
    by_cases hi0 : i = 0
    · rw [if_pos hi0, if_pos hi0]
      show clampRow n ((n : ℂ)).re = _
      rw [Complex.natCast_re, clampRow_nat]; omega
    · rw [if_neg hi0, if_neg hi0]
      show clampRow n ((i : ℂ)).re = _
      rw [Complex.natCast_re, clampRow_nat]; omega
  have hcount : count n (fun i => Spec.halfMean tfr < tfr.get i c0 ∧ voteRow n (v.get i c0) = r)
      = if r = 0 then 0 else if r + 1 = n then 2 else 1 := by
    rw [count_congr' (Q := fun i => (if i = 0 then n - 1 else i) = r) (fun i hi => by
      rw [hvote i hi, hiff c0 hc0 i hi]
      simp), count_eq_card]
    split_ifs with q1 q2
    · rw [Finset.card_eq_zero, Finset.filter_eq_empty_iff]
      intro i hi
      have := Finset.mem_range.1 hi
      split_ifs <;> omega
    · have : (range n).filter (fun i => (if i = 0 then n - 1 else i) = r) = {0, r} := by
        ext i
        simp only [Finset.mem_filter, Finset.mem_range, Finset.mem_insert, Finset.mem_singleton]
        split_ifs <;> omega
      rw [this, Finset.card_pair (by omega)]
    · have : (range n).filter (fun i => (if i = 0 then n - 1 else i) = r) = {r} := by
        ext i
        simp only [Finset.mem_filter, Finset.mem_range, Finset.mem_singleton]
        split_ifs <;> omega
      rw [this, Finset.card_singleton]
  rw [hcount]
  split_ifs <;> simp

/-! ## Concrete cases -/

/-- An impulse at sample 2 of 6, window of three samples, 8 bins. -/
example : ∃ tfr rtfr v, Reassigned.spectrogram ⟨6, fun i => if i = 2 then (3 : ℂ) else 0⟩ none (some 8) (some hann3) = .ok (tfr, rtfr, v) ∧
    ridges tfr v (some ⟨6, fun c => c⟩) .rsp = .error .unboundLocalError :=
  C102_impulse_no_ridge 6 2 8 1 3 hann3 (by norm_num) (by norm_num) rfl (le_refl 1) (by norm_num [hann3]) _ (le_refl 6)

theorem roundEven_four : roundEven (((8 : ℕ) : ℝ) / 2) = 4 := by
  rw [show ((8 : ℕ) : ℝ) / 2 = ((4 : ℤ) : ℝ) by norm_num]
  exact roundEven_intCast 4

/-- The same impulse in the reassigned pseudo Wigner-Ville distribution: seven ridge points instead of eight. -/
example : ∃ tfr rtfr v times freqs, pseudoWignerVille ⟨6, fun i => if i = 2 then (3 : ℂ) else 0⟩ (some (arange 0 (6 : ℕ))) (some 8) (some hann3) = .ok (tfr, rtfr, v) ∧
    ridges tfr v (some ((arange 0 (6 : ℕ)).map (fun j : ℤ => (j : ℝ)))) .rpwv = .ok (times, freqs) ∧ freqs.len = 7 := by
  obtain ⟨tfr, rtfr, v, times, freqs, h1, -, h2, -, h3, -⟩ := C102_impulse_rpwv 6 2 8 1 3 3 (by norm_num) (arange 0 (6 : ℕ)) hann3 (by norm_num) (by norm_num) rfl
    (le_refl 1) (by norm_num [hann3]) 0 5 (arange_range (by norm_num)) (le_refl 0) (by norm_num) (fun c hc => by rw [roundEven_four]; right; right; norm_num)
    (by simp [arange]) (fun c hc => by simp only [arange]; omega)
  exact ⟨tfr, rtfr, v, times, freqs, h1, h2, h3⟩

/-- Its Friedman density: row 0 is empty, the last row has a quarter of the weight. -/
example : ∃ tfr rtfr v T, pseudoWignerVille ⟨6, fun i => if i = 2 then (3 : ℂ) else 0⟩ (some (arange 0 (6 : ℕ))) (some 8) (some hann3) = .ok (tfr, rtfr, v) ∧
    friedmanDensity tfr v = .ok T ∧ T.get 0 3 = 0 ∧ T.get 7 3 = 1 / 4 := by
  obtain ⟨tfr, rtfr, v, T, h1, h2, h3⟩ := C102_impulse_friedman 6 2 8 1 3 3 (by norm_num) (arange 0 (6 : ℕ)) hann3 (by norm_num) (by norm_num) rfl
    (le_refl 1) (by norm_num [hann3]) 0 5 (arange_range (by norm_num)) (le_refl 0) (by norm_num) (fun c hc => by rw [roundEven_four]; right; right; norm_num)
    (by simp [arange]) (fun c hc => by simp only [arange]; omega)
  refine ⟨tfr, rtfr, v, T, h1, h2, by rw [h3 0 (by norm_num)]; simp, by rw [h3 7 (by norm_num)]; norm_num⟩

end Tftb
