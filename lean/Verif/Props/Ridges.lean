import Verif.Props.Friedman

/-! # Property C62: ridge extraction -/

namespace Tftb

open Finset Spec ProcUtils Post

/-- The reassigned point of cell `(i, c)` is the cell itself (and, for the frequency-only methods, the cell is above half the mean):
what the code tests. -/
def RidgePoint (method : RidgeMethod) (tfr : Mat ℝ) (reMat : Mat (Option ℂ)) (c i : ℕ) : Prop :=
  match method with
  | .rpwv => Spec.halfMean tfr < tfr.get i c ∧ reMat.get i c = some (i : ℂ)
  | _ => reMat.get i c = some ((i : ℂ) + Complex.I * (c : ℂ))

theorem elim_row (z : Option ℂ) (i : ℕ) : z.elim False (fun z => z - (((i : ℕ) : ℝ) : ℂ) = 0) ↔ z = some (i : ℂ) := by
  cases z with
  | none => simp
  | some z => simp [sub_eq_zero]

theorem elim_place (z : Option ℂ) (i c : ℕ) :
    (z.elim False (fun z => z.re - (i : ℝ) = 0) ∧ z.elim False (fun z => z.im - (c : ℝ) = 0)) ↔ z = some ((i : ℂ) + Complex.I * (c : ℂ)) := by
  cases z with
  | none => simp
  | some z => simp [sub_eq_zero, Complex.ext_iff]

theorem ridgeMask_ok {method : RidgeMethod} (hne : method ≠ .other) {tfr : Mat ℝ} {reMat : Mat (Option ℂ)} {c : ℕ} (hr : reMat.rows = tfr.rows)
    (hc : c < reMat.cols) :
    ∃ v : Vec Prop, ridgeMask method tfr reMat c = .ok v ∧ v.len = tfr.rows ∧ ∀ i < tfr.rows, (v.get i ↔ RidgePoint method tfr reMat c i) := by
  have e1 : ((arange 0 tfr.rows).map (fun j : ℤ => (j : ℝ))).len = tfr.rows := by simp [arange, Vec.map]
  have e2 : ∀ i, ((arange 0 tfr.rows).map (fun j : ℤ => (j : ℝ))).get i = i := by intro i; rw [Vec.map_get, arange_get]; push_cast; ring
  have e3 : (reMat.col c).len = tfr.rows := hr
  unfold ridgeMask
  simp only []
  rw [if_neg (not_le.2 hc)]
  cases method with
  | rpwv =>
    simp only []
    rw [Vec.bcast_ok (e3.trans e1.symm), ok_bind, Vec.bcast_ok (by exact e3.symm)]
    refine ⟨_, rfl, rfl, fun i hi => ?_⟩
    simp only [RidgePoint, e2, ← halfMean_eq]
    exact and_congr Iff.rfl (elim_row (reMat.get i c) i)
  | other => exact absurd rfl hne
  | rspwv =>
    simp only []
    rw [Vec.bcast_ok (e3.trans e1.symm), ok_bind, Vec.bcast_ok (by rfl), ok_bind]
    simp only []
    rw [if_pos (by exact e3)]
    refine ⟨_, rfl, e3, fun i hi => ?_⟩
    simp only [RidgePoint, e2]
    exact elim_place (reMat.get i c) i c
  | rsp =>
    simp only []
    rw [Vec.bcast_ok (e3.trans e1.symm), ok_bind, Vec.bcast_ok (by rfl), ok_bind]
    simp only []
    rw [if_pos (by exact e3)]
    refine ⟨_, rfl, e3, fun i hi => ?_⟩
    simp only [RidgePoint, e2]
    exact elim_place (reMat.get i c) i c

theorem positions_congr {n : ℕ} {p q : ℕ → Prop} (h : ∀ i < n, (p i ↔ q i)) : Vec.positions n p = Vec.positions n q := by
  unfold Vec.positions
  refine List.filter_congr fun i hi => ?_
  exact decide_eq_decide.2 (h i (List.mem_range.1 hi))

theorem positions_eq_nil {n : ℕ} {p : ℕ → Prop} : Vec.positions n p = [] ↔ ∀ i < n, ¬ p i := by
  unfold Vec.positions
  rw [List.filter_eq_nil_iff]
  simp

/-- The loop over the columns keeps the points of the last column that has any. -/
theorem ridges_run (method : RidgeMethod) (hne : method ≠ .other) (tfr : Mat ℝ) (reMat : Mat (Option ℂ)) (ts : Vec ℝ)
    (hr : reMat.rows = tfr.rows) (hc : tfr.cols ≤ reMat.cols) (ht : tfr.cols ≤ ts.len) :
    ((∀ c < tfr.cols, ∀ i < tfr.rows, ¬ RidgePoint method tfr reMat c i) ∧
      ridges tfr reMat (some ts) method = .error .unboundLocalError) ∨
    ∃ c < tfr.cols, (∃ i < tfr.rows, RidgePoint method tfr reMat c i) ∧
      (∀ c' < tfr.cols, c < c' → ∀ i < tfr.rows, ¬ RidgePoint method tfr reMat c' i) ∧
      ridges tfr reMat (some ts) method = .ok
        (⟨(Vec.positions tfr.rows (RidgePoint method tfr reMat c)).length, fun _ => ts.get c⟩,
          Vec.ofEntries ((Vec.positions tfr.rows (RidgePoint method tfr reMat c)).map (fun i : ℕ => (i : ℝ) / ridgeDen method tfr.rows))) := by
  obtain ⟨pts, e, hP⟩ := foldlM_range_ok
    (f := fun (pts : Option (Vec ℝ × Vec ℝ)) (icol : ℕ) => do
      let ti ← ts.item icol
      let mask ← ridgeMask method tfr reMat icol
      let idx := Vec.positions mask.len mask.get
      if idx = [] then .ok pts
      else .ok (some (⟨idx.length, fun _ => ti⟩, Vec.ofEntries (idx.map (fun i : ℕ => (i : ℝ) / ridgeDen method tfr.rows)))))
    (N := tfr.cols) (s := none)
    (P := fun q pts => (pts = none ∧ ∀ c < q, ∀ i < tfr.rows, ¬ RidgePoint method tfr reMat c i) ∨
      ∃ c < q, (∃ i < tfr.rows, RidgePoint method tfr reMat c i) ∧
      (∀ c' < q, c < c' → ∀ i < tfr.rows, ¬ RidgePoint method tfr reMat c' i) ∧
      pts = some (⟨(Vec.positions tfr.rows (RidgePoint method tfr reMat c)).length, fun _ => ts.get c⟩,
          Vec.ofEntries ((Vec.positions tfr.rows (RidgePoint method tfr reMat c)).map (fun i : ℕ => (i : ℝ) / ridgeDen method tfr.rows))))
    (Or.inl ⟨rfl, fun c hc => absurd hc (by omega)⟩) (by
      intro q hq pts hP
      obtain ⟨v, ev, vl, vg⟩ := ridgeMask_ok (method := method) hne (tfr := tfr) (c := q) hr (by omega)
      rw [Vec.item_ok (by omega) (by omega), ok_bind, ev, ok_bind, Int.toNat_natCast]
      simp only []
      rw [vl, positions_congr vg]
      by_cases h : Vec.positions tfr.rows (RidgePoint method tfr reMat q) = []
      · rw [if_pos h]
        rw [positions_eq_nil] at h
        refine ⟨pts, rfl, ?_⟩
        rcases hP with ⟨h1, h2⟩ | ⟨c, h1, h2, h3, h4⟩
        · refine Or.inl ⟨h1, fun c hc => ?_⟩
          by_cases hcq : c = q
          · exact hcq ▸ h
          · exact h2 c (by omega)
        · refine Or.inr ⟨c, by omega, h2, fun c' hc' hlt => ?_, h4⟩
          by_cases hcq : c' = q
          · exact hcq ▸ h
          · exact h3 c' (by omega) hlt
      · rw [if_neg h]
        rw [positions_eq_nil] at h
        push Not at h
        refine ⟨_, rfl, Or.inr ⟨q, by omega, h, fun c' hc' hlt => absurd hc' (by omega), rfl⟩⟩)
  have e' : ridges tfr reMat (some ts) method = pts.elim (.error .unboundLocalError) .ok := by
    unfold ridges
    rw [if_neg hne]
    simp only [Option.getD_some]
    simp only [] at e
    rw [e, ok_bind]
    cases pts <;> rfl
  rw [e']
  rcases hP with ⟨h1, h2⟩ | ⟨c, h1, h2, h3, h4⟩
  · subst h1
    exact Or.inl ⟨h2, rfl⟩
  · subst h4
    exact Or.inr ⟨c, h1, h2, h3, rfl⟩

/-- The points kept are the ridge rows of the column, in increasing order. -/
theorem ofEntries_positions {n : ℕ} {p : ℕ → Prop} {d : ℝ} (hd : 0 < d) :
    let f := Vec.ofEntries ((Vec.positions n p).map (fun i : ℕ => (i : ℝ) / d))
    f.len = count n p ∧ (∀ j k, j < k → k < f.len → f.get j < f.get k) ∧
      ∀ x, (∃ j < f.len, f.get j = x) ↔ ∃ i < n, p i ∧ x = (i : ℝ) / d := by
  classical
  have hsort : (Vec.positions n p).Pairwise (· < ·) := by
    unfold Vec.positions
    exact List.Pairwise.filter _ List.pairwise_lt_range
  intro f
  have hlen : f.len = (Vec.positions n p).length := by simp [f, Vec.ofEntries]
  have hget : ∀ j, (hj : j < (Vec.positions n p).length) → f.get j = ((Vec.positions n p)[j] : ℝ) / d := by
    intro j hj
    simp only [f, Vec.ofEntries]
    rw [List.getD_eq_getElem?_getD, List.getElem?_eq_getElem (by simpa using hj), Option.getD_some, List.getElem_map]
  refine ⟨?_, ?_, ?_⟩
  · rw [hlen]
    unfold Vec.positions
    exact filter_range_length n p
  · intro j k hjk hk
    rw [hlen] at hk
    rw [hget j (by omega), hget k hk]
    have : (Vec.positions n p)[j] < (Vec.positions n p)[k] := List.pairwise_iff_getElem.1 hsort j k (by omega) hk hjk
    have : (((Vec.positions n p)[j] : ℕ) : ℝ) < ((Vec.positions n p)[k] : ℕ) := by exact_mod_cast this
    exact div_lt_div_of_pos_right this hd
  · intro x
    have hmem : ∀ i, i ∈ Vec.positions n p ↔ i < n ∧ p i := by intro i; simp [Vec.positions]
    constructor
    · rintro ⟨j, hj, rfl⟩
      rw [hlen] at hj
      have := (hmem _).1 (List.getElem_mem hj)
      exact ⟨_, this.1, this.2, hget j hj⟩
    · rintro ⟨i, hi, hp, rfl⟩
      obtain ⟨j, hj, e⟩ := List.getElem_of_mem ((hmem i).2 ⟨hi, hp⟩)
      exact ⟨j, by rw [hlen]; exact hj, by rw [hget j hj, e]⟩

/-- C62: for the frequency-and-time methods ("rsp", "type1", "rspwv"), `c` being the last column containing a fixed point of the
reassignment: the call returns the fixed points *of that column only*, all at instant `ts[c]`, with increasing frequencies
`i / n` ("rsp", "type1") or `i / 2n` ("rspwv"). -/
theorem C62_last_column (method : RidgeMethod) (hm : method = .rsp ∨ method = .rspwv) (tfr : Mat ℝ) (reMat : Mat (Option ℂ)) (ts : Vec ℝ)
    (hr : reMat.rows = tfr.rows) (hc : tfr.cols ≤ reMat.cols) (ht : tfr.cols ≤ ts.len) (c : ℕ) (hcc : c < tfr.cols)
    (hp : ∃ i < tfr.rows, reMat.get i c = some ((i : ℂ) + Complex.I * (c : ℂ)))
    (hlast : ∀ c' < tfr.cols, c < c' → ∀ i < tfr.rows, ¬ (reMat.get i c' = some ((i : ℂ) + Complex.I * (c' : ℂ)))) :
    ∃ times freqs : Vec ℝ, ridges tfr reMat (some ts) method = .ok (times, freqs) ∧
      times.len = count tfr.rows (fun i => reMat.get i c = some ((i : ℂ) + Complex.I * (c : ℂ))) ∧ freqs.len = times.len ∧
      (∀ j < times.len, times.get j = ts.get c) ∧ (∀ j k, j < k → k < freqs.len → freqs.get j < freqs.get k) ∧
      ∀ x, (∃ j < freqs.len, freqs.get j = x) ↔ ∃ i < tfr.rows, (reMat.get i c = some ((i : ℂ) + Complex.I * (c : ℂ))) ∧
        x = (i : ℝ) / (if method = .rsp then (tfr.rows : ℝ) else 2 * tfr.rows) := by
  have hne : method ≠ .other := by rcases hm with h | h <;> rw [h] <;> decide
  have hRP : ∀ c i, RidgePoint method tfr reMat c i = (reMat.get i c = some ((i : ℂ) + Complex.I * (c : ℂ))) := by
    intro c i; rcases hm with h | h <;> subst h <;> rfl
  have hrows : 0 < tfr.rows := by obtain ⟨i, hi, -⟩ := hp; omega
  have hrows' : (0 : ℝ) < tfr.rows := by exact_mod_cast hrows
  have hden : ridgeDen method tfr.rows = if method = .rsp then (tfr.rows : ℝ) else 2 * tfr.rows := by
    unfold ridgeDen; rw [show (2.0 : ℝ) = 2 by norm_num]
  have hd : 0 < ridgeDen method tfr.rows := by rw [hden]; split_ifs <;> linarith
  rcases ridges_run method hne tfr reMat ts hr hc ht with ⟨h1, -⟩ | ⟨c', h1, ⟨i, hi, h2⟩, h3, e⟩
  · obtain ⟨i, hi, h⟩ := hp
    exact absurd (hRP c i ▸ h) (h1 c hcc i hi)
  · have hcc' : c' = c := by
      rcases lt_trichotomy c c' with h | h | h
      · exact absurd (hRP c' i ▸ h2) (hlast c' h1 h i hi)
      · exact h.symm
      · obtain ⟨i, hi, h'⟩ := hp
        exact absurd (by rw [hRP]; exact h') (h3 c hcc h i hi)
    subst hcc'
    obtain ⟨f1, f2, f3⟩ := ofEntries_positions (n := tfr.rows) (p := RidgePoint method tfr reMat c') hd
    have hcount : count tfr.rows (RidgePoint method tfr reMat c')
        = count tfr.rows (fun i => reMat.get i c' = some ((i : ℂ) + Complex.I * (c' : ℂ))) := by
      congr 1
      funext i
      exact hRP c' i
    have hl : (Vec.positions tfr.rows (RidgePoint method tfr reMat c')).length = count tfr.rows (RidgePoint method tfr reMat c') := by
      classical
      unfold Vec.positions
      exact filter_range_length _ _
    refine ⟨_, _, e, hl.trans hcount, f1.trans hl.symm, fun _ _ => rfl, f2, fun x => ?_⟩
    rw [f3 x, hden]
    simp only [hRP]

/-- C62: the frequency-only methods ("rpwv", "rpmh") additionally require the cell to be above half the mean, and label row `i`
with `i / 2n`; again only the last column with such a point is returned. -/
theorem C62_last_column_rpwv (tfr : Mat ℝ) (reMat : Mat (Option ℂ)) (ts : Vec ℝ)
    (hr : reMat.rows = tfr.rows) (hc : tfr.cols ≤ reMat.cols) (ht : tfr.cols ≤ ts.len) (c : ℕ) (hcc : c < tfr.cols)
    (hp : ∃ i < tfr.rows, Spec.halfMean tfr < tfr.get i c ∧ reMat.get i c = some (i : ℂ))
    (hlast : ∀ c' < tfr.cols, c < c' → ∀ i < tfr.rows, ¬ (Spec.halfMean tfr < tfr.get i c' ∧ reMat.get i c' = some (i : ℂ))) :
    ∃ times freqs : Vec ℝ, ridges tfr reMat (some ts) .rpwv = .ok (times, freqs) ∧
      times.len = count tfr.rows (fun i => Spec.halfMean tfr < tfr.get i c ∧ reMat.get i c = some (i : ℂ)) ∧ freqs.len = times.len ∧
      (∀ j < times.len, times.get j = ts.get c) ∧ (∀ j k, j < k → k < freqs.len → freqs.get j < freqs.get k) ∧
      ∀ x, (∃ j < freqs.len, freqs.get j = x) ↔ ∃ i < tfr.rows, (Spec.halfMean tfr < tfr.get i c ∧ reMat.get i c = some (i : ℂ)) ∧
        x = (i : ℝ) / (2 * tfr.rows) := by
  have hrows : 0 < tfr.rows := by obtain ⟨i, hi, -⟩ := hp; omega
  have hrows' : (0 : ℝ) < tfr.rows := by exact_mod_cast hrows
  have hden : ridgeDen .rpwv tfr.rows = 2 * tfr.rows := by
    unfold ridgeDen; rw [if_neg (by decide), show (2.0 : ℝ) = 2 by norm_num]
  have hd : 0 < ridgeDen .rpwv tfr.rows := by rw [hden]; linarith
  rcases ridges_run .rpwv (by decide) tfr reMat ts hr hc ht with ⟨h1, -⟩ | ⟨c', h1, ⟨i, hi, h2⟩, h3, e⟩
  · obtain ⟨i, hi, h⟩ := hp
    exact absurd h (h1 c hcc i hi)
  · have hcc' : c' = c := by
      rcases lt_trichotomy c c' with h | h | h
      · exact absurd h2 (hlast c' h1 h i hi)
      · exact h.symm
      · obtain ⟨i, hi, h'⟩ := hp
        exact absurd h' (h3 c hcc h i hi)
    subst hcc'
    obtain ⟨f1, f2, f3⟩ := ofEntries_positions (n := tfr.rows) (p := RidgePoint .rpwv tfr reMat c') hd
    have hl : (Vec.positions tfr.rows (RidgePoint .rpwv tfr reMat c')).length = count tfr.rows (RidgePoint .rpwv tfr reMat c') := by
      classical
      unfold Vec.positions
      exact filter_range_length _ _
    refine ⟨_, _, e, hl, f1.trans hl.symm, fun _ _ => rfl, f2, fun x => ?_⟩
    rw [f3 x, hden]
    rfl

/-- C62: when no column has a ridge point the call fails on an unassigned variable instead of returning empty arrays; an unknown method
is refused with `ValueError`. -/
theorem C62_no_point (tfr : Mat ℝ) (reMat : Mat (Option ℂ)) (ts : Vec ℝ)
    (hr : reMat.rows = tfr.rows) (hc : tfr.cols ≤ reMat.cols) (ht : tfr.cols ≤ ts.len) :
    ((∀ c < tfr.cols, ∀ i < tfr.rows, ¬ (reMat.get i c = some ((i : ℂ) + Complex.I * (c : ℂ)))) →
      ridges tfr reMat (some ts) .rsp = .error .unboundLocalError ∧ ridges tfr reMat (some ts) .rspwv = .error .unboundLocalError) ∧
    ((∀ c < tfr.cols, ∀ i < tfr.rows, ¬ (Spec.halfMean tfr < tfr.get i c ∧ reMat.get i c = some (i : ℂ))) →
      ridges tfr reMat (some ts) .rpwv = .error .unboundLocalError) ∧
    ∀ t, ridges tfr reMat t .other = .error .valueError := by
  refine ⟨fun h => ⟨?_, ?_⟩, fun h => ?_, fun t => by unfold ridges; rw [if_pos rfl]⟩
  · rcases ridges_run .rsp (by decide) tfr reMat ts hr hc ht with ⟨-, e⟩ | ⟨c, h1, ⟨i, hi, h2⟩, -⟩
    · exact e
    · exact absurd h2 (h c h1 i hi)
  · rcases ridges_run .rspwv (by decide) tfr reMat ts hr hc ht with ⟨-, e⟩ | ⟨c, h1, ⟨i, hi, h2⟩, -⟩
    · exact e
    · exact absurd h2 (h c h1 i hi)
  · rcases ridges_run .rpwv (by decide) tfr reMat ts hr hc ht with ⟨-, e⟩ | ⟨c, h1, ⟨i, hi, h2⟩, -⟩
    · exact e
    · exact absurd h2 (h c h1 i hi)

/-- C62 (defect): for "rsp", "type1" and "rspwv" the energy threshold is never applied: two representations of the same shape give the
same ridges, whatever their values. -/
theorem C62_threshold_ignored (method : RidgeMethod) (hm : method ≠ .rpwv) (tfr tfr' : Mat ℝ) (reMat : Mat (Option ℂ)) (ts : Option (Vec ℝ))
    (h1 : tfr'.rows = tfr.rows) (h2 : tfr'.cols = tfr.cols) :
    ridges tfr' reMat ts method = ridges tfr reMat ts method := by
  have hmask : ∀ c, ridgeMask method tfr' reMat c = ridgeMask method tfr reMat c := by
    intro c
    have hl : ∀ M : Mat ℝ, ((M.col c).map (fun a => Post.halfMean M < a)).len = M.rows := fun _ => rfl
    unfold ridgeMask
    cases method with
    | rpwv => exact absurd rfl hm
    | other => rfl
    | rsp => simp only [hl, h1]
    | rspwv => simp only [hl, h1]
  unfold ridges
  simp only [hmask, h1, h2]

/-- Without timestamps the column numbers are used. -/
theorem C62_default_times (tfr : Mat ℝ) (reMat : Mat (Option ℂ)) (method : RidgeMethod) :
    ridges tfr reMat none method = ridges tfr reMat (some ((arange 0 tfr.cols).map (fun j : ℤ => (j : ℝ)))) method := rfl

/-- Methods `rsp` and `rspwv`: a reassignment matrix whose number of rows is neither that of the distribution nor one is refused. -/
theorem C62_shapes (method : RidgeMethod) (hm : method = .rsp ∨ method = .rspwv) (tfr : Mat ℝ) (reMat : Mat (Option ℂ)) (ts : Vec ℝ)
    (hr : reMat.rows ≠ tfr.rows) (hr1 : reMat.rows ≠ 1) (hc : 1 ≤ tfr.cols) (hc' : 1 ≤ reMat.cols) (ht : 1 ≤ ts.len) :
    ridges tfr reMat (some ts) method = .error .valueError := by
  have e1 : ((arange 0 tfr.rows).map (fun j : ℤ => (j : ℝ))).len = tfr.rows := by simp [arange, Vec.map]
  have hmask : ridgeMask method tfr reMat 0 = .error .valueError := by
    have key : ∀ m : RidgeMethod, (m = .rsp ∨ m = .rspwv) → ridgeMask m tfr reMat 0 = (do
      let condt1 ← Vec.bcast (fun (z : Option ℂ) (f : ℝ) => z.elim False (fun z => z.re - f = 0)) (reMat.col 0) ((arange 0 tfr.rows).map (fun j : ℤ => (j : ℝ)))
      let condt2 := (reMat.col 0).map (fun z => z.elim False (fun z => z.im - ((0 : ℕ) : ℝ) = 0))
      let condt3 := (tfr.col 0).map (fun a => Post.halfMean tfr < a)
      let out ← Vec.bcast (fun p q => p ∧ q) condt1 condt2
      if out.len = condt3.len then .ok out
      else if out.len = 1 then .ok ⟨condt3.len, fun _ => out.get 0⟩
      else .error .valueError) := by
      intro m h
      unfold ridgeMask
      rw [if_neg (by omega)]
      rcases h with rfl | rfl <;> rfl
    rw [key method hm]
    have hb : ∀ (f : Option ℂ → ℝ → Prop), tfr.rows ≠ 1 → Vec.bcast f (reMat.col 0) ((arange 0 tfr.rows).map (fun j : ℤ => (j : ℝ))) = .error .valueError := by
      intro f h
      unfold Vec.bcast
      rw [e1]
      show (if reMat.rows = tfr.rows then _ else if reMat.rows = 1 then _ else _) = _
      rw [if_neg hr, if_neg hr1, if_neg h]
    by_cases h : tfr.rows = 1
    · have hb1 : Vec.bcast (fun (z : Option ℂ) (f : ℝ) => z.elim False (fun z => z.re - f = 0)) (reMat.col 0) ((arange 0 tfr.rows).map (fun j : ℤ => (j : ℝ)))
          = .ok ⟨reMat.rows, fun i => (reMat.get i 0).elim False (fun z => z.re - ((arange 0 tfr.rows).map (fun j : ℤ => (j : ℝ))).get 0 = 0)⟩ := by
        unfold Vec.bcast
        rw [e1]
        show (if reMat.rows = tfr.rows then _ else if reMat.rows = 1 then _ else _) = _
        rw [if_neg hr, if_neg hr1, if_pos h]
        rfl
      rw [hb1, ok_bind]
      simp only
      rw [Vec.bcast_ok (by rfl), ok_bind]
      show (if reMat.rows = tfr.rows then _ else if reMat.rows = 1 then _ else _) = _
      rw [if_neg hr, if_neg hr1]
    · rw [hb _ h]
      rfl
  obtain ⟨m, hm1⟩ : ∃ m, tfr.cols = m + 1 := ⟨tfr.cols - 1, by omega⟩
  unfold ridges
  rw [if_neg (by rcases hm with rfl | rfl <;> simp)]
  simp only [Option.getD_some]
  rw [hm1, List.range_succ_eq_map, List.foldlM_cons]
  have hit : ts.item ((0 : ℕ) : ℤ) = .ok (ts.get 0) := by rw [Vec.item_ok (by omega) (by push_cast; omega)]; rfl
  rw [hit, ok_bind, hmask]
  rfl

example : ridges ⟨1, 2, fun _ _ => 0⟩ ⟨2, 2, fun _ _ => some 0⟩ (some ⟨2, fun c => c⟩) .rsp = .error .valueError :=
  C62_shapes .rsp (Or.inl rfl) _ _ _ (by norm_num) (by norm_num) (by norm_num) (by norm_num) (by norm_num)

/-- A `2 × 3` reassignment matrix whose fixed points are `(1, 0)` and `(0, 1)`: only the second is returned. -/
example : ∃ times freqs : Vec ℝ, ridges ⟨2, 3, fun _ _ => 0⟩
    ⟨2, 3, fun i c => if i = 1 ∧ c = 0 then some 1 else if i = 0 ∧ c = 1 then some Complex.I else none⟩ (some ⟨3, fun c => 10 * c⟩) .rsp = .ok (times, freqs) ∧
      ∀ j < times.len, times.get j = 10 := by
  obtain ⟨t, f, e, -, -, h, -⟩ := C62_last_column .rsp (Or.inl rfl) ⟨2, 3, fun _ _ => 0⟩
    ⟨2, 3, fun i c => if i = 1 ∧ c = 0 then some 1 else if i = 0 ∧ c = 1 then some Complex.I else none⟩ ⟨3, fun c => 10 * c⟩ rfl le_rfl le_rfl 1
    (by norm_num) ⟨0, by norm_num, by simp⟩ (by
      intro c' hc' hlt i hi h
      have : c' = 2 := by simp only at hc'; omega
      subst this
      simp at h)
  exact ⟨t, f, e, fun j hj => by rw [h j hj]; norm_num⟩

end Tftb
