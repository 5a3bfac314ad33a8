import Verif.Model.Reassigned
import Verif.Lemmas.Post
import Verif.Lemmas.Spwv

/-! # Helper lemmas: the reassignment loop -/

namespace Tftb

open Finset Spec ProcUtils Reassigned

/-- What entry `(j, i)` contributes to cell `(p, q)`. -/
def hit (tfr : Mat ℝ) (target : ℕ → ℕ → Py (ℤ × ℤ)) (j i p q : ℕ) : ℝ :=
  match target j i with
  | .ok (r, c) => if p = wrapIdx tfr.rows r ∧ q = wrapIdx tfr.cols c then tfr.get j i else 0
  | .error _ => 0

/-- The target of entry `(j, i)` exists. -/
def TargetOk (tfr : Mat ℝ) (target : ℕ → ℕ → Py (ℤ × ℤ)) (j i : ℕ) : Prop :=
  ∃ r c, target j i = .ok (r, c) ∧ IdxOk tfr.rows r ∧ IdxOk tfr.cols c

theorem scatterStep_ok {tfr : Mat ℝ} {target : ℕ → ℕ → Py (ℤ × ℤ)} {j i : ℕ} {A : Mat ℝ} (hr : A.rows = tfr.rows)
    (hc : A.cols = tfr.cols) (h : TargetOk tfr target j i) :
    (target j i >>= fun rc => A.addItem rc.1 rc.2 (tfr.get j i))
      = .ok ⟨tfr.rows, tfr.cols, fun p q => A.get p q + hit tfr target j i p q⟩ := by
  obtain ⟨r, c, e, h1, h2⟩ := h
  rw [e, ok_bind, Mat.addItem_ok (by rw [hr]; exact h1) (by rw [hc]; exact h2), hr, hc]
  congr 2
  funext p q
  unfold hit
  rw [e]

theorem scatterStep_inv {tfr : Mat ℝ} {target : ℕ → ℕ → Py (ℤ × ℤ)} {j i : ℕ} {A B : Mat ℝ} (hr : A.rows = tfr.rows)
    (hc : A.cols = tfr.cols) (h : (target j i >>= fun rc => A.addItem rc.1 rc.2 (tfr.get j i)) = .ok B) :
    TargetOk tfr target j i := by
  obtain ⟨⟨r, c⟩, e, h⟩ := bind_eq_ok.1 h
  unfold Mat.addItem at h
  obtain ⟨b, h, -⟩ := bind_eq_ok.1 h
  unfold Mat.item at h
  split_ifs at h with hi
  rw [hr, hc] at hi
  exact ⟨r, c, e, hi.1, hi.2⟩

theorem scatterAdd_def (tfr : Mat ℝ) (target : ℕ → ℕ → Py (ℤ × ℤ)) : scatterAdd tfr target =
    (List.range tfr.cols).foldlM (fun rtfr (icol : ℕ) =>
      (List.range tfr.rows).foldlM (fun (A : Mat ℝ) (jcol : ℕ) =>
        target jcol icol >>= fun rc => A.addItem rc.1 rc.2 (tfr.get jcol icol)) rtfr) (Mat.zeros tfr.rows tfr.cols : Mat ℝ) := rfl

/-- One column of the loop. -/
theorem scatterCol_ok {tfr : Mat ℝ} {target : ℕ → ℕ → Py (ℤ × ℤ)} {i : ℕ} {A : Mat ℝ} (hr : A.rows = tfr.rows)
    (hc : A.cols = tfr.cols) (h : ∀ j < tfr.rows, TargetOk tfr target j i) :
    ∃ B : Mat ℝ, (List.range tfr.rows).foldlM (fun (A : Mat ℝ) (jcol : ℕ) =>
        target jcol i >>= fun rc => A.addItem rc.1 rc.2 (tfr.get jcol i)) A = .ok B ∧ B.rows = tfr.rows ∧ B.cols = tfr.cols ∧
      ∀ p q, B.get p q = A.get p q + ∑ j ∈ range tfr.rows, hit tfr target j i p q := by
  obtain ⟨B, e, h1, h2, h3⟩ := foldlM_range_ok
    (f := fun (A : Mat ℝ) (jcol : ℕ) => target jcol i >>= fun rc => A.addItem rc.1 rc.2 (tfr.get jcol i)) (N := tfr.rows)
    (fun k (B : Mat ℝ) => B.rows = tfr.rows ∧ B.cols = tfr.cols ∧
      ∀ p q : ℕ, B.get p q = A.get p q + ∑ j ∈ range k, hit tfr target j i p q)
    (s := A) ⟨hr, hc, fun p q => by simp⟩ (by
      rintro k hk B ⟨b1, b2, b3⟩
      refine ⟨_, scatterStep_ok b1 b2 (h k hk), rfl, rfl, fun p q => ?_⟩
      simp only
      rw [b3, Finset.sum_range_succ, add_assoc])
  exact ⟨B, e, h1, h2, h3⟩

theorem scatterCol_inv {tfr : Mat ℝ} {target : ℕ → ℕ → Py (ℤ × ℤ)} {i : ℕ} {A B : Mat ℝ} (hr : A.rows = tfr.rows)
    (hc : A.cols = tfr.cols) (h : (List.range tfr.rows).foldlM (fun (A : Mat ℝ) (jcol : ℕ) =>
        target jcol i >>= fun rc => A.addItem rc.1 rc.2 (tfr.get jcol i)) A = .ok B) :
    ∀ j < tfr.rows, TargetOk tfr target j i := by
  refine (foldlM_range_inv (fun k (B : Mat ℝ) => (B.rows = tfr.rows ∧ B.cols = tfr.cols) ∧ ∀ j < k, TargetOk tfr target j i)
    ⟨⟨hr, hc⟩, fun j hj => absurd hj (by omega)⟩ h ?_).2
  rintro k hk a b ⟨⟨h1, h2⟩, h3⟩ e
  have ht := scatterStep_inv h1 h2 e
  rw [scatterStep_ok h1 h2 ht] at e
  injection e with e
  subst e
  refine ⟨⟨rfl, rfl⟩, fun j hj => ?_⟩
  rcases Nat.lt_succ_iff_lt_or_eq.1 hj with hj | rfl
  · exact h3 j hj
  · exact ht

theorem scatterAdd_ok {tfr : Mat ℝ} {target : ℕ → ℕ → Py (ℤ × ℤ)} (h : ∀ j < tfr.rows, ∀ i < tfr.cols, TargetOk tfr target j i) :
    ∃ R : Mat ℝ, scatterAdd tfr target = .ok R ∧ R.rows = tfr.rows ∧ R.cols = tfr.cols ∧
      ∀ p q, R.get p q = ∑ i ∈ range tfr.cols, ∑ j ∈ range tfr.rows, hit tfr target j i p q := by
  rw [scatterAdd_def]
  obtain ⟨B, e, h1, h2, h3⟩ := foldlM_range_ok
    (f := fun rtfr (icol : ℕ) => (List.range tfr.rows).foldlM (fun (A : Mat ℝ) (jcol : ℕ) =>
        target jcol icol >>= fun rc => A.addItem rc.1 rc.2 (tfr.get jcol icol)) rtfr) (N := tfr.cols)
    (fun k (B : Mat ℝ) => B.rows = tfr.rows ∧ B.cols = tfr.cols ∧
      ∀ p q : ℕ, B.get p q = ∑ i ∈ range k, ∑ j ∈ range tfr.rows, hit tfr target j i p q)
    (s := (Mat.zeros tfr.rows tfr.cols : Mat ℝ)) ⟨rfl, rfl, fun p q => by simp [Mat.zeros]⟩ (by
      rintro k hk B ⟨b1, b2, b3⟩
      obtain ⟨C, e, c1, c2, c3⟩ := scatterCol_ok b1 b2 (fun j hj => h j hj k hk)
      refine ⟨C, e, c1, c2, fun p q => ?_⟩
      rw [c3, b3, Finset.sum_range_succ])
  exact ⟨B, e, h1, h2, h3⟩

theorem scatterAdd_inv {tfr : Mat ℝ} {target : ℕ → ℕ → Py (ℤ × ℤ)} {R : Mat ℝ} (h : scatterAdd tfr target = .ok R) :
    (∀ j < tfr.rows, ∀ i < tfr.cols, TargetOk tfr target j i) ∧ R.rows = tfr.rows ∧ R.cols = tfr.cols ∧
      ∀ p q, R.get p q = ∑ i ∈ range tfr.cols, ∑ j ∈ range tfr.rows, hit tfr target j i p q := by
  have hall : ∀ j < tfr.rows, ∀ i < tfr.cols, TargetOk tfr target j i := by
    rw [scatterAdd_def] at h
    have key := foldlM_range_inv (f := fun rtfr (icol : ℕ) => (List.range tfr.rows).foldlM (fun (A : Mat ℝ) (jcol : ℕ) =>
        target jcol icol >>= fun rc => A.addItem rc.1 rc.2 (tfr.get jcol icol)) rtfr) (N := tfr.cols)
      (s := (Mat.zeros tfr.rows tfr.cols : Mat ℝ)) (fun k (B : Mat ℝ) => (B.rows = tfr.rows ∧ B.cols = tfr.cols) ∧
      ∀ i < k, ∀ j < tfr.rows, TargetOk tfr target j i) ⟨⟨rfl, rfl⟩, fun j hj => absurd hj (by omega)⟩ h
    have := (key (by
        rintro k hk a b ⟨⟨h1, h2⟩, h3⟩ e
        have ht := scatterCol_inv (target := target) (i := k) h1 h2 e
        obtain ⟨C, e', c1, c2, -⟩ := scatterCol_ok h1 h2 ht
        rw [e'] at e
        injection e with e
        subst e
        refine ⟨⟨c1, c2⟩, fun i hi => ?_⟩
        rcases Nat.lt_succ_iff_lt_or_eq.1 hi with hi | rfl
        · exact h3 i hi
        · exact ht)).2
    exact fun j hj i hi => this i hi j hj
  obtain ⟨R', e, h1, h2, h3⟩ := scatterAdd_ok hall
  rw [h] at e
  injection e with e
  subst e
  exact ⟨hall, h1, h2, h3⟩

/-- A failing target stops the loop: with one kind of exception only, that is the outcome. -/
theorem scatterAdd_error {tfr : Mat ℝ} {target : ℕ → ℕ → Py (ℤ × ℤ)} {e : PyErr}
    (h : ∀ j < tfr.rows, ∀ i < tfr.cols, TargetOk tfr target j i ∨ target j i = .error e)
    (he : ∃ j < tfr.rows, ∃ i < tfr.cols, target j i = .error e) : scatterAdd tfr target = .error e := by
  cases hs : scatterAdd tfr target with
  | ok R =>
    obtain ⟨j, hj, i, hi, ht⟩ := he
    obtain ⟨r, c, hok, -⟩ := (scatterAdd_inv hs).1 j hj i hi
    rw [ht] at hok
    cases hok
  | error e' =>
    -- every step either succeeds or fails with `e`
    have step : ∀ {σ : Type} (f : σ → ℕ → Py σ) (P : σ → Prop) (N : ℕ) (s : σ), P s →
        (∀ k < N, ∀ s, P s → (∃ s', f s k = .ok s' ∧ P s') ∨ f s k = .error e) →
        (∃ s', (List.range N).foldlM f s = .ok s' ∧ P s') ∨ (List.range N).foldlM f s = .error e := by
      intro σ f P N s h0 hf
      induction N with
      | zero => exact .inl ⟨s, rfl, h0⟩
      | succ N ih =>
        rw [foldlM_range_succ]
        rcases ih (fun k hk => hf k (by omega)) with ⟨s1, e1, p1⟩ | e1
        · rw [e1, ok_bind]
          exact hf N (by omega) s1 p1
        · rw [e1, error_bind]
          exact .inr rfl
    have := step (fun rtfr (icol : ℕ) => (List.range tfr.rows).foldlM (fun (A : Mat ℝ) (jcol : ℕ) =>
        target jcol icol >>= fun rc => A.addItem rc.1 rc.2 (tfr.get jcol icol)) rtfr)
      (fun A : Mat ℝ => A.rows = tfr.rows ∧ A.cols = tfr.cols) tfr.cols (Mat.zeros tfr.rows tfr.cols : Mat ℝ) ⟨rfl, rfl⟩ (by
        rintro i hi A ⟨a1, a2⟩
        exact step _ (fun A : Mat ℝ => A.rows = tfr.rows ∧ A.cols = tfr.cols) tfr.rows A ⟨a1, a2⟩ (by
          rintro j hj B ⟨b1, b2⟩
          rcases h j hj i hi with ht | ht
          · exact .inl ⟨_, scatterStep_ok b1 b2 ht, rfl, rfl⟩
          · right
            show (target j i >>= _) = _
            rw [ht, error_bind]))
    rw [← scatterAdd_def, hs] at this
    rcases this with ⟨s', e1, -⟩ | e1
    · cases e1
    · exact e1

/-- Total over all cells of what one entry contributes. -/
theorem sum_hit {tfr : Mat ℝ} {target : ℕ → ℕ → Py (ℤ × ℤ)} {j i : ℕ} (h : TargetOk tfr target j i) :
    ∑ p ∈ range tfr.rows, ∑ q ∈ range tfr.cols, hit tfr target j i p q = tfr.get j i := by
  obtain ⟨r, c, e, h1, h2⟩ := h
  have hr := wrapIdx_lt h1
  have hc := wrapIdx_lt h2
  unfold hit
  rw [e]
  simp only
  rw [Finset.sum_eq_single (wrapIdx tfr.rows r), Finset.sum_eq_single (wrapIdx tfr.cols c)]
  · rw [if_pos ⟨rfl, rfl⟩]
  · intro q _ hq; rw [if_neg (fun h => hq h.2)]
  · intro hq; exact absurd (Finset.mem_range.2 hc) hq
  · intro p _ hp
    exact Finset.sum_eq_zero (fun q _ => by rw [if_neg (fun h => hp h.1)])
  · intro hp; exact absurd (Finset.mem_range.2 hr) hp

theorem scatterAdd_total {tfr : Mat ℝ} {target : ℕ → ℕ → Py (ℤ × ℤ)} {R : Mat ℝ} (h : scatterAdd tfr target = .ok R) :
    ∑ p ∈ range R.rows, ∑ q ∈ range R.cols, R.get p q = ∑ j ∈ range tfr.rows, ∑ i ∈ range tfr.cols, tfr.get j i := by
  obtain ⟨h0, h1, h2, h3⟩ := scatterAdd_inv h
  rw [h1, h2]
  simp only [h3]
  calc ∑ p ∈ range tfr.rows, ∑ q ∈ range tfr.cols, ∑ i ∈ range tfr.cols, ∑ j ∈ range tfr.rows, hit tfr target j i p q
      = ∑ i ∈ range tfr.cols, ∑ j ∈ range tfr.rows, ∑ p ∈ range tfr.rows, ∑ q ∈ range tfr.cols, hit tfr target j i p q := by
        have s1 : ∀ p ∈ range tfr.rows, ∑ q ∈ range tfr.cols, ∑ i ∈ range tfr.cols, ∑ j ∈ range tfr.rows, hit tfr target j i p q
            = ∑ i ∈ range tfr.cols, ∑ j ∈ range tfr.rows, ∑ q ∈ range tfr.cols, hit tfr target j i p q := fun p _ => by
          rw [Finset.sum_comm]
          exact Finset.sum_congr rfl (fun i _ => Finset.sum_comm)
        rw [Finset.sum_congr rfl s1, Finset.sum_comm]
        exact Finset.sum_congr rfl (fun i _ => Finset.sum_comm)
    _ = ∑ i ∈ range tfr.cols, ∑ j ∈ range tfr.rows, tfr.get j i := by
        refine Finset.sum_congr rfl (fun i hi => Finset.sum_congr rfl (fun j hj => ?_))
        exact sum_hit (h0 j (Finset.mem_range.1 hj) i (Finset.mem_range.1 hi))
    _ = _ := Finset.sum_comm

theorem scatterAdd_nonneg {tfr : Mat ℝ} {target : ℕ → ℕ → Py (ℤ × ℤ)} {R : Mat ℝ} (h : scatterAdd tfr target = .ok R)
    (h0 : ∀ j < tfr.rows, ∀ i < tfr.cols, 0 ≤ tfr.get j i) (p q : ℕ) : 0 ≤ R.get p q := by
  obtain ⟨-, -, -, h3⟩ := scatterAdd_inv h
  rw [h3]
  refine Finset.sum_nonneg (fun i hi => Finset.sum_nonneg (fun j hj => ?_))
  have := h0 j (Finset.mem_range.1 hj) i (Finset.mem_range.1 hi)
  unfold hit
  split
  · split_ifs
    · exact this
    · exact le_refl 0
  · exact le_refl 0

/-- When every target stays in its column, columns keep their sums. -/
theorem scatterAdd_colsum {tfr : Mat ℝ} {target : ℕ → ℕ → Py (ℤ × ℤ)} {R : Mat ℝ} (h : scatterAdd tfr target = .ok R)
    (hcol : ∀ j i r c, target j i = .ok (r, c) → c = (i : ℤ)) {q : ℕ} (hq : q < tfr.cols) :
    ∑ p ∈ range R.rows, R.get p q = ∑ j ∈ range tfr.rows, tfr.get j q := by
  obtain ⟨h0, h1, h2, h3⟩ := scatterAdd_inv h
  rw [h1]
  simp only [h3]
  rw [Finset.sum_comm, Finset.sum_eq_single q, Finset.sum_comm]
  · refine Finset.sum_congr rfl (fun j hj => ?_)
    obtain ⟨r, c, e, i1, i2⟩ := h0 j (Finset.mem_range.1 hj) q hq
    have hc := hcol j q r c e
    subst hc
    unfold hit
    rw [e]
    simp only [wrapIdx_natCast, and_true]
    rw [Finset.sum_ite_eq' (range tfr.rows)]
    rw [if_pos (Finset.mem_range.2 (wrapIdx_lt i1))]
  · intro i hi hne
    refine Finset.sum_eq_zero (fun p _ => Finset.sum_eq_zero (fun j hj => ?_))
    obtain ⟨r, c, e, i1, i2⟩ := h0 j (Finset.mem_range.1 hj) i (Finset.mem_range.1 hi)
    have hc := hcol j i r c e
    subst hc
    unfold hit
    rw [e]
    simp only [wrapIdx_natCast]
    rw [if_neg (fun h => hne h.2.symm)]
  · intro hn; exact absurd (Finset.mem_range.2 hq) hn


/-! ## The closed form of the reassigned spectrogram -/

/-- First and last lag of a column. -/
noncomputable def rLo (n L : ℕ) (ti : ℤ) : ℤ := -(min (min (roundEven ((n : ℝ) / 2) - 1) (L : ℤ)) ti)
noncomputable def rHi (n L N : ℕ) (ti : ℤ) : ℤ := min (min (roundEven ((n : ℝ) / 2) - 1) (L : ℤ)) ((N : ℤ) - ti)

theorem reassignLags_eq {n L N : ℕ} {ti : ℤ} : reassignLags n L N ti = Finset.Icc (rLo n L ti) (rHi n L N ti) := by
  ext τ
  unfold reassignLags rLo rHi
  simp only [Finset.mem_filter, Finset.mem_Icc]
  omega

theorem r_count (n L N : ℕ) (ti : ℤ) : rHi n L N ti + 1 - rLo n L ti ≤ n := by
  unfold rHi rLo
  rw [roundEven_half]
  split <;> omega

theorem cyc_eq_wrap {x : Vec ℂ} {i : ℤ} (h0 : -1 ≤ i) (h1 : i < x.len) (hx : 1 ≤ x.len) : x.get (wrapIdx x.len i) = cyc x i := by
  unfold cyc wrapIdx
  congr 2
  split_ifs with h
  · have : i = -1 := by omega
    subst this
    have e : (-1 : ℤ) % (x.len : ℤ) = ((x.len : ℤ) - 1) % x.len := by
      rw [show ((x.len : ℤ) - 1) = -1 + (x.len : ℤ) by ring, Int.add_emod_right]
    rw [e, Int.emod_eq_of_lt (by omega) (by omega)]
    ring
  · rw [Int.emod_eq_of_lt (by omega) h1]

/-- One column before the transform. -/
theorem specCol_ok {x : Vec ℂ} {n L : ℕ} {w g : Vec ℝ} {ts : Vec ℤ} (hn : 2 ≤ n) (hx : 1 ≤ x.len) (hw : w.len = 2 * L + 1)
    (hg : g.len = 2 * L + 1) {c : ℕ} (hc : c < ts.len) (hm : reassignMass w.get n L x.len (ts.get c) ≠ 0) :
    specCol x n (L : ℤ) w g ts c ⟨n, fun _ => 0⟩ = .ok ⟨n, lagCol n (rLo n L (ts.get c)) (rHi n L x.len (ts.get c))
      (fun t => cyc x (ts.get c + t - 1) * (g.get ((L : ℤ) + t).toNat : ℂ)
        / ((Real.sqrt (reassignMass w.get n L x.len (ts.get c)) : ℝ) : ℂ))⟩ := by
  set ti := ts.get c with hti
  set lo := rLo n L ti with hlo
  set hi := rHi n L x.len ti with hhi
  have hb : ∀ j < (hi + 1 - lo).toNat, (-1 ≤ ti + (lo + (j : ℤ)) - 1 ∧ ti + (lo + (j : ℤ)) - 1 < x.len) ∧
      (0 ≤ (L : ℤ) + (lo + (j : ℤ)) ∧ (L : ℤ) + (lo + (j : ℤ)) < 2 * L + 1) := by
    intro j hj
    simp only [hlo, hhi, rLo, rHi] at hj ⊢
    omega
  have tk : ∀ v : Vec ℝ, v.len = 2 * L + 1 → v.take ((arange lo (hi + 1)).map (fun t => (L : ℤ) + t))
      = .ok ⟨(hi + 1 - lo).toNat, fun j => v.get ((L : ℤ) + (lo + (j : ℤ))).toNat⟩ := by
    intro v hv
    rw [Vec.take_ok (fun j hj => by have := hb j hj; rw [hv]; push_cast; exact this.2)]
    congr 2
    funext j
    by_cases hj : j < (hi + 1 - lo).toNat
    · simp only [Vec.map, arange]
      rw [wrapIdx_of_nonneg (hb j hj).2.1]
    · have h0 : 0 ≤ (L : ℤ) + (lo + (j : ℤ)) := by
        simp only [hlo, rLo]
        omega
      simp only [Vec.map, arange]
      rw [wrapIdx_of_nonneg h0]
  have tx : x.take ((arange lo (hi + 1)).map (fun t => ti + t - 1))
      = .ok ⟨(hi + 1 - lo).toNat, fun j => x.get (wrapIdx x.len (ti + (lo + (j : ℤ)) - 1))⟩ := by
    unfold Vec.take
    rw [if_pos]
    · rfl
    · intro j hj
      have := hb j hj
      unfold IdxOk
      simp only [Vec.map, arange]
      omega
  have hnorm : (Vec.map (fun a : ℝ => (a : ℂ)) ⟨(hi + 1 - lo).toNat, fun j => w.get ((L : ℤ) + (lo + (j : ℤ))).toNat⟩).norm
      = Real.sqrt (reassignMass w.get n L x.len ti) := by
    unfold Vec.norm reassignMass
    congr 1
    rw [reassignLags_eq, ← hlo, ← hhi, ← sum_arange]
    simp [Vec.map]
  have hpos : Real.sqrt (reassignMass w.get n L x.len ti) ≠ 0 := by
    rw [Real.sqrt_ne_zero']
    refine lt_of_le_of_ne ?_ (Ne.symm hm)
    unfold reassignMass
    positivity
  unfold specCol
  rw [ts_item hc, ok_bind, ← hti]
  show (w.take ((arange lo (hi + 1)).map _) >>= _) = _
  rw [tk w hw, ok_bind]
  show (x.take ((arange lo (hi + 1)).map _) >>= _) = _
  rw [tx, ok_bind]
  show (g.take ((arange lo (hi + 1)).map _) >>= _) = _
  rw [tk g hg, ok_bind, Vec.bcast_ok (by rfl), ok_bind, hnorm, if_neg (fun h => hpos h.1)]
  exact put_lags_zero (by omega) lo hi _ rfl (fun j hj => by
    simp only
    rw [cyc_eq_wrap (hb j hj).1.1 (hb j hj).1.2 hx])

theorem dft_specCol {x : Vec ℂ} {n L : ℕ} (hn : n ≠ 0) (g : Vec ℝ) (ti : ℤ) (ν : ℝ) (k : ℕ) :
    dftC n (lagCol n (rLo n L ti) (rHi n L x.len ti)
      (fun t => cyc x (ti + t - 1) * (g.get ((L : ℤ) + t).toNat : ℂ) / (ν : ℂ))) k = reassignSum x g.get n L ti k / (ν : ℂ) := by
  rw [dftC_lagCol hn (r_count n L x.len ti)]
  unfold reassignSum
  rw [reassignLags_eq, Finset.sum_div]
  refine Finset.sum_congr rfl (fun t _ => ?_)
  rw [rootPow_eq_expi]
  have : (-(2 * Real.pi * (((t * (k : ℤ) : ℤ) : ℝ) / n)) : ℝ) = -(2 * Real.pi * (k * t / n)) := by push_cast; ring
  rw [this]; ring


theorem regular_iff {ts : Vec ℤ} : Regular ts ↔ ∀ i < ts.diff.len, ∀ j < ts.diff.len, ts.diff.get i = ts.diff.get j := by
  unfold Regular Vec.diff
  simp only
  constructor
  · intro h i hi j hj; exact h i (by omega) j (by omega)
  · intro h i hi j hj; exact h i (by omega) j (by omega)

theorem amin_range {ts : Vec ℤ} {a b : ℤ} (h : IsRange ts a b) : (ts.map (fun j : ℤ => (j : ℝ))).amin = .ok (a : ℝ) := by
  obtain ⟨⟨c, hc, ea⟩, -, hr⟩ := h
  obtain ⟨m, e, h1, i, hi, h2⟩ := Vec.amin_spec (v := ts.map (fun j : ℤ => (j : ℝ))) (by rw [Vec.map_len]; omega)
  rw [e]
  congr 1
  have := h1 c hc
  simp only [Vec.map, ea] at this h2
  have h3 := (hr i hi).1
  have : (a : ℝ) ≤ (ts.get i : ℝ) := by exact_mod_cast h3
  linarith

theorem amax_range {ts : Vec ℤ} {a b : ℤ} (h : IsRange ts a b) : (ts.map (fun j : ℤ => (j : ℝ))).amax = .ok (b : ℝ) := by
  obtain ⟨-, ⟨c, hc, ea⟩, hr⟩ := h
  obtain ⟨m, e, h1, i, hi, h2⟩ := Vec.amax_spec (v := ts.map (fun j : ℤ => (j : ℝ))) (by rw [Vec.map_len]; omega)
  rw [e]
  congr 1
  have := h1 c hc
  simp only [Vec.map, ea] at this h2
  have h3 := (hr i hi).2
  have : (ts.get i : ℝ) ≤ (b : ℝ) := by exact_mod_cast h3
  linarith

/-- The mean power used for the threshold. -/
theorem power_ok {x : Vec ℂ} {a b : ℤ} (hx : 1 ≤ x.len) (h0 : 0 ≤ a) (hab : a ≤ b) (h1 : b ≤ x.len) :
    ∃ s, x.take ((arange a (b + 1)).map (fun t => t - 1)) = .ok s ∧ (s.map (fun z => ‖z‖ ^ 2)).mean = .ok (meanPower x a b) := by
  refine ⟨⟨(b + 1 - a).toNat, fun j => x.get (wrapIdx x.len (a + (j : ℤ) - 1))⟩, ?_, ?_⟩
  · unfold Vec.take
    rw [if_pos]
    · rfl
    · intro j hj
      rw [Vec.map_len, arange_len] at hj
      unfold IdxOk
      simp only [Vec.map, arange]
      omega
  · unfold Vec.mean
    rw [if_neg (by simp only [Vec.map_len]; omega)]
    congr 1
    unfold meanPower Vec.sum
    congr 1
    · rw [← sum_arange]
      refine Finset.sum_congr rfl (fun j hj => ?_)
      simp only [Vec.map, Finset.mem_range] at hj ⊢
      rw [cyc_eq_wrap (by omega) (by omega) hx]
    · simp only [Vec.map]
      have : (((b + 1 - a).toNat : ℤ) : ℝ) = ((b + 1 - a : ℤ) : ℝ) := by rw [Int.toNat_of_nonneg (by omega)]
      push_cast at this
      exact_mod_cast this

theorem above_iff {t v : ℝ} : above (some t) v = true ↔ t < |v| := by
  classical
  unfold above
  simp

theorem specRowHat_eq {n k : ℕ} (hn : n ≠ 0) {a e : ℂ} {ν : ℝ} (hν : ν ≠ 0) :
    specRowHat n k (a / (ν : ℂ)) (e / (ν : ℂ)) = ((k : ℤ) - roundEven ((n / (2 * Real.pi)) * (e / a).im) - 1) % n := by
  unfold specRowHat
  have h : ((n : ℂ) * (e / (ν : ℂ)) / (a / (ν : ℂ)) / (2 * Real.pi)).im = (n / (2 * Real.pi)) * (e / a).im := by
    have hν' : (ν : ℂ) ≠ 0 := by exact_mod_cast hν
    have e1 : (n : ℂ) * (e / (ν : ℂ)) / (a / (ν : ℂ)) / (2 * Real.pi) = (((n / (2 * Real.pi) : ℝ)) : ℂ) * (e / a) := by
      by_cases ha : a = 0
      · subst ha; simp
      · push_cast
        field_simp
    rw [e1, Complex.im_ofReal_mul]
  simp only [h]
  rw [Int.add_emod_right, Int.emod_emod_of_dvd _ (dvd_refl _)]

theorem specColHat_eq {T c : ℕ} {a d : ℂ} {ν : ℝ} (hν : ν ≠ 0) :
    specColHat T c (a / (ν : ℂ)) (d / (ν : ℂ)) = min (max ((c : ℤ) + roundEven (d / a).re) 1) T - 1 := by
  unfold specColHat
  have hν' : (ν : ℂ) ≠ 0 := by exact_mod_cast hν
  rw [div_div_div_cancel_right₀ hν']

theorem derived_ok {D H : Mat ℂ} (h : D.fft0 = .ok H) : derived (some D) = .ok (fun r c => .ok (H.get r c)) := by
  unfold derived
  simp only [h]
  rfl

/-- The reassigned spectrogram, in closed form. -/
theorem spectrogram_ok {x : Vec ℂ} {ts? : Option (Vec ℤ)} {n? : Option ℕ} {w? : Option (Vec ℝ)} {ts : Vec ℤ} {n L : ℕ} {w dw : Vec ℝ}
    (e1 : ts?.getD (arange 0 x.len) = ts) (e2 : n?.getD x.len = n) (e3 : w?.getD (hamming (defaultLength x.len)) = w)
    (hn : 2 ≤ n) (hx : 1 ≤ x.len) (hw : w.len = 2 * L + 1) (hL : 1 ≤ L) (hdw : deriveWindow w = .ok dw) (hdl : dw.len = w.len)
    (hreg : Regular ts) {a b : ℤ} (hab : IsRange ts a b) (h0 : 0 ≤ a) (h1 : b ≤ x.len)
    (hm : ∀ c < ts.len, reassignMass w.get n L x.len (ts.get c) ≠ 0) :
    ∃ tfr rtfr v, Reassigned.spectrogram x ts? n? w? = .ok (tfr, rtfr, v) ∧ tfr.rows = n ∧ tfr.cols = ts.len ∧
      rtfr.rows = n ∧ rtfr.cols = ts.len ∧ v.rows = n ∧ v.cols = ts.len ∧
      (∀ k : ℕ, ∀ c < ts.len, tfr.get k c = ‖reassignSum x w.get n L (ts.get c) k‖ ^ 2 / reassignMass w.get n L x.len (ts.get c)) ∧
      (∀ k < n, ∀ c < ts.len, 1e-6 * meanPower x a b < tfr.get k c → ∀ p q : ℤ,
        reassignDest x w.get dw.get n L ts.len (1e-6 * meanPower x a b) (ts.get c) k c = (p, q) →
          v.get k c = some ((p : ℂ) + Complex.I * ((q : ℂ) + 1))) ∧
      (∀ k < n, ∀ c < ts.len, ¬ 1e-6 * meanPower x a b < tfr.get k c → v.get k c = none) ∧
      ∀ p q : ℕ, rtfr.get p q = ∑ c ∈ range ts.len, ∑ k ∈ range n,
        if reassignDest x w.get dw.get n L ts.len (1e-6 * meanPower x a b) (ts.get c) k c = ((p : ℤ), (q : ℤ)) then tfr.get k c
        else 0 := by
  have hn0 : n ≠ 0 := by omega
  have hT : 1 ≤ ts.len := by obtain ⟨⟨c, hc, -⟩, -⟩ := hab; omega
  have hle : a ≤ b := by obtain ⟨⟨c, hc, e⟩, -, hr⟩ := hab; have := (hr c hc).2; omega
  set thr := 1e-6 * meanPower x a b with hthr
  have hthr0 : 0 ≤ thr := by
    have : (0 : ℝ) ≤ (b : ℝ) + 1 - a := by have : (a : ℝ) ≤ b := by exact_mod_cast hle
                                           linarith
    rw [hthr]; unfold meanPower; positivity
  set ν : ℕ → ℝ := fun c => Real.sqrt (reassignMass w.get n L x.len (ts.get c)) with hν
  have hmass : ∀ c, 0 ≤ reassignMass w.get n L x.len (ts.get c) := fun c => by unfold reassignMass; positivity
  have hν0 : ∀ c < ts.len, ν c ≠ 0 := fun c hc => by
    rw [hν]; simp only
    rw [Real.sqrt_ne_zero']
    exact lt_of_le_of_ne (hmass c) (Ne.symm (hm c hc))
  set th : Vec ℝ := ⟨2 * L + 1, fun j => w.get j * ((j : ℝ) - L)⟩ with hth
  -- the matrices of windowed samples and their transforms
  set col : Vec ℝ → ℕ → Vec ℂ := fun g c => ⟨n, lagCol n (rLo n L (ts.get c)) (rHi n L x.len (ts.get c))
      (fun t => cyc x (ts.get c + t - 1) * (g.get ((L : ℤ) + t).toNat : ℂ) / ((ν c : ℝ) : ℂ))⟩ with hcol
  have hfor : ∀ g : Vec ℝ, g.len = 2 * L + 1 → (Mat.zeros n ts.len : Mat ℂ).forCols ts.len (specCol x n (L : ℤ) w g ts)
      = .ok ⟨n, ts.len, fun r c => if c < ts.len then (col g c).get r else 0⟩ := fun g hg =>
    Mat.forCols_ok (M := Mat.zeros n ts.len) (T := ts.len) (le_refl _)
      (fun c hc => specCol_ok hn hx hw hg hc (hm c hc))
  have hfft : ∀ g : Vec ℝ, (⟨n, ts.len, fun r c => if c < ts.len then (col g c).get r else 0⟩ : Mat ℂ).fft0
      = .ok ⟨n, ts.len, fun k c => dftC n (fun r => if c < ts.len then (col g c).get r else 0) k⟩ := fun g =>
    fft0_ok (M := ⟨n, ts.len, fun r c => if c < ts.len then (col g c).get r else 0⟩) hn0
  have hval : ∀ (g : Vec ℝ) (k c : ℕ), c < ts.len → dftC n (fun r => if c < ts.len then (col g c).get r else 0) k
      = reassignSum x g.get n L (ts.get c) k / ((ν c : ℝ) : ℂ) := by
    intro g k c hc
    simp only [if_pos hc]
    exact dft_specCol hn0 g (ts.get c) (ν c) k
  set F : Mat ℂ := ⟨n, ts.len, fun k c => dftC n (fun r => if c < ts.len then (col w c).get r else 0) k⟩ with hF
  set G : Mat ℂ := ⟨n, ts.len, fun k c => dftC n (fun r => if c < ts.len then (col th c).get r else 0) k⟩ with hG
  set H : Mat ℂ := ⟨n, ts.len, fun k c => dftC n (fun r => if c < ts.len then (col dw c).get r else 0) k⟩ with hH
  set tfr : Mat ℝ := F.map (fun z => ‖z‖ ^ 2) with htfr
  have htv : ∀ k c : ℕ, c < ts.len →
      tfr.get k c = ‖reassignSum x w.get n L (ts.get c) k‖ ^ 2 / reassignMass w.get n L x.len (ts.get c) := by
    intro k c hc
    show ‖dftC n (fun r => if c < ts.len then (col w c).get r else 0) k‖ ^ 2 = _
    rw [hval w k c hc, norm_div, div_pow, Complex.norm_real, Real.norm_eq_abs, sq_abs, Real.sq_sqrt (hmass c)]
  have habove : ∀ k c : ℕ, (above (some thr) (‖F.get k c‖ ^ 2) = true ↔ thr < tfr.get k c) := by
    intro k c
    rw [above_iff, abs_of_nonneg (sq_nonneg _)]
    rfl
  -- the targets
  have htarget : ∀ k c : ℕ, c < ts.len → specTarget n ts.len thr F G (fun r c => .ok (H.get r c)) k c
      = .ok (reassignDest x w.get dw.get n L ts.len thr (ts.get c) k c) := by
    intro k c hc
    unfold specTarget reassignDest
    by_cases h : thr < tfr.get k c
    · rw [if_pos ((habove k c).2 h), if_pos (by rw [← htv k c hc]; exact h), ok_bind]
      have e1 : F.get k c = _ := hval w k c hc
      have e2 : G.get k c = _ := hval th k c hc
      have e3 : H.get k c = _ := hval dw k c hc
      rw [e1, e2, e3, specRowHat_eq hn0 (hν0 c hc), specColHat_eq (hν0 c hc)]
    · rw [if_neg (fun h' => h ((habove k c).1 h')), if_neg (by rw [← htv k c hc]; exact h)]
  have hrange : ∀ k < n, ∀ c < ts.len, ∀ p q : ℤ, reassignDest x w.get dw.get n L ts.len thr (ts.get c) k c = (p, q) →
      (0 ≤ p ∧ p < n) ∧ (0 ≤ q ∧ q < ts.len) := by
    intro k hk c hc p q h
    unfold reassignDest at h
    split_ifs at h with hh
    · rw [Prod.mk.injEq] at h
      obtain ⟨h1, h2⟩ := h
      subst h1 h2
      refine ⟨⟨Int.emod_nonneg _ (by omega), Int.emod_lt_of_pos _ (by omega)⟩, ?_⟩
      omega
    · rw [Prod.mk.injEq] at h
      obtain ⟨h1, h2⟩ := h
      omega
  have hok : ∀ j < tfr.rows, ∀ i < tfr.cols, TargetOk tfr (specTarget n ts.len thr F G (fun r c => .ok (H.get r c))) j i := by
    intro j hj i hi
    have := hrange j hj i hi _ _ rfl
    exact ⟨_, _, htarget j i hi, idxOk_of_lt this.1.1 this.1.2, idxOk_of_lt this.2.1 this.2.2⟩
  obtain ⟨R, hR, r1, r2, r3⟩ := scatterAdd_ok hok
  obtain ⟨s, hs, hmean⟩ := power_ok hx h0 hle h1
  have hthv : Vec.bcast (fun (y : ℝ) (k : ℤ) => y * (k : ℝ)) w (arange (-(L : ℤ)) ((L : ℤ) + 1)) = .ok th := by
    rw [Vec.bcast_ok (by rw [arange_len, hw]; omega), hw]
    congr 2
    funext j
    simp only [arange]
    push_cast
    ring
  have hlh : ((w.len : ℤ) - 1) / 2 = (L : ℤ) := by rw [hw]; push_cast; omega
  have hdw' : deriveWindow? w = .ok (some dw) := by unfold deriveWindow?; rw [hdw]
  refine ⟨tfr, R, ⟨n, ts.len, fun r c =>
      if above (some thr) (tfr.get r c) then
        match specTarget n ts.len thr F G (fun r c => .ok (H.get r c)) r c with
        | .ok (r', c') => some ((r' : ℂ) + Complex.I * ((c' : ℂ) + 1))
        | .error _ => none
      else none⟩, ?_, rfl, rfl, r1, r2, rfl, rfl, fun k c hc => htv k c hc, ?_, ?_, ?_⟩
  · unfold Reassigned.spectrogram
    simp only [e1, e2, e3]
    rw [if_neg (fun h => h.2 (regular_iff.1 hreg)), if_neg (by rw [hw]; omega), hlh, hthv, ok_bind, hdw', ok_bind,
      hfor w hw, ok_bind, hfor th rfl, ok_bind]
    simp only
    rw [hfor dw (by rw [hdl, hw]), ok_bind]
    unfold specFinish
    rw [hfft w, ok_bind, hfft th, ok_bind]
    rw [derived_ok (hfft dw), ok_bind, amin_range hab, ok_bind, amax_range hab, ok_bind, Int.floor_intCast, Int.floor_intCast, hs,
      ok_bind, hmean, ok_bind]
    show (scatterAdd tfr (specTarget n ts.len thr F G (fun r c => .ok (H.get r c))) >>= _) = _
    rw [hR, ok_bind]
    rfl
  · intro k hk c hc h p q hd
    show (if above (some thr) (‖F.get k c‖ ^ 2) = true then _ else _) = _
    rw [if_pos ((habove k c).2 h)]
    show (match specTarget n ts.len thr F G (fun r c => .ok (H.get r c)) k c with
      | .ok (r', c') => some ((r' : ℂ) + Complex.I * ((c' : ℂ) + 1))
      | .error _ => none) = _
    rw [htarget k c hc, hd]
  · intro k hk c hc h
    show (if above (some thr) (‖F.get k c‖ ^ 2) = true then _ else _) = _
    rw [if_neg (fun h' => h ((habove k c).1 h'))]
  · intro p q
    rw [r3]
    refine Finset.sum_congr rfl (fun c hc => Finset.sum_congr rfl (fun k hk => ?_))
    rw [Finset.mem_range] at hc hk
    obtain ⟨d, hd⟩ : ∃ d, reassignDest x w.get dw.get n L ts.len thr (ts.get c) k c = d := ⟨_, rfl⟩
    obtain ⟨⟨p0, p1⟩, ⟨q0, q1⟩⟩ := hrange k hk c hc d.1 d.2 hd
    unfold hit
    rw [htarget k c hc, hd]
    simp only
    rw [wrapIdx_of_nonneg p0, wrapIdx_of_nonneg q0]
    by_cases h : d = ((p : ℤ), (q : ℤ))
    · rw [if_pos h, if_pos]
      subst h
      simp
    · rw [if_neg h, if_neg]
      rintro ⟨h1, h2⟩
      apply h
      ext
      · simp only; omega
      · simp only; omega

end Tftb
