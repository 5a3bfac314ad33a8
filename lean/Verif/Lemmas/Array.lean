import Verif.Py.Basic

/-! # Helper lemmas on arrays -/

namespace Tftb

open Finset

variable {α β γ : Type}

theorem wrapIdx_of_nonneg {n : ℕ} {i : ℤ} (h : 0 ≤ i) : wrapIdx n i = i.toNat := by
  unfold wrapIdx; rw [if_neg (not_lt.2 h)]

@[simp] theorem wrapIdx_natCast (n i : ℕ) : wrapIdx n (i : ℤ) = i := by
  rw [wrapIdx_of_nonneg (by omega)]; simp

theorem idxOk_of_lt {n : ℕ} {i : ℤ} (h0 : 0 ≤ i) (h : i < n) : IdxOk n i := ⟨by omega, h⟩

theorem wrapIdx_lt {n : ℕ} {i : ℤ} (h : IdxOk n i) : wrapIdx n i < n := by
  unfold wrapIdx IdxOk at *; split <;> omega

namespace Vec

@[simp] theorem map_len (f : α → β) (v : Vec α) : (v.map f).len = v.len := rfl
@[simp] theorem map_get (f : α → β) (v : Vec α) (i : ℕ) : (v.map f).get i = f (v.get i) := id rfl
@[simp] theorem diff_len [Sub α] (v : Vec α) : v.diff.len = v.len - 1 := rfl
@[simp] theorem diff_get [Sub α] (v : Vec α) (i : ℕ) : v.diff.get i = v.get (i + 1) - v.get i := rfl
@[simp] theorem cumsum_len [AddCommMonoid α] (v : Vec α) : v.cumsum.len = v.len := rfl
@[simp] theorem cumsum_get [AddCommMonoid α] (v : Vec α) (i : ℕ) :
    v.cumsum.get i = ∑ j ∈ Finset.range (i + 1), v.get j := rfl
@[simp] theorem reverse_len (v : Vec α) : v.reverse.len = v.len := rfl
@[simp] theorem reverse_get (v : Vec α) (i : ℕ) : v.reverse.get i = v.get (v.len - 1 - i) := rfl
@[simp] theorem append_len (u v : Vec α) : (u.append v).len = u.len + v.len := rfl
@[simp] theorem repeatEach_len (v : Vec α) (k : ℕ) : (v.repeatEach k).len = v.len * k := rfl
@[simp] theorem repeatEach_get (v : Vec α) (k i : ℕ) : (v.repeatEach k).get i = v.get (i / k) := rfl

theorem item_ok {v : Vec α} {i : ℤ} (h0 : 0 ≤ i) (h : i < v.len) :
    v.item i = .ok (v.get i.toNat) := by
  unfold item; rw [if_pos (idxOk_of_lt h0 h), wrapIdx_of_nonneg h0]

theorem item_error {v : Vec α} {i : ℤ} (h : (v.len : ℤ) ≤ i) : v.item i = .error .indexError := by
  unfold item; rw [if_neg]; unfold IdxOk; omega

theorem take_ok {v : Vec α} {idx : Vec ℤ} (h : ∀ j < idx.len, 0 ≤ idx.get j ∧ idx.get j < v.len) :
    v.take idx = .ok ⟨idx.len, fun j => v.get (wrapIdx v.len (idx.get j))⟩ := by
  unfold take; rw [if_pos]; intro j hj; exact idxOk_of_lt (h j hj).1 (h j hj).2

theorem scatter_succ (g : ℕ → α) (pos : ℕ → ℕ) (val : ℕ → α) (L : ℕ) :
    scatter g pos val (L + 1) = Function.update (scatter g pos val L) (pos L) (val L) := by
  unfold scatter; rw [List.range_succ, List.foldl_append]; rfl

@[simp] theorem scatter_zero (g : ℕ → α) (pos : ℕ → ℕ) (val : ℕ → α) :
    scatter g pos val 0 = g := rfl

theorem scatter_not_mem {g : ℕ → α} {pos : ℕ → ℕ} {val : ℕ → α} {L p : ℕ}
    (h : ∀ j < L, pos j ≠ p) : scatter g pos val L p = g p := by
  induction L with
  | zero => rfl
  | succ L ih =>
    rw [scatter_succ, Function.update_of_ne (h L (Nat.lt_succ_self _)).symm]
    exact ih (fun j hj => h j (Nat.lt_succ_of_lt hj))

theorem scatter_mem {g : ℕ → α} {pos : ℕ → ℕ} {val : ℕ → α} {L j : ℕ} (hj : j < L)
    (hinj : ∀ i < L, ∀ i' < L, pos i = pos i' → i = i') :
    scatter g pos val L (pos j) = val j := by
  induction L with
  | zero => omega
  | succ L ih =>
    rw [scatter_succ]
    by_cases e : j = L
    · subst e; simp
    · have hne : pos j ≠ pos L := fun h => e (hinj j hj L (Nat.lt_succ_self _) h)
      rw [Function.update_of_ne hne]
      exact ih (by omega) (fun i hi i' hi' => hinj i (by omega) i' (by omega))

theorem scatter_congr {g g' : ℕ → α} {pos pos' : ℕ → ℕ} {val val' : ℕ → α} {L : ℕ}
    (hg : g = g') (hp : ∀ j < L, pos j = pos' j) (hv : ∀ j < L, val j = val' j) :
    scatter g pos val L = scatter g' pos' val' L := by
  subst hg
  induction L with
  | zero => rfl
  | succ L ih =>
    rw [scatter_succ, scatter_succ, ih (fun j hj => hp j (by omega)) (fun j hj => hv j (by omega)),
      hp L (by omega), hv L (by omega)]

/-- A sum over a scattered zero array is the sum over the stored values. -/
theorem sum_scatter_zero {M : Type} [AddCommMonoid M] {n L : ℕ} {pos : ℕ → ℕ} {val : ℕ → ℂ}
    (hlt : ∀ j < L, pos j < n)
    (hinj : ∀ i < L, ∀ i' < L, pos i = pos i' → i = i')
    (F : ℂ → ℕ → M) (hF : ∀ p, F 0 p = 0) :
    ∑ p ∈ range n, F (scatter (fun _ => (0 : ℂ)) pos val L p) p
      = ∑ j ∈ range L, F (val j) (pos j) := by
  classical
  rw [← Finset.sum_subset (s₁ := (range L).image pos)]
  · rw [Finset.sum_image]
    · apply Finset.sum_congr rfl
      intro j hj
      rw [scatter_mem (Finset.mem_range.1 hj) hinj]
    · intro i hi j hj h
      exact hinj i (by simpa using hi) j (by simpa using hj) h
  · intro p hp
    simp only [Finset.mem_image, Finset.mem_range] at hp ⊢
    obtain ⟨j, hj, rfl⟩ := hp
    exact hlt j hj
  · intro p _ hp
    simp only [Finset.mem_image, Finset.mem_range, not_exists, not_and] at hp
    rw [scatter_not_mem (fun j hj => hp j hj), hF]

theorem put_ok {v : Vec α} {idx : Vec ℤ} {vals : Vec α}
    (h : ∀ j < idx.len, 0 ≤ idx.get j ∧ idx.get j < v.len) (hl : vals.len = idx.len) :
    v.put idx vals =
      .ok ⟨v.len, scatter v.get (fun j => wrapIdx v.len (idx.get j)) vals.get idx.len⟩ := by
  unfold put
  rw [if_neg, if_pos hl]
  rw [not_not]
  intro j hj
  exact idxOk_of_lt (h j hj).1 (h j hj).2

theorem bcast_ok {f : α → β → γ} {a : Vec α} {b : Vec β} (h : a.len = b.len) :
    bcast f a b = .ok ⟨a.len, fun i => f (a.get i) (b.get i)⟩ := by
  unfold bcast; rw [if_pos h]

/-- Characterisation of `np.amax`. -/
theorem amax_spec {v : Vec ℝ} (h : v.len ≠ 0) :
    ∃ m, v.amax = .ok m ∧ (∀ i < v.len, v.get i ≤ m) ∧ ∃ i < v.len, v.get i = m := by
  have hne : (Finset.range v.len).Nonempty := ⟨0, Finset.mem_range.2 (Nat.pos_of_ne_zero h)⟩
  refine ⟨(Finset.range v.len).sup' hne v.get, ?_, ?_, ?_⟩
  · unfold amax; rw [dif_neg h]
  · intro i hi; exact Finset.le_sup' v.get (Finset.mem_range.2 hi)
  · obtain ⟨i, hi, he⟩ := Finset.exists_mem_eq_sup' hne v.get
    exact ⟨i, Finset.mem_range.1 hi, he.symm⟩

/-- Characterisation of `np.amin`. -/
theorem amin_spec {v : Vec ℝ} (h : v.len ≠ 0) :
    ∃ m, v.amin = .ok m ∧ (∀ i < v.len, m ≤ v.get i) ∧ ∃ i < v.len, v.get i = m := by
  have hne : (Finset.range v.len).Nonempty := ⟨0, Finset.mem_range.2 (Nat.pos_of_ne_zero h)⟩
  refine ⟨(Finset.range v.len).inf' hne v.get, ?_, ?_, ?_⟩
  · unfold amin; rw [dif_neg h]
  · intro i hi; exact Finset.inf'_le v.get (Finset.mem_range.2 hi)
  · obtain ⟨i, hi, he⟩ := Finset.exists_mem_eq_inf' hne v.get
    exact ⟨i, Finset.mem_range.1 hi, he.symm⟩

end Vec

/-- One more iteration of a `for` loop. -/
theorem foldlM_range_succ {σ : Type} (f : σ → ℕ → Py σ) (s : σ) (M : ℕ) :
    (List.range (M + 1)).foldlM f s = ((List.range M).foldlM f s) >>= fun s' => f s' M := by
  rw [List.range_succ, List.foldlM_append]; simp

@[simp] theorem ok_bind {σ τ : Type} (a : σ) (f : σ → Py τ) :
    ((Except.ok a : Py σ) >>= f) = f a := rfl

@[simp] theorem error_bind {σ τ : Type} (e : PyErr) (f : σ → Py τ) :
    ((Except.error e : Py σ) >>= f) = .error e := rfl

/-! ## Column loops -/

namespace Mat

@[simp] theorem col_len (M : Mat α) (c : ℕ) : (M.col c).len = M.rows := rfl
@[simp] theorem col_get (M : Mat α) (c r : ℕ) : (M.col c).get r = M.get r c := rfl

theorem updCol_ok {M : Mat α} {c : ℕ} {f : Vec α → Py (Vec α)} {v : Vec α} (hc : c < M.cols)
    (h : f (M.col c) = .ok v) :
    M.updCol c f = .ok ⟨M.rows, M.cols, fun r c' => if c' = c then v.get r else M.get r c'⟩ := by
  unfold updCol; rw [if_pos hc, h]

theorem forCols_succ (M : Mat α) (T : ℕ) (body : ℕ → Vec α → Py (Vec α)) :
    M.forCols (T + 1) body = (M.forCols T body) >>= fun M' => M'.updCol T (body T) := by
  unfold forCols
  rw [List.range_succ, List.foldlM_append]
  simp

@[simp] theorem forCols_zero (M : Mat α) (body : ℕ → Vec α → Py (Vec α)) :
    M.forCols 0 body = .ok M := rfl

/-- A column loop all of whose bodies succeed returns the matrix of the updated columns. -/
theorem forCols_ok {M : Mat α} {T : ℕ} {body : ℕ → Vec α → Py (Vec α)} {g : ℕ → Vec α}
    (hT : T ≤ M.cols) (h : ∀ c < T, body c (M.col c) = .ok (g c)) :
    M.forCols T body =
      .ok ⟨M.rows, M.cols, fun r c => if c < T then (g c).get r else M.get r c⟩ := by
  induction T with
  | zero => simp
  | succ T ih =>
    rw [forCols_succ, ih (by omega) (fun c hc => h c (by omega))]
    show Mat.updCol _ T (body T) = _
    rw [updCol_ok (v := g T)]
    · congr 2
      funext r c
      by_cases hc : c = T
      · subst hc; simp
      · by_cases hlt : c < T
        · simp [hc, hlt, Nat.lt_succ_of_lt hlt]
        · have : ¬ c < T + 1 := by omega
          simp [hc, hlt, this]
    · show T < M.cols; omega
    · have : (Mat.mk M.rows M.cols fun r c => if c < T then (g c).get r else M.get r c).col T
          = M.col T := by
        unfold col; simp
      rw [this]; exact h T (by omega)

/-- A column loop stops at the first failing column. -/
theorem forCols_error {M : Mat α} {T : ℕ} {body : ℕ → Vec α → Py (Vec α)} {g : ℕ → Vec α} {e : PyErr}
    {c0 : ℕ} (hT : T ≤ M.cols) (hc0 : c0 < T) (h : ∀ c < c0, body c (M.col c) = .ok (g c))
    (he : body c0 (M.col c0) = .error e) :
    M.forCols T body = .error e := by
  induction T with
  | zero => omega
  | succ T ih =>
    rw [forCols_succ]
    by_cases hlt : c0 < T
    · rw [ih (by omega) hlt]; rfl
    · have : c0 = T := by omega
      subst this
      rw [forCols_ok (by omega) h]
      show Mat.updCol _ c0 (body c0) = _
      unfold updCol
      rw [if_pos (show c0 < M.cols by omega)]
      have hcol : (Mat.mk M.rows M.cols fun r c => if c < c0 then (g c).get r else M.get r c).col c0
          = M.col c0 := by
        unfold col; simp
      rw [hcol, he]

end Mat

/-! ## Integer ranges -/

theorem arange_len (a b : ℤ) : (arange a b).len = (b - a).toNat := rfl
theorem arange_get (a b : ℤ) (i : ℕ) : (arange a b).get i = a + i := rfl

theorem arange_get_lt {a b : ℤ} {i : ℕ} (h : i < (arange a b).len) :
    a ≤ (arange a b).get i ∧ (arange a b).get i < b := by
  rw [arange_len] at h; rw [arange_get]; omega

/-- Summing over the entries of `np.arange(a, b+1)` is summing over the integer interval `[a, b]`. -/
theorem sum_arange {M : Type} [AddCommMonoid M] (a b : ℤ) (f : ℤ → M) :
    ∑ j ∈ range (b + 1 - a).toNat, f (a + j) = ∑ t ∈ Finset.Icc a b, f t := by
  apply Finset.sum_bij (fun (j : ℕ) _ => a + (j : ℤ))
  · intro j hj
    simp only [Finset.mem_range, Finset.mem_Icc] at hj ⊢
    omega
  · intro i _ j _ h
    simpa using h
  · intro t ht
    simp only [Finset.mem_Icc] at ht
    exact ⟨(t - a).toNat, by simp only [Finset.mem_range]; omega, by omega⟩
  · intro j _; rfl

/-! ## Rounding -/

theorem roundEven_intCast (z : ℤ) : roundEven (z : ℝ) = z := by
  unfold roundEven; simp

theorem roundEven_natCast (z : ℕ) : roundEven (z : ℝ) = z := by
  exact_mod_cast roundEven_intCast (z : ℤ)

theorem roundEven_half_odd (z : ℤ) : roundEven ((z : ℝ) + 1 / 2) = if Even z then z else z + 1 := by
  have hf : ⌊(z : ℝ) + 1 / 2⌋ = z := by
    rw [Int.floor_eq_iff]; constructor <;> linarith
  unfold roundEven
  rw [hf]
  norm_num

/-- `round(n / 2.0)` for a natural number `n`. -/
theorem roundEven_half (n : ℕ) :
    roundEven ((n : ℝ) / 2) = if n % 4 = 3 then ((n : ℤ) + 1) / 2 else (n : ℤ) / 2 := by
  rcases Nat.even_or_odd' n with ⟨k, rfl | rfl⟩
  · have : ((2 * k : ℕ) : ℝ) / 2 = ((k : ℤ) : ℝ) := by push_cast; ring
    rw [this, roundEven_intCast, if_neg (by omega)]
    omega
  · have : ((2 * k + 1 : ℕ) : ℝ) / 2 = ((k : ℤ) : ℝ) + 1 / 2 := by push_cast; ring
    rw [this, roundEven_half_odd]
    by_cases he : Even (k : ℤ)
    · rw [if_pos he]
      have : (2 * k + 1) % 4 ≠ 3 := by
        rw [Int.even_iff] at he; omega
      rw [if_neg this]; omega
    · rw [if_neg he]
      have : (2 * k + 1) % 4 = 3 := by
        rw [Int.even_iff] at he; omega
      rw [if_pos this]; omega

theorem abs_sub_roundEven_le (x : ℝ) : |x - roundEven x| ≤ 1 / 2 := by
  unfold roundEven
  have h0 := Int.floor_le x
  have h1 := Int.lt_floor_add_one x
  split_ifs <;> rw [abs_le] <;> push_cast <;> constructor <;> linarith

end Tftb
