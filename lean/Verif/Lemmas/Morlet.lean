import Verif.Model.Morlet
import Verif.Lemmas.Reassigned
import Verif.Lemmas.Stft

/-! # Helper lemmas for the wavelet sums of `morlet_scalogram` -/

namespace Tftb.Reassigned

open Finset ComplexConjugate Spec

theorem mapM_ok {α : Type} (l : List ℕ) (f : ℕ → Py α) (g : ℕ → α) (h : ∀ i ∈ l, f i = .ok (g i)) : l.mapM f = .ok (l.map g) := by
  induction l with
  | nil => rfl
  | cons a l ih =>
    rw [List.mapM_cons, h a (by simp), ok_bind, ih (fun i hi => h i (by simp [hi])), ok_bind]
    rfl

theorem mapM_error {α : Type} (l : List ℕ) (f : ℕ → Py α) (e : PyErr) (h : ∀ i ∈ l, f i = .error e ∨ ∃ a, f i = .ok a)
    (hex : ∃ i ∈ l, f i = .error e) : l.mapM f = .error e := by
  induction l with
  | nil => simp at hex
  | cons a l ih =>
    rw [List.mapM_cons]
    rcases h a (by simp) with ha | ⟨b, hb⟩
    · rw [ha]; rfl
    · rw [hb, ok_bind, ih (fun i hi => h i (by simp [hi])) ?_]
      · rfl
      · obtain ⟨i, hi, he⟩ := hex
        rcases List.mem_cons.1 hi with rfl | hi
        · rw [hb] at he; cases he
        · exact ⟨i, hi, he⟩

theorem ofLoop_ok {α : Type} [Inhabited α] {k : ℕ} {f : ℕ → Py α} {g : ℕ → α} (h : ∀ i < k, f i = .ok (g i)) :
    ∃ v : Vec α, ofLoop k f = .ok v ∧ ∀ i < k, v.get i = g i := by
  refine ⟨⟨k, fun i => ((List.range k).map g).getD i default⟩, ?_, fun i hi => ?_⟩
  · unfold ofLoop
    rw [mapM_ok _ f g (fun i hi => h i (List.mem_range.1 hi)), ok_bind]
  · simp only
    rw [List.getD_eq_getElem?_getD, List.getElem?_map, List.getElem?_range hi]
    rfl

theorem ofLoop_error {α : Type} [Inhabited α] {k : ℕ} {f : ℕ → Py α} {e : PyErr} (h : ∀ i < k, f i = .error e ∨ ∃ a, f i = .ok a)
    (hex : ∃ i < k, f i = .error e) : ofLoop k f = .error e := by
  unfold ofLoop
  rw [mapM_error _ f e (fun i hi => h i (List.mem_range.1 hi)) (by obtain ⟨i, hi, he⟩ := hex; exact ⟨i, List.mem_range.2 hi, he⟩)]
  rfl

/-- Value read by an admissible, possibly negative, index. -/
noncomputable def wget (v : Vec ℂ) (i : ℤ) : ℂ := v.get (wrapIdx v.len i)

theorem wget_nonneg {v : Vec ℂ} {i : ℤ} (h : 0 ≤ i) : wget v i = v.get i.toNat := by
  unfold wget; rw [wrapIdx_of_nonneg h]

theorem take_loop {v : Vec ℂ} {a b : ℤ} {f : ℤ → ℤ} (h : ∀ t, a ≤ t → t ≤ b → IdxOk v.len (f t)) :
    v.take ((arange a (b + 1)).map f) = .ok ⟨(b + 1 - a).toNat, fun j => wget v (f (a + j))⟩ := by
  unfold Vec.take
  rw [if_pos]
  · rfl
  · intro j hj
    have hj' : j < (b + 1 - a).toNat := hj
    exact h (a + j) (by omega) (by omega)

theorem take_loop_error {v : Vec ℂ} {a b : ℤ} {f : ℤ → ℤ} (h : ∃ t, a ≤ t ∧ t ≤ b ∧ ¬ IdxOk v.len (f t)) :
    v.take ((arange a (b + 1)).map f) = .error .indexError := by
  obtain ⟨t, h1, h2, h3⟩ := h
  unfold Vec.take
  rw [if_neg]
  intro hall
  have := hall (t - a).toNat (by show (t - a).toNat < (b + 1 - a).toNat; omega)
  apply h3
  have e : ((arange a (b + 1)).map f).get (t - a).toNat = f t := by
    show f (a + ((t - a).toNat : ℤ)) = f t
    congr 1; omega
  rwa [e] at this

theorem take_loop_cases (v : Vec ℂ) (idx : Vec ℤ) : v.take idx = .error .indexError ∨ ∃ w, v.take idx = .ok w := by
  unfold Vec.take
  split
  · exact .inr ⟨_, rfl⟩
  · exact .inl rfl

theorem dotC_loop (a b : ℤ) (f g : ℤ → ℂ) (n' : ℕ) (hn : n' = (b + 1 - a).toNat) :
    dotC ⟨n', fun j => f (a + j)⟩ ⟨n', fun j => g (a + j)⟩ = ∑ t ∈ Icc a b, f t * g t := by
  subst hn
  unfold dotC
  exact sum_arange a b (fun t => f t * g t)

theorem mul_ceilDiv_lt {M : ℤ} {m : ℕ} (hm : 1 ≤ m) : (m : ℤ) * ceilDiv M m ≤ M + m - 1 := by
  have hm0 : (0 : ℝ) < m := by exact_mod_cast hm
  have h : (m : ℝ) * (ceilDiv M m : ℝ) < M + m := by
    have := Int.ceil_lt_add_one ((M : ℝ) / m)
    unfold ceilDiv
    calc (m : ℝ) * (⌈(M : ℝ) / m⌉ : ℝ) < m * ((M : ℝ) / m + 1) := by
          exact mul_lt_mul_of_pos_left this hm0
      _ = M + m := by field_simp
  have h' : (m : ℤ) * ceilDiv M m < M + m := by exact_mod_cast h
  omega

theorem ceilDiv_pos {M : ℤ} {m : ℕ} (hm : 1 ≤ m) (hM : 1 ≤ M) : 1 ≤ ceilDiv M m := by
  unfold ceilDiv
  rw [Int.one_le_ceil_iff]
  have : (0 : ℝ) < M := by exact_mod_cast (by omega : 0 < M)
  positivity

/-- Successful scale. -/
theorem morletEntry_ok {x hs : Vec ℂ} {M : ℤ} {m : ℕ} {ti : ℤ} (hm : 1 ≤ m) (hM : 1 ≤ M) (hlen : M + m + 1 ≤ hs.len) (h0 : 0 ≤ ti) (h1 : ti ≤ x.len) (hN : 1 ≤ x.len) :
    morletEntry x hs M m ti = .ok
      (∑ t ∈ Icc 0 (min (ceilDiv M m) ((x.len : ℤ) - ti)), wget hs (m * t - 1) * wget x (ti + t - 1)
        + ∑ t ∈ Icc 1 (min (ceilDiv M m) (ti - 1)), conj (wget hs (t * m)) * wget x (ti - t),
       ∑ t ∈ Icc 0 (min (ceilDiv M m) ((x.len : ℤ) - ti)), conj (wget hs (m * t - 1)) * wget x (ti + t - 1)
        + ∑ t ∈ Icc 1 (min (ceilDiv M m) (ti - 1)), wget hs (t * m) * wget x (ti - t)) := by
  have hc := mul_ceilDiv_lt (M := M) hm
  have hm' : (1 : ℤ) ≤ m := by exact_mod_cast hm
  have hb : ∀ t : ℤ, 0 ≤ t → t ≤ ceilDiv M m → 0 ≤ (m : ℤ) * t ∧ (m : ℤ) * t ≤ M + m - 1 := by
    intro t ht1 ht2
    refine ⟨by positivity, le_trans ?_ hc⟩
    exact mul_le_mul_of_nonneg_left ht2 (by omega)
  unfold morletEntry
  dsimp only
  rw [take_loop (f := fun t => (m : ℤ) * t - 1) (fun t a b => by have := hb t a (by omega); unfold IdxOk; omega), ok_bind,
    take_loop (f := fun t => ti + t - 1) (fun t a b => by unfold IdxOk; omega), ok_bind]
  have hd1 := dotC_loop 0 (min (ceilDiv M m) ((x.len : ℤ) - ti)) (fun t => wget hs (m * t - 1)) (fun t => wget x (ti + t - 1)) _ rfl
  have hd2 := dotC_loop 0 (min (ceilDiv M m) ((x.len : ℤ) - ti)) (fun t => conj (wget hs (m * t - 1))) (fun t => wget x (ti + t - 1)) _ rfl
  have hd3 := dotC_loop 1 (min (ceilDiv M m) (ti - 1)) (fun t => conj (wget hs (t * m))) (fun t => wget x (ti - t)) _ rfl
  have hd4 := dotC_loop 1 (min (ceilDiv M m) (ti - 1)) (fun t => wget hs (t * m)) (fun t => wget x (ti - t)) _ rfl
  split
  · next hpos =>
    rw [take_loop (f := fun t => t * (m : ℤ)) (fun t a b => by
        have := hb t (by omega) (by omega); unfold IdxOk; rw [mul_comm]; omega), ok_bind,
      take_loop (f := fun t => ti - t) (fun t a b => by unfold IdxOk; omega), ok_bind, ← hd1, ← hd2, ← hd3, ← hd4]
    rfl
  · next hpos =>
    have hpos' : ¬ 0 < (min (ceilDiv M m) (ti - 1) + 1 - 1).toNat := hpos
    have he : Icc 1 (min (ceilDiv M m) (ti - 1)) = ∅ := by
      rw [Finset.Icc_eq_empty]; omega
    rw [he, Finset.sum_empty, Finset.sum_empty, add_zero, add_zero, ← hd1, ← hd2]
    rfl

theorem morletEntry_cases (x hs : Vec ℂ) (M : ℤ) (m : ℕ) (ti : ℤ) :
    morletEntry x hs M m ti = .error .indexError ∨ ∃ a, morletEntry x hs M m ti = .ok a := by
  unfold morletEntry
  dsimp only
  rcases take_loop_cases hs ((arange 0 (min (ceilDiv M m) ((x.len : ℤ) - ti) + 1)).map (fun t => (m : ℤ) * t - 1)) with h | ⟨w, h⟩
  · left; rw [h]; rfl
  rw [h, ok_bind]
  rcases take_loop_cases x ((arange 0 (min (ceilDiv M m) ((x.len : ℤ) - ti) + 1)).map (fun t => ti + t - 1)) with h | ⟨w, h⟩
  · left; rw [h]; rfl
  rw [h, ok_bind]
  split
  · rcases take_loop_cases hs ((arange 1 (min (ceilDiv M m) (ti - 1) + 1)).map (fun t => t * (m : ℤ))) with h | ⟨w, h⟩
    · left; rw [h]; rfl
    rw [h, ok_bind]
    rcases take_loop_cases x ((arange 1 (min (ceilDiv M m) (ti - 1) + 1)).map (fun t => ti - t)) with h | ⟨w, h⟩
    · left; rw [h]; rfl
    rw [h]
    exact .inr ⟨_, rfl⟩
  · exact .inr ⟨_, rfl⟩

/-- Bound of the index arrays of the last scale. -/
noncomputable def lastBound (M : ℤ) (m : ℕ) (z : ℤ) : ℤ := if m = 0 then z else min (ceilDiv M m) z

/-- Successful last scale. -/
theorem morletLast_ok {x hs : Vec ℂ} {M : ℤ} {m : ℕ} {ti : ℤ} (hM : 1 ≤ M) (hlen : M + m + 1 ≤ hs.len) (h0 : 0 ≤ ti) (h1 : ti < x.len) :
    morletLast x hs M m ti = .ok
      (∑ t ∈ Icc 0 (lastBound M m ((x.len : ℤ) - ti)), wget hs (m * (t - 1)) * wget x (ti + (t - 1))
        + ∑ t ∈ Icc 1 (lastBound M m (ti - 1)), conj (wget hs ((t - 1) * m)) * wget x (ti - (t - 1))) := by
  have hle : ∀ z, lastBound M m z ≤ z := by intro z; unfold lastBound; split <;> omega
  have hb : ∀ t z : ℤ, 0 ≤ t → t ≤ lastBound M m z → -(m : ℤ) ≤ (m : ℤ) * (t - 1) ∧ (m : ℤ) * (t - 1) ≤ M := by
    intro t z ht1 ht2
    by_cases hm : m = 0
    · subst hm; simp; omega
    · have hc := mul_ceilDiv_lt (M := M) (m := m) (by omega)
      have h3 : t ≤ ceilDiv M m := by unfold lastBound at ht2; rw [if_neg hm] at ht2; omega
      have h4 : (m : ℤ) * t ≤ (m : ℤ) * ceilDiv M m := mul_le_mul_of_nonneg_left h3 (by omega)
      have h5 : 0 ≤ (m : ℤ) * t := by positivity
      constructor
      · rw [mul_sub]; omega
      · rw [mul_sub]; omega
  unfold morletLast
  change (hs.take ((arange 0 (lastBound M m ((x.len : ℤ) - ti) + 1)).map (fun t => (m : ℤ) * (t - 1))) >>= fun hp =>
    x.take ((arange 0 (lastBound M m ((x.len : ℤ) - ti) + 1)).map (fun t => ti + (t - 1))) >>= fun sp =>
    if 0 < ((arange 1 (lastBound M m (ti - 1) + 1)).map (fun t => t - 1)).len then
      (hs.take ((arange 1 (lastBound M m (ti - 1) + 1)).map (fun t => (t - 1) * (m : ℤ))) >>= fun hn =>
       x.take ((arange 1 (lastBound M m (ti - 1) + 1)).map (fun t => ti - (t - 1))) >>= fun sn =>
       Except.ok (dotC hp sp + dotC (hn.map conj) sn))
    else Except.ok (dotC hp sp)) = _
  have hm' : (0 : ℤ) ≤ m := by omega
  rw [take_loop (f := fun t => (m : ℤ) * (t - 1)) (fun t a b => by have := hb t _ a b; unfold IdxOk; omega), ok_bind,
    take_loop (f := fun t => ti + (t - 1)) (fun t a b => by have := hle ((x.len : ℤ) - ti); unfold IdxOk; omega), ok_bind]
  have hd1 := dotC_loop 0 (lastBound M m ((x.len : ℤ) - ti)) (fun t => wget hs (m * (t - 1))) (fun t => wget x (ti + (t - 1))) _ rfl
  have hd3 := dotC_loop 1 (lastBound M m (ti - 1)) (fun t => conj (wget hs ((t - 1) * m))) (fun t => wget x (ti - (t - 1))) _ rfl
  split
  · next hpos =>
    rw [take_loop (f := fun t => (t - 1) * (m : ℤ)) (fun t a b => by
        have := hb t _ (by omega) b; unfold IdxOk; rw [mul_comm]; omega), ok_bind,
      take_loop (f := fun t => ti - (t - 1)) (fun t a b => by have := hle (ti - 1); unfold IdxOk; omega), ok_bind, ← hd1, ← hd3]
    rfl
  · next hpos =>
    have hpos' : ¬ 0 < (lastBound M m (ti - 1) + 1 - 1).toNat := hpos
    have he : Icc 1 (lastBound M m (ti - 1)) = ∅ := by
      rw [Finset.Icc_eq_empty]; omega
    rw [he, Finset.sum_empty, add_zero, ← hd1]

end Tftb.Reassigned
