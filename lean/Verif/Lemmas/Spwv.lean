import Verif.Lemmas.Cohen

/-! # Helper lemmas: smoothed pseudo Wigner-Ville -/

namespace Tftb

open Finset ComplexConjugate Spec Linear Cohen

theorem bind_eq_ok {σ τ : Type} {a : Py σ} {f : σ → Py τ} {b : τ} :
    (a >>= f) = .ok b ↔ ∃ s, a = .ok s ∧ f s = .ok b := by
  cases a with
  | error e => exact ⟨fun h => (by cases h), fun ⟨s, h, _⟩ => (by cases h)⟩
  | ok s => exact ⟨fun h => ⟨s, rfl, h⟩, fun ⟨s', h, h'⟩ => by injection h with h; subst h; exact h'⟩

theorem setItem_ok {α : Type} {v : Vec α} {i : ℤ} {a : α} (h0 : 0 ≤ i) (h1 : i < v.len) :
    v.setItem i a = .ok ⟨v.len, Function.update v.get i.toNat a⟩ := by
  unfold Vec.setItem; rw [if_pos (idxOk_of_lt h0 h1), wrapIdx_of_nonneg h0]

theorem setItem_inv {α : Type} {v w : Vec α} {i : ℤ} {a : α} (h : v.setItem i a = .ok w) :
    IdxOk v.len i ∧ w.len = v.len ∧ w.get = Function.update v.get (wrapIdx v.len i) a := by
  unfold Vec.setItem at h
  split at h
  · rename_i hi
    injection h with h; subst h; exact ⟨hi, rfl, rfl⟩
  · cases h

/-- Inversion of a column loop. -/
theorem Mat.forCols_inv {α : Type} {M M' : Mat α} {T : ℕ} {body : ℕ → Vec α → Py (Vec α)}
    (h : M.forCols T body = .ok M') :
    M'.rows = M.rows ∧ M'.cols = M.cols ∧ (∀ c < T, ∃ v, body c (M.col c) = .ok v ∧ ∀ r, M'.get r c = v.get r) ∧
      ∀ r, ∀ c, T ≤ c → M'.get r c = M.get r c := by
  induction T generalizing M' with
  | zero =>
    injection h with h; subst h
    exact ⟨rfl, rfl, fun c hc => absurd hc (by omega), fun _ _ _ => rfl⟩
  | succ T ih =>
    rw [Mat.forCols_succ, bind_eq_ok] at h
    obtain ⟨M₁, h1, h2⟩ := h
    obtain ⟨i1, i2, i3, i4⟩ := ih h1
    unfold Mat.updCol at h2
    split at h2
    · have hcol : M₁.col T = M.col T := by
        unfold Mat.col
        rw [i1]
        congr 1
        funext r
        exact i4 r T (le_refl _)
      rw [hcol] at h2
      cases e : body T (M.col T) with
      | error e' => rw [e] at h2; cases h2
      | ok v =>
        rw [e] at h2
        injection h2 with h2
        subst h2
        refine ⟨i1, i2, fun c hc => ?_, fun r c hc => ?_⟩
        · by_cases hcT : c = T
          · subst hcT; exact ⟨v, e, fun r => by simp⟩
          · obtain ⟨w, w1, w2⟩ := i3 c (by omega)
            exact ⟨w, w1, fun r => by simp only [if_neg hcT]; exact w2 r⟩
        · simp only [if_neg (show c ≠ T by omega)]
          exact i4 r c (by omega)
    · cases h2

theorem vec_sum_range {v : Vec ℂ} {a b : ℤ} {f : ℤ → ℂ} (hl : v.len = (b + 1 - a).toNat)
    (h : ∀ j < (b + 1 - a).toNat, v.get j = f (a + j)) : v.sum = ∑ p ∈ Finset.Icc a b, f p := by
  unfold Vec.sum
  rw [hl, ← sum_arange]
  exact Finset.sum_congr rfl (fun j hj => h j (Finset.mem_range.1 hj))

/-- Normalised weights. -/
theorem spwvWeights_eq (tw : Vec ℂ) (lg a b : ℤ) (hb : ∀ p, a ≤ p → p ≤ b → 0 ≤ lg + p ∧ lg + p < tw.len) :
    ((∑ p ∈ Finset.Icc a b, zext tw (lg + p) = 0 ∧ a ≤ b) →
      spwvWeights tw lg (arange a (b + 1)) = .error .nonFinite) ∧
    (¬ (∑ p ∈ Finset.Icc a b, zext tw (lg + p) = 0 ∧ a ≤ b) →
      ∃ g2 : Vec ℂ, spwvWeights tw lg (arange a (b + 1)) = .ok g2 ∧ g2.len = (b + 1 - a).toNat ∧
        ∀ j < (b + 1 - a).toNat, g2.get j = zext tw (lg + (a + j)) / ∑ p ∈ Finset.Icc a b, zext tw (lg + p)) := by
  obtain ⟨v, h1, h2, h3⟩ := take_range (x := tw) a b (fun p => lg + p) hb
  have hs : v.sum = ∑ p ∈ Finset.Icc a b, zext tw (lg + p) := vec_sum_range (f := fun p => zext tw (lg + p)) h2 h3
  have hiff : (v.sum = 0 ∧ v.len ≠ 0) ↔ (∑ p ∈ Finset.Icc a b, zext tw (lg + p) = 0 ∧ a ≤ b) := by
    rw [hs, h2]
    constructor
    · rintro ⟨h, h'⟩; exact ⟨h, by omega⟩
    · rintro ⟨h, h'⟩; exact ⟨h, by omega⟩
  unfold spwvWeights
  rw [h1, ok_bind]
  constructor
  · intro h
    simp only
    rw [if_pos (hiff.2 h)]
  · intro h
    simp only
    rw [if_neg (fun h' => h (hiff.1 h'))]
    refine ⟨_, rfl, h2, fun j hj => ?_⟩
    rw [Vec.map_get, h3 j hj, hs]

/-- A weighted correlation. -/
theorem spwvCorr_ok (x g2 : Vec ℂ) (a b : ℤ) (G : ℤ → ℂ) (f f' : ℤ → ℤ) (hl : g2.len = (b + 1 - a).toNat)
    (hG : ∀ j < (b + 1 - a).toNat, g2.get j = G (a + j))
    (h : ∀ t, a ≤ t → t ≤ b → 0 ≤ f t ∧ f t < x.len) (h' : ∀ t, a ≤ t → t ≤ b → 0 ≤ f' t ∧ f' t < x.len) :
    spwvCorr x g2 ((arange a (b + 1)).map f) ((arange a (b + 1)).map f')
      = .ok (∑ p ∈ Finset.Icc a b, G p * (zext x (f p) * conj (zext x (f' p)))) := by
  obtain ⟨u, u1, u2, u3⟩ := take_range (x := x) a b f h
  obtain ⟨v, v1, v2, v3⟩ := take_range (x := x) a b f' h'
  unfold spwvCorr
  rw [u1, ok_bind, Vec.bcast_ok (by rw [hl, u2]), ok_bind, v1, ok_bind, Vec.bcast_ok (by simp only; rw [hl, v2]), ok_bind]
  congr 1
  refine vec_sum_range (f := fun p => G p * (zext x (f p) * conj (zext x (f' p)))) hl ?_
  intro j hj
  simp only
  rw [hG j hj, u3 j hj, v3 j hj, mul_assoc]

/-- The segment of offsets computed by the code. -/
theorem smoothSeg_eq (L N : ℕ) (ti : ℤ) (τ : ℕ) :
    smoothSeg L N (ti - 1) τ
      = Finset.Icc (-(min (L : ℤ) ((N : ℤ) - ti - τ))) (min (L : ℤ) (ti - 1 - τ)) := by
  ext p
  unfold smoothSeg
  rw [Finset.mem_filter, Finset.mem_Icc, Finset.mem_Icc, Nat.abs_cast]
  omega

theorem smoothSeg_neg (L N : ℕ) (c τ : ℤ) : smoothSeg L N c (-τ) = smoothSeg L N c τ := by
  unfold smoothSeg; rw [abs_neg]

/-- Bad weights: the code divides by zero. -/
def SmoothBad (g : Vec ℂ) (L N : ℕ) (c τ : ℤ) : Prop := smoothMass g L N c τ = 0 ∧ (smoothSeg L N c τ).Nonempty

theorem zext_window {g : Vec ℂ} {L : ℕ} (hg : g.len = 2 * L + 1) {p : ℤ} (h1 : -(L : ℤ) ≤ p) (h2 : p ≤ L) :
    zext g ((L : ℤ) + p) = g.get ((L : ℤ) + p).toNat := zext_of_mem (by omega) (by omega)

theorem mid_odd {g : Vec ℂ} {L : ℕ} (hg : g.len = 2 * L + 1) : ((g.len : ℤ) - 1) / 2 = L := by omega

/-- Weights and both correlations at lag `τ`. -/
theorem spwv_step (x tw : Vec ℂ) (L : ℕ) (hg : tw.len = 2 * L + 1) (ti : ℤ) (τ : ℕ) :
    (SmoothBad tw L x.len (ti - 1) τ → spwvWeights tw L
      (arange (-(min (L : ℤ) ((x.len : ℤ) - ti - τ))) (min (L : ℤ) (ti - 1 - τ) + 1)) = .error .nonFinite) ∧
    (¬ SmoothBad tw L x.len (ti - 1) τ → ∃ g2, spwvWeights tw L
      (arange (-(min (L : ℤ) ((x.len : ℤ) - ti - τ))) (min (L : ℤ) (ti - 1 - τ) + 1)) = .ok g2 ∧
      spwvCorr x g2
        ((arange (-(min (L : ℤ) ((x.len : ℤ) - ti - τ))) (min (L : ℤ) (ti - 1 - τ) + 1)).map (fun p => ti + τ - p - 1))
        ((arange (-(min (L : ℤ) ((x.len : ℤ) - ti - τ))) (min (L : ℤ) (ti - 1 - τ) + 1)).map (fun p => ti - τ - p - 1))
        = .ok (smoothCorr tw L x (ti - 1) τ) ∧
      spwvCorr x g2
        ((arange (-(min (L : ℤ) ((x.len : ℤ) - ti - τ))) (min (L : ℤ) (ti - 1 - τ) + 1)).map (fun p => ti - τ - p - 1))
        ((arange (-(min (L : ℤ) ((x.len : ℤ) - ti - τ))) (min (L : ℤ) (ti - 1 - τ) + 1)).map (fun p => ti + τ - p - 1))
        = .ok (smoothCorr tw L x (ti - 1) (-τ))) := by
  set a := -(min (L : ℤ) ((x.len : ℤ) - ti - τ)) with ha
  set b := min (L : ℤ) (ti - 1 - τ) with hb
  have hseg : smoothSeg L x.len (ti - 1) τ = Finset.Icc a b := smoothSeg_eq L x.len ti τ
  have hrange : ∀ p, a ≤ p → p ≤ b → -(L : ℤ) ≤ p ∧ p ≤ L ∧ (0 ≤ ti + τ - p - 1 ∧ ti + τ - p - 1 < x.len) ∧
      (0 ≤ ti - τ - p - 1 ∧ ti - τ - p - 1 < x.len) := by
    intro p h1 h2
    rw [ha] at h1
    rw [hb] at h2
    omega
  have hmass : smoothMass tw L x.len (ti - 1) τ = ∑ p ∈ Finset.Icc a b, zext tw ((L : ℤ) + p) := by
    unfold smoothMass
    rw [hseg]
    apply Finset.sum_congr rfl
    intro p hp
    rw [Finset.mem_Icc] at hp
    obtain ⟨h1, h2, _⟩ := hrange p hp.1 hp.2
    rw [zext_window hg h1 h2]
  have hbad : SmoothBad tw L x.len (ti - 1) τ ↔ (∑ p ∈ Finset.Icc a b, zext tw ((L : ℤ) + p) = 0 ∧ a ≤ b) := by
    unfold SmoothBad
    rw [hmass, hseg, Finset.nonempty_Icc]
  obtain ⟨w1, w2⟩ := spwvWeights_eq tw L a b (fun p h1 h2 => by
    obtain ⟨h3, h4, _⟩ := hrange p h1 h2
    omega)
  refine ⟨fun h => w1 (hbad.1 h), fun h => ?_⟩
  obtain ⟨g2, g21, g22, g23⟩ := w2 (fun h' => h (hbad.2 h'))
  refine ⟨g2, g21, ?_, ?_⟩
  · rw [spwvCorr_ok x g2 a b (fun p => zext tw ((L : ℤ) + p) / ∑ p ∈ Finset.Icc a b, zext tw ((L : ℤ) + p)) _ _ g22 g23
      (fun t h1 h2 => (hrange t h1 h2).2.2.1) (fun t h1 h2 => (hrange t h1 h2).2.2.2)]
    congr 1
    unfold smoothCorr
    rw [hmass, hseg, Finset.sum_div]
    apply Finset.sum_congr rfl
    intro p hp
    rw [Finset.mem_Icc] at hp
    obtain ⟨h1, h2, _⟩ := hrange p hp.1 hp.2
    rw [zext_window hg h1 h2]
    unfold wignerKernel
    have e1 : ti + (τ : ℤ) - p - 1 = ti - 1 - p + τ := by ring
    have e2 : ti - (τ : ℤ) - p - 1 = ti - 1 - p - τ := by ring
    rw [e1, e2]
    ring
  · rw [spwvCorr_ok x g2 a b (fun p => zext tw ((L : ℤ) + p) / ∑ p ∈ Finset.Icc a b, zext tw ((L : ℤ) + p)) _ _ g22 g23
      (fun t h1 h2 => (hrange t h1 h2).2.2.2) (fun t h1 h2 => (hrange t h1 h2).2.2.1)]
    congr 1
    unfold smoothCorr
    have hm : smoothMass tw L x.len (ti - 1) (-τ) = smoothMass tw L x.len (ti - 1) τ := by
      unfold smoothMass; rw [smoothSeg_neg]
    rw [hm, hmass, smoothSeg_neg, hseg, Finset.sum_div]
    apply Finset.sum_congr rfl
    intro p hp
    rw [Finset.mem_Icc] at hp
    obtain ⟨h1, h2, _⟩ := hrange p hp.1 hp.2
    rw [zext_window hg h1 h2]
    unfold wignerKernel
    have e1 : ti + (τ : ℤ) - p - 1 = ti - 1 - p - -(τ : ℤ) := by ring
    have e2 : ti - (τ : ℤ) - p - 1 = ti - 1 - p + -(τ : ℤ) := by ring
    rw [e1, e2]
    ring

/-- DFT of a column after storing into an empty row. -/
theorem dftC_update {n : ℕ} (f : ℕ → ℂ) {p : ℕ} (hp : p < n) (h0 : f p = 0) (a : ℂ) (k : ℤ) :
    dftC n (Function.update f p a) k = dftC n f k + a * rootPow n ((p : ℤ) * k) := by
  have hm : p ∈ range n := Finset.mem_range.2 hp
  unfold dftC
  rw [← Finset.add_sum_erase _ _ hm, ← Finset.add_sum_erase _ _ hm, h0, zero_mul, zero_add, Function.update_self, add_comm]
  congr 1
  apply Finset.sum_congr rfl
  intro j hj
  rw [Function.update_of_ne (Finset.ne_of_mem_erase hj)]

/-- Value stored for lag `τ`. -/
noncomputable def spwvTerm (x tw fw : Vec ℂ) (Lg Lh n : ℕ) (c : ℤ) (k : ℤ) (τ : ℕ) : ℂ :=
  fw.get (Lh + τ + 1) * smoothCorr tw Lg x c τ * rootPow n (((τ : ℤ) + 1) * k)
    + fw.get (Lh + 1 - τ) * smoothCorr tw Lg x c (-τ) * rootPow n (-(((τ : ℤ) + 1) * k))

/-- The loop over the lags. -/
theorem spwv_loop (x tw fw : Vec ℂ) (Lg Lh n : ℕ) (hg : tw.len = 2 * Lg + 1) (hh : fw.len = 2 * Lh + 1) (ti : ℤ)
    (T : ℕ) (hT1 : T ≤ Lh) (hT2 : 2 * T + 1 ≤ n) (c0 : ℂ)
    (hfin : ∀ τ < T, ¬ SmoothBad tw Lg x.len (ti - 1) (τ : ℕ)) :
    ∃ col : Vec ℂ, (List.range T).foldlM (spwvLag x tw fw n ti) ⟨n, Function.update (fun _ => 0) 0 c0⟩ = .ok col ∧
      col.len = n ∧ (∀ r < n, T < r → r < n - T → col.get r = 0) ∧
      ∀ k : ℤ, dftC n col.get k = c0 + ∑ τ ∈ range T, spwvTerm x tw fw Lg Lh n (ti - 1) k τ := by
  induction T with
  | zero =>
    refine ⟨_, rfl, rfl, fun r _ hr _ => ?_, fun k => ?_⟩
    · show Function.update (fun _ => (0 : ℂ)) 0 c0 r = 0
      rw [Function.update_of_ne (by omega)]
    · show dftC n (Function.update (fun _ => (0 : ℂ)) 0 c0) k = _
      rw [dftC_update _ (by omega) rfl]
      unfold dftC
      simp [rootPow]
  | succ T ih =>
    obtain ⟨col, h1, h2, h3, h4⟩ := ih (by omega) (by omega) (fun τ hτ => hfin τ (by omega))
    obtain ⟨g2, w1, w2, w3⟩ := (spwv_step x tw Lg hg ti T).2 (hfin T (by omega))
    refine ⟨⟨n, Function.update (Function.update col.get (1 + T) (fw.get (Lh + T + 1) * smoothCorr tw Lg x (ti - 1) T))
      (n - T - 1) (fw.get (Lh + 1 - T) * smoothCorr tw Lg x (ti - 1) (-(T : ℤ)))⟩, ?_, rfl, ?_, ?_⟩
    · rw [foldlM_range_succ, h1, ok_bind]
      unfold spwvLag
      simp only [mid_odd hg, mid_odd hh]
      rw [w1, ok_bind, w2, ok_bind, Vec.item_ok (by omega) (by omega), ok_bind,
        setItem_ok (by omega) (by omega), ok_bind, w3, ok_bind, Vec.item_ok (by omega) (by omega), ok_bind,
        setItem_ok (by omega) (by simp only; omega)]
      have e1 : ((Lh : ℤ) + (T : ℤ) + 1).toNat = Lh + T + 1 := by omega
      have e2 : ((Lh : ℤ) - (T : ℤ) + 1).toNat = Lh + 1 - T := by omega
      have e3 : (1 + (T : ℤ)).toNat = 1 + T := by omega
      have e4 : ((n : ℤ) - (T : ℤ) - 1).toNat = n - T - 1 := by omega
      rw [e1, e2, e3, e4, h2]
    · intro r hr1 hr2 hr3
      simp only
      rw [Function.update_of_ne (by omega), Function.update_of_ne (by omega)]
      exact h3 r hr1 (by omega) (by omega)
    · intro k
      simp only
      rw [dftC_update _ (by omega) (by
          rw [Function.update_of_ne (by omega)]
          exact h3 _ (by omega) (by omega) (by omega)),
        dftC_update _ (by omega) (h3 _ (by omega) (by omega) (by omega)), h4 k, Finset.sum_range_succ]
      unfold spwvTerm
      have e1 : rootPow n (((1 + T : ℕ) : ℤ) * k) = rootPow n (((T : ℤ) + 1) * k) := by
        congr 1; push_cast; ring
      have e2 : rootPow n (((n - T - 1 : ℕ) : ℤ) * k) = rootPow n (-(((T : ℤ) + 1) * k)) := by
        apply rootPow_congr (by omega)
        refine ⟨k, ?_⟩
        push_cast [Nat.sub_sub, Nat.cast_sub (show T + 1 ≤ n by omega)]
        ring
      rw [e1, e2]
      ring

/-- Number of lags treated in a column. -/
noncomputable def spwvT (n N Lg Lh : ℕ) (ti : ℤ) : ℕ :=
  (min (min (ti + Lg - 1) ((N : ℤ) - ti + Lg)) (min (roundEven ((n : ℝ) / 2) - 1) (Lh : ℤ))).toNat

/-- The zone of the Nyquist lag. -/
def SpwvZone (n N Lh : ℕ) (ti : ℤ) : Prop :=
  ti ≤ (N : ℤ) - roundEven ((n : ℝ) / 2) ∧ ti ≥ roundEven ((n : ℝ) / 2) + 1 ∧ roundEven ((n : ℝ) / 2) ≤ (Lh : ℤ)

noncomputable instance (n N Lh : ℕ) (ti : ℤ) : Decidable (SpwvZone n N Lh ti) := by unfold SpwvZone; infer_instance

/-- The fresh column, given finite weights. -/
theorem spwvCol_ok (x tw fw : Vec ℂ) (ts : Vec ℤ) (Lg Lh n : ℕ) (hn : n ≠ 0) (hg : tw.len = 2 * Lg + 1)
    (hh : fw.len = 2 * Lh + 1) (c : ℕ) (hc : c < ts.len)
    (hfin : ∀ τ : ℕ, τ < max 1 (spwvT n x.len Lg Lh (ts.get c)) → ¬ SmoothBad tw Lg x.len (ts.get c - 1) τ)
    (hz : ¬ SpwvZone n x.len Lh (ts.get c)) :
    ∃ col : Vec ℂ, spwvCol x tw fw ts n c ⟨n, fun _ => 0⟩ = .ok col ∧ col.len = n ∧
      ∀ k : ℤ, dftC n col.get k = smoothCorr tw Lg x (ts.get c - 1) 0
        + ∑ τ ∈ range (spwvT n x.len Lg Lh (ts.get c)), spwvTerm x tw fw Lg Lh n (ts.get c - 1) k τ := by
  set ti := ts.get c with hti
  have hT1 : spwvT n x.len Lg Lh ti ≤ Lh := by unfold spwvT; omega
  have hT2 : 2 * spwvT n x.len Lg Lh ti + 1 ≤ n := by
    unfold spwvT; rw [roundEven_half]; split <;> omega
  obtain ⟨col, h1, h2, _, h4⟩ := spwv_loop x tw fw Lg Lh n hg hh ti (spwvT n x.len Lg Lh ti) hT1 hT2
    (smoothCorr tw Lg x (ti - 1) 0) (fun τ hτ => hfin τ (by omega))
  obtain ⟨g2, w1, w2, _⟩ := (spwv_step x tw Lg hg ti 0).2 (hfin 0 (by omega))
  refine ⟨col, ?_, h2, h4⟩
  simp only [Nat.cast_zero, sub_zero, add_zero] at w1 w2
  unfold spwvCol
  simp only [mid_odd hg, mid_odd hh]
  rw [ts_item hc, ok_bind, ← hti, w1, ok_bind, w2, ok_bind, setItem_ok (by omega) (by simp only; omega), ok_bind]
  show ((List.range (spwvT n x.len Lg Lh ti)).foldlM _ _ >>= _) = _
  simp only [Int.toNat_zero]
  rw [h1, ok_bind]
  show (if SpwvZone n x.len Lh ti then _ else _) = _
  rw [if_neg hz]

end Tftb
