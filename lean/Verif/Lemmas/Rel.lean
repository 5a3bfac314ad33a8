import Verif.Py.Basic

/-! # Two calls compared step by step -/

namespace Tftb

variable {α β γ δ σ σ' : Type}

/-- Two calls end in the same way: with the same error, or with related values. -/
def PyRel (R : α → β → Prop) (a : Py α) (b : Py β) : Prop :=
  match a, b with
  | .ok x, .ok y => R x y
  | .error e, .error e' => e = e'
  | _, _ => False

namespace PyRel

theorem ok {R : α → β → Prop} {x : α} {y : β} (h : R x y) : PyRel R (.ok x) (.ok y) := h

theorem error {R : α → β → Prop} {e : PyErr} : PyRel R (.error e) (.error e) := rfl

theorem bind {R : α → β → Prop} {S : γ → δ → Prop} {a : Py α} {b : Py β} {f : α → Py γ} {g : β → Py δ} (h : PyRel R a b)
    (hf : ∀ x y, R x y → PyRel S (f x) (g y)) : PyRel S (a >>= f) (b >>= g) := by
  cases a with
  | ok x => cases b with
    | ok y => exact hf x y h
    | error e => exact h.elim
  | error e => cases b with
    | ok y => exact h.elim
    | error e' => exact h

theorem mono {R S : α → β → Prop} {a : Py α} {b : Py β} (h : PyRel R a b) (hRS : ∀ x y, R x y → S x y) : PyRel S a b := by
  cases a with
  | ok x => cases b with
    | ok y => exact hRS x y h
    | error e => exact h.elim
  | error e => cases b with
    | ok y => exact h.elim
    | error e' => exact h

theorem refl (a : Py α) : PyRel (fun x y => y = x) a a := by
  cases a with
  | ok x => rfl
  | error e => rfl

/-- Values given by a function: the second call is the image of the first one. -/
theorem map_eq {f : α → β} {a : Py α} {b : Py β} (h : PyRel (fun x y => y = f x) a b) : b = a.map f := by
  cases a with
  | ok x => cases b with
    | ok y => exact congrArg Except.ok h
    | error e => exact h.elim
  | error e => cases b with
    | ok y => exact h.elim
    | error e' => exact congrArg Except.error (Eq.symm h)

theorem ite {R : α → β → Prop} {p : Prop} [Decidable p] {a a' : Py α} {b b' : Py β} (h : p → PyRel R a b) (h' : ¬ p → PyRel R a' b') :
    PyRel R (if p then a else a') (if p then b else b') := by
  by_cases hp : p
  · rw [if_pos hp, if_pos hp]; exact h hp
  · rw [if_neg hp, if_neg hp]; exact h' hp

theorem foldlM {R : σ → σ' → Prop} {f : σ → α → Py σ} {g : σ' → α → Py σ'} (l : List α)
    (h : ∀ s s' x, R s s' → PyRel R (f s x) (g s' x)) : ∀ s s', R s s' → PyRel R (l.foldlM f s) (l.foldlM g s') := by
  induction l with
  | nil => intro s s' hs; exact hs
  | cons x l ih =>
    intro s s' hs
    rw [List.foldlM_cons, List.foldlM_cons]
    exact bind (h s s' x hs) (fun t t' ht => ih t t' ht)

/-! ## Arrays -/

theorem item (v : Vec α) (f : α → β) (i : ℤ) : PyRel (fun x y => y = f x) (v.item i) ((v.map f).item i) := by
  unfold Vec.item
  exact ite (fun _ => rfl) (fun _ => rfl)

theorem take (v : Vec α) (f : α → β) (idx : Vec ℤ) : PyRel (fun x y => y = x.map f) (v.take idx) ((v.map f).take idx) := by
  unfold Vec.take
  exact ite (fun _ => rfl) (fun _ => rfl)

theorem bcast {α' β' γ' : Type} (u : Vec α) (v : Vec β) (f : α → α') (g : β → β') (k : γ → γ') (h : α → β → γ) (h' : α' → β' → γ')
    (hh : ∀ p q, h' (f p) (g q) = k (h p q)) : PyRel (fun x y => y = x.map k) (Vec.bcast h u v) (Vec.bcast h' (u.map f) (v.map g)) := by
  have e : ∀ (n : ℕ) (p : ℕ → α) (q : ℕ → β), (⟨n, fun i => h' (f (p i)) (g (q i))⟩ : Vec γ') = Vec.map k ⟨n, fun i => h (p i) (q i)⟩ := by
    intro n p q
    unfold Vec.map
    congr 1
    funext i
    exact hh _ _
  unfold Vec.bcast
  exact ite (fun _ => e _ _ _) (fun _ => ite (fun _ => e _ _ _) (fun _ => ite (fun _ => e _ _ _) (fun _ => rfl)))

theorem scatter (f : α → β) (pos : ℕ → ℕ) (val : ℕ → α) (L : ℕ) (g : ℕ → α) :
    Vec.scatter (fun i => f (g i)) pos (fun j => f (val j)) L = fun i => f (Vec.scatter g pos val L i) := by
  unfold Vec.scatter
  generalize List.range L = l
  induction l generalizing g with
  | nil => rfl
  | cons j l ih =>
    rw [List.foldl_cons, List.foldl_cons, ← ih]
    congr 1
    funext i
    rw [Function.update_apply, Function.update_apply]
    split_ifs <;> rfl

theorem put (c v : Vec α) (f : α → β) (idx : Vec ℤ) : PyRel (fun x y => y = x.map f) (c.put idx v) ((c.map f).put idx (v.map f)) := by
  unfold Vec.put
  refine ite (fun _ => rfl) (fun _ => ite (fun _ => ?_) (fun _ => ite (fun _ => ?_) (fun _ => rfl)))
  · exact congrArg (Vec.mk c.len) (scatter f _ _ _ _)
  · exact congrArg (Vec.mk c.len) (scatter f _ _ _ _)

theorem setItem (c : Vec α) (f : α → β) (i : ℤ) (a : α) : PyRel (fun x y => y = x.map f) (c.setItem i a) ((c.map f).setItem i (f a)) := by
  unfold Vec.setItem
  refine ite (fun _ => ?_) (fun _ => rfl)
  refine congrArg (Vec.mk c.len) ?_
  funext j
  show Function.update (c.map f).get (wrapIdx c.len i) (f a) j = f (Function.update c.get (wrapIdx c.len i) a j)
  rw [Function.update_apply, Function.update_apply]
  split_ifs <;> rfl

theorem mean (v : Vec ℝ) (r : ℝ) : PyRel (fun x y => y = r * x) v.mean (v.map (r * ·)).mean := by
  unfold Vec.mean
  refine ite (fun _ => rfl) (fun _ => ?_)
  show (∑ i ∈ Finset.range v.len, r * v.get i) / (v.len : ℝ) = r * ((∑ i ∈ Finset.range v.len, v.get i) / (v.len : ℝ))
  rw [← Finset.mul_sum, mul_div_assoc]

theorem fft (v : Vec ℂ) (a : ℂ) : PyRel (fun x y => y = x.map (a * ·)) (Tftb.fft v) (Tftb.fft (v.map (a * ·))) := by
  unfold Tftb.fft
  refine ite (fun _ => rfl) (fun _ => ?_)
  show _ = Vec.map _ _
  unfold Vec.map
  congr 1
  funext k
  dsimp only
  rw [Finset.mul_sum]
  exact Finset.sum_congr rfl (fun j _ => by ring)

/-! ## Matrices -/

theorem forCols (M : Mat α) (f : α → β) (T : ℕ) (body : ℕ → Vec α → Py (Vec α)) (body' : ℕ → Vec β → Py (Vec β))
    (h : ∀ c v, PyRel (fun x y => y = x.map f) (body c v) (body' c (v.map f))) :
    PyRel (fun x y => y = x.map f) (M.forCols T body) ((M.map f).forCols T body') := by
  unfold Mat.forCols
  refine foldlM _ (fun s s' c hs => ?_) _ _ rfl
  subst hs
  unfold Mat.updCol
  refine ite (fun _ => ?_) (fun _ => rfl)
  have hc := h c (s.col c)
  change PyRel _ (body c (s.col c)) (body' c ((s.map f).col c)) at hc
  cases e : body c (s.col c) with
  | error e1 => cases e' : body' c ((s.map f).col c) with
    | error e2 => rw [e, e'] at hc; exact hc
    | ok v => rw [e, e'] at hc; exact hc.elim
  | ok u => cases e' : body' c ((s.map f).col c) with
    | error e2 => rw [e, e'] at hc; exact hc.elim
    | ok v =>
      rw [e, e'] at hc
      change v = u.map f at hc
      subst hc
      show _ = Mat.map f _
      unfold Mat.map
      congr 1
      funext r c'
      show (if c' = c then f (u.get r) else f (s.get r c')) = f (if c' = c then u.get r else s.get r c')
      split_ifs <;> rfl

theorem fft0 (M : Mat ℂ) (a : ℂ) : PyRel (fun x y => y = x.map (a * ·)) M.fft0 (M.map (a * ·)).fft0 := by
  unfold Mat.fft0
  refine ite (fun _ => rfl) (fun _ => ?_)
  show _ = Mat.map _ _
  unfold Mat.map
  congr 1
  funext k c
  dsimp only
  rw [Finset.mul_sum]
  exact Finset.sum_congr rfl (fun j _ => by ring)

theorem takeRows (M : Mat α) (f : α → β) (idx : Vec ℤ) : PyRel (fun x y => y = x.map f) (M.takeRows idx) ((M.map f).takeRows idx) := by
  unfold Mat.takeRows
  exact ite (fun _ => rfl) (fun _ => rfl)

end PyRel

end Tftb
