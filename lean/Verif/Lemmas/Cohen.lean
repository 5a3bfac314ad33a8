import Verif.Lemmas.Wvd

/-! # Helper lemmas: pseudo Wigner-Ville, Margenau-Hill, Page -/

namespace Tftb

open Finset ComplexConjugate Spec Linear Cohen

/-! ## Pseudo Wigner-Ville -/

/-- Index of the middle sample of a window. -/
def midIdx (h : Vec ℂ) : ℤ := ((h.len : ℤ) - 1) / 2

/-- Largest lag of column `c`. -/
noncomputable def pwvT (n N : ℕ) (lh : ℤ) (c : ℕ) : ℤ :=
  min (min (c : ℤ) ((N : ℤ) - c - 1)) (min (roundEven ((n : ℝ) / 2)) lh)

/-- The zone where the code raises. -/
def pwvZone (n N : ℕ) (lh : ℤ) (c : ℕ) : Prop :=
  (c : ℤ) ≤ (N : ℤ) - roundEven ((n : ℝ) / 2) ∧ (c : ℤ) ≥ roundEven ((n : ℝ) / 2) + 1 ∧ roundEven ((n : ℝ) / 2) ≤ lh

noncomputable instance (n N : ℕ) (lh : ℤ) (c : ℕ) : Decidable (pwvZone n N lh c) := by unfold pwvZone; infer_instance

theorem pwvdCol_eq {τ : Type} (mkw : ℕ → Vec ℂ) (x : Vec ℂ) (ts : Vec τ) (n : ℕ) (h : Vec ℂ) (hn : n ≠ 0) (c : ℕ) :
    pwvdCol (TFR.init mkw x ts n (some h)) c ⟨n, fun _ => 0⟩
      = if pwvZone n x.len (midIdx h) c then .error .indexError
        else .ok ⟨n, lagCol n (-(pwvT n x.len (midIdx h) c)) (pwvT n x.len (midIdx h) c)
          (fun t => zext h (midIdx h + t) * wignerKernel x c t)⟩ := by
  set T := pwvT n x.len (midIdx h) c with hT
  have hb : ∀ t, -T ≤ t → t ≤ T → (0 ≤ midIdx h + t ∧ midIdx h + t < h.len) ∧
      (0 ≤ (c : ℤ) + t ∧ (c : ℤ) + t < x.len) ∧ (0 ≤ (c : ℤ) - t ∧ (c : ℤ) - t < x.len) := by
    intro t h1 h2
    rw [hT] at h1 h2
    unfold pwvT midIdx at h1 h2
    unfold midIdx
    omega
  obtain ⟨vw, w1, w2, w3⟩ := take_range (x := h) (-T) T (fun t => midIdx h + t) (fun t h1 h2 => (hb t h1 h2).1)
  obtain ⟨va, a1, a2, a3⟩ := take_range (x := x) (-T) T (fun t => (c : ℤ) + t) (fun t h1 h2 => (hb t h1 h2).2.1)
  obtain ⟨vb, b1, b2, b3⟩ := take_range (x := x) (-T) T (fun t => (c : ℤ) - t) (fun t h1 h2 => (hb t h1 h2).2.2)
  simp only [pwvdCol, TFR.init, Option.getD_some]
  show (h.take ((arange (-T) (T + 1)).map (fun t => midIdx h + t)) >>= _) = _
  rw [w1, ok_bind]
  show (x.take ((arange (-T) (T + 1)).map _) >>= _) = _
  rw [a1, ok_bind]
  show (x.take ((arange (-T) (T + 1)).map _) >>= _) = _
  rw [b1, ok_bind, Vec.bcast_ok (by rw [a2, w2]), ok_bind, Vec.bcast_ok (by simp only; rw [b2, w2]), ok_bind]
  have := put_lags_zero hn (-T) T
    (v := ⟨vw.len, fun i => vw.get i * va.get i * conj (vb.get i)⟩)
    (fun t => zext h (midIdx h + t) * wignerKernel x c t) w2
    (fun j hj => by simp only; rw [a3 j hj, b3 j hj, w3 j hj, mul_assoc]; rfl)
  show ((⟨n, fun _ => 0⟩ : Vec ℂ).put ((arange (-T) (T + 1)).map _) _ >>= _) = _
  rw [this, ok_bind]
  rfl

theorem pwvdRun_fresh {τ : Type} (mkw : ℕ → Vec ℂ) (x : Vec ℂ) (ts : Vec τ) (n : ℕ) (h : Vec ℂ) (hn : n ≠ 0)
    (hz : ∀ c < ts.len, ¬ pwvZone n x.len (midIdx h) c) :
    ∃ F : Mat ℂ, pwvdRun (TFR.init mkw x ts n (some h))
        = .ok ({ TFR.init mkw x ts n (some h) with tfr := .cplx F }, F.map Complex.re) ∧ F.rows = n ∧ F.cols = ts.len ∧
      ∀ k, ∀ c < ts.len, F.get k c = dftC n (lagCol n (-(pwvT n x.len (midIdx h) c)) (pwvT n x.len (midIdx h) c)
          (fun t => zext h (midIdx h + t) * wignerKernel x c t)) k := by
  have hok : pwvdRun (TFR.init mkw x ts n (some h)) = .ok ({ TFR.init mkw x ts n (some h) with
      tfr := .cplx ⟨n, ts.len, fun k c => dftC n (fun r => if c < ts.len then
        lagCol n (-(pwvT n x.len (midIdx h) c)) (pwvT n x.len (midIdx h) c)
          (fun t => zext h (midIdx h + t) * wignerKernel x c t) r else 0) k⟩ },
      (⟨n, ts.len, fun k c => dftC n (fun r => if c < ts.len then
        lagCol n (-(pwvT n x.len (midIdx h) c)) (pwvT n x.len (midIdx h) c)
          (fun t => zext h (midIdx h + t) * wignerKernel x c t) r else 0) k⟩ : Mat ℂ).map Complex.re) := by
    unfold pwvdRun
    show ((Store.cplx (Mat.zeros n ts.len)).forCols ts.len _ >>= _) = _
    rw [forCols_fresh (g := fun c => ⟨n, lagCol n (-(pwvT n x.len (midIdx h) c)) (pwvT n x.len (midIdx h) c)
          (fun t => zext h (midIdx h + t) * wignerKernel x c t)⟩)
      (fun c hc => by rw [pwvdCol_eq mkw x ts n h hn c, if_neg (hz c hc)]), ok_bind, fresh_fft hn, ok_bind]
  refine ⟨_, hok, rfl, rfl, fun k c hc => ?_⟩
  simp only [if_pos hc]

theorem pwvdRun_zone {τ : Type} (mkw : ℕ → Vec ℂ) (x : Vec ℂ) (ts : Vec τ) (n : ℕ) (h : Vec ℂ) (hn : n ≠ 0)
    (hz : ∃ c < ts.len, pwvZone n x.len (midIdx h) c) :
    pwvdRun (TFR.init mkw x ts n (some h)) = .error .indexError := by
  classical
  have hz' : ∃ c, c < ts.len ∧ pwvZone n x.len (midIdx h) c := hz
  obtain ⟨h1, h2⟩ := Nat.find_spec hz'
  have hmin := fun c (hc : c < Nat.find hz') => Nat.find_min hz' hc
  unfold pwvdRun
  show ((Store.cplx (Mat.zeros n ts.len)).forCols ts.len _ >>= _) = _
  rw [forCols_fresh_error (g := fun c => ⟨n, lagCol n (-(pwvT n x.len (midIdx h) c)) (pwvT n x.len (midIdx h) c)
          (fun t => zext h (midIdx h + t) * wignerKernel x c t)⟩)
    (c0 := Nat.find hz') h1 ?_ (e := .indexError) ?_]
  · rfl
  · intro c hc
    have hcl : c < ts.len := by omega
    rw [pwvdCol_eq mkw x ts n h hn c, if_neg (fun hzc => hmin c hc ⟨hcl, hzc⟩)]
  · rw [pwvdCol_eq mkw x ts n h hn _, if_pos h2]

/-! ## Margenau-Hill and Page -/

/-- Column of products of one sample with conjugated samples. -/
theorem product_col {n : ℕ} (hn : n ≠ 0) (x : Vec ℂ) (a b : ℤ) (s : ℂ) (f : ℤ → ℤ)
    (h : ∀ t, a ≤ t → t ≤ b → 0 ≤ f t ∧ f t < x.len) :
    (x.take ((arange a (b + 1)).map f) >>= fun v =>
      (⟨n, fun _ => 0⟩ : Vec ℂ).put ((arange a (b + 1)).map (fun t => ((n : ℤ) + t) % (n : ℤ)))
        (v.map (fun z => s * conj z)))
      = .ok ⟨n, lagCol n a b (fun t => s * conj (zext x (f t)))⟩ := by
  obtain ⟨v, h1, h2, h3⟩ := take_range (x := x) a b f h
  rw [h1, ok_bind]
  exact put_lags_zero hn a b (v := v.map (fun z => s * conj z)) _ h2
    (fun j hj => by rw [Vec.map_get, h3 j hj])

theorem mhCol_eq (mkw : ℕ → Vec ℂ) (x : Vec ℂ) (ts : Vec ℤ) (n : ℕ) (h : Option (Vec ℂ)) (hn : n ≠ 0) (c : ℕ)
    (hc : c < ts.len) :
    mhCol (TFR.init mkw x ts n h) c ⟨n, fun _ => 0⟩
      = if IdxOk x.len (ts.get c) then
          .ok ⟨n, lagCol n (ts.get c - min (n : ℤ) x.len + 1) (ts.get c - 1)
            (fun t => x.get (wrapIdx x.len (ts.get c)) * conj (zext x (ts.get c - t)))⟩
        else .error .indexError := by
  simp only [mhCol, TFR.init]
  rw [ts_item hc, ok_bind]
  unfold Vec.item
  split
  · rw [ok_bind]
    have e1 : -(min ((n : ℤ) - ts.get c) ((x.len : ℤ) - ts.get c)) + 1 = ts.get c - min (n : ℤ) x.len + 1 := by omega
    have e2 : arange (ts.get c - min (n : ℤ) x.len + 1) (ts.get c)
        = arange (ts.get c - min (n : ℤ) x.len + 1) (ts.get c - 1 + 1) := by rw [sub_add_cancel]
    rw [e1, e2]
    exact product_col hn x _ _ _ (fun t => ts.get c - t) (fun t h1 h2 => by omega)
  · rfl

theorem pageCol_eq (mkw : ℕ → Vec ℂ) (x : Vec ℂ) (ts : Vec ℤ) (n : ℕ) (h : Option (Vec ℂ)) (hn : n ≠ 0) (c : ℕ)
    (hc : c < ts.len) :
    pageCol (TFR.init mkw x ts n h) c ⟨n, fun _ => 0⟩
      = if IdxOk x.len (ts.get c) then
          .ok ⟨n, lagCol n (ts.get c - min (n : ℤ) x.len) (ts.get c - 1)
            (fun t => x.get (wrapIdx x.len (ts.get c)) * conj (zext x (ts.get c - t - 1)))⟩
        else .error .indexError := by
  simp only [pageCol, TFR.init]
  rw [ts_item hc, ok_bind]
  unfold Vec.item
  split
  · rw [ok_bind]
    have e1 : -(min ((n : ℤ) - ts.get c) ((x.len : ℤ) - ts.get c)) = ts.get c - min (n : ℤ) x.len := by omega
    have e2 : arange (ts.get c - min (n : ℤ) x.len) (ts.get c)
        = arange (ts.get c - min (n : ℤ) x.len) (ts.get c - 1 + 1) := by rw [sub_add_cancel]
    rw [e1, e2]
    exact product_col hn x _ _ _ (fun t => ts.get c - t - 1) (fun t h1 h2 => by omega)
  · rfl

/-! ## Pseudo Margenau-Hill -/

theorem pmhCol_eq {τ : Type} (mkw : ℕ → Vec ℂ) (x : Vec ℂ) (ts : Vec τ) (n : ℕ) (h : Vec ℂ) (hn : n ≠ 0) (L : ℕ)
    (hh : h.len = 2 * L + 1) (hL : (L : ℤ) < roundEven ((n : ℝ) / 2) - 1 ∨ (x.len : ℤ) < roundEven ((n : ℝ) / 2) - 1) (c : ℕ) (hcx : c ≤ x.len) :
    pmhCol (TFR.init mkw x ts n (some h)) c ⟨n, fun _ => 0⟩
      = if c < x.len then .ok ⟨n, lagCol n (-(min (L : ℤ) ((x.len : ℤ) - c))) (min (L : ℤ) ((c : ℤ) - 1))
          (fun t => zext h (L + t) * x.get c * conj (zext x ((c : ℤ) - t - 1)))⟩
        else .error .indexError := by
  set a : ℤ := -(min (L : ℤ) ((x.len : ℤ) - c)) with ha
  set b : ℤ := min (L : ℤ) ((c : ℤ) - 1) with hb'
  have hb : ∀ t, a ≤ t → t ≤ b → (0 ≤ (L : ℤ) + t ∧ (L : ℤ) + t < h.len) ∧
      (0 ≤ (c : ℤ) - t - 1 ∧ (c : ℤ) - t - 1 < x.len) := by
    intro t h1 h2
    omega
  obtain ⟨vw, w1, w2, w3⟩ := take_range (x := h) a b (fun t => (L : ℤ) + t) (fun t h1 h2 => (hb t h1 h2).1)
  obtain ⟨vb, b1, b2, b3⟩ := take_range (x := x) a b (fun t => (c : ℤ) - t - 1) (fun t h1 h2 => (hb t h1 h2).2)
  have hmid : ((h.len : ℤ) - 1) / 2 = L := by omega
  simp only [pmhCol, TFR.init, Option.getD_some, hmid]
  rw [if_neg (by simp only [decide_eq_true_eq]; omega)]
  have e1 : -(min (roundEven ((n : ℝ) / 2) - 1) (min (L : ℤ) ((x.len : ℤ) - c))) = a := by omega
  have e2 : min (roundEven ((n : ℝ) / 2) - 1) (min (L : ℤ) ((c : ℤ) - 1)) = b := by omega
  rw [e1, e2, w1, ok_bind]
  by_cases hc : c < x.len
  · rw [if_pos hc, Vec.item_ok (by omega) (by omega), ok_bind, b1, ok_bind, Vec.bcast_ok (by rw [w2, b2]), ok_bind]
    exact put_lags_zero hn a b (v := ⟨vw.len, fun i => vw.get i * x.get c * conj (vb.get i)⟩) _ w2
      (fun j hj => by simp only; rw [w3 j hj, b3 j hj])
  · rw [if_neg hc, Vec.item_error (by omega)]
    rfl

/-- A run made of a column loop on a fresh object, the DFT and the real part. -/
theorem realRun_fresh {n T : ℕ} (hn : n ≠ 0) {body : ℕ → Vec ℂ → Py (Vec ℂ)} {g : ℕ → ℕ → ℂ} {P : ℕ → Prop}
    [DecidablePred P] {σ : Type} {e : PyErr} (F : Mat ℝ → σ)
    (h : ∀ c < T, body c ⟨n, fun _ => 0⟩ = if P c then .ok ⟨n, g c⟩ else .error e) :
    ((∀ c < T, P c) → ((Store.cplx (Mat.zeros n T)).forCols T body >>= fun S => S.asC.fft0 >>= fun G =>
        (Except.ok (F (G.map Complex.re)) : Py σ))
      = .ok (F ⟨n, T, fun k c => (dftC n (fun r => if c < T then g c r else 0) k).re⟩)) ∧
    ((∃ c < T, ¬ P c) → ((Store.cplx (Mat.zeros n T)).forCols T body >>= fun S => S.asC.fft0 >>= fun G =>
        (Except.ok (F (G.map Complex.re)) : Py σ)) = .error e) := by
  constructor
  · intro hP
    rw [forCols_fresh (g := fun c => ⟨n, g c⟩) (fun c hc => by rw [h c hc, if_pos (hP c hc)]), ok_bind,
      fresh_fft hn, ok_bind]
    rfl
  · intro hP
    have hP' : ∃ c, c < T ∧ ¬ P c := hP
    obtain ⟨h1, h2⟩ := Nat.find_spec hP'
    rw [forCols_fresh_error (g := fun c => ⟨n, g c⟩) (c0 := Nat.find hP') h1 ?_ (e := e) ?_]
    · rfl
    · intro c hc
      have hcT : c < T := by omega
      have : P c := by
        by_contra hcon
        exact Nat.find_min hP' hc ⟨hcT, hcon⟩
      rw [h c hcT, if_pos this]
    · rw [h _ h1, if_neg h2]

theorem mhRun_spec (mkw : ℕ → Vec ℂ) (x : Vec ℂ) (ts : Vec ℤ) (n : ℕ) (h : Option (Vec ℂ)) (hn : n ≠ 0) :
    ((∀ c < ts.len, IdxOk x.len (ts.get c)) → ∃ M : Mat ℝ, mhRun (TFR.init mkw x ts n h)
        = .ok { TFR.init mkw x ts n h with tfr := .real M } ∧ M.rows = n ∧ M.cols = ts.len ∧
      ∀ k, ∀ c < ts.len, M.get k c = (dftC n (lagCol n (ts.get c - min (n : ℤ) x.len + 1) (ts.get c - 1)
            (fun t => x.get (wrapIdx x.len (ts.get c)) * conj (zext x (ts.get c - t)))) k).re) ∧
    ((∃ c < ts.len, ¬ IdxOk x.len (ts.get c)) → mhRun (TFR.init mkw x ts n h) = .error .indexError) := by
  have key := realRun_fresh hn (T := ts.len) (body := mhCol (TFR.init mkw x ts n h))
    (fun M : Mat ℝ => { TFR.init mkw x ts n h with tfr := .real M })
    (fun c hc => mhCol_eq mkw x ts n h hn c hc)
  constructor
  · intro hP
    refine ⟨_, key.1 hP, rfl, rfl, fun k c hc => ?_⟩
    simp only [if_pos hc]
  · exact key.2

theorem pageRun_spec (mkw : ℕ → Vec ℂ) (x : Vec ℂ) (ts : Vec ℤ) (n : ℕ) (h : Option (Vec ℂ)) (hn : n ≠ 0) :
    ((∀ c < ts.len, IdxOk x.len (ts.get c)) → ∃ M : Mat ℝ, pageRun (TFR.init mkw x ts n h)
        = .ok { TFR.init mkw x ts n h with tfr := .real M } ∧ M.rows = n ∧ M.cols = ts.len ∧
      ∀ k, ∀ c < ts.len, M.get k c = (dftC n (lagCol n (ts.get c - min (n : ℤ) x.len) (ts.get c - 1)
            (fun t => x.get (wrapIdx x.len (ts.get c)) * conj (zext x (ts.get c - t - 1)))) k).re) ∧
    ((∃ c < ts.len, ¬ IdxOk x.len (ts.get c)) → pageRun (TFR.init mkw x ts n h) = .error .indexError) := by
  have key := realRun_fresh hn (T := ts.len) (body := pageCol (TFR.init mkw x ts n h))
    (fun M : Mat ℝ => { TFR.init mkw x ts n h with tfr := .real M })
    (fun c hc => pageCol_eq mkw x ts n h hn c hc)
  constructor
  · intro hP
    refine ⟨_, key.1 hP, rfl, rfl, fun k c hc => ?_⟩
    simp only [if_pos hc]
  · exact key.2

end Tftb
