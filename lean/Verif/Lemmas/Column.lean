import Verif.Model.Base
import Verif.Spec
import Verif.Lemmas.Dft
import Verif.Lemmas.Utils

/-! # Helper lemmas: lag columns (scatter at lags modulo `n`, then DFT) and fresh column loops -/

namespace Tftb

open Finset ComplexConjugate

/-- Position where lag `a + j` is stored in a column of `n` bins. -/
def lagPos (n : ℕ) (a : ℤ) (j : ℕ) : ℕ := (((n : ℤ) + (a + j)) % n).toNat

theorem lagPos_cast {n : ℕ} (hn : n ≠ 0) (a : ℤ) (j : ℕ) : (lagPos n a j : ℤ) = (a + j) % n := by
  unfold lagPos
  have h0 : 0 ≤ ((n : ℤ) + (a + j)) % n := Int.emod_nonneg _ (by exact_mod_cast hn)
  rw [Int.toNat_of_nonneg h0]; simp

theorem lagPos_lt {n : ℕ} (hn : n ≠ 0) (a : ℤ) (j : ℕ) : lagPos n a j < n := by
  have h : (lagPos n a j : ℤ) < n := by
    rw [lagPos_cast hn]; exact Int.emod_lt_of_pos _ (by omega)
  exact_mod_cast h

/-- The column obtained by storing `v (a), …, v (b)` at the lags `a, …, b` modulo `n` in a zero column (a later lag
overwrites an earlier one). -/
def lagCol (n : ℕ) (a b : ℤ) (v : ℤ → ℂ) : ℕ → ℂ :=
  Vec.scatter (fun _ => (0 : ℂ)) (lagPos n a) (fun j => v (a + j)) (b + 1 - a).toNat

/-- Fancy assignment at lags modulo `n`. -/
theorem put_lags {n : ℕ} (hn : n ≠ 0) (a b : ℤ) {c v : Vec ℂ} (hc : c.len = n)
    (hv : v.len = (b + 1 - a).toNat) :
    c.put ((arange a (b + 1)).map (fun t => ((n : ℤ) + t) % (n : ℤ))) v
      = .ok ⟨n, Vec.scatter c.get (lagPos n a) v.get (b + 1 - a).toNat⟩ := by
  have hnz : (n : ℤ) ≠ 0 := by exact_mod_cast hn
  have hb : ∀ t : ℤ, 0 ≤ ((n : ℤ) + t) % (n : ℤ) ∧ ((n : ℤ) + t) % (n : ℤ) < n := fun t =>
    ⟨Int.emod_nonneg _ hnz, Int.emod_lt_of_pos _ (by omega)⟩
  rw [Vec.put_ok]
  · rw [hc]
    congr 2
    apply Vec.scatter_congr rfl
    · intro j _
      rw [Vec.map_get, arange_get, wrapIdx_of_nonneg (hb _).1]; rfl
    · intro j _; rfl
  · intro j _; rw [Vec.map_get, hc]; exact hb _
  · rw [hv]; rfl

/-- DFT of a lag column without collisions. -/
theorem dftC_lagCol {n : ℕ} (hn : n ≠ 0) {a b : ℤ} (hL : b + 1 - a ≤ n) (v : ℤ → ℂ) (k : ℤ) :
    dftC n (lagCol n a b v) k = ∑ t ∈ Finset.Icc a b, v t * rootPow n (t * k) := by
  unfold lagCol
  rw [dftC_scatter hn (τ := fun j => a + j) (fun j _ => lagPos_cast hn a j)
    (arange_incongr (by omega))]
  exact sum_arange a b (fun t => v t * rootPow n (t * k))

/-- Energy of a lag column without collisions. -/
theorem norm_sq_lagCol {n : ℕ} (hn : n ≠ 0) {a b : ℤ} (hL : b + 1 - a ≤ n) (v : ℤ → ℂ) :
    ∑ p ∈ range n, ‖lagCol n a b v p‖ ^ 2 = ∑ t ∈ Finset.Icc a b, ‖v t‖ ^ 2 := by
  unfold lagCol
  rw [norm_sq_scatter hn (τ := fun j => a + j) (fun j _ => lagPos_cast hn a j)
    (arange_incongr (by omega))]
  exact sum_arange a b (fun t => ‖v t‖ ^ 2)

/-- The entry of a lag column without collisions at the bin of lag `t`. -/
theorem lagCol_get {n : ℕ} (hn : n ≠ 0) {a b : ℤ} (hL : b + 1 - a ≤ n) (v : ℤ → ℂ) {t : ℤ}
    (h1 : a ≤ t) (h2 : t ≤ b) {p : ℕ} (hp : (p : ℤ) = t % n) : lagCol n a b v p = v t := by
  obtain ⟨j, rfl⟩ : ∃ j : ℕ, t = a + j := ⟨(t - a).toNat, by omega⟩
  have hpos : p = lagPos n a j := by
    have := lagPos_cast hn a j
    omega
  subst hpos
  unfold lagCol
  rw [Vec.scatter_mem (by omega)]
  intro i hi i' hi' h
  apply arange_incongr (n := n) (a := a) (L := (b + 1 - a).toNat) (by omega) i hi i' hi'
  have e1 := lagPos_cast hn a i
  have e2 := lagPos_cast hn a i'
  rw [h] at e1
  exact Int.ModEq.dvd (show (a + (i' : ℤ)) % n = (a + (i : ℤ)) % n by omega)

/-- Multiplying the stored values by a function of the position. -/
theorem scatter_mul_pos {pos : ℕ → ℕ} {val val' : ℕ → ℂ} {L : ℕ} (f : ℕ → ℂ)
    (h : ∀ j < L, val' j = f (pos j) * val j) (p : ℕ) :
    Vec.scatter (fun _ => (0 : ℂ)) pos val' L p = f p * Vec.scatter (fun _ => (0 : ℂ)) pos val L p := by
  induction L with
  | zero => simp
  | succ L ih =>
    rw [Vec.scatter_succ, Vec.scatter_succ]
    by_cases hp : p = pos L
    · subst hp; simp [h L (Nat.lt_succ_self _)]
    · rw [Function.update_of_ne hp, Function.update_of_ne hp, ih (fun j hj => h j (by omega))]

theorem scatter_add {pos : ℕ → ℕ} {val val' : ℕ → ℂ} {L : ℕ} (p : ℕ) :
    Vec.scatter (fun _ => (0 : ℂ)) pos (fun j => val j + val' j) L p
      = Vec.scatter (fun _ => (0 : ℂ)) pos val L p + Vec.scatter (fun _ => (0 : ℂ)) pos val' L p := by
  induction L with
  | zero => simp
  | succ L ih =>
    rw [Vec.scatter_succ, Vec.scatter_succ, Vec.scatter_succ]
    by_cases hp : p = pos L
    · subst hp; simp
    · rw [Function.update_of_ne hp, Function.update_of_ne hp, Function.update_of_ne hp, ih]

theorem lagCol_congr {n : ℕ} {a b : ℤ} {v w : ℤ → ℂ} (h : ∀ t, a ≤ t → t ≤ b → v t = w t) :
    lagCol n a b v = lagCol n a b w := by
  unfold lagCol
  apply Vec.scatter_congr rfl (fun _ _ => rfl)
  intro j hj
  exact h _ (by omega) (by omega)

theorem lagCol_lin {n : ℕ} {a b : ℤ} (v w : ℤ → ℂ) (c d : ℂ) (p : ℕ) :
    lagCol n a b (fun t => c * v t + d * w t) p = c * lagCol n a b v p + d * lagCol n a b w p := by
  unfold lagCol
  rw [scatter_add, scatter_mul_pos (val := fun j => v (a + j)) (fun _ => c) (fun _ _ => rfl),
    scatter_mul_pos (val := fun j => w (a + j)) (fun _ => d) (fun _ _ => rfl)]

theorem lagCol_smul {n : ℕ} {a b : ℤ} (v : ℤ → ℂ) (c : ℂ) (p : ℕ) :
    lagCol n a b (fun t => c * v t) p = c * lagCol n a b v p := by
  unfold lagCol
  rw [scatter_mul_pos (val := fun j => v (a + j)) (fun _ => c) (fun _ _ => rfl)]

/-- Modulating the stored values by `n`-periodic phases. -/
theorem lagCol_modulate {n : ℕ} (hn : n ≠ 0) {a b : ℤ} (v : ℤ → ℂ) (c : ℂ) (m : ℤ) (p : ℕ) :
    lagCol n a b (fun t => c * rootPow n (-(m * t)) * v t) p
      = c * rootPow n (-(m * p)) * lagCol n a b v p := by
  unfold lagCol
  rw [scatter_mul_pos (val := fun j => v (a + j)) (fun p => c * rootPow n (-(m * p)))]
  intro j _
  show c * rootPow n (-(m * (a + j))) * v (a + j) = _
  congr 2
  apply rootPow_congr hn
  have := lagPos_cast hn a j
  have h2 := (Int.mod_modEq (a + (j : ℤ)) (n : ℤ)).dvd
  rw [this, ← neg_sub_neg, neg_neg, neg_neg, ← mul_sub]
  have h3 : (n : ℤ) ∣ (a + (j : ℤ)) % n - (a + j) := by
    rw [← neg_sub]; exact (dvd_neg).2 h2
  exact Dvd.dvd.mul_left h3 _

/-- DFT of a modulated column. -/
theorem dftC_modulate {n : ℕ} (x : ℕ → ℂ) (c : ℂ) (m k : ℤ) :
    dftC n (fun p => c * rootPow n (-(m * p)) * x p) k = c * dftC n x (k - m) := by
  unfold dftC
  rw [Finset.mul_sum]
  apply Finset.sum_congr rfl
  intro j _
  have : rootPow n ((j : ℤ) * (k - m)) = rootPow n (-(m * j)) * rootPow n ((j : ℤ) * k) := by
    rw [← rootPow_add]; congr 1; ring
  rw [this]; ring

/-- A column loop on a freshly created representation. -/
theorem forCols_fresh {n T : ℕ} {body : ℕ → Vec ℂ → Py (Vec ℂ)} {g : ℕ → Vec ℂ}
    (h : ∀ c < T, body c ⟨n, fun _ => 0⟩ = .ok (g c)) :
    (Store.cplx (Mat.zeros n T)).forCols T body
      = .ok (.cplx ⟨n, T, fun r c => if c < T then (g c).get r else 0⟩) := by
  unfold Store.forCols
  have : (Mat.zeros n T : Mat ℂ).forCols T body
      = .ok ⟨n, T, fun r c => if c < T then (g c).get r else 0⟩ := by
    rw [Mat.forCols_ok (le_refl T) h]; rfl
  simp only [this]
  rfl

/-- A column loop on a stored real array. -/
theorem forCols_real {M : Mat ℝ} {n T : ℕ} (hr : M.rows = n) (hc : M.cols = T)
    {body : ℕ → Vec ℂ → Py (Vec ℂ)} {g : ℕ → Vec ℂ}
    (h : ∀ c < T, body c ⟨n, fun r => (M.get r c : ℂ)⟩ = .ok (g c)) :
    (Store.real M).forCols T body
      = .ok (.real ⟨n, T, fun r c => if c < T then ((g c).get r).re else M.get r c⟩) := by
  unfold Store.forCols
  have : (M.map (fun a : ℝ => (a : ℂ))).forCols T
      (fun c v => do .ok ((← body c v).map (fun z => ((z.re : ℝ) : ℂ))))
      = .ok ⟨n, T, fun r c => if c < T then ((((g c).get r).re : ℝ) : ℂ) else (M.get r c : ℂ)⟩ := by
    rw [Mat.forCols_ok (g := fun c => (g c).map (fun z => ((z.re : ℝ) : ℂ))) (le_of_eq hc.symm)]
    · simp only [Mat.map, hr, hc, Vec.map_get]
    · intro c hcT
      have h1 : (M.map (fun a : ℝ => (a : ℂ))).col c = ⟨n, fun r => (M.get r c : ℂ)⟩ := by
        simp only [Mat.col, Mat.map, hr]
      rw [h1, h c hcT]; rfl
  simp only [this]
  show Except.ok (Store.real _) = _
  congr 2
  simp only [Mat.map]
  congr 1
  funext r c
  split <;> simp

/-- A column loop on a stored complex array. -/
theorem forCols_cplx {M : Mat ℂ} {n T : ℕ} (hr : M.rows = n) (hc : M.cols = T)
    {body : ℕ → Vec ℂ → Py (Vec ℂ)} {g : ℕ → Vec ℂ}
    (h : ∀ c < T, body c ⟨n, fun r => M.get r c⟩ = .ok (g c)) :
    (Store.cplx M).forCols T body
      = .ok (.cplx ⟨n, T, fun r c => if c < T then (g c).get r else M.get r c⟩) := by
  unfold Store.forCols
  have : M.forCols T body
      = .ok ⟨n, T, fun r c => if c < T then (g c).get r else M.get r c⟩ := by
    rw [Mat.forCols_ok (g := g) (le_of_eq hc.symm)]
    · simp only [hr, hc]
    · intro c hcT
      have h1 : M.col c = ⟨n, fun r => M.get r c⟩ := by simp only [Mat.col, hr]
      rw [h1, h c hcT]
  simp only [this]
  rfl

/-- A column loop on a freshly created representation stops at the first failing column. -/
theorem forCols_fresh_error {n T : ℕ} {body : ℕ → Vec ℂ → Py (Vec ℂ)} {g : ℕ → Vec ℂ} {c0 : ℕ} {e : PyErr}
    (hc : c0 < T) (h : ∀ c < c0, body c ⟨n, fun _ => 0⟩ = .ok (g c))
    (he : body c0 ⟨n, fun _ => 0⟩ = .error e) :
    (Store.cplx (Mat.zeros n T)).forCols T body = .error e := by
  unfold Store.forCols
  have : (Mat.zeros n T : Mat ℂ).forCols T body = .error e := Mat.forCols_error (le_refl T) hc h he
  simp only [this]
  rfl

/-- Fresh column loop followed by the DFT along the columns. -/
theorem fresh_fft {n T : ℕ} (hn : n ≠ 0) (g : ℕ → Vec ℂ) :
    (Store.cplx ⟨n, T, fun r c => if c < T then (g c).get r else 0⟩).asC.fft0
      = .ok ⟨n, T, fun k c => dftC n (fun r => if c < T then (g c).get r else 0) k⟩ := by
  unfold Store.asC
  exact fft0_ok (M := ⟨n, T, fun r c => if c < T then (g c).get r else 0⟩) hn

end Tftb
