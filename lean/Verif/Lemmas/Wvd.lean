import Verif.Lemmas.Stft
import Verif.Lemmas.FM

/-! # Helper lemmas for the Wigner-Ville family -/

namespace Tftb

open Finset ComplexConjugate Spec Linear Cohen

theorem lagSum_eq (R : ℤ) (n : ℕ) (v : ℤ → ℂ) (k : ℤ) :
    lagSum R n v k = ∑ τ ∈ Finset.Icc (-R) R, v τ * rootPow n (τ * k) := by
  unfold lagSum
  apply Finset.sum_congr rfl
  intro τ _
  rw [rootPow_eq_expi]
  congr 2; push_cast; ring

theorem lagSum_congr {R : ℤ} {n : ℕ} {v w : ℤ → ℂ} (h : ∀ τ, -R ≤ τ → τ ≤ R → v τ = w τ) (k : ℤ) :
    lagSum R n v k = lagSum R n w k := by
  unfold lagSum
  apply Finset.sum_congr rfl
  intro τ hτ
  rw [Finset.mem_Icc] at hτ
  rw [h τ hτ.1 hτ.2]

theorem lagSum_extend {T R : ℤ} (hTR : T ≤ R) {n : ℕ} {v : ℤ → ℂ} (k : ℤ)
    (h : ∀ τ, -R ≤ τ → τ ≤ R → ¬ (-T ≤ τ ∧ τ ≤ T) → v τ = 0) : lagSum T n v k = lagSum R n v k := by
  unfold lagSum
  apply Finset.sum_subset
  · intro τ hτ; rw [Finset.mem_Icc] at hτ ⊢; omega
  · intro τ hτ hnot
    rw [Finset.mem_Icc] at hτ hnot
    rw [h τ hτ.1 hτ.2 hnot, zero_mul]

theorem lagSum_smul (R : ℤ) (n : ℕ) (v : ℤ → ℂ) (a : ℂ) (k : ℤ) :
    lagSum R n (fun τ => a * v τ) k = a * lagSum R n v k := by
  unfold lagSum
  rw [Finset.mul_sum]
  exact Finset.sum_congr rfl (fun τ _ => by ring)

theorem lagSum_periodic (R : ℤ) {n : ℕ} (hn : n ≠ 0) (v : ℤ → ℂ) {k l : ℤ} (h : (n : ℤ) ∣ k - l) :
    lagSum R n v k = lagSum R n v l := by
  rw [lagSum_eq, lagSum_eq]
  apply Finset.sum_congr rfl
  intro τ _
  congr 1
  apply rootPow_congr hn
  rw [← mul_sub]; exact Dvd.dvd.mul_left h _

theorem lagSum_neg (R : ℤ) (n : ℕ) (v : ℤ → ℂ) (k : ℤ) :
    lagSum R n (fun τ => v (-τ)) k = lagSum R n v (-k) := by
  rw [lagSum_eq, lagSum_eq]
  apply Finset.sum_bij (fun (τ : ℤ) _ => -τ)
  · intro τ hτ; rw [Finset.mem_Icc] at hτ ⊢; omega
  · intro a _ b _ h; omega
  · intro τ hτ; refine ⟨-τ, ?_, by ring⟩; rw [Finset.mem_Icc] at hτ ⊢; omega
  · intro τ _
    congr 2; ring

theorem conj_lagSum (R : ℤ) (n : ℕ) (v : ℤ → ℂ) (k : ℤ) :
    conj (lagSum R n v k) = lagSum R n (fun τ => conj (v τ)) (-k) := by
  rw [lagSum_eq, lagSum_eq, map_sum]
  apply Finset.sum_congr rfl
  intro τ _
  rw [map_mul, conj_rootPow]
  congr 2; ring

/-- A Hermitian lag function has a real Fourier sum. -/
theorem lagSum_real (R : ℤ) (n : ℕ) (v : ℤ → ℂ) (h : ∀ τ, -R ≤ τ → τ ≤ R → v (-τ) = conj (v τ)) (k : ℤ) :
    ((lagSum R n v k).re : ℂ) = lagSum R n v k := by
  rw [← Complex.conj_eq_iff_re, conj_lagSum, ← lagSum_neg]
  exact lagSum_congr (fun τ h1 h2 => by rw [h τ h1 h2, Complex.conj_conj]) k

/-- The sum over all bins keeps lag 0 only. -/
theorem sum_lagSum {R : ℤ} {n : ℕ} (hn : n ≠ 0) (hR : 0 ≤ R) (hRn : 2 * R + 1 ≤ n) (v : ℤ → ℂ) :
    ∑ k ∈ range n, lagSum R n v k = n * v 0 := by
  simp only [lagSum_eq]
  rw [Finset.sum_comm]
  have h1 : ∀ τ ∈ Finset.Icc (-R) R, ∑ k ∈ range n, v τ * rootPow n (τ * (k : ℤ))
      = if τ = 0 then (n : ℂ) * v 0 else 0 := by
    intro τ hτ
    rw [Finset.mem_Icc] at hτ
    rw [← Finset.mul_sum, sum_rootPow hn]
    by_cases h0 : τ = 0
    · subst h0; simp; ring
    · rw [if_neg h0, if_neg, mul_zero]
      intro hd
      have := Int.le_of_dvd (show 0 < |τ| from abs_pos.2 h0) ((dvd_abs _ _).2 hd)
      have h2 : |τ| ≤ R := abs_le.2 ⟨hτ.1, hτ.2⟩
      omega
  rw [Finset.sum_congr rfl h1, Finset.sum_ite_eq' (Finset.Icc (-R) R) 0, if_pos]
  rw [Finset.mem_Icc]; omega

/-- Modulating the lag function moves the bins. -/
theorem lagSum_modulate (R : ℤ) (n : ℕ) (v : ℤ → ℂ) (m k : ℤ) :
    lagSum R n (fun τ => v τ * rootPow n (-(m * τ))) k = lagSum R n v (k - m) := by
  rw [lagSum_eq, lagSum_eq]
  apply Finset.sum_congr rfl
  intro τ _
  rw [mul_assoc, ← rootPow_add]
  congr 2; ring

/-- DFT of a symmetric lag column. -/
theorem dftC_lagCol_symm {n : ℕ} (hn : n ≠ 0) {T : ℤ} (hT : 2 * T + 1 ≤ n) (v : ℤ → ℂ) (k : ℤ) :
    dftC n (lagCol n (-T) T v) k = lagSum T n v k := by
  rw [dftC_lagCol hn (by omega), lagSum_eq]

/-! ## Wigner-Ville -/

/-- Largest lag of column `c`. -/
noncomputable def wvT (n N : ℕ) (c : ℕ) : ℤ :=
  min (min (c : ℤ) ((N : ℤ) - c - 1)) (roundEven ((n : ℝ) / 2) - 1)

theorem wvT_count (n N c : ℕ) : 2 * wvT n N c + 1 ≤ n := by
  unfold wvT; rw [roundEven_half]; split <;> omega

/-- The Nyquist zone, where the code raises. -/
def wvZone (n N : ℕ) (c : ℕ) : Prop :=
  (c : ℤ) ≤ (N : ℤ) - roundEven ((n : ℝ) / 2) ∧ (c : ℤ) ≥ roundEven ((n : ℝ) / 2) + 1

noncomputable instance (n N c : ℕ) : Decidable (wvZone n N c) := by unfold wvZone; infer_instance

theorem wvdCol_eq {τ : Type} (mkw : ℕ → Vec ℂ) (x : Vec ℂ) (ts : Vec τ) (n : ℕ) (h : Option (Vec ℂ)) (hn : n ≠ 0)
    (c : ℕ) (_hc : c < x.len) :
    wvdCol (TFR.init mkw x ts n h) c ⟨n, fun _ => 0⟩
      = if wvZone n x.len c then .error .indexError
        else .ok ⟨n, lagCol n (-(wvT n x.len c)) (wvT n x.len c) (wignerKernel x c)⟩ := by
  have hb : ∀ t, -(wvT n x.len c) ≤ t → t ≤ wvT n x.len c →
      (0 ≤ (c : ℤ) + t ∧ (c : ℤ) + t < x.len) ∧ (0 ≤ (c : ℤ) - t ∧ (c : ℤ) - t < x.len) := by
    intro t h1 h2
    unfold wvT at h1 h2
    omega
  obtain ⟨va, a1, a2, a3⟩ := take_range (x := x) (-(wvT n x.len c)) (wvT n x.len c)
    (fun t => (c : ℤ) + t) (fun t h1 h2 => (hb t h1 h2).1)
  obtain ⟨vb, b1, b2, b3⟩ := take_range_conj (x := x) (-(wvT n x.len c)) (wvT n x.len c)
    (fun t => (c : ℤ) - t) (fun t h1 h2 => (hb t h1 h2).2)
  simp only [wvdCol, TFR.init]
  show (x.take ((arange (-(wvT n x.len c)) (wvT n x.len c + 1)).map _) >>= _) = _
  rw [a1, ok_bind]
  show ((x.map (starRingEnd ℂ)).take ((arange (-(wvT n x.len c)) (wvT n x.len c + 1)).map _) >>= _) = _
  rw [b1, ok_bind, Vec.bcast_ok (by rw [a2, b2]), ok_bind]
  have := put_lags_zero hn (-(wvT n x.len c)) (wvT n x.len c)
    (v := ⟨va.len, fun i => va.get i * vb.get i⟩) (wignerKernel x c) a2
    (fun j hj => by simp only; rw [a3 j hj, b3 j hj]; rfl)
  show ((⟨n, fun _ => 0⟩ : Vec ℂ).put ((arange (-(wvT n x.len c)) (wvT n x.len c + 1)).map _) _ >>= _) = _
  rw [this, ok_bind]
  rfl

theorem wvdRun_fresh {τ : Type} (mkw : ℕ → Vec ℂ) (x : Vec ℂ) (ts : Vec τ) (n : ℕ) (h : Option (Vec ℂ)) (hn : n ≠ 0)
    (hts : ts.len = x.len) (hz : ∀ c < x.len, ¬ wvZone n x.len c) :
    ∃ M : Mat ℝ, wvdRun (TFR.init mkw x ts n h)
        = .ok { TFR.init mkw x ts n h with
            tfr := .real M, freqs := ⟨n, fun k => 0.5 * (k : ℝ) / (n : ℝ)⟩ } ∧ M.rows = n ∧ M.cols = ts.len ∧
      ∀ k, ∀ c < x.len, M.get k c = (lagSum (wvT n x.len c) n (wignerKernel x c) k).re := by
  have hok : wvdRun (TFR.init mkw x ts n h) = .ok { TFR.init mkw x ts n h with
      tfr := .real ⟨n, ts.len, fun k c => (dftC n (fun r => if c < ts.len then
        lagCol n (-(wvT n x.len c)) (wvT n x.len c) (wignerKernel x c) r else 0) k).re⟩,
      freqs := ⟨n, fun k => 0.5 * (k : ℝ) / (n : ℝ)⟩ } := by
    unfold wvdRun
    rw [if_neg (not_not.2 (show (TFR.init mkw x ts n h).ts.len = (TFR.init mkw x ts n h).signal.len from hts))]
    show ((Store.cplx (Mat.zeros n ts.len)).forCols ts.len _ >>= _) = _
    rw [forCols_fresh (g := fun c => ⟨n, lagCol n (-(wvT n x.len c)) (wvT n x.len c) (wignerKernel x c)⟩)
      (fun c hc => by rw [wvdCol_eq mkw x ts n h hn c (hts ▸ hc), if_neg (hz c (hts ▸ hc))]), ok_bind, fresh_fft hn,
      ok_bind]
    rfl
  refine ⟨_, hok, rfl, rfl, fun k c hc => ?_⟩
  simp only [if_pos (hts.symm ▸ hc)]
  rw [dftC_lagCol_symm hn (wvT_count n x.len c)]

/-- In a zone column the run raises. -/
theorem wvdRun_zone {τ : Type} (mkw : ℕ → Vec ℂ) (x : Vec ℂ) (ts : Vec τ) (n : ℕ) (h : Option (Vec ℂ)) (hn : n ≠ 0)
    (hts : ts.len = x.len) (hz : ∃ c < x.len, wvZone n x.len c) :
    wvdRun (TFR.init mkw x ts n h) = .error .indexError := by
  classical
  have hz' : ∃ c, c < x.len ∧ wvZone n x.len c := hz
  obtain ⟨h1, h2⟩ := Nat.find_spec hz'
  have hmin := fun c (hc : c < Nat.find hz') => Nat.find_min hz' hc
  unfold wvdRun
  rw [if_neg (not_not.2 (show (TFR.init mkw x ts n h).ts.len = (TFR.init mkw x ts n h).signal.len from hts))]
  show ((Store.cplx (Mat.zeros n ts.len)).forCols ts.len _ >>= _) = _
  rw [forCols_fresh_error (g := fun c => ⟨n, lagCol n (-(wvT n x.len c)) (wvT n x.len c) (wignerKernel x c)⟩)
    (c0 := Nat.find hz') (by rw [hts]; exact h1) ?_ (e := .indexError) ?_]
  · rfl
  · intro c hc
    have hcl : c < x.len := by omega
    rw [wvdCol_eq mkw x ts n h hn c hcl, if_neg (fun hzc => hmin c hc ⟨hcl, hzc⟩)]
  · rw [wvdCol_eq mkw x ts n h hn _ h1, if_pos h2]

end Tftb
