import Verif.Model.Plot
import Verif.Props.Histories
import Verif.Lemmas.Spwv
import Verif.Lemmas.Affine

/-! # Lemmas about the drawing model -/

namespace Tftb

open Tftb.Spec Tftb.Linear Tftb.Cohen Tftb.Plot Tftb.Props Finset

theorem zmin_spec {v : Vec ℤ} (h : v.len ≠ 0) :
    ∃ m, Aff.zmin v = .ok m ∧ (∀ i < v.len, m ≤ v.get i) ∧ ∃ i < v.len, v.get i = m := by
  have hne : (Finset.range v.len).Nonempty := ⟨0, Finset.mem_range.2 (Nat.pos_of_ne_zero h)⟩
  refine ⟨(Finset.range v.len).inf' hne v.get, ?_, ?_, ?_⟩
  · unfold Aff.zmin; rw [dif_neg h]
  · intro i hi; exact Finset.inf'_le v.get (Finset.mem_range.2 hi)
  · obtain ⟨i, hi, e⟩ := Finset.exists_mem_eq_inf' hne v.get
    exact ⟨i, Finset.mem_range.1 hi, e.symm⟩

theorem zmax_spec {v : Vec ℤ} (h : v.len ≠ 0) :
    ∃ m, Aff.zmax v = .ok m ∧ (∀ i < v.len, v.get i ≤ m) ∧ ∃ i < v.len, v.get i = m := by
  have hne : (Finset.range v.len).Nonempty := ⟨0, Finset.mem_range.2 (Nat.pos_of_ne_zero h)⟩
  refine ⟨(Finset.range v.len).sup' hne v.get, ?_, ?_, ?_⟩
  · unfold Aff.zmax; rw [dif_neg h]
  · intro i hi; exact Finset.le_sup' v.get (Finset.mem_range.2 hi)
  · obtain ⟨i, hi, e⟩ := Finset.exists_mem_eq_sup' hne v.get
    exact ⟨i, Finset.mem_range.1 hi, e.symm⟩

theorem amin_eq {v : Vec ℝ} {m : ℝ} (h1 : ∀ i < v.len, m ≤ v.get i) (h2 : ∃ i < v.len, v.get i = m) : v.amin = .ok m := by
  obtain ⟨i, hi, e⟩ := h2
  obtain ⟨m', e', h1', j, hj, e2⟩ := Vec.amin_spec (v := v) (by omega)
  rw [e']
  congr 1
  have := h1' i hi
  have := h1 j hj
  linarith

theorem amax_eq {v : Vec ℝ} {m : ℝ} (h1 : ∀ i < v.len, v.get i ≤ m) (h2 : ∃ i < v.len, v.get i = m) : v.amax = .ok m := by
  obtain ⟨i, hi, e⟩ := h2
  obtain ⟨m', e', h1', j, hj, e2⟩ := Vec.amax_spec (v := v) (by omega)
  rw [e']
  congr 1
  have := h1' i hi
  have := h1 j hj
  linarith

/-- The first half of the base axis. -/
theorem baseFreqs_half (n : ℕ) (hn : 2 ≤ n) : n / 2 ≤ (baseFreqs n).len ∧ ∀ k < n / 2, (baseFreqs n).get k = (k : ℝ) / n := by
  rcases Nat.mod_two_eq_zero_or_one n with h | h
  · obtain ⟨h1, h2⟩ := C26_even makeWindow ⟨0, fun _ => 0⟩ (arange 0 0) n none h
    refine ⟨by show n / 2 ≤ (TFR.init makeWindow ⟨0, fun _ => 0⟩ (arange 0 0) n none).freqs.len; omega, fun k hk => ?_⟩
    have := (h2 k (by omega)).1
    unfold binFreq at this
    rw [if_pos hk] at this
    exact this
  · obtain ⟨-, h1, h2⟩ := C26_odd makeWindow ⟨0, fun _ => 0⟩ (arange 0 0) n none h
    refine ⟨by show n / 2 ≤ (TFR.init makeWindow ⟨0, fun _ => 0⟩ (arange 0 0) n none).freqs.len; omega, fun k hk => ?_⟩
    have := h2 k (by omega)
    rw [if_pos (by omega)] at this
    exact this

/-- Smallest and largest entry of the base axis. -/
theorem baseFreqs_range (n : ℕ) (hn : 2 ≤ n) :
    (baseFreqs n).amin = .ok (-((n / 2 : ℕ) : ℝ) / n) ∧
    (baseFreqs n).amax = .ok ((((n / 2 : ℕ) : ℝ) - 1) / n) := by
  have hn0 : (0 : ℝ) < n := by exact_mod_cast (by omega : 0 < n)
  obtain ⟨m, hm⟩ : ∃ m, n / 2 = m := ⟨_, rfl⟩
  have hlen : (baseFreqs n).len = 2 * m := by
    rcases Nat.mod_two_eq_zero_or_one n with h | h
    · have := (C26_even makeWindow ⟨0, fun _ => 0⟩ (arange 0 0) n none h).1
      have e : (TFR.init makeWindow ⟨0, fun _ => 0⟩ (arange 0 0) n none).freqs = baseFreqs n := rfl
      rw [e] at this; omega
    · have := (C26_odd makeWindow ⟨0, fun _ => 0⟩ (arange 0 0) n none h).2.1
      have e : (TFR.init makeWindow ⟨0, fun _ => 0⟩ (arange 0 0) n none).freqs = baseFreqs n := rfl
      rw [e] at this; omega
  have hget : ∀ k < 2 * m, (baseFreqs n).get k = if k < m then (k : ℝ) / n else ((k : ℝ) - 2 * m) / n := by
    intro k hk
    rcases Nat.mod_two_eq_zero_or_one n with h | h
    · have := ((C26_even makeWindow ⟨0, fun _ => 0⟩ (arange 0 0) n none h).2 k (by omega)).1
      unfold binFreq at this
      have e : (n : ℝ) = 2 * m := by exact_mod_cast (by omega : n = 2 * m)
      rw [hm] at this
      rw [show (baseFreqs n).get k = _ from this]
      split_ifs
      · rfl
      · rw [show (2 : ℝ) * m = n from e.symm]
    · have := (C26_odd makeWindow ⟨0, fun _ => 0⟩ (arange 0 0) n none h).2.2 k (by omega)
      have e : (n : ℝ) = 2 * m + 1 := by exact_mod_cast (by omega : n = 2 * m + 1)
      rw [show (n - 1) / 2 = m by omega] at this
      rw [show (baseFreqs n).get k = _ from this]
      split_ifs
      · rfl
      · rw [show (k : ℝ) + 1 - n = k - 2 * m by rw [e]; ring]
  rw [hm]
  have hm1 : (1 : ℝ) ≤ m := by exact_mod_cast (by omega : 1 ≤ m)
  constructor
  · apply amin_eq
    · intro i hi
      rw [hlen] at hi
      rw [hget i hi]
      split_ifs with h
      · exact div_le_div_of_nonneg_right (by have : (0 : ℝ) ≤ i := Nat.cast_nonneg _; linarith) hn0.le
      · have : (m : ℝ) ≤ i := by exact_mod_cast (by omega : m ≤ i)
        exact div_le_div_of_nonneg_right (by linarith) hn0.le
    · refine ⟨m, by omega, ?_⟩
      rw [hget m (by omega), if_neg (lt_irrefl _)]
      congr 1; ring
  · apply amax_eq
    · intro i hi
      rw [hlen] at hi
      rw [hget i hi]
      split_ifs with h
      · have : (i : ℝ) ≤ m - 1 := by
          have : (i : ℝ) + 1 ≤ m := by exact_mod_cast h
          linarith
        exact div_le_div_of_nonneg_right this hn0.le
      · have : (i : ℝ) + 1 ≤ 2 * m := by exact_mod_cast hi
        exact div_le_div_of_nonneg_right (by linarith) hn0.le
    · refine ⟨m - 1, by omega, ?_⟩
      rw [hget (m - 1) (by omega), if_pos (by omega)]
      rw [Nat.cast_sub (by omega)]
      simp

/-- Smallest and largest entry of a regular axis starting at zero. -/
theorem ramp_range {v : Vec ℝ} {s : ℝ} (hs : 0 ≤ s) (hv : 1 ≤ v.len) (h : ∀ k < v.len, v.get k = s * k) :
    v.amin = .ok 0 ∧ v.amax = .ok (s * ((v.len : ℝ) - 1)) := by
  constructor
  · apply amin_eq
    · intro i hi
      rw [h i hi]; positivity
    · exact ⟨0, by omega, by rw [h 0 (by omega)]; simp⟩
  · apply amax_eq
    · intro i hi
      rw [h i hi]
      have : (i : ℝ) + 1 ≤ v.len := by exact_mod_cast hi
      exact mul_le_mul_of_nonneg_left (by linarith) hs
    · refine ⟨v.len - 1, by omega, ?_⟩
      rw [h _ (by omega), Nat.cast_sub hv]
      simp

theorem store_forCols_dims {S S' : Store} {T : ℕ} {body : ℕ → Vec ℂ → Py (Vec ℂ)} (h : S.forCols T body = .ok S') :
    S'.asC.rows = S.asC.rows ∧ S'.asC.cols = S.asC.cols := by
  cases S with
  | cplx M =>
    simp only [Store.forCols, bind_eq_ok] at h
    obtain ⟨R, hR, h⟩ := h
    injection h with h; subst h
    obtain ⟨h1, h2, -, -⟩ := Mat.forCols_inv hR
    exact ⟨h1, h2⟩
  | real M =>
    simp only [Store.forCols, bind_eq_ok] at h
    obtain ⟨R, hR, h⟩ := h
    injection h with h; subst h
    obtain ⟨h1, h2, -, -⟩ := Mat.forCols_inv hR
    exact ⟨h1, h2⟩

theorem fft0_dims {M F : Mat ℂ} (h : M.fft0 = .ok F) : F.rows = M.rows ∧ F.cols = M.cols ∧ M.rows ≠ 0 := by
  by_cases hr : M.rows = 0
  · unfold Mat.fft0 at h; rw [if_pos hr] at h; cases h
  · rw [fft0_ok hr] at h
    injection h with h; subst h
    exact ⟨rfl, rfl, hr⟩

/-- What a run of the short-time Fourier transform leaves unchanged. -/
theorem stftRun_shape {τ : Type} {o o' : TFR τ} (h : stftRun o = .ok o') :
    o'.freqs = o.freqs ∧ o'.ts = o.ts ∧ o'.nf = o.nf ∧ o'.signal = o.signal ∧
      o'.tfr.asC.rows = o.tfr.asC.rows ∧ o'.tfr.asC.cols = o.tfr.asC.cols := by
  unfold stftRun at h
  simp only [bind_eq_ok] at h
  obtain ⟨S, hS, F, hF, h⟩ := h
  injection h with h; subst h
  obtain ⟨h1, h2⟩ := store_forCols_dims hS
  obtain ⟨h3, h4, -⟩ := fft0_dims hF
  exact ⟨rfl, rfl, rfl, rfl, h3.trans h1, h4.trans h2⟩

theorem spectroRun_shape {o o' : TFR ℤ} (h : spectroRun o = .ok o') :
    o'.freqs = o.freqs ∧ o'.ts = o.ts ∧ o'.nf = o.nf ∧ o'.signal = o.signal ∧
      o'.tfr.asC.rows = o.tfr.asC.rows ∧ o'.tfr.asC.cols = o.tfr.asC.cols := by
  unfold spectroRun at h
  simp only [bind_eq_ok] at h
  obtain ⟨S, hS, F, hF, h⟩ := h
  injection h with h; subst h
  obtain ⟨h1, h2⟩ := store_forCols_dims hS
  obtain ⟨h3, h4, -⟩ := fft0_dims hF
  exact ⟨rfl, rfl, rfl, rfl, h3.trans h1, h4.trans h2⟩

theorem mhRun_real {o o' : TFR ℤ} (h : mhRun o = .ok o') : ∃ M, o'.tfr = .real M := by
  unfold mhRun at h
  simp only [bind_eq_ok] at h
  obtain ⟨S, hS, F, hF, h⟩ := h
  injection h with h; subst h
  exact ⟨_, rfl⟩

theorem mhRun_shape {o o' : TFR ℤ} (h : mhRun o = .ok o') :
    o'.freqs = o.freqs ∧ o'.ts = o.ts ∧ o'.nf = o.nf ∧ o'.signal = o.signal ∧
      o'.tfr.asC.rows = o.tfr.asC.rows ∧ o'.tfr.asC.cols = o.tfr.asC.cols := by
  unfold mhRun at h
  simp only [bind_eq_ok] at h
  obtain ⟨S, hS, F, hF, h⟩ := h
  injection h with h; subst h
  obtain ⟨h1, h2⟩ := store_forCols_dims hS
  obtain ⟨h3, h4, -⟩ := fft0_dims hF
  exact ⟨rfl, rfl, rfl, rfl, h3.trans h1, h4.trans h2⟩

theorem wvdRun_shape {τ : Type} {o o' : TFR τ} (h : wvdRun o = .ok o') :
    o'.freqs = ⟨o.nf, fun k => 0.5 * (k : ℝ) / (o.nf : ℝ)⟩ ∧ o'.ts = o.ts ∧ o'.nf = o.nf ∧ o'.signal = o.signal ∧
      o'.tfr.asC.rows = o.tfr.asC.rows ∧ o'.tfr.asC.cols = o.tfr.asC.cols := by
  unfold wvdRun at h
  split_ifs at h
  simp only [bind_eq_ok] at h
  obtain ⟨S, hS, F, hF, h⟩ := h
  injection h with h; subst h
  obtain ⟨h1, h2⟩ := store_forCols_dims hS
  obtain ⟨h3, h4, -⟩ := fft0_dims hF
  exact ⟨rfl, rfl, rfl, rfl, h3.trans h1, h4.trans h2⟩

theorem pwvdRun_shape {τ : Type} {o o' : TFR τ} {M : Mat ℝ} (h : pwvdRun o = .ok (o', M)) :
    o'.freqs = o.freqs ∧ o'.ts = o.ts ∧ o'.nf = o.nf ∧ o'.signal = o.signal ∧
      o'.tfr.asC.rows = o.tfr.asC.rows ∧ o'.tfr.asC.cols = o.tfr.asC.cols := by
  unfold pwvdRun at h
  simp only [bind_eq_ok] at h
  obtain ⟨S, hS, F, hF, h⟩ := h
  simp only [Except.ok.injEq, Prod.mk.injEq] at h
  obtain ⟨h, -⟩ := h
  subst h
  obtain ⟨h1, h2⟩ := store_forCols_dims hS
  obtain ⟨h3, h4, -⟩ := fft0_dims hF
  exact ⟨rfl, rfl, rfl, rfl, h3.trans h1, h4.trans h2⟩

theorem thresholded_dims {A B : Mat ℝ} {thr : ℝ} (h : thresholded A thr = .ok B) : B.rows = A.rows ∧ B.cols = A.cols := by
  by_cases he : A.rows = 0 ∨ A.cols = 0
  · unfold thresholded at h; rw [dif_pos he] at h; cases h
  · obtain ⟨mx, _, h1⟩ := thresholded_ok he thr
    rw [h1] at h
    injection h with h
    rw [← h]; exact ⟨rfl, rfl⟩

end Tftb
