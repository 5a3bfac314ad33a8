import Verif.Lemmas.Wvd
import Verif.Props.Stft

/-! # Wigner-Ville distribution (C32-C35) -/

namespace Tftb.Props

open Tftb Tftb.Spec Tftb.Linear Tftb.Cohen Finset ComplexConjugate

/-- `WignerVilleDistribution(x, timestamps=ts, n_fbins=n).run()` returns the real matrix `M`. -/
def WvdReturns {τ : Type} (x : Vec ℂ) (ts : Vec τ) (n : ℕ) (M : Mat ℝ) : Prop :=
  ∃ o, wvdRun (TFR.init makeWindow x ts n none) = .ok o ∧ o.tfr = .real M

/-! ## C32 when does it return -/

theorem wvZone_iff (n N : ℕ) : (∃ c < N, wvZone n N c) ↔ ¬ ((N : ℤ) ≤ 2 * roundEven ((n : ℝ) / 2) ∨ N ≤ 1) := by
  unfold wvZone
  have hr : 0 ≤ roundEven ((n : ℝ) / 2) := by rw [roundEven_half]; split <;> omega
  constructor
  · rintro ⟨c, hc, h1, h2⟩
    omega
  · intro h
    refine ⟨(roundEven ((n : ℝ) / 2) + 1).toNat, ?_, ?_, ?_⟩ <;> omega

/-- The run returns exactly when there are as many timestamps as samples and the signal is no longer than twice the rounded half of
the number of bins (or has at most one sample). -/
theorem C32_returns_iff {τ : Type} (x : Vec ℂ) (ts : Vec τ) (n : ℕ) (hn : n ≠ 0) :
    (∃ M, WvdReturns x ts n M) ↔
      ts.len = x.len ∧ ((x.len : ℤ) ≤ 2 * roundEven ((n : ℝ) / 2) ∨ x.len ≤ 1) := by
  constructor
  · rintro ⟨M, o, h1, h2⟩
    by_cases hts : ts.len = x.len
    · refine ⟨hts, ?_⟩
      by_contra hcon
      rw [wvdRun_zone makeWindow x ts n none hn hts ((wvZone_iff n x.len).2 hcon)] at h1
      cases h1
    · exfalso
      unfold wvdRun at h1
      rw [if_pos (show (TFR.init makeWindow x ts n none).ts.len ≠ (TFR.init makeWindow x ts n none).signal.len from hts)]
        at h1
      cases h1
  · rintro ⟨hts, h⟩
    have hz : ∀ c < x.len, ¬ wvZone n x.len c := fun c hc hzc => ((wvZone_iff n x.len).1 ⟨c, hc, hzc⟩) h
    obtain ⟨M, h1, _⟩ := wvdRun_fresh makeWindow x ts n none hn hts hz
    exact ⟨M, _, h1, rfl⟩

/-- Otherwise it raises: `ValueError` for a wrong number of timestamps, `IndexError` for a signal too long for the bins. -/
theorem C32_raises {τ : Type} (x : Vec ℂ) (ts : Vec τ) (n : ℕ) (hn : n ≠ 0) :
    (ts.len ≠ x.len → wvdRun (TFR.init makeWindow x ts n none) = .error .valueError) ∧
    (ts.len = x.len → ¬ ((x.len : ℤ) ≤ 2 * roundEven ((n : ℝ) / 2) ∨ x.len ≤ 1) →
      wvdRun (TFR.init makeWindow x ts n none) = .error .indexError) := by
  constructor
  · intro h
    unfold wvdRun
    rw [if_pos (show (TFR.init makeWindow x ts n none).ts.len ≠ (TFR.init makeWindow x ts n none).signal.len from h)]
  · intro hts h
    exact wvdRun_zone makeWindow x ts n none hn hts ((wvZone_iff n x.len).2 h)

/-- Default parameters: it returns unless the length is 5, 9, 13, …, and then it raises `IndexError`. -/
theorem C32_default (x : Vec ℂ) (hx : x.len ≠ 0) :
    ((∃ o, wvdRun (TFR.initDefault makeWindow x) = .ok o) ↔ (x.len % 4 ≠ 1 ∨ x.len = 1)) ∧
    (x.len % 4 = 1 → x.len ≠ 1 → wvdRun (TFR.initDefault makeWindow x) = .error .indexError) := by
  have hts : (arange 0 (x.len : ℤ)).len = x.len := by rw [arange_len]; simp
  have key : ((x.len : ℤ) ≤ 2 * roundEven ((x.len : ℝ) / 2) ∨ x.len ≤ 1) ↔ (x.len % 4 ≠ 1 ∨ x.len = 1) := by
    rw [roundEven_half]; split <;> omega
  have herr : x.len % 4 = 1 → x.len ≠ 1 → wvdRun (TFR.initDefault makeWindow x) = .error .indexError := by
    intro h1 h2
    exact (C32_raises x (arange 0 (x.len : ℤ)) x.len hx).2 hts (by rw [key]; omega)
  refine ⟨⟨?_, ?_⟩, herr⟩
  · rintro ⟨o, ho⟩
    by_contra hcon
    push Not at hcon
    rw [herr hcon.1 hcon.2] at ho
    cases ho
  · intro h
    obtain ⟨M, o, h1, _⟩ := (C32_returns_iff x (arange 0 (x.len : ℤ)) x.len hx).2 ⟨hts, key.2 h⟩
    exact ⟨o, h1⟩

example : (5 : ℕ) % 4 = 1 ∧ (5 : ℕ) ≠ 1 ∧ (8 : ℕ) % 4 ≠ 1 := by norm_num

/-! ## C33 closed form and reality -/

theorem wignerKernel_hermitian (x : Vec ℂ) (t τ : ℤ) : wignerKernel x t (-τ) = conj (wignerKernel x t τ) := by
  unfold wignerKernel
  rw [map_mul, Complex.conj_conj, mul_comm]
  rw [sub_neg_eq_add, ← sub_eq_add_neg]

theorem wv_extend (x : Vec ℂ) (n : ℕ) (c : ℕ) (k : ℤ) :
    lagSum (wvT n x.len c) n (wignerKernel x c) k
      = lagSum (roundEven ((n : ℝ) / 2) - 1) n (wignerKernel x c) k := by
  apply lagSum_extend
  · unfold wvT; omega
  · intro τ h1 h2 h3
    unfold wvT at h3
    unfold wignerKernel
    by_cases h4 : 0 ≤ (c : ℤ) + τ ∧ (c : ℤ) + τ < x.len
    · rw [zext_of_not_mem (x := x) (i := (c : ℤ) - τ) (by omega)]; simp
    · rw [zext_of_not_mem h4, zero_mul]

/-- Entry `(k, t)` is the lag sum of the instantaneous correlation, as an equality of *complex* numbers: the sum is real.
The labels of the rows are `k / (2 n)`. -/
theorem C33_wvd {τ : Type} (x : Vec ℂ) (ts : Vec τ) (n : ℕ) (hn : n ≠ 0) (hts : ts.len = x.len)
    (hN : (x.len : ℤ) ≤ 2 * roundEven ((n : ℝ) / 2) ∨ x.len ≤ 1) :
    ∃ M, WvdReturns x ts n M ∧ M.rows = n ∧ M.cols = x.len ∧ ∀ k < n, ∀ t < x.len,
      (M.get k t : ℂ) = lagSum (roundEven ((n : ℝ) / 2) - 1) n (wignerKernel x t) k := by
  have hz : ∀ c < x.len, ¬ wvZone n x.len c := fun c hc hzc => ((wvZone_iff n x.len).1 ⟨c, hc, hzc⟩) hN
  obtain ⟨M, h1, h2, h3, h4⟩ := wvdRun_fresh makeWindow x ts n none hn hts hz
  refine ⟨M, ⟨_, h1, rfl⟩, h2, by rw [h3, hts], fun k _ t ht => ?_⟩
  rw [h4 k t ht, wv_extend]
  exact lagSum_real _ _ _ (fun τ _ _ => wignerKernel_hermitian x t τ) k

theorem wvd_unique {τ : Type} {x : Vec ℂ} {ts : Vec τ} {n : ℕ} {M M' : Mat ℝ} (h : WvdReturns x ts n M)
    (h' : WvdReturns x ts n M') : M = M' := by
  obtain ⟨o, h1, h2⟩ := h
  obtain ⟨o', h1', h2'⟩ := h'
  rw [h1] at h1'
  injection h1' with h3
  subst h3
  rw [h2] at h2'
  injection h2'

/-- The frequency labels attached by the run. -/
theorem C33_labels {τ : Type} (x : Vec ℂ) (ts : Vec τ) (n : ℕ) (o : TFR τ)
    (ho : wvdRun (TFR.init makeWindow x ts n none) = .ok o) :
    o.freqs.len = n ∧ ∀ k < n, o.freqs.get k = (k : ℝ) / (2 * n) := by
  unfold wvdRun at ho
  split at ho
  · cases ho
  · cases e1 : Store.forCols (TFR.init makeWindow x ts n none).tfr
      (TFR.init makeWindow x ts n none).ts.len (wvdCol (TFR.init makeWindow x ts n none)) with
    | error e => rw [e1] at ho; cases ho
    | ok S =>
      rw [e1, ok_bind] at ho
      cases e2 : S.asC.fft0 with
      | error e => rw [e2] at ho; cases ho
      | ok F =>
        rw [e2, ok_bind] at ho
        injection ho with ho
        subst ho
        refine ⟨rfl, fun k _ => ?_⟩
        show 0.5 * (k : ℝ) / (n : ℝ) = _
        norm_num
        ring

/-! ## C34 marginals -/

/-- Each column sums to `n |x[t]|²`. -/
theorem C34_time_marginal {τ : Type} (x : Vec ℂ) (ts : Vec τ) (n : ℕ) (hn : 2 ≤ n) (M : Mat ℝ)
    (hM : WvdReturns x ts n M) : ∀ t < x.len, ∑ k ∈ range n, M.get k t = n * ‖x.get t‖ ^ 2 := by
  intro t ht
  have hn0 : n ≠ 0 := by omega
  obtain ⟨hts, hN⟩ := (C32_returns_iff x ts n hn0).1 ⟨M, hM⟩
  obtain ⟨M', h1, _, _, h4⟩ := C33_wvd x ts n hn0 hts hN
  obtain rfl := wvd_unique hM h1
  have hc : ((∑ k ∈ range n, M.get k t : ℝ) : ℂ) = ((n * ‖x.get t‖ ^ 2 : ℝ) : ℂ) := by
    rw [Complex.ofReal_sum, Finset.sum_congr rfl (fun k hk => h4 k (Finset.mem_range.1 hk) t ht),
      sum_lagSum hn0]
    · unfold wignerKernel
      rw [add_zero, sub_zero, zext_of_mem (by omega) (by omega), mul_conj_eq_norm_sq]
      simp
    · rw [roundEven_half]; split <;> omega
    · rw [roundEven_half]; split <;> omega
  exact_mod_cast hc

/-- The grand total is `n` times the energy of the signal. -/
theorem C34_energy {τ : Type} (x : Vec ℂ) (ts : Vec τ) (n : ℕ) (hn : 2 ≤ n) (M : Mat ℝ)
    (hM : WvdReturns x ts n M) : ∑ t ∈ range x.len, ∑ k ∈ range n, M.get k t = n * energy x := by
  unfold energy
  rw [Finset.mul_sum]
  exact Finset.sum_congr rfl (fun t ht => C34_time_marginal x ts n hn M hM t (Finset.mem_range.1 ht))

/-- With one bin (hence at most one sample) the result is the zero matrix: the marginal fails. -/
theorem C34_one_bin {τ : Type} (x : Vec ℂ) (ts : Vec τ) (M : Mat ℝ)
    (hM : WvdReturns x ts 1 M) : ∀ t < x.len, M.get 0 t = 0 := by
  intro t ht
  obtain ⟨hts, hN⟩ := (C32_returns_iff x ts 1 one_ne_zero).1 ⟨M, hM⟩
  obtain ⟨M', h1, _, _, h4⟩ := C33_wvd x ts 1 one_ne_zero hts hN
  obtain rfl := wvd_unique hM h1
  have := h4 0 (by omega) t ht
  rw [roundEven_half] at this
  simp [lagSum] at this
  exact this

example : ∃ M, WvdReturns ⟨8, fun _ => 1⟩ (arange 0 8) 8 M := by
  rw [C32_returns_iff _ _ _ (by norm_num)]
  refine ⟨by decide, Or.inl ?_⟩
  show ((8 : ℕ) : ℤ) ≤ _
  rw [roundEven_half]; norm_num

/-! ## C35 support and covariance -/

/-- If the signal vanishes before `t0`, so does its distribution; the same after. -/
theorem C35_support {τ : Type} (x : Vec ℂ) (ts : Vec τ) (n : ℕ) (hn : n ≠ 0) (M : Mat ℝ)
    (hM : WvdReturns x ts n M) (t0 : ℕ) :
    ((∀ i < x.len, i < t0 → x.get i = 0) → ∀ k < n, ∀ t < x.len, t < t0 → M.get k t = 0) ∧
    ((∀ i < x.len, t0 < i → x.get i = 0) → ∀ k < n, ∀ t < x.len, t0 < t → M.get k t = 0) := by
  obtain ⟨hts, hN⟩ := (C32_returns_iff x ts n hn).1 ⟨M, hM⟩
  obtain ⟨M', h1, _, _, h4⟩ := C33_wvd x ts n hn hts hN
  obtain rfl := wvd_unique hM h1
  have key : ∀ k < n, ∀ t < x.len, (∀ τ : ℤ, wignerKernel x t τ = 0) → M.get k t = 0 := by
    intro k hk t ht h0
    have := h4 k hk t ht
    unfold lagSum at this
    rw [Finset.sum_eq_zero (fun τ _ => by rw [h0, zero_mul])] at this
    exact_mod_cast this
  have hz : ∀ i : ℤ, (0 ≤ i → i < x.len → x.get i.toNat = 0) → zext x i = 0 := by
    intro i h
    unfold zext
    split
    · rename_i h'; exact h h'.1 h'.2
    · rfl
  constructor
  · intro h k hk t ht htt
    refine key k hk t ht (fun τ => ?_)
    unfold wignerKernel
    rcases le_total τ 0 with h5 | h5
    · rw [hz _ (fun h6 h7 => h _ (by omega) (by omega)), zero_mul]
    · rw [hz ((t : ℤ) - τ) (fun h6 h7 => h _ (by omega) (by omega))]; simp
  · intro h k hk t ht htt
    refine key k hk t ht (fun τ => ?_)
    unfold wignerKernel
    rcases le_total 0 τ with h5 | h5
    · rw [hz _ (fun h6 h7 => h _ (by omega) (by omega)), zero_mul]
    · rw [hz ((t : ℤ) - τ) (fun h6 h7 => h _ (by omega) (by omega))]; simp

/-- General transfer: if the correlation kernels are related, so are the distributions. -/
theorem wvd_transfer {τ τ' : Type} {x y : Vec ℂ} {ts : Vec τ} {ts' : Vec τ'} {n : ℕ} (hn : n ≠ 0) {M M' : Mat ℝ}
    (hM : WvdReturns x ts n M) (hM' : WvdReturns y ts' n M') {k l t s : ℕ} (hk : k < n) (hl : l < n)
    (ht : t < x.len) (hs : s < y.len) (a : ℝ)
    (h : lagSum (roundEven ((n : ℝ) / 2) - 1) n (wignerKernel y s) l
      = a * lagSum (roundEven ((n : ℝ) / 2) - 1) n (wignerKernel x t) k) : M'.get l s = a * M.get k t := by
  obtain ⟨hts, hN⟩ := (C32_returns_iff x ts n hn).1 ⟨M, hM⟩
  obtain ⟨A, h1, _, _, h4⟩ := C33_wvd x ts n hn hts hN
  obtain rfl := wvd_unique hM h1
  obtain ⟨hts', hN'⟩ := (C32_returns_iff y ts' n hn).1 ⟨M', hM'⟩
  obtain ⟨A', h1', _, _, h4'⟩ := C33_wvd y ts' n hn hts' hN'
  obtain rfl := wvd_unique hM' h1'
  rw [← h4 k hk t ht, ← h4' l hl s hs] at h
  exact_mod_cast h

theorem wvd_returns_of_len {τ : Type} {x y : Vec ℂ} {ts : Vec τ} {n : ℕ} (hn : n ≠ 0) {M : Mat ℝ}
    (hM : WvdReturns x ts n M) (hxy : y.len = x.len) : ∃ M', WvdReturns y ts n M' := by
  have := (C32_returns_iff x ts n hn).1 ⟨M, hM⟩
  exact (C32_returns_iff y ts n hn).2 (by rw [hxy]; exact this)

/-- Scaling by `a` scales the distribution by `|a|²`. -/
theorem C35_scale {τ : Type} (x : Vec ℂ) (ts : Vec τ) (n : ℕ) (hn : n ≠ 0) (M : Mat ℝ)
    (hM : WvdReturns x ts n M) (a : ℂ) :
    ∃ M', WvdReturns (x.map (a * ·)) ts n M' ∧ ∀ k < n, ∀ t < x.len, M'.get k t = ‖a‖ ^ 2 * M.get k t := by
  obtain ⟨M', hM'⟩ := wvd_returns_of_len (y := x.map (a * ·)) hn hM rfl
  refine ⟨M', hM', fun k hk t ht => wvd_transfer hn hM hM' hk hk ht ht _ ?_⟩
  rw [← lagSum_smul]
  apply lagSum_congr
  intro τ _ _
  have hz : ∀ i : ℤ, zext (x.map (a * ·)) i = a * zext x i := by
    intro i
    unfold zext
    simp only [Vec.map_len, Vec.map_get]
    split
    · rfl
    · simp
  unfold wignerKernel
  rw [hz, hz, map_mul, ← mul_conj_eq_norm_sq]
  ring

/-- Modulating by `m` half-bins (`x[t]·exp(2πi·m·t/(2n))`) moves the rows by `m` cyclically. -/
theorem C35_modulation {τ : Type} (x : Vec ℂ) (ts : Vec τ) (n : ℕ) (hn : n ≠ 0) (M : Mat ℝ)
    (hM : WvdReturns x ts n M) (m : ℤ) :
    ∃ M', WvdReturns (modulateBins m (2 * n) x) ts n M' ∧
      ∀ k < n, ∀ t < x.len, M'.get k t = M.get (rollRow n m k) t := by
  obtain ⟨M', hM'⟩ := wvd_returns_of_len (y := modulateBins m (2 * n) x) hn hM rfl
  refine ⟨M', hM', fun k hk t ht => ?_⟩
  rw [← one_mul (M.get _ _)]
  refine wvd_transfer hn hM hM' (rollRow_lt hn m k) hk ht ht 1 ?_
  have h1 : lagSum (roundEven ((n : ℝ) / 2) - 1) n (wignerKernel x t) (rollRow n m k : ℕ)
      = lagSum (roundEven ((n : ℝ) / 2) - 1) n (wignerKernel x t) ((k : ℤ) - m) := by
    apply lagSum_periodic _ hn
    unfold rollRow
    rw [Int.toNat_of_nonneg (Int.emod_nonneg _ (by exact_mod_cast hn)), ← dvd_neg, neg_sub]
    exact Int.dvd_self_sub_emod
  rw [h1, ← lagSum_modulate, Complex.ofReal_one, one_mul]
  apply lagSum_congr
  intro τ _ _
  unfold wignerKernel
  rw [zext_modulate, zext_modulate, map_mul, conj_rootPow]
  have h2 : rootPow n (-(m * τ)) = rootPow (2 * n) (-(m * (t + τ))) * rootPow (2 * n) (- -(m * (t - τ))) := by
    rw [← rootPow_add, rootPow_eq_expi, rootPow_eq_expi]
    congr 1
    have : (n : ℝ) ≠ 0 := Nat.cast_ne_zero.2 hn
    push_cast
    field_simp
    ring
  rw [h2]; ring

/-- Row of the opposite frequency. -/
def flipRow (n k : ℕ) : ℕ := (n - k) % n

theorem flipRow_lt {n : ℕ} (hn : n ≠ 0) (k : ℕ) : flipRow n k < n := Nat.mod_lt _ (Nat.pos_of_ne_zero hn)

theorem flipRow_dvd {n k : ℕ} (hk : k < n) : (n : ℤ) ∣ -(k : ℤ) - (flipRow n k : ℕ) := by
  unfold flipRow
  rcases Nat.eq_zero_or_pos k with rfl | h
  · simp
  · rw [Nat.mod_eq_of_lt (by omega)]
    refine ⟨-1, ?_⟩
    push_cast [Nat.cast_sub hk.le]; ring

/-- Conjugating the signal flips the frequency axis. -/
theorem C35_conj {τ : Type} (x : Vec ℂ) (ts : Vec τ) (n : ℕ) (hn : n ≠ 0) (M : Mat ℝ)
    (hM : WvdReturns x ts n M) :
    ∃ M', WvdReturns (x.map conj) ts n M' ∧ ∀ k < n, ∀ t < x.len, M'.get k t = M.get (flipRow n k) t := by
  obtain ⟨M', hM'⟩ := wvd_returns_of_len (y := x.map conj) hn hM rfl
  refine ⟨M', hM', fun k hk t ht => ?_⟩
  rw [← one_mul (M.get _ _)]
  refine wvd_transfer hn hM hM' (flipRow_lt hn k) hk ht ht 1 ?_
  rw [← lagSum_periodic _ hn _ (flipRow_dvd hk), ← lagSum_neg, Complex.ofReal_one, one_mul]
  apply lagSum_congr
  intro τ _ _
  have hz : ∀ i : ℤ, zext (x.map conj) i = conj (zext x i) := by
    intro i
    unfold zext
    simp only [Vec.map_len, Vec.map_get]
    split
    · rfl
    · simp
  unfold wignerKernel
  rw [hz, hz, Complex.conj_conj, sub_neg_eq_add, mul_comm]
  rfl

/-- Time reversal reverses the columns and the frequency axis. -/
theorem C35_reverse {τ : Type} (x : Vec ℂ) (ts : Vec τ) (n : ℕ) (hn : n ≠ 0) (M : Mat ℝ)
    (hM : WvdReturns x ts n M) :
    ∃ M', WvdReturns x.reverse ts n M' ∧
      ∀ k < n, ∀ t < x.len, M'.get k t = M.get (flipRow n k) (x.len - 1 - t) := by
  obtain ⟨M', hM'⟩ := wvd_returns_of_len (y := x.reverse) hn hM rfl
  refine ⟨M', hM', fun k hk t ht => ?_⟩
  rw [← one_mul (M.get _ _)]
  refine wvd_transfer hn hM hM' (flipRow_lt hn k) hk (by omega) ht 1 ?_
  rw [← lagSum_periodic _ hn _ (flipRow_dvd hk), ← lagSum_neg, Complex.ofReal_one, one_mul]
  apply lagSum_congr
  intro τ _ _
  have hz : ∀ i : ℤ, zext x.reverse i = zext x ((x.len : ℤ) - 1 - i) := by
    intro i
    by_cases h : 0 ≤ i ∧ i < (x.len : ℤ)
    · rw [zext_of_mem (x := x.reverse) h.1 h.2, zext_of_mem (by omega) (by omega)]
      show x.get _ = _
      congr 1; omega
    · rw [zext_of_not_mem (x := x.reverse) h, zext_of_not_mem (by omega)]
  unfold wignerKernel
  rw [hz, hz]
  congr 2
  · omega
  · congr 1; omega

/-- Delay covariance: if `y` is `x` delayed by `d` samples (as zero-extended signals), column `t + d` of the distribution of `y` is
column `t` of that of `x`. -/
theorem C35_delay {τ τ' : Type} (x y : Vec ℂ) (ts : Vec τ) (ts' : Vec τ') (n : ℕ) (hn : n ≠ 0) (M M' : Mat ℝ)
    (hM : WvdReturns x ts n M) (hM' : WvdReturns y ts' n M') (d : ℕ)
    (hd : ∀ i : ℤ, zext y i = zext x (i - d)) :
    ∀ k < n, ∀ t < x.len, t + d < y.len → M'.get k (t + d) = M.get k t := by
  intro k hk t ht htd
  rw [← one_mul (M.get _ _)]
  refine wvd_transfer hn hM hM' hk hk ht htd 1 ?_
  rw [Complex.ofReal_one, one_mul]
  apply lagSum_congr
  intro τ _ _
  unfold wignerKernel
  rw [hd, hd]
  congr 2
  · push_cast; ring
  · congr 1; push_cast; ring

end Tftb.Props
