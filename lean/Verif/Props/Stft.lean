import Verif.Lemmas.Stft
import Verif.Lemmas.FM

/-! # Frequency axis, short-time Fourier transform and spectrogram (C26-C31) -/

namespace Tftb.Props

open Tftb Tftb.Spec Tftb.Linear Tftb.Cohen Finset ComplexConjugate

/-! ## C26 frequency axis -/

theorem arangeF_len_int (a b : ℝ) (z : ℤ) (h : b - a = z) : (arangeF a b).len = z.toNat := by
  simp [arangeF, h]

/-- Even number of bins: one label per bin, the frequency of that DFT bin in `[-1/2, 1/2)`. -/
theorem C26_even {τ : Type} (mkw : ℕ → Vec ℂ) (x : Vec ℂ) (ts : Vec τ) (n : ℕ) (h : Option (Vec ℂ))
    (hn : n % 2 = 0) :
    (TFR.init mkw x ts n h).freqs.len = n ∧
    ∀ k < n, (TFR.init mkw x ts n h).freqs.get k = binFreq n k ∧
      -(1 / 2) ≤ binFreq n k ∧ binFreq n k < 1 / 2 := by
  obtain ⟨m, hm⟩ : ∃ m, n = 2 * m := ⟨n / 2, by omega⟩
  have hm' : (n : ℝ) = 2 * m := by exact_mod_cast hm
  have l1 : (arangeF 0 ((n : ℝ) / 2)).len = m := by
    rw [arangeF_len_int _ _ (m : ℤ) (by rw [hm']; push_cast; ring)]; simp
  have l2 : (arangeF (-(n : ℝ) / 2) 0).len = m := by
    rw [arangeF_len_int _ _ (m : ℤ) (by rw [hm']; push_cast; ring)]; simp
  simp only [TFR.init, baseFreqs, if_pos hn, Vec.map_len, Vec.append_len, l1, l2, Vec.map_get]
  refine ⟨by omega, fun k hk => ?_⟩
  have hn0 : (0 : ℝ) < n := by exact_mod_cast (by omega : 0 < n)
  have hkr : (k : ℝ) + 1 ≤ n := by exact_mod_cast hk
  simp only [Vec.append, l1]
  unfold binFreq
  have hdiv : n / 2 = m := by omega
  rw [hdiv]
  by_cases hlt : k < m
  · simp only [if_pos hlt]
    have : (k : ℝ) + 1 ≤ m := by exact_mod_cast hlt
    refine ⟨by simp only [arangeF]; ring, ?_, ?_⟩
    · have : (0 : ℝ) ≤ (k : ℝ) / n := by positivity
      linarith
    · rw [div_lt_iff₀ hn0]; linarith
  · simp only [if_neg hlt]
    have hmk : (m : ℝ) ≤ k := by exact_mod_cast (by omega : m ≤ k)
    refine ⟨?_, ?_, ?_⟩
    · simp only [arangeF]
      rw [Nat.cast_sub (by omega), hm']; ring
    · rw [le_div_iff₀ hn0]; linarith
    · rw [div_lt_iff₀ hn0]; linarith

/-- Odd number of bins: one label is missing.  The matrix has `n` rows, the axis only `n - 1` entries, and from
position `(n-1)/2` on the labels are those of the *next* bin. -/
theorem C26_odd {τ : Type} (mkw : ℕ → Vec ℂ) (x : Vec ℂ) (ts : Vec τ) (n : ℕ) (h : Option (Vec ℂ))
    (hn : n % 2 = 1) :
    (TFR.init mkw x ts n h).tfr.asC.rows = n ∧
    (TFR.init mkw x ts n h).freqs.len = n - 1 ∧
    ∀ k < n - 1, (TFR.init mkw x ts n h).freqs.get k
      = if k < (n - 1) / 2 then (k : ℝ) / n else ((k : ℝ) + 1 - n) / n := by
  obtain ⟨m, hm⟩ : ∃ m, n = 2 * m + 1 := ⟨n / 2, by omega⟩
  have hm' : (n : ℝ) = 2 * m + 1 := by exact_mod_cast hm
  have l1 : (arangeF 0 (((n : ℝ) - 1) / 2)).len = m := by
    rw [arangeF_len_int _ _ (m : ℤ) (by rw [hm']; push_cast; ring)]; simp
  have l2 : (arangeF (-((n : ℝ) - 1) / 2) 0).len = m := by
    rw [arangeF_len_int _ _ (m : ℤ) (by rw [hm']; push_cast; ring)]; simp
  have hn2 : ¬ n % 2 = 0 := by omega
  simp only [TFR.init, baseFreqs, if_neg hn2, Vec.map_len, Vec.append_len, l1, l2, Vec.map_get]
  refine ⟨rfl, by omega, fun k hk => ?_⟩
  simp only [Vec.append, l1]
  have hdiv : (n - 1) / 2 = m := by omega
  rw [hdiv]
  by_cases hlt : k < m
  · simp only [if_pos hlt, arangeF]; ring
  · simp only [if_neg hlt, arangeF]
    rw [Nat.cast_sub (by omega), hm']; ring

example : (8 : ℕ) % 2 = 0 ∧ (7 : ℕ) % 2 = 1 := by norm_num

/-! ## C27 the STFT is the windowed Fourier sum -/

/-- Column `m`, row `k` of the STFT is the Fourier sum of the signal under the conjugated window laid on
sample `m - 1`. -/
theorem C27_stft {τ : Type} (x : Vec ℂ) (ts : Vec τ) (n L : ℕ) (h : Vec ℂ) (hh : h.len = 2 * L + 1 ∨ h.len = 2 * L + 2)
    (hL : 2 * L < n) :
    ∃ M : Mat ℂ, stftOf x ts n (some h) = .ok M ∧ M.rows = n ∧ M.cols = ts.len ∧
      ∀ k < n, ∀ m < ts.len, M.get k m = windowedDft x h L n ((m : ℤ) - 1) k := by
  have hn : n ≠ 0 := by omega
  obtain ⟨M, h1, h2, h3, h4⟩ := stftRun_fresh makeWindow x ts n h hn
  refine ⟨M, by unfold stftOf; rw [h1]; rfl, h2, h3, fun k _ m hm => ?_⟩
  have hlh : ((h.len : ℤ) - 1) / 2 = L := by omega
  have hR : min (roundEven ((n : ℝ) / 2)) (L : ℤ) = L := by
    rw [roundEven_half]; split <;> omega
  rw [h4 k m hm, hlh]
  unfold stftLo stftHi
  rw [hR, dftC_lagCol hn (by omega)]
  unfold windowedDft
  have hterm : ∀ τ : ℤ, -(L : ℤ) ≤ τ → τ ≤ L →
      zext x ((m : ℤ) + τ - 1) * conj (zext h ((L : ℤ) + τ)) * rootPow n (τ * k)
      = zext x ((m : ℤ) - 1 + τ) * conj (h.get ((L : ℤ) + τ).toNat) * expi (-(2 * Real.pi * (k * τ / n))) := by
    intro τ h5 h6
    rw [zext_of_mem (x := h) (by omega) (by omega), rootPow_eq_expi,
      show (m : ℤ) + τ - 1 = (m : ℤ) - 1 + τ by ring]
    congr 2; push_cast; ring
  rw [Finset.sum_congr rfl (fun τ hτ => hterm τ (by rw [Finset.mem_Icc] at hτ; omega)
    (by rw [Finset.mem_Icc] at hτ; omega))]
  apply Finset.sum_subset
  · intro τ hτ; rw [Finset.mem_Icc] at hτ ⊢; omega
  · intro τ hτ hnot
    rw [Finset.mem_Icc] at hτ hnot
    rw [zext_of_not_mem (by omega), zero_mul, zero_mul]

/-- The same with the default window (an odd Hamming window of about a quarter of the bins), for every number of bins. -/
theorem C27_default_window {τ : Type} (x : Vec ℂ) (ts : Vec τ) (n : ℕ) (hn : n ≠ 0) :
    ∃ L : ℕ, (makeWindow n).len = 2 * L + 1 ∧ 2 * L < n ∧
      (∀ i < 2 * L + 1, (makeWindow n).get i = ((hamming (2 * L + 1)).get i : ℂ)) ∧
    ∃ M : Mat ℂ, stftOf x ts n none = .ok M ∧ M.rows = n ∧ M.cols = ts.len ∧
      ∀ k < n, ∀ m < ts.len, M.get k m = windowedDft x (makeWindow n) L n ((m : ℤ) - 1) k := by
  have hl : (makeWindow n).len = n / 4 + (1 - n / 4 % 2) := rfl
  have hw : (makeWindow n).len = 2 * ((makeWindow n).len / 2) + 1 := by rw [hl]; omega
  refine ⟨(makeWindow n).len / 2, hw, by rw [hl]; omega, fun i _ => ?_, ?_⟩
  · rw [← hw]; rfl
  · exact C27_stft x ts n _ (makeWindow n) (Or.inl hw) (by rw [hl]; omega)

/-- With at least one bin the STFT never raises, whatever the signal, the timestamps and the window. -/
theorem C27_never_raises {τ : Type} (x : Vec ℂ) (ts : Vec τ) (n : ℕ) (h : Option (Vec ℂ)) (hn : n ≠ 0) :
    ∃ M : Mat ℂ, stftOf x ts n h = .ok M ∧ M.rows = n ∧ M.cols = ts.len := by
  have key : ∀ w, ∃ M : Mat ℂ, stftOf x ts n (some w) = .ok M ∧ M.rows = n ∧ M.cols = ts.len := by
    intro w
    obtain ⟨M, h1, h2, h3, _⟩ := stftRun_fresh makeWindow x ts n w hn
    exact ⟨M, by unfold stftOf; rw [h1]; rfl, h2, h3⟩
  cases h with
  | some w => exact key w
  | none => exact key (makeWindow n)

/-- Running the STFT leaves signal, timestamps, number of bins, window and frequency labels of the object alone. -/
theorem C27_frame {τ : Type} (x : Vec ℂ) (ts : Vec τ) (n : ℕ) (h : Vec ℂ) (o : TFR τ)
    (ho : stftRun (TFR.init makeWindow x ts n (some h)) = .ok o) :
    o.signal = x ∧ o.ts = ts ∧ o.nf = n ∧ o.fwindow = h ∧ o.freqs = baseFreqs n := by
  unfold stftRun at ho
  cases e1 : Store.forCols (TFR.init makeWindow x ts n (some h)).tfr
      (TFR.init makeWindow x ts n (some h)).tfr.asC.cols (stftCol (TFR.init makeWindow x ts n (some h))) with
  | error e => rw [e1] at ho; cases ho
  | ok S =>
    rw [e1, ok_bind] at ho
    cases e2 : S.asC.fft0 with
    | error e => rw [e2] at ho; cases ho
    | ok F =>
      rw [e2, ok_bind] at ho
      injection ho with ho
      subst ho
      exact ⟨rfl, rfl, rfl, rfl, rfl⟩

example : ∃ h : Vec ℂ, h.len = 2 * 2 + 1 ∧ 2 * 2 < 8 := ⟨⟨5, fun _ => 1⟩, rfl, by norm_num⟩

/-! ## C28 linearity -/

theorem zext_lin (x y : Vec ℂ) (hxy : y.len = x.len) (a b : ℂ) (i : ℤ) :
    zext ⟨x.len, fun t => a * x.get t + b * y.get t⟩ i = a * zext x i + b * zext y i := by
  unfold zext
  by_cases h : 0 ≤ i ∧ i < (x.len : ℤ)
  · rw [if_pos h, if_pos h, if_pos (by rw [hxy]; exact h)]
  · rw [if_neg h, if_neg h, if_neg (by rw [hxy]; exact h)]; simp

/-- The STFT is linear, for every window and every number of bins. -/
theorem C28_linear {τ : Type} (x y : Vec ℂ) (hxy : y.len = x.len) (a b : ℂ) (ts : Vec τ) (n : ℕ)
    (hn : n ≠ 0) (h : Vec ℂ) :
    ∃ X Y Z : Mat ℂ, stftOf x ts n (some h) = .ok X ∧ stftOf y ts n (some h) = .ok Y ∧
      stftOf ⟨x.len, fun t => a * x.get t + b * y.get t⟩ ts n (some h) = .ok Z ∧
      ∀ k < n, ∀ m < ts.len, Z.get k m = a * X.get k m + b * Y.get k m := by
  obtain ⟨X, x1, x2, x3, x4⟩ := stftRun_fresh makeWindow x ts n h hn
  obtain ⟨Y, y1, y2, y3, y4⟩ := stftRun_fresh makeWindow y ts n h hn
  obtain ⟨Z, z1, z2, z3, z4⟩ := stftRun_fresh makeWindow ⟨x.len, fun t => a * x.get t + b * y.get t⟩ ts n h hn
  refine ⟨X, Y, Z, by unfold stftOf; rw [x1]; rfl, by unfold stftOf; rw [y1]; rfl,
    by unfold stftOf; rw [z1]; rfl, fun k _ m hm => ?_⟩
  rw [x4 k m hm, y4 k m hm, z4 k m hm, hxy, ← dftC_smul, ← dftC_smul, ← dftC_add]
  apply dftC_congr
  intro p _
  rw [← lagCol_lin]
  refine congrFun (lagCol_congr ?_) p
  intro t _ _
  rw [zext_lin x y hxy]; ring

/-! ## C29 modulation -/

/-- The signal modulated by `m` bins out of `n`. -/
noncomputable def modulateBins (m : ℤ) (n : ℕ) (x : Vec ℂ) : Vec ℂ :=
  ⟨x.len, fun t => x.get t * expi (2 * Real.pi * (m * t / n))⟩

theorem zext_modulate (m : ℤ) (n : ℕ) (x : Vec ℂ) (i : ℤ) :
    zext (modulateBins m n x) i = zext x i * rootPow n (-(m * i)) := by
  unfold zext
  show (if 0 ≤ i ∧ i < (x.len : ℤ) then _ else _) = _
  by_cases h : 0 ≤ i ∧ i < (x.len : ℤ)
  · rw [if_pos h, if_pos h]
    show x.get i.toNat * expi _ = _
    rw [rootPow_eq_expi]
    congr 2
    have : ((i.toNat : ℕ) : ℝ) = (i : ℝ) := by
      exact_mod_cast congrArg (fun z : ℤ => (z : ℝ)) (Int.toNat_of_nonneg h.1)
    rw [this]; push_cast; ring
  · rw [if_neg h, if_neg h, zero_mul]

/-- Row reached from row `k` by going down `m` rows cyclically. -/
def rollRow (n : ℕ) (m : ℤ) (k : ℕ) : ℕ := (((k : ℤ) - m) % n).toNat

theorem rollRow_lt {n : ℕ} (hn : n ≠ 0) (m : ℤ) (k : ℕ) : rollRow n m k < n := by
  unfold rollRow
  have h1 := Int.emod_nonneg ((k : ℤ) - m) (show (n : ℤ) ≠ 0 by exact_mod_cast hn)
  have h2 := Int.emod_lt_of_pos ((k : ℤ) - m) (show (0 : ℤ) < n by omega)
  omega

theorem dftC_rollRow {n : ℕ} (hn : n ≠ 0) (x : ℕ → ℂ) (m : ℤ) (k : ℕ) :
    dftC n x ((k : ℤ) - m) = dftC n x (rollRow n m k : ℕ) := by
  apply dftC_periodic hn
  unfold rollRow
  rw [Int.toNat_of_nonneg (Int.emod_nonneg _ (by exact_mod_cast hn))]
  exact Int.dvd_self_sub_emod

/-- Modulating the signal by `m` bins moves the rows of the STFT by `m` cyclically, up to a phase depending on the column. -/
theorem C29_modulation {τ : Type} (x : Vec ℂ) (ts : Vec τ) (n : ℕ) (hn : n ≠ 0) (h : Vec ℂ) (m : ℤ) :
    ∃ X Y : Mat ℂ, stftOf x ts n (some h) = .ok X ∧ stftOf (modulateBins m n x) ts n (some h) = .ok Y ∧
      ∀ k < n, ∀ c < ts.len,
        Y.get k c = expi (2 * Real.pi * (m * ((c : ℝ) - 1) / n)) * X.get (rollRow n m k) c := by
  obtain ⟨X, x1, x2, x3, x4⟩ := stftRun_fresh makeWindow x ts n h hn
  obtain ⟨Y, y1, y2, y3, y4⟩ := stftRun_fresh makeWindow (modulateBins m n x) ts n h hn
  refine ⟨X, Y, by unfold stftOf; rw [x1]; rfl, by unfold stftOf; rw [y1]; rfl, fun k _ c hc => ?_⟩
  rw [x4 _ c hc, y4 k c hc]
  have hphase : expi (2 * Real.pi * (m * ((c : ℝ) - 1) / n)) = rootPow n (-(m * ((c : ℤ) - 1))) := by
    rw [rootPow_eq_expi]; congr 1; push_cast; ring
  rw [hphase, ← dftC_rollRow hn, ← dftC_modulate]
  apply dftC_congr
  intro p _
  rw [← lagCol_modulate hn]
  show lagCol n _ (stftHi n x.len _ _) _ p = _
  refine congrFun (lagCol_congr ?_) p
  intro t _ _
  rw [zext_modulate, show (-(m * ((c : ℤ) + t - 1))) = -(m * ((c : ℤ) - 1)) + -(m * t) by ring, rootPow_add]
  ring

/-- In particular the squared modulus is just rolled. -/
theorem C29_energy_rolls {τ : Type} (x : Vec ℂ) (ts : Vec τ) (n : ℕ) (hn : n ≠ 0) (h : Vec ℂ) (m : ℤ) :
    ∃ X Y : Mat ℂ, stftOf x ts n (some h) = .ok X ∧ stftOf (modulateBins m n x) ts n (some h) = .ok Y ∧
      ∀ k < n, ∀ c < ts.len, ‖Y.get k c‖ ^ 2 = ‖X.get (rollRow n m k) c‖ ^ 2 := by
  obtain ⟨X, Y, h1, h2, h3⟩ := C29_modulation x ts n hn h m
  refine ⟨X, Y, h1, h2, fun k hk c hc => ?_⟩
  rw [h3 k hk c hc, norm_mul, norm_expi, one_mul]

/-! ## C30 energy -/

/-- Column by column the mean over the bins of `|STFT|²` is the energy of the windowed segment. -/
theorem C30_stft_energy {τ : Type} (x : Vec ℂ) (ts : Vec τ) (n L : ℕ) (h : Vec ℂ) (hh : h.len = 2 * L + 1 ∨ h.len = 2 * L + 2)
    (hL : 2 * L < n) :
    ∃ M : Mat ℂ, stftOf x ts n (some h) = .ok M ∧ M.rows = n ∧ ∀ m < ts.len,
      (∑ k ∈ range n, ‖M.get k m‖ ^ 2) / n
        = ∑ τ ∈ Finset.Icc (-(L : ℤ)) L, ‖zext x ((m : ℤ) - 1 + τ)‖ ^ 2 * ‖h.get ((L : ℤ) + τ).toNat‖ ^ 2 := by
  have hn : n ≠ 0 := by omega
  have hn' : (n : ℝ) ≠ 0 := Nat.cast_ne_zero.2 hn
  obtain ⟨M, h1, h2, h3, h4⟩ := stftRun_fresh makeWindow x ts n h hn
  refine ⟨M, by unfold stftOf; rw [h1]; rfl, h2, fun m hm => ?_⟩
  have hlh : ((h.len : ℤ) - 1) / 2 = L := by omega
  have hR : min (roundEven ((n : ℝ) / 2)) (L : ℤ) = L := by
    rw [roundEven_half]; split <;> omega
  simp only [h4 _ m hm, hlh]
  unfold stftLo stftHi
  rw [hR, parseval hn, norm_sq_lagCol hn (by omega), mul_div_cancel_left₀ _ hn']
  have hterm : ∀ τ : ℤ, -(L : ℤ) ≤ τ → τ ≤ L →
      ‖zext x ((m : ℤ) + τ - 1) * conj (zext h ((L : ℤ) + τ))‖ ^ 2
      = ‖zext x ((m : ℤ) - 1 + τ)‖ ^ 2 * ‖h.get ((L : ℤ) + τ).toNat‖ ^ 2 := by
    intro τ h5 h6
    rw [zext_of_mem (x := h) (by omega) (by omega),
      show (m : ℤ) + τ - 1 = (m : ℤ) - 1 + τ by ring, norm_mul, mul_pow, RCLike.norm_conj]
  rw [Finset.sum_congr rfl (fun τ hτ => hterm τ (by rw [Finset.mem_Icc] at hτ; omega)
    (by rw [Finset.mem_Icc] at hτ; omega))]
  apply Finset.sum_subset
  · intro τ hτ; rw [Finset.mem_Icc] at hτ ⊢; omega
  · intro τ hτ hnot
    rw [Finset.mem_Icc] at hτ hnot
    rw [zext_of_not_mem (by omega)]; simp

example : ∃ h : Vec ℂ, (h.len = 2 * 2 + 1 ∨ h.len = 2 * 2 + 2) ∧ 2 * 2 < 8 :=
  ⟨⟨6, fun _ => 1⟩, Or.inr rfl, by norm_num⟩

/-- `Spectrogram(x, ts, n, h).run()` returns the real matrix `M`. -/
def SpectroReturns (x : Vec ℂ) (ts : Vec ℤ) (n : ℕ) (h : Vec ℂ) (M : Mat ℝ) : Prop :=
  ∃ o, spectroRun (TFR.init makeWindow x ts n (some h)) = .ok o ∧ o.tfr = .real M

theorem sp_seg (n N L : ℕ) (ti : ℤ) :
    Finset.Icc (spLo n L ti) (spHi n N L ti) = segLags (min (roundEven ((n : ℝ) / 2) - 1) L) N (ti - 1) := by
  ext t
  unfold segLags spLo spHi
  rw [Finset.mem_filter, Finset.mem_Icc, Finset.mem_Icc]
  omega

/-- Energy of the part of the window (middle sample `L`) that meets the signal when the window is laid on sample `c`. -/
noncomputable def windowEnergy (h : Vec ℂ) (n L N : ℕ) (c : ℤ) : ℝ :=
  ∑ τ ∈ segLags (min (roundEven ((n : ℝ) / 2) - 1) L) N c, ‖h.get ((L : ℤ) + τ).toNat‖ ^ 2

theorem sp_window {n L : ℕ} {h : Vec ℂ} (hh : h.len = 2 * L + 1 ∨ h.len = 2 * L + 2) {N : ℕ} {c : ℤ} {τ : ℤ}
    (hτ : τ ∈ segLags (min (roundEven ((n : ℝ) / 2) - 1) L) N c) :
    zext h ((L : ℤ) + τ) = h.get ((L : ℤ) + τ).toNat := by
  unfold segLags at hτ
  rw [Finset.mem_filter, Finset.mem_Icc] at hτ
  exact zext_of_mem (by omega) (by omega)

theorem spNorm_eq {n L : ℕ} {h : Vec ℂ} (hh : h.len = 2 * L + 1 ∨ h.len = 2 * L + 2) (N : ℕ) (ti : ℤ) :
    spNorm n N h ti = Real.sqrt (windowEnergy h n L N (ti - 1)) := by
  have hlh : ((h.len : ℤ) - 1) / 2 = L := by omega
  unfold spNorm windowEnergy
  rw [hlh, sp_seg]
  congr 1
  exact Finset.sum_congr rfl (fun τ hτ => by rw [sp_window hh hτ])

theorem windowEnergy_nonneg (h : Vec ℂ) (n L N : ℕ) (c : ℤ) : 0 ≤ windowEnergy h n L N c :=
  Finset.sum_nonneg (fun _ _ => by positivity)

/-- No segment in use has a window of zero energy (such a column would be `0/0`, i.e. NaN). -/
def WindowOk (h : Vec ℂ) (n L N : ℕ) (ts : Vec ℤ) : Prop :=
  ∀ m < ts.len, windowEnergy h n L N (ts.get m - 1) ≠ 0 ∨
    segLags (min (roundEven ((n : ℝ) / 2) - 1) L) N (ts.get m - 1) = ∅

/-- Condition under which the code does not divide by a zero window norm. -/
theorem spOk {n L : ℕ} {h : Vec ℂ} (hh : h.len = 2 * L + 1 ∨ h.len = 2 * L + 2) {N : ℕ} {ts : Vec ℤ}
    (hw : WindowOk h n L N ts) : ∀ c < ts.len, spNorm n N h (ts.get c) ≠ 0 ∨
      spHi n N (((h.len : ℤ) - 1) / 2) (ts.get c) < spLo n (((h.len : ℤ) - 1) / 2) (ts.get c) := by
  intro c hc
  have hlh : ((h.len : ℤ) - 1) / 2 = L := by omega
  rcases hw c hc with h1 | h1
  · left
    rw [spNorm_eq hh]
    exact (Real.sqrt_pos.2 (lt_of_le_of_ne (windowEnergy_nonneg _ _ _ _ _) (Ne.symm h1))).ne'
  · right
    rw [← sp_seg, Finset.Icc_eq_empty_iff, not_le] at h1
    rw [hlh]; exact h1

/-- Closed form of the spectrogram: times the energy of the part of the window in use, it is the squared modulus of the windowed
Fourier sum over the lags that fit in the signal and in `n` bins; a column whose segment is empty is zero. -/
theorem C31_closed_form (x : Vec ℂ) (ts : Vec ℤ) (n L : ℕ) (h : Vec ℂ) (hh : h.len = 2 * L + 1 ∨ h.len = 2 * L + 2)
    (hn : n ≠ 0) (hw : WindowOk h n L x.len ts) :
    ∃ M, SpectroReturns x ts n h M ∧ M.rows = n ∧ M.cols = ts.len ∧ ∀ k < n, ∀ m < ts.len,
      (segLags (min (roundEven ((n : ℝ) / 2) - 1) L) x.len (ts.get m - 1) = ∅ → M.get k m = 0) ∧
      M.get k m * windowEnergy h n L x.len (ts.get m - 1) = ‖∑ τ ∈ segLags (min (roundEven ((n : ℝ) / 2) - 1) L) x.len (ts.get m - 1),
          zext x (ts.get m - 1 + τ) * conj (h.get ((L : ℤ) + τ).toNat) * expi (-(2 * Real.pi * (k * τ / n)))‖ ^ 2 := by
  obtain ⟨M, h1, h2, h3, h4⟩ := spectroRun_fresh makeWindow x ts n h hn
    (spOk hh hw)
  refine ⟨M, ⟨_, h1, rfl⟩, h2, h3, fun k _ m hm => ?_⟩
  have hlh : ((h.len : ℤ) - 1) / 2 = L := by omega
  rw [h4 k m hm, dftC_lagCol hn (sp_count _ _ _ _), hlh, sp_seg, spNorm_eq hh]
  set W := windowEnergy h n L x.len (ts.get m - 1) with hW
  have hWpos : 0 ≤ W := windowEnergy_nonneg _ _ _ _ _
  have hsum : ∀ S : Finset ℤ, S = segLags (min (roundEven ((n : ℝ) / 2) - 1) L) x.len (ts.get m - 1) →
      ∑ t ∈ S, zext x (ts.get m + t - 1) * conj (zext h ((L : ℤ) + t)) / (Real.sqrt W : ℂ) * rootPow n (t * k)
      = (∑ τ ∈ S, zext x (ts.get m - 1 + τ) * conj (h.get ((L : ℤ) + τ).toNat)
          * expi (-(2 * Real.pi * (k * τ / n)))) / (Real.sqrt W : ℂ) := by
    intro S hS
    rw [Finset.sum_div]
    apply Finset.sum_congr rfl
    intro τ hτ
    rw [sp_window hh (hS ▸ hτ), rootPow_eq_expi, show ts.get m + τ - 1 = ts.get m - 1 + τ by ring,
      show 2 * Real.pi * ((τ * (k : ℤ) : ℤ) / n : ℝ) = 2 * Real.pi * (k * τ / n) by push_cast; ring]
    ring
  rw [hsum _ rfl, norm_div, div_pow, Complex.norm_real, Real.norm_of_nonneg (Real.sqrt_nonneg _), Real.sq_sqrt hWpos]
  refine ⟨fun he => by rw [he]; simp, ?_⟩
  rcases hw m hm with h5 | h5
  · rw [div_mul_cancel₀ _ h5]
  · rw [h5]; simp

/-- The mean over the bins of a spectrogram column is the average of `|x|²` over the segment, weighted by `|h|²`. -/
theorem C30_spectrogram_mean (x : Vec ℂ) (ts : Vec ℤ) (n L : ℕ) (h : Vec ℂ)
    (hh : h.len = 2 * L + 1 ∨ h.len = 2 * L + 2)
    (hn : n ≠ 0) (hw : WindowOk h n L x.len ts) :
    ∃ M, SpectroReturns x ts n h M ∧ M.rows = n ∧ M.cols = ts.len ∧ ∀ m < ts.len,
      windowEnergy h n L x.len (ts.get m - 1) ≠ 0 →
      (∑ k ∈ range n, M.get k m) / n
        = (∑ τ ∈ segLags (min (roundEven ((n : ℝ) / 2) - 1) L) x.len (ts.get m - 1),
            ‖x.get (ts.get m - 1 + τ).toNat‖ ^ 2 * ‖h.get ((L : ℤ) + τ).toNat‖ ^ 2)
          / ∑ τ ∈ segLags (min (roundEven ((n : ℝ) / 2) - 1) L) x.len (ts.get m - 1),
            ‖h.get ((L : ℤ) + τ).toNat‖ ^ 2 := by
  have hn' : (n : ℝ) ≠ 0 := Nat.cast_ne_zero.2 hn
  obtain ⟨M, h1, h2, h3, h4⟩ := spectroRun_fresh makeWindow x ts n h hn
    (spOk hh hw)
  refine ⟨M, ⟨_, h1, rfl⟩, h2, h3, fun m hm _ => ?_⟩
  have hlh : ((h.len : ℤ) - 1) / 2 = L := by omega
  simp only [h4 _ m hm]
  rw [parseval hn, norm_sq_lagCol hn (sp_count _ _ _ _), mul_div_cancel_left₀ _ hn', hlh, sp_seg, spNorm_eq hh,
    Finset.sum_div]
  apply Finset.sum_congr rfl
  intro τ hτ
  have hτ' := hτ
  unfold segLags at hτ'
  rw [Finset.mem_filter, Finset.mem_Icc] at hτ'
  rw [sp_window hh hτ, zext_of_mem (x := x) (by omega) (by omega), norm_div, div_pow, norm_mul, mul_pow,
    RCLike.norm_conj, Complex.norm_real, Real.norm_of_nonneg (Real.sqrt_nonneg _),
    Real.sq_sqrt (windowEnergy_nonneg _ _ _ _ _), show ts.get m + τ - 1 = ts.get m - 1 + τ by ring]
  rfl

/-- Hence it lies between any bounds on `|x|²`. -/
theorem C30_spectrogram_bounds (x : Vec ℂ) (ts : Vec ℤ) (n L : ℕ) (h : Vec ℂ)
    (hh : h.len = 2 * L + 1 ∨ h.len = 2 * L + 2)
    (hn : n ≠ 0) (hw : WindowOk h n L x.len ts) (a b : ℝ)
    (hx : ∀ i < x.len, a ≤ ‖x.get i‖ ^ 2 ∧ ‖x.get i‖ ^ 2 ≤ b) :
    ∃ M, SpectroReturns x ts n h M ∧ M.rows = n ∧ M.cols = ts.len ∧ ∀ m < ts.len,
      windowEnergy h n L x.len (ts.get m - 1) ≠ 0 →
      a ≤ (∑ k ∈ range n, M.get k m) / n ∧ (∑ k ∈ range n, M.get k m) / n ≤ b := by
  obtain ⟨M, h1, h2, h3, h4⟩ := C30_spectrogram_mean x ts n L h hh hn hw
  refine ⟨M, h1, h2, h3, fun m hm hE => ?_⟩
  have hpos : 0 < ∑ τ ∈ segLags (min (roundEven ((n : ℝ) / 2) - 1) L) x.len (ts.get m - 1),
      ‖h.get ((L : ℤ) + τ).toNat‖ ^ 2 :=
    lt_of_le_of_ne (windowEnergy_nonneg h n L x.len _) (Ne.symm hE)
  have hmem : ∀ τ ∈ segLags (min (roundEven ((n : ℝ) / 2) - 1) L) x.len (ts.get m - 1),
      (ts.get m - 1 + τ).toNat < x.len := by
    intro τ hτ
    unfold segLags at hτ
    rw [Finset.mem_filter] at hτ
    omega
  rw [h4 m hm hE, le_div_iff₀ hpos, div_le_iff₀ hpos, Finset.mul_sum, Finset.mul_sum]
  constructor
  · apply Finset.sum_le_sum
    intro τ hτ
    exact mul_le_mul_of_nonneg_right (hx _ (hmem τ hτ)).1 (by positivity)
  · apply Finset.sum_le_sum
    intro τ hτ
    exact mul_le_mul_of_nonneg_right (hx _ (hmem τ hτ)).2 (by positivity)

/-- Unit-modulus signals have mean 1 in every column. -/
theorem C30_spectrogram_unit (x : Vec ℂ) (ts : Vec ℤ) (n L : ℕ) (h : Vec ℂ)
    (hh : h.len = 2 * L + 1 ∨ h.len = 2 * L + 2)
    (hn : n ≠ 0) (hw : WindowOk h n L x.len ts)
    (hx : ∀ i < x.len, ‖x.get i‖ = 1) :
    ∃ M, SpectroReturns x ts n h M ∧ M.rows = n ∧ M.cols = ts.len ∧ ∀ m < ts.len,
      windowEnergy h n L x.len (ts.get m - 1) ≠ 0 → (∑ k ∈ range n, M.get k m) / n = 1 := by
  obtain ⟨M, h1, h2, h3, h4⟩ := C30_spectrogram_bounds x ts n L h hh hn hw 1 1
    (fun i hi => by rw [hx i hi]; norm_num)
  exact ⟨M, h1, h2, h3, fun m hm hE => le_antisymm (h4 m hm hE).2 (h4 m hm hE).1⟩

/-- The window condition always holds for the default window. -/
theorem C30_default_window (n : ℕ) (N : ℕ) (ts : Vec ℤ) :
    (makeWindow n).len = 2 * ((makeWindow n).len / 2) + 1 ∧
    WindowOk (makeWindow n) n ((makeWindow n).len / 2) N ts := by
  have hl : (makeWindow n).len = n / 4 + (1 - n / 4 % 2) := rfl
  refine ⟨by rw [hl]; omega, fun m _ => ?_⟩
  rcases Finset.eq_empty_or_nonempty (segLags (min (roundEven ((n : ℝ) / 2) - 1) ((makeWindow n).len / 2 : ℕ)) N
    (ts.get m - 1)) with h | h
  · exact Or.inr h
  left
  apply ne_of_gt
  unfold windowEnergy
  apply Finset.sum_pos _ h
  intro τ _
  have hpos : ∀ M k : ℕ, 0 < (hamming M).get k := by
    intro M k
    simp only [hamming]
    split
    · norm_num
    · have := Real.cos_le_one (2 * Real.pi * k / (M - 1))
      norm_num; linarith
  have : ∀ i, 0 < ‖(makeWindow n).get i‖ := by
    intro i
    show 0 < ‖(((hamming _).get _ : ℝ) : ℂ)‖
    rw [Complex.norm_real, Real.norm_of_nonneg (hpos _ _).le]
    exact hpos _ _
  have := this (((makeWindow n).len / 2 : ℕ) + τ : ℤ).toNat
  positivity

/-- A concrete instance: 16 unit samples, default timestamps, 16 bins, default window. -/
example : ∃ M, SpectroReturns ⟨16, fun _ => 1⟩ (arange 0 16) 16 (makeWindow 16) M ∧ M.rows = 16 ∧
    M.cols = (arange 0 16).len ∧ ∀ m < (arange 0 16).len,
      windowEnergy (makeWindow 16) 16 ((makeWindow 16).len / 2) 16 ((arange 0 16).get m - 1) ≠ 0 →
        (∑ k ∈ range 16, M.get k m) / (16 : ℕ) = 1 :=
  C30_spectrogram_unit ⟨16, fun _ => 1⟩ (arange 0 16) 16 _ (makeWindow 16) (Or.inl (C30_default_window 16 16 (arange 0 16)).1)
    (by norm_num) (C30_default_window 16 16 (arange 0 16)).2 (fun _ _ => by simp)

/-! ## C31 spectrogram -/

/-- Whatever it returns, the spectrogram of an object (fresh or not) is real and non-negative. -/
theorem C31_nonneg (o o' : TFR ℤ) (ho : spectroRun o = .ok o') :
    ∃ M : Mat ℝ, o'.tfr = .real M ∧ ∀ k m, 0 ≤ M.get k m := by
  unfold spectroRun at ho
  cases e1 : o.tfr.forCols o.tfr.asC.cols (spectroCol o) with
  | error e => rw [e1] at ho; cases ho
  | ok S =>
    rw [e1, ok_bind] at ho
    cases e2 : S.asC.fft0 with
    | error e => rw [e2] at ho; cases ho
    | ok F =>
      rw [e2, ok_bind] at ho
      injection ho with ho
      subst ho
      refine ⟨_, rfl, fun k m => ?_⟩
      show 0 ≤ ‖_‖ ^ 2
      positivity

/-- Scaling the signal by `a` scales the spectrogram by `|a|²`. -/
theorem C31_quadratic (x : Vec ℂ) (ts : Vec ℤ) (n L : ℕ) (h : Vec ℂ)
    (hh : h.len = 2 * L + 1 ∨ h.len = 2 * L + 2)
    (hn : n ≠ 0) (hw : WindowOk h n L x.len ts) (a : ℂ) :
    ∃ X Y, SpectroReturns x ts n h X ∧ SpectroReturns (x.map (a * ·)) ts n h Y ∧
      ∀ k < n, ∀ m < ts.len, Y.get k m = ‖a‖ ^ 2 * X.get k m := by
  obtain ⟨X, x1, x2, x3, x4⟩ := spectroRun_fresh makeWindow x ts n h hn (spOk hh hw)
  obtain ⟨Y, y1, y2, y3, y4⟩ := spectroRun_fresh makeWindow (x.map (a * ·)) ts n h hn (spOk hh hw)
  refine ⟨X, Y, ⟨_, x1, rfl⟩, ⟨_, y1, rfl⟩, fun k _ m hm => ?_⟩
  rw [x4 _ m hm, y4 k m hm, ← mul_pow, ← norm_mul, ← dftC_smul]
  congr 2
  apply dftC_congr
  intro p _
  have h0 := lagCol_smul (n := n) (a := spLo n (((h.len : ℤ) - 1) / 2) (ts.get m))
    (b := spHi n x.len (((h.len : ℤ) - 1) / 2) (ts.get m))
    (fun t => zext x (ts.get m + t - 1) * conj (zext h (((h.len : ℤ) - 1) / 2 + t))
            / (spNorm n x.len h (ts.get m) : ℂ)) a p
  rw [← h0]
  show lagCol n _ (spHi n x.len _ _) _ p = _
  refine congrFun (lagCol_congr ?_) p
  intro t _ _
  have : zext (x.map (a * ·)) (ts.get m + t - 1) = a * zext x (ts.get m + t - 1) := by
    unfold zext
    simp only [Vec.map_len, Vec.map_get]
    split
    · rfl
    · simp
  show zext (x.map (a * ·)) (ts.get m + t - 1) * _ / (spNorm n x.len h (ts.get m) : ℂ) = _
  rw [this]; ring

/-- Modulating the signal by `m` bins rolls the rows of the spectrogram by `m`. -/
theorem C31_modulation (x : Vec ℂ) (ts : Vec ℤ) (n L : ℕ) (h : Vec ℂ)
    (hh : h.len = 2 * L + 1 ∨ h.len = 2 * L + 2)
    (hn : n ≠ 0) (hw : WindowOk h n L x.len ts) (q : ℤ) :
    ∃ X Y, SpectroReturns x ts n h X ∧ SpectroReturns (modulateBins q n x) ts n h Y ∧
      ∀ k < n, ∀ m < ts.len, Y.get k m = X.get (rollRow n q k) m := by
  obtain ⟨X, x1, x2, x3, x4⟩ := spectroRun_fresh makeWindow x ts n h hn
    (spOk hh hw)
  obtain ⟨Y, y1, y2, y3, y4⟩ := spectroRun_fresh makeWindow (modulateBins q n x) ts n h hn
    (spOk hh hw)
  refine ⟨X, Y, ⟨_, x1, rfl⟩, ⟨_, y1, rfl⟩, fun k _ m hm => ?_⟩
  rw [x4 _ m hm, y4 k m hm]
  have : ∀ z w : ℂ, (∃ φ : ℂ, ‖φ‖ = 1 ∧ z = φ * w) → ‖z‖ ^ 2 = ‖w‖ ^ 2 := by
    rintro z w ⟨φ, h1, rfl⟩; rw [norm_mul, h1, one_mul]
  apply this
  refine ⟨rootPow n (-(q * (ts.get m - 1))), norm_rootPow _ _, ?_⟩
  rw [← dftC_rollRow hn, ← dftC_modulate]
  apply dftC_congr
  intro p _
  rw [← lagCol_modulate hn]
  show lagCol n _ (spHi n x.len _ _) _ p = _
  refine congrFun (lagCol_congr ?_) p
  intro t _ _
  show zext (modulateBins q n x) (ts.get m + t - 1) * _ / (spNorm n x.len h (ts.get m) : ℂ) = _
  rw [zext_modulate, show (-(q * (ts.get m + t - 1))) = -(q * (ts.get m - 1)) + -(q * t) by ring, rootPow_add]
  ring

end Tftb.Props
