import Verif.Props.WvdInverse
import Verif.Props.WvdMoments
import Verif.Props.StftInverse
import Verif.Props.Cohen

/-! # Products of signals, and spectrograms and pseudo distributions as smoothed Wigner-Ville distributions (C119) -/

namespace Tftb.Props

open Tftb Tftb.Spec Tftb.Linear Tftb.Cohen Finset ComplexConjugate

/-! ## Lag sums of products -/

theorem lagSum_periodic {R : ℤ} {n : ℕ} (hn : n ≠ 0) (v : ℤ → ℂ) {k l : ℤ} (h : (n : ℤ) ∣ k - l) : lagSum R n v k = lagSum R n v l := by
  rw [lagSum_eq, lagSum_eq]
  refine Finset.sum_congr rfl fun τ _ => ?_
  rw [rootPow_congr hn (by rw [← mul_sub]; exact h.mul_left τ)]

/-- The lag sum of a product is the circular convolution of the lag sums. -/
theorem lagSum_conv {R : ℤ} {n : ℕ} (hn : n ≠ 0) (hRn : 2 * R + 1 ≤ n) (v w : ℤ → ℂ) (k : ℤ) :
    ∑ l ∈ range n, lagSum R n v l * lagSum R n w (k - l) = n * lagSum R n (fun τ => v τ * w τ) k := by
  have h : ∀ l ∈ range n, lagSum R n v l * lagSum R n w (k - l)
      = ∑ σ ∈ Finset.Icc (-R) R, lagSum R n v l * rootPow n (-(σ * (l : ℤ))) * (w σ * rootPow n (σ * k)) := by
    intro l _
    rw [lagSum_eq R n w, Finset.mul_sum]
    refine Finset.sum_congr rfl fun σ _ => ?_
    rw [show σ * (k - (l : ℤ)) = σ * k + -(σ * l) by ring, rootPow_add]
    ring
  rw [Finset.sum_congr rfl h, Finset.sum_comm, lagSum_eq, Finset.mul_sum]
  refine Finset.sum_congr rfl fun σ hσ => ?_
  rw [Finset.mem_Icc] at hσ
  rw [← Finset.sum_mul, lagSum_inv hn hRn v hσ.1 hσ.2]
  ring

/-- Row `k - l` modulo `n`. -/
theorem lagSum_row {R : ℤ} {n : ℕ} (hn : n ≠ 0) (v : ℤ → ℂ) (k l : ℕ) (hl : l < n) :
    lagSum R n v (((k + n - l) % n : ℕ) : ℤ) = lagSum R n v ((k : ℤ) - l) := by
  apply lagSum_periodic hn
  rw [Int.natCast_mod]
  have h1 := Int.emod_add_mul_ediv (((k + n - l : ℕ) : ℤ)) (n : ℤ)
  exact ⟨1 - (((k + n - l : ℕ) : ℤ)) / (n : ℤ), by
    have h2 : ((k + n - l : ℕ) : ℤ) = (k : ℤ) + n - l := by omega
    rw [h2] at h1 ⊢
    linarith⟩

/-! ## The statements -/

/-- **Products.**  Column by column the Wigner-Ville distribution of a product is the circular convolution over frequency, divided by the number of bins, of those of the factors. -/
theorem C119_product {τ : Type} (x g : Vec ℂ) (ts : Vec τ) (n : ℕ) (hn : 2 ≤ n) (hlen : g.len = x.len) (Mx Mg : Mat ℝ) (hx : WvdReturns x ts n Mx)
    (hg : WvdReturns g ts n Mg) : ∃ M, WvdReturns ⟨x.len, fun i => x.get i * g.get i⟩ ts n M ∧ ∀ k < n, ∀ t < x.len,
      M.get k t = 1 / n * ∑ l ∈ range n, Mx.get l t * Mg.get ((k + n - l) % n) t := by
  have hn0 : n ≠ 0 := by omega
  have hnC : (n : ℂ) ≠ 0 := by exact_mod_cast hn0
  obtain ⟨-, hR, h4⟩ := wvd_sizes hn hx
  obtain ⟨-, -, h4'⟩ := wvd_sizes hn hg
  obtain ⟨M, hM⟩ := (C32_returns_iff (⟨x.len, fun i => x.get i * g.get i⟩ : Vec ℂ) ts n hn0).2 ((C32_returns_iff x ts n hn0).1 ⟨Mx, hx⟩)
  obtain ⟨-, -, h4''⟩ := wvd_sizes hn hM
  refine ⟨M, hM, fun k hk t ht => ?_⟩
  have hC : (M.get k t : ℂ) = ((1 / n * ∑ l ∈ range n, Mx.get l t * Mg.get ((k + n - l) % n) t : ℝ) : ℂ) := by
    rw [h4'' k hk t ht]
    push_cast
    have hker : wignerKernel ⟨x.len, fun i => x.get i * g.get i⟩ t = fun τ => wignerKernel x t τ * wignerKernel g t τ := by
      funext τ
      unfold wignerKernel
      have hz : ∀ i : ℤ, zext ⟨x.len, fun i => x.get i * g.get i⟩ i = zext x i * zext g i := by
        intro i
        unfold zext
        rw [hlen]
        by_cases hi : 0 ≤ i ∧ i < (x.len : ℤ)
        · simp only [if_pos hi]
        · simp only [if_neg hi, mul_zero]
      rw [hz, hz, map_mul]
      ring
    rw [hker]
    have hconv := lagSum_conv hn0 hR (wignerKernel x t) (wignerKernel g t) k
    rw [eq_comm, one_div, inv_mul_eq_iff_eq_mul₀ hnC, ← hconv]
    refine Finset.sum_congr rfl fun l hl => ?_
    have hl' := Finset.mem_range.1 hl
    rw [h4 l hl' t ht, h4' _ (Nat.mod_lt _ (by omega)) t (by omega), lagSum_row hn0 _ k l hl']
  exact_mod_cast hC

/-- **Pseudo Wigner-Ville** is the Wigner-Ville distribution smoothed along frequency by the (real part of the) transform of the window. -/
theorem C119_pseudo {τ : Type} (x : Vec ℂ) (ts : Vec τ) (n : ℕ) (hn : 2 ≤ n) (h : Vec ℂ) (L : ℕ) (hh : h.len = 2 * L + 1)
    (hL : (L : ℤ) < roundEven ((n : ℝ) / 2)) (W P : Mat ℝ) (hW : WvdReturns x ts n W) (hP : PwvdReturns x ts n (some h) P) : ∀ k < n, ∀ t < x.len,
      P.get k t = 1 / n * ∑ l ∈ range n, W.get l t * (∑ σ ∈ Finset.Icc (-(L : ℤ)) L, h.get (L + σ).toNat * expi (-(2 * Real.pi * (((k : ℝ) - l) * σ / n)))).re := by
  have hn0 : n ≠ 0 := by omega
  have hnC : (n : ℂ) ≠ 0 := by exact_mod_cast hn0
  obtain ⟨-, hR, h4⟩ := wvd_sizes hn hW
  have hts := ((C32_returns_iff x ts n hn0).1 ⟨W, hW⟩).1
  obtain ⟨P', h1, -, -, h5⟩ := C36_pwvd x ts n h L hh hL
  obtain rfl := pwvd_unique hP h1
  intro k hk t ht
  rw [h5 k hk t (by omega)]
  set R := roundEven ((n : ℝ) / 2) - 1 with hRdef
  set w : ℤ → ℂ := fun σ => if -(L : ℤ) ≤ σ ∧ σ ≤ L then h.get ((L : ℤ) + σ).toNat else 0 with hw
  have hext : ∀ (v : ℤ → ℂ) (j : ℤ), lagSum R n (fun σ => w σ * v σ) j = lagSum L n (fun σ => h.get ((L : ℤ) + σ).toNat * v σ) j := by
    intro v j
    unfold lagSum
    symm
    refine Finset.sum_subset_zero_on_sdiff (Finset.Icc_subset_Icc (by omega) (by omega)) (fun σ hσ => ?_) (fun σ hσ => ?_)
    · rw [Finset.mem_sdiff, Finset.mem_Icc, Finset.mem_Icc] at hσ
      rw [hw]
      dsimp only
      rw [if_neg (by omega)]
      simp
    · rw [Finset.mem_Icc] at hσ
      rw [hw]
      dsimp only
      rw [if_pos hσ]
  rw [← hext]
  have hconv := lagSum_conv hn0 hR (wignerKernel x t) w k
  have hswap : lagSum R n (fun σ => w σ * wignerKernel x t σ) k = (1 / n : ℝ) * ∑ l ∈ range n, (W.get l t : ℂ) * lagSum R n w ((k : ℤ) - l) := by
    push_cast
    rw [eq_comm, one_div, inv_mul_eq_iff_eq_mul₀ hnC]
    rw [show (fun σ => w σ * wignerKernel x t σ) = fun σ => wignerKernel x t σ * w σ by funext σ; ring, ← hconv]
    exact Finset.sum_congr rfl fun l hl => by rw [h4 l (Finset.mem_range.1 hl) t ht]
  rw [hswap, Complex.re_ofReal_mul, Complex.re_sum]
  congr 1
  refine Finset.sum_congr rfl fun l _ => ?_
  rw [Complex.re_ofReal_mul]
  congr 2
  have := hext (fun _ => 1) ((k : ℤ) - l)
  simp only [mul_one] at this
  rw [this]
  unfold lagSum
  exact Finset.sum_congr rfl fun σ _ => by push_cast; rfl

/-- The window, conjugated, laid on sample `c` of a signal of `N` samples. -/
noncomputable def placed (N : ℕ) (h : Vec ℂ) (L : ℕ) (c : ℤ) : Vec ℂ :=
  ⟨N, fun s => if c - L ≤ s ∧ (s : ℤ) ≤ c + L then conj (h.get (L + s - c).toNat) else 0⟩

/-- A column of the short-time Fourier transform is the spectrum of the signal multiplied by the placed window, up to a phase. -/
theorem windowedDft_placed (x h : Vec ℂ) (L N : ℕ) (c : ℤ) (k : ℕ) :
    windowedDft x h L N c k = expi (2 * Real.pi * (k * c / N)) * dtft ⟨x.len, fun i => x.get i * (placed x.len h L c).get i⟩ ((k : ℝ) / N) := by
  unfold windowedDft dtft
  rw [Finset.mul_sum]
  refine Finset.sum_bij_ne_zero (fun σ _ _ => (c + σ).toNat) ?_ ?_ ?_ ?_
  · intro σ hσ h0
    have : 0 ≤ c + σ ∧ c + σ < (x.len : ℤ) := by
      by_contra hc
      apply h0
      unfold zext
      rw [if_neg hc]
      simp
    rw [Finset.mem_range]
    show (c + σ).toNat < x.len
    omega
  · intro σ hσ h0 σ' hσ' h0' he
    have hz : ∀ σ : ℤ, zext x (c + σ) * conj (h.get (L + σ).toNat) * expi (-(2 * Real.pi * (k * σ / N))) ≠ 0 → 0 ≤ c + σ := by
      intro σ h0
      by_contra hc
      apply h0
      unfold zext
      rw [if_neg (by omega)]
      simp
    have := hz σ h0
    have := hz σ' h0'
    omega
  · intro s hs h0
    have hs' : s < x.len := Finset.mem_range.1 hs
    have hw : c - L ≤ s ∧ (s : ℤ) ≤ c + L := by
      by_contra hc
      apply h0
      unfold placed
      dsimp only
      rw [if_neg hc]
      simp
    have hx0 : x.get s * conj (h.get (L + s - c).toNat) ≠ 0 := by
      intro hc
      apply h0
      unfold placed
      dsimp only
      rw [if_pos hw, hc]
      simp
    refine ⟨(s : ℤ) - c, Finset.mem_Icc.2 (by omega), ?_, by show (c + ((s : ℤ) - c)).toNat = s; omega⟩
    refine mul_ne_zero ?_ (expi_ne_zero _)
    rw [show c + ((s : ℤ) - c) = s by ring, zext_of_mem (by omega) (by omega), show (L : ℤ) + ((s : ℤ) - c) = L + s - c by ring]
    exact hx0
  · intro σ hσ h0
    rw [Finset.mem_Icc] at hσ
    have hc : 0 ≤ c + σ ∧ c + σ < (x.len : ℤ) := by
      by_contra hc
      apply h0
      unfold zext
      rw [if_neg hc]
      simp
    have hcast : (((c + σ).toNat : ℕ) : ℤ) = c + σ := Int.toNat_of_nonneg hc.1
    unfold placed
    dsimp only
    rw [hcast, if_pos (by omega), zext_of_mem hc.1 hc.2, show (L : ℤ) + (c + σ) - c = L + σ by ring]
    have hcR : (((c + σ).toNat : ℕ) : ℝ) = (c : ℝ) + σ := by exact_mod_cast congrArg (Int.cast : ℤ → ℝ) hcast
    rw [hcR]
    have e : expi (-(2 * Real.pi * (k * σ / N))) = expi (2 * Real.pi * (k * c / N)) * expi (-(2 * Real.pi * ((k : ℝ) / N) * ((c : ℝ) + σ))) := by
      rw [← expi_add]; congr 1; ring
    rw [e]
    ring

/-- **Spectrograms.**  The mean of the squared moduli of the short-time Fourier transform with `2n` bins in the rows `k` and `k + n` is the Wigner-Ville distribution of the signal
smoothed by that of the (conjugated) window laid on the sample of the column. -/
theorem C119_spectrogram {τ : Type} (x : Vec ℂ) (ts : Vec τ) (n : ℕ) (hn : 2 ≤ n) (L : ℕ) (h : Vec ℂ) (hh : h.len = 2 * L + 1 ∨ h.len = 2 * L + 2) (hL : L < n)
    (F : Mat ℂ) (W : Mat ℝ) (hF : stftOf x ts (2 * n) (some h) = .ok F) (hW : WvdReturns x ts n W) (m : ℕ) (hm : m < ts.len) :
    ∃ G, WvdReturns (placed x.len h L ((m : ℤ) - 1)) ts n G ∧ ∀ k < n,
      (‖F.get k m‖ ^ 2 + ‖F.get (k + n) m‖ ^ 2) / 2 = 1 / n * ∑ s ∈ range x.len, ∑ l ∈ range n, W.get l s * G.get ((k + n - l) % n) s := by
  have hn0 : n ≠ 0 := by omega
  have hnR : (n : ℝ) ≠ 0 := by exact_mod_cast hn0
  obtain ⟨G, hG⟩ := (C32_returns_iff (placed x.len h L ((m : ℤ) - 1)) ts n hn0).2 ((C32_returns_iff x ts n hn0).1 ⟨W, hW⟩)
  refine ⟨G, hG, fun k hk => ?_⟩
  obtain ⟨M, hM, hMe⟩ := C119_product x (placed x.len h L ((m : ℤ) - 1)) ts n hn rfl W G hW hG
  obtain ⟨F', e1, -, -, e4⟩ := C27_stft x ts (2 * n) L h hh (by omega)
  rw [hF] at e1
  injection e1 with e1
  subst e1
  have hmarg := C84_freq_marginal _ ts n hn M hM k hk
  change ∑ t ∈ range x.len, M.get k t = _ at hmarg
  rw [Finset.mul_sum, ← Finset.sum_congr rfl (fun s hs => hMe k hk s (Finset.mem_range.1 hs)), hmarg, e4 k (by omega) m hm, e4 (k + n) (by omega) m hm,
    windowedDft_placed, windowedDft_placed, norm_mul, norm_mul, norm_expi, norm_expi, one_mul, one_mul]
  have f1 : (k : ℝ) / ((2 * n : ℕ) : ℝ) = (k : ℝ) / (2 * n) := by push_cast; rfl
  have f2 : ((k + n : ℕ) : ℝ) / ((2 * n : ℕ) : ℝ) = (k : ℝ) / (2 * n) + 1 / 2 := by push_cast; field_simp
  rw [f1, f2]

/-! ## Examples -/

theorem wvd_returns_three (x : Vec ℂ) (hx : x.len = 3) : ∃ M, WvdReturns x (arange 0 (3 : ℕ)) 4 M :=
  (C32_returns_iff x (arange 0 (3 : ℕ)) 4 (by norm_num)).2 ⟨by rw [hx, arange_len]; simp, .inl (by
    rw [hx, show ((4 : ℕ) : ℝ) / 2 = ((2 : ℤ) : ℝ) by norm_num, roundEven_intCast]; norm_num)⟩

/-- The constant of three samples, multiplied by the tone `1, i, -1`: its distribution in the middle column, row 2, is 3, and is found by convolution. -/
example : ∃ Mx Mg M, WvdReturns ⟨3, fun _ => 1⟩ (arange 0 (3 : ℕ)) 4 Mx ∧ WvdReturns ⟨3, fun t => Complex.I ^ t⟩ (arange 0 (3 : ℕ)) 4 Mg ∧
    WvdReturns ⟨3, fun t => 1 * Complex.I ^ t⟩ (arange 0 (3 : ℕ)) 4 M ∧ M.get 2 1 = 3 ∧
    M.get 2 1 = 1 / 4 * (Mx.get 0 1 * Mg.get 2 1 + Mx.get 1 1 * Mg.get 1 1 + Mx.get 2 1 * Mg.get 0 1 + Mx.get 3 1 * Mg.get 3 1) := by
  obtain ⟨Mx, hx⟩ := wvd_returns_three ⟨3, fun _ => 1⟩ rfl
  obtain ⟨Mg, hg⟩ := wvd_returns_three ⟨3, fun t => Complex.I ^ t⟩ rfl
  obtain ⟨M, hM, h⟩ := C119_product ⟨3, fun _ => 1⟩ ⟨3, fun t => Complex.I ^ t⟩ (arange 0 (3 : ℕ)) 4 (by norm_num) rfl Mx Mg hx hg
  refine ⟨Mx, Mg, M, hx, hg, hM, ?_, ?_⟩
  · obtain ⟨-, -, h4⟩ := wvd_sizes (by norm_num) hM
    have := h4 2 (by norm_num) 1 (by norm_num)
    rw [show ((4 : ℕ) : ℝ) / 2 = ((2 : ℤ) : ℝ) by norm_num, roundEven_intCast, lagSum_eq] at this
    rw [show Finset.Icc (-(2 - 1) : ℤ) (2 - 1) = {-1, 0, 1} by rfl] at this
    rw [Finset.sum_insert (by norm_num), Finset.sum_insert (by norm_num), Finset.sum_singleton] at this
    have e1 : rootPow 4 (-1 * ((2 : ℕ) : ℤ)) = -1 := by
      rw [rootPow_eq_exp]
      rw [← Complex.exp_pi_mul_I]
      congr 1
      push_cast
      ring
    have e2 : rootPow 4 (1 * ((2 : ℕ) : ℤ)) = -1 := by
      rw [show (1 * ((2 : ℕ) : ℤ)) = -(-1 * ((2 : ℕ) : ℤ)) by norm_num, rootPow_neg, e1]
      norm_num
    rw [e1, e2] at this
    have h3 : (M.get 2 1 : ℂ) = ((3 : ℝ) : ℂ) := by
      rw [this]
      norm_num [wignerKernel, zext, Complex.I_sq]
      rw [show Int.toNat 2 = 2 from rfl, neg_sq, Complex.I_sq]
      norm_num
    exact_mod_cast h3
  · rw [h 2 (by norm_num) 1 (by norm_num)]
    simp [Finset.sum_range_succ]

/-- Three samples and a window of three: the hypotheses can be met. -/
example (x h : Vec ℂ) (hx : x.len = 3) (hh : h.len = 3) : ∃ F W G, stftOf x (arange 0 (3 : ℕ)) 8 (some h) = .ok F ∧ WvdReturns x (arange 0 (3 : ℕ)) 4 W ∧
    WvdReturns (placed 3 h 1 1) (arange 0 (3 : ℕ)) 4 G ∧
    (‖F.get 0 2‖ ^ 2 + ‖F.get 4 2‖ ^ 2) / 2 = 1 / 4 * ∑ s ∈ range 3, ∑ l ∈ range 4, W.get l s * G.get ((4 - l) % 4) s := by
  obtain ⟨W, hW⟩ := wvd_returns_three x hx
  obtain ⟨F, hF, -⟩ := C27_stft x (arange 0 (3 : ℕ)) 8 1 h (.inl (by omega)) (by norm_num)
  obtain ⟨G, hG, h1⟩ := C119_spectrogram x (arange 0 (3 : ℕ)) 4 (by norm_num) 1 h (.inl (by omega)) (by norm_num) F W hF hW 2 (by rw [arange_len]; norm_num)
  have := h1 0 (by norm_num)
  rw [hx] at this hG
  refine ⟨F, W, G, hF, hW, by simpa using hG, ?_⟩
  simpa using this

end Tftb.Props
