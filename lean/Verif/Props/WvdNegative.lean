import Verif.Props.WvdInverse
import Verif.Props.Renyi

/-! # C139 — where the Wigner-Ville distribution is negative -/

namespace Tftb.Props

open Tftb Tftb.Spec Tftb.Linear Tftb.Cohen Tftb.Post Finset ComplexConjugate

/-! ## Non-negative weights on the unit circle -/

theorem norm_weights_le (n : ℕ) (w : ℕ → ℝ) (z : ℕ → ℂ) (hw : ∀ k < n, 0 ≤ w k) (hz : ∀ k, ‖z k‖ = 1) : ‖∑ k ∈ range n, (w k : ℂ) * z k‖ ≤ ∑ k ∈ range n, w k := by
  refine (norm_sum_le _ _).trans (Finset.sum_le_sum fun k hk => ?_)
  rw [norm_mul, hz, mul_one, Complex.norm_real, Real.norm_of_nonneg (hw k (Finset.mem_range.1 hk))]

/-- A unit number that turns `c` to the positive axis. -/
theorem turn (c : ℂ) : ∃ u : ℂ, ‖u‖ = 1 ∧ u * c = (‖c‖ : ℂ) := by
  by_cases h : c = 0
  · exact ⟨1, by simp, by simp [h]⟩
  · have hc : (‖c‖ : ℂ) ≠ 0 := by exact_mod_cast norm_ne_zero_iff.2 h
    refine ⟨conj c / ‖c‖, ?_, ?_⟩
    · rw [norm_div, RCLike.norm_conj, Complex.norm_real, norm_norm, div_self (norm_ne_zero_iff.2 h)]
    · rw [div_mul_eq_mul_div, mul_comm (conj c), Complex.mul_conj, Complex.normSq_eq_norm_sq]
      push_cast
      field_simp

theorem unit_re_one {z : ℂ} (hz : ‖z‖ = 1) (h : z.re = 1) : z = 1 := by
  have h1 : z.re ^ 2 + z.im ^ 2 = 1 := by
    rw [← Complex.sq_norm_sub_sq_re z, hz]; ring
  have h2 : z.im = 0 := by
    have : z.im ^ 2 = 0 := by rw [h] at h1; linarith
    exact pow_eq_zero_iff (two_ne_zero) |>.1 this
  exact Complex.ext (by simpa using h) (by simpa using h2)

/-- If the first moment has the size of the sum of the weights, so do all. -/
theorem norm_weights_eq (n : ℕ) (w : ℕ → ℝ) (z : ℕ → ℂ) (hw : ∀ k < n, 0 ≤ w k) (hz : ∀ k, ‖z k‖ = 1)
    (h : ‖∑ k ∈ range n, (w k : ℂ) * z k‖ = ∑ k ∈ range n, w k) (m : ℕ) : ‖∑ k ∈ range n, (w k : ℂ) * z k ^ m‖ = ∑ k ∈ range n, w k := by
  obtain ⟨u, hu, huc⟩ := turn (∑ k ∈ range n, (w k : ℂ) * z k)
  have hre : ∑ k ∈ range n, w k * (u * z k).re = ∑ k ∈ range n, w k := by
    rw [← h]
    have := congrArg Complex.re huc
    rw [Complex.ofReal_re, Finset.mul_sum, Complex.re_sum] at this
    rw [← this]
    refine Finset.sum_congr rfl fun k _ => ?_
    rw [mul_left_comm, Complex.re_ofReal_mul]
  have huz : ∀ k, ‖u * z k‖ = 1 := fun k => by rw [norm_mul, hu, hz, mul_one]
  have h0 : ∀ k ∈ range n, 0 ≤ w k * (1 - (u * z k).re) := fun k hk =>
    mul_nonneg (hw k (Finset.mem_range.1 hk)) (by have := Complex.re_le_norm (u * z k); rw [huz] at this; linarith)
  have hs : ∑ k ∈ range n, w k * (1 - (u * z k).re) = 0 := by
    simp only [mul_sub, mul_one, Finset.sum_sub_distrib]
    linarith
  have hu0 : u ≠ 0 := by intro h; rw [h] at hu; simp at hu
  have hk : ∀ k ∈ range n, (w k : ℂ) * z k ^ m = (w k : ℂ) * (u⁻¹) ^ m := by
    intro k hk
    rcases mul_eq_zero.1 ((Finset.sum_eq_zero_iff_of_nonneg h0).1 hs k hk) with h1 | h1
    · rw [h1]; simp
    · have := unit_re_one (huz k) (by linarith)
      rw [eq_inv_of_mul_eq_one_right this]
  rw [Finset.sum_congr rfl hk, ← Finset.sum_mul, norm_mul, norm_pow, norm_inv, hu, inv_one, one_pow, mul_one, ← Complex.ofReal_sum, Complex.norm_real,
    Real.norm_of_nonneg (Finset.sum_nonneg fun k hk => hw k (Finset.mem_range.1 hk))]

/-- First and second moments. -/
theorem norm_weights_sq (n : ℕ) (w : ℕ → ℝ) (z : ℕ → ℂ) (hw : ∀ k < n, 0 ≤ w k) (hz : ∀ k, ‖z k‖ = 1) :
    2 * ‖∑ k ∈ range n, (w k : ℂ) * z k‖ ^ 2 ≤ (∑ k ∈ range n, w k) * (∑ k ∈ range n, w k + ‖∑ k ∈ range n, (w k : ℂ) * z k ^ 2‖) := by
  obtain ⟨u, hu, huc⟩ := turn (∑ k ∈ range n, (w k : ℂ) * z k)
  have hre : ∑ k ∈ range n, w k * (u * z k).re = ‖∑ k ∈ range n, (w k : ℂ) * z k‖ := by
    have := congrArg Complex.re huc
    rw [Complex.ofReal_re, Finset.mul_sum, Complex.re_sum] at this
    rw [← this]
    refine Finset.sum_congr rfl fun k _ => ?_
    rw [mul_left_comm, Complex.re_ofReal_mul]
  have huz : ∀ k, ‖u * z k‖ = 1 := fun k => by rw [norm_mul, hu, hz, mul_one]
  have hsq : ∑ k ∈ range n, w k * (u * z k).re ^ 2 ≤ (∑ k ∈ range n, w k + ‖∑ k ∈ range n, (w k : ℂ) * z k ^ 2‖) / 2 := by
    have h1 : ∀ k ∈ range n, w k * (u * z k).re ^ 2 = (w k + (u ^ 2 * ((w k : ℂ) * z k ^ 2)).re) / 2 := by
      intro k _
      have e : u ^ 2 * ((w k : ℂ) * z k ^ 2) = (w k : ℂ) * (u * z k) ^ 2 := by ring
      have h2 := Complex.sq_norm_sub_sq_re (u * z k)
      rw [huz] at h2
      rw [e, Complex.re_ofReal_mul]
      generalize u * z k = y at h2
      rw [pow_two y, Complex.mul_re]
      have : y.im * y.im = 1 - y.re ^ 2 := by nlinarith
      rw [this]
      ring
    rw [Finset.sum_congr rfl h1, ← Finset.sum_div, Finset.sum_add_distrib, ← Complex.re_sum, ← Finset.mul_sum]
    have := Complex.re_le_norm (u ^ 2 * ∑ k ∈ range n, (w k : ℂ) * z k ^ 2)
    rw [norm_mul, norm_pow, hu, one_pow, one_mul] at this
    linarith
  have hcs : (∑ k ∈ range n, w k * (u * z k).re) ^ 2 ≤ (∑ k ∈ range n, w k) * ∑ k ∈ range n, w k * (u * z k).re ^ 2 := by
    have := Finset.sum_sq_le_sum_mul_sum_of_sq_le_mul (range n) (r := fun k => w k * (u * z k).re) (f := w) (g := fun k => w k * (u * z k).re ^ 2)
      (fun k hk => hw k (Finset.mem_range.1 hk)) (fun k hk => mul_nonneg (hw k (Finset.mem_range.1 hk)) (sq_nonneg _)) (fun k _ => le_of_eq (by ring))
    exact this
  rw [hre] at hcs
  have h0 : 0 ≤ ∑ k ∈ range n, w k := Finset.sum_nonneg fun k hk => hw k (Finset.mem_range.1 hk)
  nlinarith [mul_le_mul_of_nonneg_left hsq h0]

/-! ## Moments of a column -/

/-- A lag that is not among those summed, not even up to multiples of the number of bins. -/
theorem lagSum_outside {R : ℤ} {n : ℕ} (hn : n ≠ 0) (v : ℤ → ℂ) {σ : ℤ} (h : ∀ τ, -R ≤ τ → τ ≤ R → ¬ (n : ℤ) ∣ τ - σ) :
    ∑ k ∈ range n, lagSum R n v k * rootPow n (-(σ * k)) = 0 := by
  simp only [lagSum_eq, Finset.sum_mul]
  rw [Finset.sum_comm]
  refine Finset.sum_eq_zero fun τ hτ => ?_
  rw [Finset.mem_Icc] at hτ
  have : ∀ k ∈ range n, v τ * rootPow n (τ * (k : ℤ)) * rootPow n (-(σ * (k : ℤ))) = v τ * rootPow n ((τ - σ) * (k : ℤ)) := by
    intro k _
    rw [mul_assoc, ← rootPow_add]
    congr 2; ring
  rw [Finset.sum_congr rfl this, ← Finset.mul_sum, sum_rootPow hn, if_neg (h τ hτ.1 hτ.2), mul_zero]

/-- The moments of column `t`. -/
theorem column_moments {τ : Type} (x : Vec ℂ) (ts : Vec τ) (n : ℕ) (hn : 2 ≤ n) (M : Mat ℝ) (hM : WvdReturns x ts n M) (t : ℕ) (ht : t < x.len) (m : ℕ) :
    let T := min (t : ℤ) ((x.len : ℤ) - 1 - t)
    ((m : ℤ) ≤ T → ∑ k ∈ range n, (M.get k t : ℂ) * rootPow n (-(k : ℤ)) ^ m = n * (x.get (t + m) * conj (x.get (t - m)))) ∧
    (T < m → (m : ℤ) + T < n → ∑ k ∈ range n, (M.get k t : ℂ) * rootPow n (-(k : ℤ)) ^ m = 0) := by
  intro T
  obtain ⟨hN, hR, h4⟩ := wvd_sizes hn hM
  have hT : T ≤ roundEven ((n : ℝ) / 2) - 1 := by omega
  have hwT : wvT n x.len t = T := by unfold wvT; omega
  have e : ∑ k ∈ range n, (M.get k t : ℂ) * rootPow n (-(k : ℤ)) ^ m = ∑ k ∈ range n, lagSum T n (wignerKernel x t) k * rootPow n (-((m : ℤ) * k)) := by
    refine Finset.sum_congr rfl fun k hk => ?_
    rw [h4 k (Finset.mem_range.1 hk) t ht, ← wv_extend, hwT, ← rootPow_nat_mul]
    congr 2
    ring
  rw [e]
  refine ⟨fun hm => ?_, fun hm hmn => ?_⟩
  · rw [lagSum_inv (by omega) (by omega) _ (by omega) hm]
    unfold wignerKernel
    rw [zext_of_mem (by omega) (by omega), zext_of_mem (by omega) (by omega)]
    congr 3
    congr 1; omega
  · refine lagSum_outside (by omega) _ fun τ h1 h2 h3 => ?_
    obtain ⟨q, hq⟩ := h3
    have h5 : (n : ℤ) * q < 0 := by omega
    have h6 : -(n : ℤ) < n * q := by omega
    have hq0 : q < 0 := by
      by_contra hc
      have : 0 ≤ (n : ℤ) * q := mul_nonneg (by omega) (by omega)
      omega
    have : (n : ℤ) * q ≤ -n := by nlinarith
    omega

/-- The first column moment, as a sum of real numbers. -/
theorem column_sum {τ : Type} (x : Vec ℂ) (ts : Vec τ) (n : ℕ) (hn : 2 ≤ n) (M : Mat ℝ) (hM : WvdReturns x ts n M) (t : ℕ) (ht : t < x.len) (m : ℕ)
    (hm : (m : ℤ) ≤ min (t : ℤ) ((x.len : ℤ) - 1 - t)) :
    ‖∑ k ∈ range n, (M.get k t : ℂ) * rootPow n (-(k : ℤ)) ^ m‖ = n * (‖x.get (t + m)‖ * ‖x.get (t - m)‖) := by
  rw [(column_moments x ts n hn M hM t ht m).1 hm, norm_mul, norm_mul, RCLike.norm_conj]
  simp

/-- **Symmetric products.**  A column without negative entry: the modulus at its instant is at least the geometric mean of the moduli at any two samples symmetric about it. -/
theorem C139_products {τ : Type} (x : Vec ℂ) (ts : Vec τ) (n : ℕ) (hn : 2 ≤ n) (M : Mat ℝ) (hM : WvdReturns x ts n M) (a b t : ℕ) (ha : a < x.len) (hb : b < x.len)
    (hab : a + b = 2 * t) (h0 : ∀ k < n, 0 ≤ M.get k t) : ‖x.get a‖ * ‖x.get b‖ ≤ ‖x.get t‖ ^ 2 := by
  have hn0 : (0 : ℝ) < n := by exact_mod_cast (by omega : 0 < n)
  have ht : t < x.len := by omega
  wlog hle : b ≤ a generalizing a b
  · rw [mul_comm]
    exact this b a hb ha (by omega) (by omega)
  obtain ⟨m, hm⟩ : ∃ m, a = t + m := ⟨a - t, by omega⟩
  have hb' : b = t - m := by omega
  have h1 := norm_weights_le n (fun k => M.get k t) (fun k => rootPow n (-(k : ℤ)) ^ m) h0 (fun k => by rw [norm_pow, norm_rootPow, one_pow])
  rw [column_sum x ts n hn M hM t ht m (by omega), C34_time_marginal x ts n hn M hM t ht, ← hm, ← hb'] at h1
  exact le_of_mul_le_mul_left h1 hn0

/-- **Near the ends.**  A column without negative entry: at lags of which the double leaves the signal, the product is smaller by `√2`. -/
theorem C139_edge {τ : Type} (x : Vec ℂ) (ts : Vec τ) (n : ℕ) (hn : 2 ≤ n) (M : Mat ℝ) (hM : WvdReturns x ts n M) (t : ℕ) (ht : t < x.len)
    (h0 : ∀ k < n, 0 ≤ M.get k t) (m : ℕ) (h1 : m ≤ t) (h2 : t + m < x.len) (h3 : t < 2 * m ∨ x.len ≤ t + 2 * m)
    (h4 : 2 * (m : ℤ) + min (t : ℤ) ((x.len : ℤ) - 1 - t) < n) : 2 * (‖x.get (t + m)‖ * ‖x.get (t - m)‖) ^ 2 ≤ ‖x.get t‖ ^ 4 := by
  have hn0 : (0 : ℝ) < n := by exact_mod_cast (by omega : 0 < n)
  have h5 := norm_weights_sq n (fun k => M.get k t) (fun k => rootPow n (-(k : ℤ)) ^ m) h0 (fun k => by rw [norm_pow, norm_rootPow, one_pow])
  have e : ∑ k ∈ range n, (M.get k t : ℂ) * (rootPow n (-(k : ℤ)) ^ m) ^ 2 = 0 := by
    have := (column_moments x ts n hn M hM t ht (2 * m)).2 (by push_cast; omega) (by push_cast; omega)
    rw [← this]
    refine Finset.sum_congr rfl fun k _ => ?_
    rw [← pow_mul, mul_comm m 2]
  rw [e, norm_zero, add_zero, column_sum x ts n hn M hM t ht m (by omega), C34_time_marginal x ts n hn M hM t ht] at h5
  have h6 : (n : ℝ) ^ 2 * (2 * (‖x.get (t + m)‖ * ‖x.get (t - m)‖) ^ 2) ≤ (n : ℝ) ^ 2 * ‖x.get t‖ ^ 4 := by nlinarith
  exact le_of_mul_le_mul_left h6 (by positivity)

/-- **Constant and geometric moduli.**  Where the modulus is not zero and is the geometric mean of its two neighbours' (every signal of constant modulus, every damped or growing
tone), the column has a negative entry, unless it has as many lags as bins. -/
theorem C139_geometric {τ : Type} (x : Vec ℂ) (ts : Vec τ) (n : ℕ) (hn : 2 ≤ n) (M : Mat ℝ) (hM : WvdReturns x ts n M) (t : ℕ) (h1 : 1 ≤ t) (h2 : t + 1 < x.len)
    (hx : x.get t ≠ 0) (hg : ‖x.get (t + 1)‖ * ‖x.get (t - 1)‖ = ‖x.get t‖ ^ 2) (h3 : 2 * min (t : ℤ) ((x.len : ℤ) - 1 - t) + 1 < n) : ∃ k < n, M.get k t < 0 := by
  by_contra hc
  push Not at hc
  have hn0 : (0 : ℝ) < n := by exact_mod_cast (by omega : 0 < n)
  have ht : t < x.len := by omega
  obtain ⟨T, hT⟩ : ∃ T : ℕ, min (t : ℤ) ((x.len : ℤ) - 1 - t) = T := ⟨(min (t : ℤ) ((x.len : ℤ) - 1 - t)).toNat, by omega⟩
  have e1 := column_sum x ts n hn M hM t ht 1 (by omega)
  simp only [pow_one] at e1
  rw [hg, ← C34_time_marginal x ts n hn M hM t ht] at e1
  have e2 := norm_weights_eq n (fun k => M.get k t) (fun k => rootPow n (-(k : ℤ))) hc (fun k => norm_rootPow _ _) e1 (T + 1)
  rw [(column_moments x ts n hn M hM t ht (T + 1)).2 (by push_cast; omega) (by push_cast; omega), norm_zero, C34_time_marginal x ts n hn M hM t ht] at e2
  have : 0 < (n : ℝ) * ‖x.get t‖ ^ 2 := by positivity
  linarith

/-- **The Shannon information.**  `renyi_information` of order one refuses the Wigner-Ville distribution of every signal of constant modulus of at least three samples (at least
four bins), and of every signal with a sample that is smaller than the geometric mean of two samples symmetric about it. -/
theorem C139_shannon {τ : Type} (x : Vec ℂ) (ts : Vec τ) (n : ℕ) (M : Mat ℝ) (hM : WvdReturns x ts n M) (t f : Option (Vec ℝ))
    (h : (∃ r : ℝ, r ≠ 0 ∧ 3 ≤ x.len ∧ 4 ≤ n ∧ ∀ i < x.len, ‖x.get i‖ = r) ∨
      2 ≤ n ∧ ∃ a < x.len, ∃ b < x.len, ∃ c, a + b = 2 * c ∧ ‖x.get c‖ ^ 2 < ‖x.get a‖ * ‖x.get b‖) :
    renyiInformation M t f 1 = .error .valueError := by
  have hn : 2 ≤ n := by rcases h with ⟨_, _, _, h, _⟩ | ⟨h, _⟩ <;> omega
  obtain ⟨hts, hN⟩ := (C32_returns_iff x ts n (by omega)).1 ⟨M, hM⟩
  obtain ⟨M', h1, hr, hc, _⟩ := C33_wvd x ts n (by omega) hts hN
  obtain rfl := wvd_unique hM h1
  refine C49_negative M t f ?_
  rcases h with ⟨r, hr0, h3, h4, hm⟩ | ⟨_, a, ha, b, hb, c, hab, hlt⟩
  · obtain ⟨k, hk, hneg⟩ := C139_geometric x ts n hn M hM 1 le_rfl (by omega) (by
      intro h0
      have := hm 1 (by omega)
      rw [h0, norm_zero] at this
      exact hr0 this.symm) (by rw [hm _ (by omega), hm _ (by omega), hm _ (by omega)]; ring) (by omega)
    exact ⟨k, by omega, 1, by omega, hneg⟩
  · by_contra hcon
    push Not at hcon
    have := C139_products x ts n hn M hM a b c ha hb hab (fun k hk => hcon k (by omega) c (by omega))
    linarith

/-- A constant of four samples; an impulse pair with a zero in the middle. -/
example (M M' : Mat ℝ) (hM : WvdReturns ⟨4, fun _ => 1⟩ (arange 0 (4 : ℕ)) 4 M)
    (hM' : WvdReturns ⟨4, fun i => if i = 1 then 0 else 1⟩ (arange 0 (4 : ℕ)) 4 M') :
    renyiInformation M none none 1 = .error .valueError ∧ renyiInformation M' none none 1 = .error .valueError := by
  refine ⟨C139_shannon _ _ 4 M hM none none (Or.inl ⟨1, one_ne_zero, by norm_num, by norm_num, fun i _ => by simp⟩),
    C139_shannon _ _ 4 M' hM' none none (Or.inr ⟨by norm_num, 0, by norm_num, 2, by norm_num, 1, by norm_num, by simp⟩)⟩

/-- A triangle with a weak middle, `(1, 1.1, 1, …)`: column 1 has a negative entry although the modulus is largest there. -/
example (M : Mat ℝ) (hM : WvdReturns ⟨4, fun i => if i = 1 then 1.1 else 1⟩ (arange 0 (4 : ℕ)) 4 M) : ∃ k < 4, M.get k 1 < 0 := by
  by_contra hc
  push Not at hc
  have := C139_edge _ _ 4 (by norm_num) M hM 1 (by norm_num) hc 1 le_rfl (by norm_num) (Or.inl (by norm_num)) (by norm_num)
  norm_num at this

/-- The signals of the example are among those for which the run returns. -/
example : ∃ M, WvdReturns ⟨4, fun _ => (1 : ℂ)⟩ (arange 0 (4 : ℕ)) 4 M :=
  (C32_returns_iff _ _ 4 (by norm_num)).2 ⟨by rw [arange_len]; rfl, Or.inl (by
    show ((4 : ℕ) : ℤ) ≤ 2 * roundEven (((4 : ℕ) : ℝ) / 2)
    rw [roundEven_half]
    norm_num)⟩

end Tftb.Props
