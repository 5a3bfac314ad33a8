import Verif.Props.Bounds
import Verif.Props.Ambiguity
import Verif.Props.TimeFreq

/-! # C126 Small errors of the samples

How far the returned values can move when the samples do: `ε = √(energy of the difference)`.
-/

namespace Tftb.Props

open Tftb Tftb.Spec Tftb.Linear Tftb.Cohen Tftb.TF Finset ComplexConjugate

/-- Largest effect on a quadratic quantity of the energy of `x`: `(‖x‖ + ‖y‖) ‖x - y‖`. -/
noncomputable def quadErr (x y : Vec ℂ) : ℝ := (Real.sqrt (energy x) + Real.sqrt (energy y)) * Real.sqrt (energy (diff x y))

theorem sum_norm_le (x : Vec ℂ) : ∑ s ∈ range x.len, ‖x.get s‖ ≤ Real.sqrt x.len * Real.sqrt (energy x) := by
  have h := Finset.sum_mul_sq_le_sq_mul_sq (range x.len) (fun _ => (1 : ℝ)) (fun s => ‖x.get s‖)
  simp only [one_mul, one_pow, Finset.sum_const, Finset.card_range, nsmul_eq_mul, mul_one] at h
  rw [← Real.sqrt_mul (Nat.cast_nonneg _)]
  exact Real.le_sqrt_of_sq_le h

theorem norm_le_sqrt_energy (x : Vec ℂ) {t : ℕ} (ht : t < x.len) : ‖x.get t‖ ≤ Real.sqrt (energy x) := by
  refine Real.le_sqrt_of_sq_le ?_
  exact Finset.single_le_sum (f := fun i => ‖x.get i‖ ^ 2) (fun _ _ => by positivity) (Finset.mem_range.2 ht)

/-- Products of a fixed sample with the others. -/
theorem sum_prod_diff_le (x y : Vec ℂ) (hl : y.len = x.len) {t : ℕ} (ht : t < x.len) (S : Finset ℕ) (hS : S ⊆ range x.len) (e : ℕ → ℂ) (he : ∀ s, ‖e s‖ = 1) :
    ‖∑ s ∈ S, x.get t * conj (x.get s) * e s - ∑ s ∈ S, y.get t * conj (y.get s) * e s‖ ≤ Real.sqrt x.len * quadErr x y := by
  rw [← Finset.sum_sub_distrib]
  have h1 : ∀ s, x.get t * conj (x.get s) * e s - y.get t * conj (y.get s) * e s
      = (x.get t * conj ((diff x y).get s) + (diff x y).get t * conj (y.get s)) * e s := by
    intro s
    show _ = (x.get t * conj (x.get s - y.get s) + (x.get t - y.get t) * conj (y.get s)) * e s
    rw [map_sub]; ring
  have h2 : ∑ s ∈ range x.len, (‖x.get t‖ * ‖(diff x y).get s‖ + ‖(diff x y).get t‖ * ‖y.get s‖) ≤ Real.sqrt x.len * quadErr x y := by
    rw [Finset.sum_add_distrib, ← Finset.mul_sum, ← Finset.mul_sum]
    have a1 := sum_norm_le (diff x y)
    have a2 := sum_norm_le y
    rw [hl] at a2
    have b1 := norm_le_sqrt_energy x ht
    have b2 := norm_le_sqrt_energy (diff x y) (t := t) ht
    have c1 := mul_le_mul b1 a1 (Finset.sum_nonneg fun _ _ => norm_nonneg _) (Real.sqrt_nonneg _)
    have c2 := mul_le_mul b2 a2 (Finset.sum_nonneg fun _ _ => norm_nonneg _) (Real.sqrt_nonneg _)
    refine (add_le_add c1 c2).trans (le_of_eq ?_)
    unfold quadErr
    show Real.sqrt (energy x) * (Real.sqrt x.len * _) + _ = _
    ring
  refine (norm_sum_le _ _).trans (le_trans ?_ h2)
  refine le_trans (Finset.sum_le_sum fun s _ => ?_) (Finset.sum_le_sum_of_subset_of_nonneg hS fun _ _ _ => by positivity)
  rw [h1, norm_mul, he, mul_one]
  refine (norm_add_le _ _).trans (le_of_eq ?_)
  rw [norm_mul, norm_mul, Complex.norm_conj, Complex.norm_conj]

/-- Margenau-Hill. -/
theorem C126_margenau_hill (x y : Vec ℂ) (hl : y.len = x.len) (ts : Vec ℤ) (n : ℕ) (hn : n ≠ 0) (hts : ∀ c < ts.len, 0 ≤ ts.get c ∧ ts.get c < x.len) :
    ∃ X Y, MhReturns x ts n X ∧ MhReturns y ts n Y ∧ ∀ k < n, ∀ c < ts.len, |X.get k c - Y.get k c| ≤ Real.sqrt x.len * quadErr x y := by
  obtain ⟨X, h1, -, -, h4⟩ := C38_margenau_hill x ts n hn hts
  obtain ⟨Y, g1, -, -, g4⟩ := C38_margenau_hill y ts n hn (by rw [hl]; exact hts)
  refine ⟨X, Y, h1, g1, fun k hk c hc => ?_⟩
  rw [h4 k hk c hc, g4 k hk c hc, ← Complex.sub_re, hl]
  have := hts c hc
  refine (Complex.abs_re_le_norm _).trans (sum_prod_diff_le x y hl (by omega) _ (fun s hs => ?_) _ (fun s => norm_expi _))
  rw [Finset.mem_Ico] at hs
  rw [Finset.mem_range]
  omega

/-- Page. -/
theorem C126_page (x y : Vec ℂ) (hl : y.len = x.len) (ts : Vec ℤ) (n : ℕ) (hn : n ≠ 0) (hts : ∀ c < ts.len, 0 ≤ ts.get c ∧ ts.get c < x.len) :
    ∃ X Y, PageReturns x ts n X ∧ PageReturns y ts n Y ∧ ∀ k < n, ∀ c < ts.len, |X.get k c - Y.get k c| ≤ Real.sqrt x.len * quadErr x y := by
  obtain ⟨X, h1, -, -, h4⟩ := C39_page x ts n hn hts
  obtain ⟨Y, g1, -, -, g4⟩ := C39_page y ts n hn (by rw [hl]; exact hts)
  refine ⟨X, Y, h1, g1, fun k hk c hc => ?_⟩
  rw [h4 k hk c hc, g4 k hk c hc, ← Complex.sub_re, hl]
  have := hts c hc
  refine (Complex.abs_re_le_norm _).trans (sum_prod_diff_le x y hl (by omega) _ (fun s hs => ?_) _ (fun s => norm_expi _))
  rw [Finset.mem_range] at hs ⊢
  omega

/-- Sum over a segment of a signal times a window: at most the norm of the signal times that of the window on the segment. -/
theorem norm_segSum_le (x : Vec ℂ) (S : Finset ℤ) (c : ℤ) (w : ℤ → ℂ) (e : ℤ → ℂ) (he : ∀ τ, ‖e τ‖ = 1) :
    ‖∑ τ ∈ S, zext x (c + τ) * w τ * e τ‖ ≤ Real.sqrt (energy x) * Real.sqrt (∑ τ ∈ S, ‖w τ‖ ^ 2) := by
  have hx := sum_sq_zext_le x S (fun τ => c + τ) (inj_add c)
  have hcs := Finset.sum_mul_sq_le_sq_mul_sq S (fun τ => ‖zext x (c + τ)‖) (fun τ => ‖w τ‖)
  rw [← Real.sqrt_mul (energy_nonneg x)]
  refine (norm_sum_le _ _).trans (Real.le_sqrt_of_sq_le ?_)
  refine le_trans (pow_le_pow_left₀ (Finset.sum_nonneg fun _ _ => norm_nonneg _) (Finset.sum_le_sum fun τ _ => ?_) 2)
    (hcs.trans (mul_le_mul_of_nonneg_right hx (Finset.sum_nonneg fun _ _ => by positivity)))
  rw [norm_mul, norm_mul, he, mul_one]

theorem abs_sq_sub_sq_le (a b d : ℂ) (h : a - b = d) : abs (‖a‖ ^ 2 - ‖b‖ ^ 2) ≤ ‖d‖ * (‖a‖ + ‖b‖) := by
  have h1 : ‖a‖ ^ 2 - ‖b‖ ^ 2 = (‖a‖ - ‖b‖) * (‖a‖ + ‖b‖) := by ring
  rw [h1, abs_mul, abs_of_nonneg (add_nonneg (norm_nonneg a) (norm_nonneg b)), ← h]
  exact mul_le_mul_of_nonneg_right (abs_norm_sub_norm_le a b) (by positivity)

/-- Spectrogram: the window has no influence on the bound. -/
theorem C126_spectrogram (x y : Vec ℂ) (hl : y.len = x.len) (ts : Vec ℤ) (n L : ℕ) (h : Vec ℂ) (hh : h.len = 2 * L + 1 ∨ h.len = 2 * L + 2) (hn : n ≠ 0)
    (hw : WindowOk h n L x.len ts) :
    ∃ X Y, SpectroReturns x ts n h X ∧ SpectroReturns y ts n h Y ∧ ∀ k < n, ∀ m < ts.len, |X.get k m - Y.get k m| ≤ quadErr x y := by
  obtain ⟨X, h1, -, -, h4⟩ := C31_closed_form x ts n L h hh hn hw
  obtain ⟨Y, g1, -, -, g4⟩ := C31_closed_form y ts n L h hh hn (by rw [hl]; exact hw)
  have hq : 0 ≤ quadErr x y := by unfold quadErr; positivity
  refine ⟨X, Y, h1, g1, fun k hk m hm => ?_⟩
  obtain ⟨a1, a2⟩ := h4 k hk m hm
  obtain ⟨b1, b2⟩ := g4 k hk m hm
  rw [hl] at b1 b2
  rcases hw m hm with h0 | h0
  · set S := segLags (min (roundEven ((n : ℝ) / 2) - 1) L) x.len (ts.get m - 1) with hS
    set W := windowEnergy h n L x.len (ts.get m - 1) with hW
    have hWe : W = ∑ τ ∈ S, ‖conj (h.get ((L : ℤ) + τ).toNat)‖ ^ 2 := by
      rw [hW, hS]
      unfold windowEnergy
      exact Finset.sum_congr rfl fun τ _ => by rw [Complex.norm_conj]
    have hpos : 0 < W := lt_of_le_of_ne (windowEnergy_nonneg _ _ _ _ _) (Ne.symm h0)
    have hd : ∑ τ ∈ S, zext x (ts.get m - 1 + τ) * conj (h.get ((L : ℤ) + τ).toNat) * expi (-(2 * Real.pi * (k * τ / n)))
        - ∑ τ ∈ S, zext y (ts.get m - 1 + τ) * conj (h.get ((L : ℤ) + τ).toNat) * expi (-(2 * Real.pi * (k * τ / n)))
        = ∑ τ ∈ S, zext (diff x y) (ts.get m - 1 + τ) * conj (h.get ((L : ℤ) + τ).toNat) * expi (-(2 * Real.pi * (k * τ / n))) := by
      rw [← Finset.sum_sub_distrib]
      refine Finset.sum_congr rfl fun τ _ => ?_
      rw [zext_diff hl]
      ring
    have n1 := norm_segSum_le x S (ts.get m - 1) (fun τ => conj (h.get ((L : ℤ) + τ).toNat)) (fun τ => expi (-(2 * Real.pi * (k * τ / n)))) (fun _ => norm_expi _)
    have n2 := norm_segSum_le y S (ts.get m - 1) (fun τ => conj (h.get ((L : ℤ) + τ).toNat)) (fun τ => expi (-(2 * Real.pi * (k * τ / n)))) (fun _ => norm_expi _)
    have n3 := norm_segSum_le (diff x y) S (ts.get m - 1) (fun τ => conj (h.get ((L : ℤ) + τ).toNat)) (fun τ => expi (-(2 * Real.pi * (k * τ / n)))) (fun _ => norm_expi _)
    rw [← hWe] at n1 n2 n3
    have key := abs_sq_sub_sq_le _ _ _ hd
    rw [← a2, ← b2, ← sub_mul, abs_mul, abs_of_pos hpos] at key
    refine le_of_mul_le_mul_right (key.trans ?_) hpos
    refine (mul_le_mul n3 (add_le_add n1 n2) (by positivity) (by positivity)).trans (le_of_eq ?_)
    unfold quadErr
    have hs := Real.mul_self_sqrt hpos.le
    calc Real.sqrt (energy (diff x y)) * Real.sqrt W * (Real.sqrt (energy x) * Real.sqrt W + Real.sqrt (energy y) * Real.sqrt W)
        = (Real.sqrt (energy x) + Real.sqrt (energy y)) * Real.sqrt (energy (diff x y)) * (Real.sqrt W * Real.sqrt W) := by ring
      _ = _ := by rw [hs]
  · rw [a1 h0, b1 h0, sub_self, abs_zero]
    exact hq

/-- Narrow-band ambiguity function. -/
theorem C126_narrow_band (x y : Vec ℂ) (hl : y.len = x.len) (lag : Option (Vec ℝ)) (nf : Option ℕ) (A : Mat ℂ) (l xi : Vec ℝ)
    (hA : Ambiguity.narrowBand x lag nf = .ok (A, l, xi)) :
    ∃ B l' xi', Ambiguity.narrowBand y lag nf = .ok (B, l', xi') ∧ ∀ r < A.rows, ∀ c < A.cols, ‖A.get r c - B.get r c‖ ≤ quadErr x y := by
  obtain ⟨⟨B, l', xi'⟩, hB⟩ := (C42_returns_iff y lag nf).2 (by
    rw [hl]
    exact (C42_returns_iff x lag nf).1 ⟨_, hA⟩)
  refine ⟨B, l', xi', hB, ?_⟩
  obtain ⟨a1, a2, a3, _, a5, a6⟩ := C42_closed_form x lag nf A l xi hA
  obtain ⟨b1, b2, b3, _, b5, b6⟩ := C42_closed_form y lag nf B l' xi' hB
  rw [hl] at b1 b2
  have hll : l' = l := by rw [a1, b1]
  have hr' : B.rows = A.rows := by rw [a2, b2]
  intro r hr c hc
  have hxi : xi'.get r = xi.get r := by rw [b5 r (by omega), a5 r hr, hr']
  rw [a6 r hr c hc, b6 r (by omega) c (by rw [b3, hll, ← a3]; exact hc), hll, hxi]
  unfold ambiguity
  rw [hl, ← Finset.sum_sub_distrib]
  set j := truncInt (l.get c)
  have e : ∀ t : ℕ, wignerKernel x t j * expi (-(2 * Real.pi * (xi.get r * t))) - wignerKernel y t j * expi (-(2 * Real.pi * (xi.get r * t)))
      = (zext x (t + j) * conj (zext (diff x y) (t - j)) + zext (diff x y) (t + j) * conj (zext y (t - j))) * expi (-(2 * Real.pi * (xi.get r * t))) := by
    intro t
    unfold wignerKernel
    rw [zext_diff hl, zext_diff hl, map_sub]
    ring
  have hS : ∀ F : ℤ → ℝ, ∑ t ∈ range x.len, F (t : ℤ) = ∑ t ∈ (range x.len).image (fun t : ℕ => (t : ℤ)), F t := by
    intro F
    rw [Finset.sum_image fun a _ b _ hab => by exact_mod_cast hab]
  have c1 := sum_cross_le x (diff x y) ((range x.len).image (fun t : ℕ => (t : ℤ))) (fun t => t + j) (fun t => t - j)
    (fun a b h => by simp only at h; omega) (fun a b h => by simp only at h; omega)
  have c2 := sum_cross_le (diff x y) y ((range x.len).image (fun t : ℕ => (t : ℤ))) (fun t => t + j) (fun t => t - j)
    (fun a b h => by simp only at h; omega) (fun a b h => by simp only at h; omega)
  rw [← hS (fun t => ‖zext x (t + j)‖ * ‖zext (diff x y) (t - j)‖)] at c1
  rw [← hS (fun t => ‖zext (diff x y) (t + j)‖ * ‖zext y (t - j)‖)] at c2
  have hq : quadErr x y = Real.sqrt (energy x) * Real.sqrt (energy (diff x y)) + Real.sqrt (energy (diff x y)) * Real.sqrt (energy y) := by
    unfold quadErr; ring
  rw [hq]
  refine (norm_sum_le _ _).trans (le_trans ?_ (add_le_add c1 c2))
  rw [← Finset.sum_add_distrib]
  refine Finset.sum_le_sum fun t _ => ?_
  rw [e, norm_mul, norm_expi, mul_one]
  refine (norm_add_le _ _).trans (le_of_eq ?_)
  rw [norm_mul, norm_mul, Complex.norm_conj, Complex.norm_conj]

/-! ## Centres -/

theorem sum_abs_sq_diff_le (x y : Vec ℂ) (hl : y.len = x.len) : ∑ i ∈ range x.len, abs (‖x.get i‖ ^ 2 - ‖y.get i‖ ^ 2) ≤ quadErr x y := by
  have cs : ∀ u v : Vec ℂ, u.len = x.len → v.len = x.len → ∑ i ∈ range x.len, ‖u.get i‖ * ‖v.get i‖ ≤ Real.sqrt (energy u) * Real.sqrt (energy v) := by
    intro u v hu hv
    have h := Finset.sum_mul_sq_le_sq_mul_sq (range x.len) (fun i => ‖u.get i‖) (fun i => ‖v.get i‖)
    rw [← Real.sqrt_mul (energy_nonneg u)]
    refine Real.le_sqrt_of_sq_le (h.trans (le_of_eq ?_))
    unfold energy
    rw [hu, hv]
  have c1 := cs (diff x y) x rfl rfl
  have c2 := cs (diff x y) y rfl hl
  have hq : quadErr x y = Real.sqrt (energy (diff x y)) * Real.sqrt (energy x) + Real.sqrt (energy (diff x y)) * Real.sqrt (energy y) := by
    unfold quadErr; ring
  rw [hq]
  refine le_trans ?_ (add_le_add c1 c2)
  rw [← Finset.sum_add_distrib]
  refine Finset.sum_le_sum fun i _ => ?_
  rw [← mul_add]
  exact abs_sq_sub_sq_le _ _ _ rfl

/-- Two weighted means of the same positions. -/
theorem wmean_stable {n : ℕ} {p v w : ℕ → ℝ} {lo hi : ℝ} (hv : ∀ i < n, 0 ≤ v i) (hV : 0 < ∑ i ∈ range n, v i) (hW : 0 < ∑ i ∈ range n, w i)
    (hp : ∀ i < n, lo ≤ p i ∧ p i ≤ hi) : |wmean n p w - wmean n p v| ≤ (hi - lo) * (∑ i ∈ range n, |w i - v i|) / ∑ i ∈ range n, w i := by
  obtain ⟨m1, m2⟩ := wmean_mem hv hV hp
  set m := wmean n p v with hm
  have hmv : ∑ i ∈ range n, (p i - m) * v i = 0 := by
    simp only [sub_mul]
    rw [Finset.sum_sub_distrib, ← Finset.mul_sum, hm]
    unfold wmean
    rw [div_mul_cancel₀ _ hV.ne', sub_self]
  have hdiff : wmean n p w - m = (∑ i ∈ range n, (p i - m) * (w i - v i)) / ∑ i ∈ range n, w i := by
    have h1 : ∑ i ∈ range n, (p i - m) * (w i - v i) = ∑ i ∈ range n, p i * w i - m * ∑ i ∈ range n, w i := by
      simp only [mul_sub]
      rw [Finset.sum_sub_distrib, hmv, sub_zero]
      simp only [sub_mul]
      rw [Finset.sum_sub_distrib, ← Finset.mul_sum]
    rw [h1, sub_div, mul_div_assoc, div_self hW.ne', mul_one]
    rfl
  rw [hdiff, abs_div, abs_of_pos hW]
  refine div_le_div_of_nonneg_right ?_ hW.le
  refine (Finset.abs_sum_le_sum_abs _ _).trans ?_
  rw [Finset.mul_sum]
  refine Finset.sum_le_sum fun i hi' => ?_
  rw [Finset.mem_range] at hi'
  rw [abs_mul]
  refine mul_le_mul_of_nonneg_right ?_ (abs_nonneg _)
  have := hp i hi'
  rw [abs_le]
  constructor <;> linarith

/-- Centre in time. -/
theorem C126_loctime (x y : Vec ℂ) (hl : y.len = x.len) (hx : energy x ≠ 0) (hy : energy y ≠ 0) :
    ∃ tx Tx ty Ty, loctime x = .ok (tx, Tx) ∧ loctime y = .ok (ty, Ty) ∧ |tx - ty| ≤ ((x.len : ℝ) - 1) * quadErr x y / energy x := by
  refine ⟨_, _, _, _, C44_loctime x hx, C44_loctime y hy, ?_⟩
  rw [hl]
  have hp : 0 < energy x := lt_of_le_of_ne (energy_nonneg x) (Ne.symm hx)
  have hp' : 0 < energy y := lt_of_le_of_ne (energy_nonneg y) (Ne.symm hy)
  have h := wmean_stable (n := x.len) (p := fun i => (i : ℝ)) (v := fun i => ‖y.get i‖ ^ 2) (w := fun i => ‖x.get i‖ ^ 2) (lo := 0) (hi := (x.len : ℝ) - 1)
    (fun _ _ => by positivity) (by rw [← hl]; exact hp') hp (fun i hi => ⟨by positivity, by
      have : (i : ℝ) + 1 ≤ x.len := by exact_mod_cast hi
      linarith⟩)
  refine h.trans ?_
  rw [sub_zero]
  have h1 : (1 : ℝ) ≤ x.len := by
    have : x.len ≠ 0 := by
      intro h0; apply hx; unfold energy; rw [h0]; simp
    exact_mod_cast Nat.one_le_iff_ne_zero.2 this
  refine div_le_div_of_nonneg_right (mul_le_mul_of_nonneg_left (sum_abs_sq_diff_le x y hl) (by linarith)) hp.le

theorem binFreq_span {N k : ℕ} (hk : k < N) : -(((N : ℝ) - (N / 2 : ℕ)) / N) ≤ binFreq N k ∧ binFreq N k ≤ (((N / 2 : ℕ) : ℝ) - 1) / N ∨ N = 1 := by
  by_cases hN1 : N = 1
  · right; exact hN1
  left
  have hN : (0 : ℝ) < N := by exact_mod_cast (by omega : 0 < N)
  have h2 : ((N / 2 : ℕ) : ℝ) ≤ N := by exact_mod_cast Nat.div_le_self N 2
  have h1 : (1 : ℝ) ≤ ((N / 2 : ℕ) : ℝ) := by exact_mod_cast (by omega : 1 ≤ N / 2)
  unfold binFreq
  split_ifs with h
  · have h3 : (k : ℝ) + 1 ≤ ((N / 2 : ℕ) : ℝ) := by exact_mod_cast h
    constructor
    · have : (0 : ℝ) ≤ (k : ℝ) / N := by positivity
      have h4 : (0 : ℝ) ≤ ((N : ℝ) - (N / 2 : ℕ)) / N := div_nonneg (by linarith) hN.le
      linarith
    · exact div_le_div_of_nonneg_right (by linarith) hN.le
  · have h3 : ((N / 2 : ℕ) : ℝ) ≤ k := by exact_mod_cast not_lt.1 h
    have h4 : (k : ℝ) + 1 ≤ N := by exact_mod_cast hk
    rw [← neg_div]
    constructor
    · exact div_le_div_of_nonneg_right (by linarith) hN.le
    · exact div_le_div_of_nonneg_right (by linarith) hN.le

/-- Centre in frequency. -/
theorem C126_locfreq (x y : Vec ℂ) (hl : y.len = x.len) (hN : x.len % 4 ≠ 1) (hx : energy x ≠ 0) (hy : energy y ≠ 0) :
    ∃ fx Bx fy By, locfreq x = .ok (fx, Bx) ∧ locfreq y = .ok (fy, By) ∧ |fx - fy| ≤ (1 - 1 / (x.len : ℝ)) * quadErr x y / energy x := by
  refine ⟨_, _, _, _, C45_locfreq x hN hx, C45_locfreq y (by rw [hl]; exact hN) hy, ?_⟩
  have hp : 0 < energy x := lt_of_le_of_ne (energy_nonneg x) (Ne.symm hx)
  have hp' : 0 < energy y := lt_of_le_of_ne (energy_nonneg y) (Ne.symm hy)
  have hn : x.len ≠ 0 := by
    intro h0; apply hx; unfold energy; rw [h0]; simp
  have hnR : (0 : ℝ) < x.len := by exact_mod_cast Nat.pos_of_ne_zero hn
  set X : Vec ℂ := ⟨x.len, fun k => dft x k⟩ with hX
  set Y : Vec ℂ := ⟨x.len, fun k => dft y k⟩ with hY
  have eX : energy X = x.len * energy x := sum_dft_sq x hn
  have eY : energy Y = x.len * energy y := by
    have := sum_dft_sq y (by omega)
    rw [hl] at this
    exact this
  have eD : energy (diff X Y) = x.len * energy (diff x y) := by
    refine Eq.trans ?_ (sum_dft_sq (diff x y) hn)
    unfold energy
    refine Finset.sum_congr rfl fun k _ => ?_
    congr 2
    show dft x k - dft y k = dft (diff x y) k
    rw [dft_eq_dftC, dft_eq_dftC, dft_eq_dftC, hl]
    show dftC x.len x.get k - dftC x.len y.get k = dftC x.len (fun i => x.get i - y.get i) k
    unfold dftC
    rw [← Finset.sum_sub_distrib]
    exact Finset.sum_congr rfl fun i _ => by ring
  have hq : quadErr X Y = x.len * quadErr x y := by
    unfold quadErr
    rw [eX, eY, eD, Real.sqrt_mul hnR.le, Real.sqrt_mul hnR.le, Real.sqrt_mul hnR.le]
    have hs := Real.mul_self_sqrt hnR.le
    set r := Real.sqrt (x.len : ℝ)
    rw [← hs]
    ring
  have h := wmean_stable (n := x.len) (p := binFreq x.len) (v := fun k => ‖dft y k‖ ^ 2) (w := fun k => ‖dft x k‖ ^ 2)
    (lo := -(((x.len : ℝ) - (x.len / 2 : ℕ)) / x.len)) (hi := (((x.len / 2 : ℕ) : ℝ) - 1) / x.len)
    (fun _ _ => by positivity) (by
      have : 0 < energy Y := by rw [eY]; positivity
      exact this) (by
      have : 0 < energy X := by rw [eX]; positivity
      exact this) (fun k hk => (binFreq_span hk).resolve_right (by intro h1; rw [h1] at hN; exact hN rfl))
  rw [hl]
  refine h.trans ?_
  have hD : (((x.len / 2 : ℕ) : ℝ) - 1) / x.len - -(((x.len : ℝ) - (x.len / 2 : ℕ)) / x.len) = 1 - 1 / (x.len : ℝ) := by
    field_simp
    ring
  have hsum := sum_abs_sq_diff_le X Y rfl
  rw [hq] at hsum
  have hden : ∑ k ∈ range x.len, ‖dft x k‖ ^ 2 = x.len * energy x := eX
  have h1 : (1 : ℝ) ≤ x.len := by exact_mod_cast Nat.one_le_iff_ne_zero.2 hn
  have h0 : 0 ≤ 1 - 1 / (x.len : ℝ) := by rw [sub_nonneg, div_le_one hnR]; exact h1
  rw [hden, hD, div_le_div_iff₀ (by positivity) hp]
  calc (1 - 1 / (x.len : ℝ)) * (∑ k ∈ range x.len, abs (‖dft x k‖ ^ 2 - ‖dft y k‖ ^ 2)) * energy x
      ≤ (1 - 1 / (x.len : ℝ)) * (x.len * quadErr x y) * energy x :=
        mul_le_mul_of_nonneg_right (mul_le_mul_of_nonneg_left hsum h0) hp.le
    _ = (1 - 1 / (x.len : ℝ)) * quadErr x y * (x.len * energy x) := by ring

/-! ## A concrete case: one sample of three changes by one -/

theorem quadErr_case : quadErr ⟨3, fun m => if m = 0 then 2 else 0⟩ ⟨3, fun m => if m = 0 then 1 else 0⟩ = 3 := by
  unfold quadErr energy diff
  simp [Finset.sum_range_succ]
  norm_num

/-- Sampled at every instant: every value of the Page and Margenau-Hill distributions moves by at most `3 √3`. -/
example : ∃ X Y, PageReturns ⟨3, fun m => if m = 0 then 2 else 0⟩ (arange 0 (3 : ℕ)) 3 X ∧
    PageReturns ⟨3, fun m => if m = 0 then 1 else 0⟩ (arange 0 (3 : ℕ)) 3 Y ∧
    ∀ k < 3, ∀ c < (arange 0 (3 : ℕ)).len, |X.get k c - Y.get k c| ≤ Real.sqrt 3 * 3 := by
  have h := C126_page ⟨3, fun m => if m = 0 then 2 else 0⟩ ⟨3, fun m => if m = 0 then 1 else 0⟩ rfl (arange 0 (3 : ℕ)) 3 (by norm_num)
    (fun c hc => by
      have : c < 3 := hc
      show (0 : ℤ) ≤ 0 + (c : ℤ) ∧ (0 : ℤ) + (c : ℤ) < ((3 : ℕ) : ℤ)
      omega)
  rw [quadErr_case] at h
  exact_mod_cast h

/-- The narrow-band ambiguity function moves by at most `3`; at the origin it does (`4` and `1`). -/
example : ∃ A l xi B l' xi', Ambiguity.narrowBand ⟨3, fun m => if m = 0 then 2 else 0⟩ none none = .ok (A, l, xi) ∧
    Ambiguity.narrowBand ⟨3, fun m => if m = 0 then 1 else 0⟩ none none = .ok (B, l', xi') ∧
    A.rows = 3 ∧ A.cols = 3 ∧ ∀ r < 3, ∀ c < 3, ‖A.get r c - B.get r c‖ ≤ 3 := by
  obtain ⟨A, l, xi, h, h1, h2, _⟩ := C42_default ⟨3, fun m => if m = 0 then 2 else 0⟩ (by norm_num)
  obtain ⟨B, l', xi', g, g1⟩ := C126_narrow_band ⟨3, fun m => if m = 0 then 2 else 0⟩ ⟨3, fun m => if m = 0 then 1 else 0⟩ rfl none none A l xi h
  refine ⟨A, l, xi, B, l', xi', h, g, h1, h2, fun r hr c hc => ?_⟩
  have := g1 r (by rw [h1]; exact hr) c (by rw [h2]; exact hc)
  rwa [quadErr_case] at this

/-- The centres in time of `2, 1` and `2, 0`: at most one sample times `√5 + 2` over five apart. -/
example : ∃ tx Tx ty Ty, loctime ⟨2, fun m => if m = 0 then 2 else 1⟩ = .ok (tx, Tx) ∧ loctime ⟨2, fun m => if m = 0 then 2 else 0⟩ = .ok (ty, Ty) ∧
    |tx - ty| ≤ (Real.sqrt 5 + 2) / 5 := by
  have e1 : energy ⟨2, fun m => if m = 0 then 2 else 1⟩ = 5 := by unfold energy; simp [Finset.sum_range_succ]; norm_num
  have e2 : energy ⟨2, fun m => if m = 0 then 2 else 0⟩ = 4 := by unfold energy; simp [Finset.sum_range_succ]; norm_num
  obtain ⟨tx, Tx, ty, Ty, h1, h2, h3⟩ := C126_loctime ⟨2, fun m => if m = 0 then 2 else 1⟩ ⟨2, fun m => if m = 0 then 2 else 0⟩ rfl
    (by rw [e1]; norm_num) (by rw [e2]; norm_num)
  refine ⟨tx, Tx, ty, Ty, h1, h2, h3.trans (le_of_eq ?_)⟩
  have e3 : energy (diff ⟨2, fun m => if m = 0 then 2 else 1⟩ ⟨2, fun m => if m = 0 then 2 else 0⟩) = 1 := by
    unfold energy diff; simp [Finset.sum_range_succ]
  have e4 : Real.sqrt 4 = 2 := by rw [show (4 : ℝ) = 2 ^ 2 by norm_num]; exact Real.sqrt_sq (by norm_num)
  unfold quadErr
  rw [e1, e2, e3, e4, Real.sqrt_one]
  norm_num

end Tftb.Props
