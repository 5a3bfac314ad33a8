import Verif.Lemmas.ProcUtils
import Verif.Lemmas.TimeFreq
import Mathlib.Analysis.SpecialFunctions.Integrals.Basic

/-! # Properties C47, C48: `integrate_2d` and `derive_window` -/

namespace Tftb

open Finset Spec ProcUtils

/-- On a uniform column grid `integrate_2d` is the iterated trapezoidal rule, for any row grid. -/
theorem C47_trapezoidal (M : Mat ℝ) (x y : Vec ℝ) (hn : 2 ≤ M.cols) (hx : x.len = M.cols) (hy : y.len = M.rows) (d : ℝ)
    (hd : ∀ i, i + 1 < M.cols → x.get (i + 1) - x.get i = d) :
    integrate2d M (some x) (some y) = .ok (trapz2 M x.get y.get) := by
  rw [integrate2d_eq M x y (by omega) (by omega) hy]
  unfold trapz2
  congr 2
  funext j
  rw [trapz_uniform (by omega) hd, ← hd 0 (by omega)]

/-- Without grids: unit spacing. -/
theorem C47_default (M : Mat ℝ) (hn : 2 ≤ M.cols) :
    integrate2d M none none = .ok (trapz2 M (fun i => i) (fun j => j)) := by
  have e : integrate2d M none none = integrate2d M (some ((arange 0 M.cols).map (fun j : ℤ => (j : ℝ))))
      (some ((arange 0 M.rows).map (fun j : ℤ => (j : ℝ)))) := rfl
  rw [e, C47_trapezoidal M _ _ hn (by simp [arange_len]) (by simp [arange_len]) 1]
  · congr 1
    unfold trapz2
    refine trapz_congr (fun i _ => by simp [arange_get]) (fun j _ => trapz_congr (fun i _ => by simp [arange_get]) (fun _ _ => rfl))
  · intro i _
    simp [arange_get]

/-- A matrix without a second column is refused. -/
theorem C47_one_column (M : Mat ℝ) (hn : M.cols < 2) : integrate2d M none none = .error .indexError := by
  unfold integrate2d
  simp only [Option.getD_none]
  split
  · rfl
  · rw [Vec.item_error (by simp [arange_len]; omega)]
    rfl

/-- Linear in the matrix. -/
theorem C47_linear (M N : Mat ℝ) (x y : Vec ℝ) (a b : ℝ) (hr : N.rows = M.rows) (hc : N.cols = M.cols) (hn : 1 ≤ M.cols)
    (hx : 2 ≤ x.len) (hy : y.len = M.rows) : ∃ I J, integrate2d M (some x) (some y) = .ok I ∧
      integrate2d N (some x) (some y) = .ok J ∧
      integrate2d ⟨M.rows, M.cols, fun r c => a * M.get r c + b * N.get r c⟩ (some x) (some y) = .ok (a * I + b * J) := by
  refine ⟨_, _, integrate2d_eq M x y (by omega) hx hy, integrate2d_eq N x y (by omega) hx (by omega), ?_⟩
  rw [integrate2d_eq ⟨M.rows, M.cols, fun r c => a * M.get r c + b * N.get r c⟩ x y (by show M.cols ≠ 0; omega) hx hy, ← trapz_smul, hr, ← trapz_smul, ← trapz_add]
  congr 2
  funext j
  rw [hc, Finset.sum_add_distrib, ← Finset.mul_sum, ← Finset.mul_sum]
  ring

theorem integral_affine (A B p q : ℝ) : ∫ v in p..q, (A + B * v) = (q - p) * (A + B * ((p + q) / 2)) := by
  rw [intervalIntegral.integral_add (by simp) (by apply Continuous.intervalIntegrable; fun_prop),
    intervalIntegral.integral_const_mul, integral_id, intervalIntegral.integral_const]
  simp only [smul_eq_mul]
  ring

/-- Exact on integrands affine in each variable. -/
theorem C47_exact (x y : Vec ℝ) (hx : 2 ≤ x.len) (hy : 1 ≤ y.len) (d : ℝ)
    (hd : ∀ i, i + 1 < x.len → x.get (i + 1) - x.get i = d) (a b c e : ℝ) :
    integrate2d ⟨y.len, x.len, fun r s => a + b * x.get s + c * y.get r + e * (x.get s * y.get r)⟩ (some x) (some y)
      = .ok (∫ v in (y.get 0)..(y.get (y.len - 1)), ∫ u in (x.get 0)..(x.get (x.len - 1)),
          (a + b * u + c * v + e * (u * v))) := by
  rw [C47_trapezoidal _ x y hx rfl rfl d hd]
  unfold trapz2
  congr 1
  simp only
  set x0 := x.get 0
  set x1 := x.get (x.len - 1)
  set y0 := y.get 0
  set y1 := y.get (y.len - 1)
  have h1 : ∀ j, trapz x.len x.get (fun s => a + b * x.get s + c * y.get j + e * (x.get s * y.get j))
      = (x1 - x0) * (a + b * ((x0 + x1) / 2)) + (x1 - x0) * (c + e * ((x0 + x1) / 2)) * y.get j := by
    intro j
    have := trapz_affine (n := x.len) (by omega) x.get (a + c * y.get j) (b + e * y.get j)
    rw [show (fun s => a + b * x.get s + c * y.get j + e * (x.get s * y.get j))
      = (fun s => a + c * y.get j + (b + e * y.get j) * x.get s) from by funext s; ring, this]
    ring
  simp only [h1]
  rw [trapz_affine hy]
  have h2 : ∀ v : ℝ, ∫ u in x0..x1, (a + b * u + c * v + e * (u * v))
      = (x1 - x0) * (a + b * ((x0 + x1) / 2)) + (x1 - x0) * (c + e * ((x0 + x1) / 2)) * v := by
    intro v
    rw [show (fun u : ℝ => a + b * u + c * v + e * (u * v)) = (fun u : ℝ => (a + c * v) + (b + e * v) * u) from by
      funext u; ring]
    rw [integral_affine]
    ring
  simp only [h2]
  rw [integral_affine]

/-- Non-negative on non-negative matrices with increasing grids. -/
theorem C47_nonneg (M : Mat ℝ) (x y : Vec ℝ) (hn : 2 ≤ M.cols) (hx : x.len = M.cols) (hy : y.len = M.rows) (d : ℝ) (hd0 : 0 ≤ d)
    (hd : ∀ i, i + 1 < M.cols → x.get (i + 1) - x.get i = d) (hinc : ∀ j, j + 1 < M.rows → y.get j ≤ y.get (j + 1))
    (hM : ∀ r < M.rows, ∀ c < M.cols, 0 ≤ M.get r c) : ∃ I, integrate2d M (some x) (some y) = .ok I ∧ 0 ≤ I := by
  refine ⟨_, C47_trapezoidal M x y hn hx hy d hd, ?_⟩
  unfold trapz2
  refine trapz_nonneg hinc (fun j hj => trapz_nonneg (fun i hi => ?_) (fun i hi => hM j hj i hi))
  have := hd i hi
  linarith

/-- Translating either grid changes nothing. -/
theorem C47_translation (M : Mat ℝ) (x y : Vec ℝ) (hn : 1 ≤ M.cols) (hx : 2 ≤ x.len) (hy : y.len = M.rows) (a b : ℝ) :
    integrate2d M (some (x.map (· + a))) (some (y.map (· + b))) = integrate2d M (some x) (some y) := by
  rw [integrate2d_eq M x y (by omega) hx hy, integrate2d_eq M (x.map (· + a)) (y.map (· + b)) (by omega) hx hy]
  congr 1
  simp only [Vec.map_get]
  have : (y.map (· + b)).get = fun j => y.get j + b := by funext j; simp
  rw [this, trapz_shift]
  congr 1
  funext j
  ring

/-- On a non-uniform column grid it is not the trapezoidal rule: only the first step of the grid is used. -/
theorem C47_nonuniform_wrong : ∃ (M : Mat ℝ) (x y : Vec ℝ), 2 ≤ M.cols ∧ x.len = M.cols ∧ y.len = M.rows ∧
    (∀ i, i + 1 < M.cols → x.get i < x.get (i + 1)) ∧ integrate2d M (some x) (some y) ≠ .ok (trapz2 M x.get y.get) := by
  refine ⟨⟨2, 3, fun _ _ => 1⟩, ⟨3, fun i => (i : ℝ) ^ 2⟩, ⟨2, fun j => j⟩, by norm_num, rfl, rfl, ?_, ?_⟩
  · intro i _
    simp only
    push_cast
    nlinarith [Nat.cast_nonneg (α := ℝ) i]
  · rw [integrate2d_eq _ _ _ (by norm_num) (by norm_num) rfl]
    intro h
    injection h with h
    unfold trapz2 trapz at h
    norm_num [Finset.sum_range_succ] at h

example : integrate2d ⟨2, 2, fun _ _ => 1⟩ none none = .ok 1 := by
  rw [C47_default _ (by norm_num)]
  unfold trapz2 trapz
  norm_num

/-! ## C48 -/

/-- `derive_window` in closed form, for two samples or more. -/
theorem deriveWindow_eq (w : Vec ℝ) (hn : 2 ≤ w.len) : ∃ dw, deriveWindow w = .ok dw ∧ dw.len = w.len ∧
    (∀ k, 1 ≤ k → k + 1 < w.len → dw.get k = (w.get (k + 1) - w.get (k - 1)) / 2) ∧
    dw.get 0 = (w.get 0 + w.get 1) / 2 + (w.get 0 - w.get (w.len - 1)) / (w.len - 1) / 2 ∧
    dw.get (w.len - 1) = -(w.get (w.len - 2) + w.get (w.len - 1)) / 2 + (w.get 0 - w.get (w.len - 1)) / (w.len - 1) / 2 := by
  set n := w.len with hnn
  have hn0 : ((n : ℝ) - 1) ≠ 0 := by
    have : (2 : ℝ) ≤ n := by exact_mod_cast hn
    linarith
  set w0 := w.get 0
  set wl := w.get (n - 1) with hwl
  set ramp := (w0 - wl) / ((n : ℝ) - 1) with hramp
  set lh : ℝ := ((n : ℝ) - 1) / 2 with hlh
  have hi0 : w.item 0 = .ok w0 := by rw [Vec.item_ok (by norm_num) (by omega)]; rfl
  have hil : ∀ v : Vec ℝ, v.len = n → v.item (-1) = .ok (v.get (n - 1)) := by
    intro v hv
    unfold Vec.item
    rw [if_pos (by unfold IdxOk; omega)]
    congr 2
    unfold wrapIdx
    rw [if_pos (by norm_num), hv]
    omega
  have hlen : (arangeF (-lh) (lh + 1)).len = n := by
    show ⌈lh + 1 - -lh⌉.toNat = n
    have : lh + 1 - -lh = ((n : ℤ) : ℝ) := by rw [hlh]; push_cast; ring
    rw [this, Int.ceil_intCast]; simp
  have e20 : ∀ a : ℝ, a / 2.0 = a / 2 := by intro a; norm_num
  set B : ℕ → ℝ := fun j => if j < 1 then 0 else if j < 1 + n then
      w.get (j - 1) - (w0 + wl) / 2 - ramp * (-lh + ((j - 1 : ℕ) : ℝ)) else 0 with hB
  set D : ℕ → ℝ := fun k => (B (k + 2) - B k) / 2 + ramp with hD
  have hok : deriveWindow w = .ok ⟨n, Function.update (Function.update D 0 (D 0 + (w0 + wl) / 2)) (n - 1)
      (D (n - 1) - (w0 + wl) / 2)⟩ := by
    unfold deriveWindow
    rw [hi0, ok_bind, hil w rfl, ok_bind]
    simp only [← hnn, ← hwl, e20]
    rw [if_neg (by omega), ← hramp, ← hlh, Vec.bcast_ok (by rw [hlen]), ok_bind]
    set base : Vec ℝ := ((⟨1, fun _ => 0⟩ : Vec ℝ).append ⟨w.len, fun i => w.get i - (w0 + wl) / 2
      - ramp * (arangeF (-lh) (lh + 1)).get i⟩).append ⟨1, fun _ => 0⟩ with hbase
    have hbl : base.len = n + 2 := by
      rw [hbase]; simp only [Vec.append_len]; omega
    have hbg : base.get = B := by
      funext j
      show (if j < 1 + w.len then (if j < 1 then (0 : ℝ) else
          w.get (j - 1) - (w0 + wl) / 2 - ramp * (-lh + ((j - 1 : ℕ) : ℝ))) else 0) = (if j < 1 then 0 else if j < 1 + w.len then
          w.get (j - 1) - (w0 + wl) / 2 - ramp * (-lh + ((j - 1 : ℕ) : ℝ)) else 0)
      split_ifs <;> rfl
    have c1 : Vec.clampIdx base.len 2 = 2 := by rw [hbl]; unfold Vec.clampIdx; simp
    have c2 : Vec.clampIdx base.len ((n : ℤ) + 2) = n + 2 := by rw [hbl]; unfold Vec.clampIdx; split <;> omega
    have c3 : Vec.clampIdx base.len 0 = 0 := by unfold Vec.clampIdx; simp
    have c4 : Vec.clampIdx base.len (n : ℤ) = n := by rw [hbl]; unfold Vec.clampIdx; split <;> omega
    rw [Vec.bcast_ok (by simp only [Vec.slice, c1, c2, c3, c4]; omega), ok_bind]
    simp only [Vec.slice, c1, c2, c3, c4, Vec.map, hbg, Nat.add_sub_cancel, zero_add]
    have eD : (fun i => (B (2 + i) - B i) / 2 + ramp) = D := by
      funext i; rw [hD]; simp only [add_comm 2 i]
    rw [eD, Vec.item_ok (by norm_num) (by simp only; omega), ok_bind, setItem_ok (by norm_num) (by simp only; omega), ok_bind]
    show ((⟨n, Function.update D 0 (D 0 + (w0 + wl) / 2)⟩ : Vec ℝ).item (-1) >>= fun dl =>
      (⟨n, Function.update D 0 (D 0 + (w0 + wl) / 2)⟩ : Vec ℝ).setItem (-1) (dl - (w0 + wl) / 2)) = _
    rw [hil ⟨n, Function.update D 0 (D 0 + (w0 + wl) / 2)⟩ rfl, ok_bind]
    unfold Vec.setItem
    rw [if_pos (by unfold IdxOk; simp only; omega)]
    have hw : wrapIdx n (-1) = n - 1 := by unfold wrapIdx; rw [if_pos (by norm_num)]; omega
    simp only [hw]
    rw [Function.update_of_ne (by omega : n - 1 ≠ 0)]
  have hBj : ∀ j, j < n → B (j + 1) = w.get j - (w0 + wl) / 2 - ramp * (-lh + (j : ℝ)) := by
    intro j hj
    rw [hB]
    simp only
    rw [if_neg (by omega), if_pos (by omega), Nat.add_sub_cancel]
  have hr2 : ramp * ((n : ℝ) - 1) = w0 - wl := by rw [hramp]; field_simp
  refine ⟨_, hok, rfl, ?_, ?_, ?_⟩
  · intro k hk1 hk2
    simp only
    rw [Function.update_of_ne (by omega), Function.update_of_ne (by omega), hD]
    simp only
    obtain ⟨j, rfl⟩ : ∃ j, k = j + 1 := ⟨k - 1, by omega⟩
    rw [hBj j (by omega), show j + 1 + 2 = (j + 1 + 1) + 1 from rfl, hBj (j + 1 + 1) (by omega), Nat.add_sub_cancel]
    push_cast
    ring
  · simp only
    rw [Function.update_of_ne (by omega), Function.update_self, hD]
    simp only
    have hB0 : B 0 = 0 := by rw [hB]; simp
    rw [hB0, show 0 + 2 = 1 + 1 from rfl, hBj 1 (by omega), hlh]
    push_cast
    linarith
  · simp only
    rw [Function.update_self, hD]
    simp only
    have hBn : B (n - 1 + 2) = 0 := by
      rw [hB]; simp only; rw [if_neg (by omega), if_neg (by omega)]
    obtain ⟨j, hj⟩ : ∃ j, n = j + 2 := ⟨n - 2, by omega⟩
    have e1 : n - 1 = j + 1 := by omega
    have e2 : n - 2 = j := by omega
    rw [hBn, e1, hBj j (by omega), e2, hlh]
    have hjr : (n : ℝ) = j + 2 := by rw [hj]; push_cast; ring
    rw [hjr] at hr2 ⊢
    linarith

/-- Interior samples are centred differences; the two ends are as stated; nothing raises from two samples on. -/
theorem C48_centred_difference (w : Vec ℝ) (hn : 2 ≤ w.len) : ∃ dw, deriveWindow w = .ok dw ∧ dw.len = w.len ∧
    (∀ k, 1 ≤ k → k + 1 < w.len → dw.get k = (w.get (k + 1) - w.get (k - 1)) / 2) ∧
    dw.get 0 = (w.get 0 + w.get 1) / 2 + (w.get 0 - w.get (w.len - 1)) / (w.len - 1) / 2 ∧
    dw.get (w.len - 1) = -(w.get (w.len - 2) + w.get (w.len - 1)) / 2 + (w.get 0 - w.get (w.len - 1)) / (w.len - 1) / 2 :=
  deriveWindow_eq w hn

/-- Symmetric windows have antisymmetric derivatives; the middle sample of an odd symmetric window has derivative zero. -/
theorem C48_antisymmetric (w : Vec ℝ) (hn : 2 ≤ w.len) (hs : ∀ k < w.len, w.get (w.len - 1 - k) = w.get k) (dw : Vec ℝ)
    (h : deriveWindow w = .ok dw) : (∀ k < w.len, dw.get (w.len - 1 - k) = -dw.get k) ∧
      ∀ L, w.len = 2 * L + 1 → dw.get L = 0 := by
  obtain ⟨dw', h', hl, hi, h0, he⟩ := deriveWindow_eq w hn
  rw [h] at h'
  injection h' with h'
  subst h'
  have hend : w.get (w.len - 1) = w.get 0 := by simpa using hs 0 (by omega)
  have hend2 : w.get (w.len - 2) = w.get 1 := by
    have := hs 1 (by omega)
    rwa [show w.len - 1 - 1 = w.len - 2 from by omega] at this
  have hE : dw.get (w.len - 1) = -dw.get 0 := by
    rw [h0, he, hend, hend2]; ring
  have hall : ∀ k < w.len, dw.get (w.len - 1 - k) = -dw.get k := by
    intro k hk
    by_cases hk0 : k = 0
    · subst hk0; simpa using hE
    · by_cases hk1 : k = w.len - 1
      · subst hk1; rw [Nat.sub_self, hE, neg_neg]
      · rw [hi k (by omega) (by omega), hi (w.len - 1 - k) (by omega) (by omega)]
        have e1 : w.get (w.len - 1 - k + 1) = w.get (k - 1) := by
          rw [← hs (k - 1) (by omega)]; congr 1; omega
        have e2 : w.get (w.len - 1 - k - 1) = w.get (k + 1) := by
          rw [← hs (k + 1) (by omega)]; congr 1
        rw [e1, e2]; ring
  refine ⟨hall, fun L hL => ?_⟩
  have := hall L (by omega)
  rw [show w.len - 1 - L = L from by omega] at this
  linarith

/-- The samples of the derivative sum to the slope between the two ends (so to zero when the ends agree). -/
theorem C48_sum (w : Vec ℝ) (hn : 2 ≤ w.len) (dw : Vec ℝ) (h : deriveWindow w = .ok dw) :
    dw.sum = (w.get 0 - w.get (w.len - 1)) / (w.len - 1) := by
  obtain ⟨dw', h', hl, hi, h0, he⟩ := deriveWindow_eq w hn
  rw [h] at h'
  injection h' with h'
  subst h'
  have hsum : ∀ m, m + 1 < w.len → ∑ k ∈ range (m + 1), dw.get k
      = dw.get 0 + (w.get m + w.get (m + 1) - w.get 0 - w.get 1) / 2 := by
    intro m
    induction m with
    | zero => intro _; simp
    | succ m ih =>
      intro hm
      rw [Finset.sum_range_succ, ih (by omega), hi (m + 1) (by omega) hm, Nat.add_sub_cancel]
      ring
  obtain ⟨j, hj⟩ : ∃ j, w.len = j + 2 := ⟨w.len - 2, by omega⟩
  unfold Vec.sum
  rw [hl, hj, Finset.sum_range_succ, hsum j (by omega)]
  rw [hj] at h0 he
  simp only [show j + 2 - 1 = j + 1 from rfl, show j + 2 - 2 = j from rfl] at h0 he ⊢
  rw [h0, he]
  ring

/-- An empty window raises `IndexError`; a one-sample window yields NaN. -/
theorem C48_short (w : Vec ℝ) : (w.len = 0 → deriveWindow w = .error .indexError) ∧
    (w.len = 1 → deriveWindow w = .error .nonFinite) := by
  constructor
  · intro h
    unfold deriveWindow
    rw [Vec.item_error (by rw [h]; norm_num)]
    rfl
  · intro h
    unfold deriveWindow
    rw [Vec.item_ok (by norm_num) (by rw [h]; norm_num), ok_bind]
    unfold Vec.item
    rw [if_pos (by rw [h]; unfold IdxOk; norm_num), ok_bind, if_pos h]

example : ∃ dw, deriveWindow ⟨3, fun k => if k = 1 then 1 else 0⟩ = .ok dw ∧ dw.get 0 = 1 / 2 ∧ dw.get 1 = 0 ∧ dw.get 2 = -1 / 2 := by
  obtain ⟨dw, h1, h2, h3, h4, h5⟩ := C48_centred_difference ⟨3, fun k => if k = 1 then 1 else 0⟩ (by norm_num)
  refine ⟨dw, h1, ?_, ?_, ?_⟩
  · rw [h4]; norm_num
  · rw [h3 1 (by norm_num) (by norm_num)]; norm_num
  · simp only at h5
    norm_num at h5
    rw [h5]; norm_num

/-- `get_spectrum` puts the power of DFT bin `k` at the place of its frequency: the samples are `|X[k]|²` read from the most negative
frequency on, and they sum to `n` times the energy. -/
theorem C48_spectrum (x : Vec ℂ) (hx : x.len ≠ 0) : ∃ s, getSpectrum x = .ok s ∧ s.len = x.len ∧
    (∀ k < x.len, s.get k = ‖dtft x (((k : ℝ) - (x.len / 2 : ℕ)) / x.len)‖ ^ 2) ∧ s.sum = x.len * energy x := by
  set n := x.len with hn
  have hok : getSpectrum x = .ok ⟨n, fun i => ‖dftC n x.get (((i + (n - n / 2)) % n : ℕ) : ℤ)‖ ^ 2⟩ := by
    unfold getSpectrum
    rw [fft_ok hx, ok_bind]
    rfl
  refine ⟨_, hok, rfl, ?_, ?_⟩
  · intro k hk
    simp only
    congr 2
    have hdvd : (n : ℤ) ∣ (((k + (n - n / 2)) % n : ℕ) : ℤ) - ((k : ℤ) - (n / 2 : ℕ)) := by
      have := Nat.mod_add_div (k + (n - n / 2)) n
      have h6 : (((k + (n - n / 2)) % n + n * ((k + (n - n / 2)) / n) : ℕ) : ℤ) = ((k + (n - n / 2) : ℕ) : ℤ) := by
        rw [this]
      refine ⟨1 - ((k + (n - n / 2)) / n : ℕ), ?_⟩
      rw [Nat.cast_add, Nat.cast_add, Nat.cast_mul, Nat.cast_sub (Nat.div_le_self n 2)] at h6
      linarith
    rw [dftC_periodic hx _ hdvd]
    unfold dftC dtft
    apply Finset.sum_congr rfl
    intro j _
    rw [rootPow_eq_expi]
    congr 3
    rw [Int.cast_mul, Int.cast_sub, Int.cast_natCast, Int.cast_natCast, Int.cast_natCast]
    ring
  · unfold Vec.sum
    simp only
    rw [sum_rotate (n - n / 2) (fun r => ‖dftC n x.get (r : ℤ)‖ ^ 2), parseval hx]
    rfl

end Tftb
