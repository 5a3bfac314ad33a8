import Verif.Props.Gabor
import Verif.Props.Conj
import Mathlib.Data.Matrix.Mul
import Mathlib.LinearAlgebra.FiniteDimensional.Basic

/-! # C121: shifts, symmetries and uniqueness of Gabor coefficients -/

namespace Tftb.Props

open Finset Spec Utils Gabor ComplexConjugate

/-- A lattice of `Q b` instants and `Q b` frequencies for signals of `Q b²` samples, with a window of odd length which fits at position `s`. -/
structure SquareLattice (Q b s : ℕ) (w : Vec ℝ) : Prop where
  hb : 1 ≤ b
  hQ : 1 ≤ Q
  odd : w.len % 2 = 1
  start : (s : ℤ) = windowStart Q b w.len
  fit : s + w.len ≤ Q * b * b

/-- The signal put together from coefficients `C` (frequency, instant) with the window `h`. -/
noncomputable def synthesis (Q b : ℕ) (h : Vec ℂ) (C : ℕ → ℕ → ℂ) : Vec ℂ :=
  ⟨Q * b * b, fun j => ∑ n ∈ range (Q * b), ∑ r ∈ range (Q * b), C r n
    * cyc h ((j : ℤ) - ((Q * b * b / 2 : ℕ) : ℤ) - n * b) * expi (2 * Real.pi * (r * j / ((Q * b : ℕ) : ℝ)))⟩

/-- The closed form of `C59_coefficients` with powers of a root of unity. -/
theorem gabor_coeff {Q b s : ℕ} {w : Vec ℝ} (H : SquareLattice Q b s w) :
    ∃ gam : Vec ℝ, gam.len = Q * b * b ∧ ∀ x : Vec ℂ, x.len = Q * b * b → ∃ R, gabor x (some (Q * b)) (some Q) (some w) = .ok R ∧
      R.gam = gam ∧ R.dgr.rows = Q * b ∧ R.dgr.cols = Q * b ∧
      (∀ r < Q * b, ∀ n < Q * b, R.tfr.get r n = ‖R.dgr.get r n‖ ^ 2) ∧
      ∀ r < Q * b, ∀ n < Q * b, R.dgr.get r n
        = ∑ j ∈ range (Q * b * b), x.get j * cyc (gam.map Complex.ofReal) ((j : ℤ) - ((Q * b * b / 2 : ℕ) : ℤ) - n * b) * rootPow (Q * b) ((r : ℤ) * j) := by
  obtain ⟨gam, h1, -, h3⟩ := C59_coefficients Q b s H.hb H.hQ w H.odd H.start H.fit
  refine ⟨gam, h1, fun x hx => ?_⟩
  obtain ⟨R, h4, h5, h6, h7, -, -, h10, h11⟩ := h3 x hx
  refine ⟨R, h4, h5, h6, h7, h10, fun r hr n hn => ?_⟩
  rw [h11 r hr n hn]
  refine Finset.sum_congr rfl fun j _ => ?_
  rw [rootPow_eq_expi]
  push_cast
  rfl

/-- Shifting a periodic summand. -/
theorem sum_shift_periodic {M : Type} [AddCommMonoid M] {Q : ℕ} (hQ : Q ≠ 0) (F : ℤ → M) (hF : ∀ t, F (t % Q) = F t) (c : ℤ) :
    ∑ l ∈ range Q, F (l - c) = ∑ l ∈ range Q, F l := by
  have h1 := sum_reflect_periodic hQ (fun t => F (-t)) (fun t => by
    rw [← hF (-(t % Q)), ← hF (-t)]
    congr 1
    rw [Int.emod_eq_emod_iff_emod_sub_eq_zero]
    apply Int.emod_eq_zero_of_dvd
    have : -(t % (Q : ℤ)) - -t = t - t % Q := by ring
    rw [this]
    exact Int.dvd_self_sub_emod) c
  have h2 := sum_reflect_periodic hQ F hF 0
  have e1 : ∀ l : ℕ, -(c - (l : ℤ)) = l - c := fun l => by ring
  have e2 : ∀ l : ℕ, 0 - (l : ℤ) = -l := fun l => by ring
  simp only [e1] at h1
  simp only [e2] at h2
  rw [h1, h2]

/-- **Frequency shifts.**  Multiplying the signal by the exponential of frequency `m / (Q b)` rolls the coefficients and their squared moduli by `m` rows. -/
theorem C121_modulate (Q b s : ℕ) (w : Vec ℝ) (H : SquareLattice Q b s w) (x : Vec ℂ) (hx : x.len = Q * b * b) (m : ℤ) :
    ∃ X Y, gabor x (some (Q * b)) (some Q) (some w) = .ok X ∧ gabor (modulateBins m (Q * b) x) (some (Q * b)) (some Q) (some w) = .ok Y ∧
      ∀ r < Q * b, ∀ n < Q * b, Y.dgr.get r n = X.dgr.get (rollRow (Q * b) m r) n ∧ Y.tfr.get r n = X.tfr.get (rollRow (Q * b) m r) n := by
  have hm : Q * b ≠ 0 := Nat.mul_ne_zero (by have := H.hQ; omega) (by have := H.hb; omega)
  obtain ⟨gam, -, h⟩ := gabor_coeff H
  obtain ⟨X, x1, -, -, -, x5, x6⟩ := h x hx
  obtain ⟨Y, y1, -, -, -, y5, y6⟩ := h (modulateBins m (Q * b) x) hx
  have key : ∀ r < Q * b, ∀ n < Q * b, Y.dgr.get r n = X.dgr.get (rollRow (Q * b) m r) n := by
    intro r hr n hn
    rw [y6 r hr n hn, x6 _ (rollRow_lt hm m r) n hn]
    refine Finset.sum_congr rfl fun j _ => ?_
    have e : (modulateBins m (Q * b) x).get j = x.get j * rootPow (Q * b) (-(m * j)) := by
      show x.get j * expi _ = _
      rw [rootPow_eq_expi]
      congr 2
      push_cast
      ring
    have e2 : rootPow (Q * b) ((rollRow (Q * b) m r : ℕ) * (j : ℤ)) = rootPow (Q * b) (-(m * j)) * rootPow (Q * b) ((r : ℤ) * j) := by
      rw [← rootPow_add]
      apply rootPow_congr hm
      unfold rollRow
      rw [Int.toNat_of_nonneg (Int.emod_nonneg _ (by exact_mod_cast hm)), Int.emod_def]
      exact ⟨-(((r : ℤ) - m) / ((Q * b : ℕ) : ℤ)) * j, by ring⟩
    rw [e, e2]
    ring
  exact ⟨X, Y, x1, y1, fun r hr n hn => ⟨key r hr n hn, by rw [y5 r hr n hn, x5 _ (rollRow_lt hm m r) n hn, key r hr n hn]⟩⟩

/-- **Delays.**  A circular delay by `p` time steps (of `b` samples) rolls the squared moduli by `p` columns, and the coefficients up to a phase of the row. -/
theorem C121_delay (Q b s : ℕ) (w : Vec ℝ) (H : SquareLattice Q b s w) (x y : Vec ℂ) (hx : x.len = Q * b * b) (hy : y.len = Q * b * b) (p : ℤ)
    (hxy : ∀ j < y.len, y.get j = cyc x ((j : ℤ) - p * b)) :
    ∃ X Y, gabor x (some (Q * b)) (some Q) (some w) = .ok X ∧ gabor y (some (Q * b)) (some Q) (some w) = .ok Y ∧
      ∀ r < Q * b, ∀ n < Q * b, Y.dgr.get r n = expi (-(2 * Real.pi * (r * p / (Q : ℝ)))) * X.dgr.get r (rollRow (Q * b) p n) ∧
        Y.tfr.get r n = X.tfr.get r (rollRow (Q * b) p n) := by
  have hb0 : b ≠ 0 := by have := H.hb; omega
  have hQ0 : Q ≠ 0 := by have := H.hQ; omega
  have hm : Q * b ≠ 0 := Nat.mul_ne_zero hQ0 hb0
  have hL : Q * b * b ≠ 0 := Nat.mul_ne_zero hm hb0
  obtain ⟨gam, hg, h⟩ := gabor_coeff H
  obtain ⟨X, x1, -, -, -, x5, x6⟩ := h x hx
  obtain ⟨Y, y1, -, -, -, y5, y6⟩ := h y hy
  have key : ∀ r < Q * b, ∀ n < Q * b, Y.dgr.get r n = expi (-(2 * Real.pi * (r * p / (Q : ℝ)))) * X.dgr.get r (rollRow (Q * b) p n) := by
    intro r hr n hn
    rw [y6 r hr n hn, x6 r hr _ (rollRow_lt hm p n)]
    set γ := gam.map Complex.ofReal with hγ
    have hγl : γ.len = Q * b * b := hg
    set c : ℤ := ((Q * b * b / 2 : ℕ) : ℤ) with hc
    have hper := sum_shift_periodic hL (fun t : ℤ => cyc x t * cyc γ (t + p * b - c - n * b) * rootPow (Q * b) ((r : ℤ) * (t + p * b))) (fun t => by
      have e : t % ((Q * b * b : ℕ) : ℤ) = t - ((Q * b * b : ℕ) : ℤ) * (t / ((Q * b * b : ℕ) : ℤ)) := Int.emod_def _ _
      generalize t / ((Q * b * b : ℕ) : ℤ) = v at e
      rw [e]
      congr 1
      · congr 1
        · apply cyc_congr
          rw [hx]
          exact ⟨-v, by ring⟩
        · apply cyc_congr
          rw [hγl]
          exact ⟨-v, by ring⟩
      · apply rootPow_congr hm
        exact ⟨-(r * b * v), by push_cast; ring⟩) (p * b)
    have e1 : ∀ j ∈ range (Q * b * b), y.get j * cyc γ ((j : ℤ) - c - n * b) * rootPow (Q * b) ((r : ℤ) * j)
        = cyc x ((j : ℤ) - p * b) * cyc γ ((j : ℤ) - p * b + p * b - c - n * b) * rootPow (Q * b) ((r : ℤ) * ((j : ℤ) - p * b + p * b)) := by
      intro j hj
      rw [hxy j (by rw [hy]; exact Finset.mem_range.1 hj), sub_add_cancel]
    rw [Finset.sum_congr rfl e1]
    refine hper.trans ?_
    rw [Finset.mul_sum]
    refine Finset.sum_congr rfl fun j hj => ?_
    have e2 : cyc x (j : ℤ) = x.get j := by
      unfold Spec.cyc
      rw [Int.emod_eq_of_lt (by omega) (by rw [hx]; exact_mod_cast Finset.mem_range.1 hj), Int.toNat_natCast]
    have e3 : cyc γ ((j : ℤ) + p * b - c - n * b) = cyc γ ((j : ℤ) - c - (rollRow (Q * b) p n : ℕ) * b) := by
      apply cyc_congr
      rw [hγl]
      unfold rollRow
      rw [Int.toNat_of_nonneg (Int.emod_nonneg _ (by exact_mod_cast hm)), Int.emod_def]
      exact ⟨-(((n : ℤ) - p) / ((Q * b : ℕ) : ℤ)), by push_cast; ring⟩
    have e4 : rootPow (Q * b) ((r : ℤ) * ((j : ℤ) + p * b)) = expi (-(2 * Real.pi * (r * p / (Q : ℝ)))) * rootPow (Q * b) ((r : ℤ) * j) := by
      rw [mul_add, rootPow_add, mul_comm]
      congr 1
      rw [rootPow_eq_expi]
      congr 1
      have : (b : ℝ) ≠ 0 := Nat.cast_ne_zero.2 hb0
      have : (Q : ℝ) ≠ 0 := Nat.cast_ne_zero.2 hQ0
      push_cast
      field_simp
    rw [e2, e3, e4]
    ring
  refine ⟨X, Y, x1, y1, fun r hr n hn => ⟨key r hr n hn, ?_⟩⟩
  rw [y5 r hr n hn, x5 r hr _ (rollRow_lt hm p n), key r hr n hn, norm_mul, norm_expi, one_mul]

/-- **Conjugates.**  The coefficients of the conjugate signal are the conjugates, mirrored in frequency; so the representation of a real signal is symmetric. -/
theorem C121_conj (Q b s : ℕ) (w : Vec ℝ) (H : SquareLattice Q b s w) (x y : Vec ℂ) (hx : x.len = Q * b * b) (hxy : IsConj x y) :
    ∃ X Y, gabor x (some (Q * b)) (some Q) (some w) = .ok X ∧ gabor y (some (Q * b)) (some Q) (some w) = .ok Y ∧
      ∀ r < Q * b, ∀ n < Q * b, Y.dgr.get r n = conj (X.dgr.get (flipRow (Q * b) r) n) ∧ Y.tfr.get r n = X.tfr.get (flipRow (Q * b) r) n := by
  have hm : Q * b ≠ 0 := Nat.mul_ne_zero (by have := H.hQ; omega) (by have := H.hb; omega)
  obtain ⟨gam, -, h⟩ := gabor_coeff H
  obtain ⟨X, x1, -, -, -, x5, x6⟩ := h x hx
  obtain ⟨Y, y1, -, -, -, y5, y6⟩ := h y (hxy.1.trans hx)
  have key : ∀ r < Q * b, ∀ n < Q * b, Y.dgr.get r n = conj (X.dgr.get (flipRow (Q * b) r) n) := by
    intro r hr n hn
    rw [y6 r hr n hn, x6 _ (flipRow_lt hm r) n hn, map_sum]
    refine Finset.sum_congr rfl fun j hj => ?_
    rw [map_mul, map_mul, conj_rootPow, hxy.2 j (by rw [hx]; exact Finset.mem_range.1 hj)]
    congr 1
    · congr 1
      exact (Complex.conj_ofReal _).symm
    · apply rootPow_congr hm
      obtain ⟨q, hq⟩ := flipRow_dvd hr
      exact ⟨-q * j, by linear_combination (-(j : ℤ)) * hq⟩
  refine ⟨X, Y, x1, y1, fun r hr n hn => ⟨key r hr n hn, ?_⟩⟩
  rw [y5 r hr n hn, x5 _ (flipRow_lt hm r) n hn, key r hr n hn, Complex.norm_conj]

/-- **Uniqueness.**  Where the Zak transform of the window is nowhere below the threshold, signals with the same coefficients are the same. -/
theorem C121_injective (Q b s : ℕ) (w : Vec ℝ) (H : SquareLattice Q b s w) (hpow : ∀ k < b, ∀ r < b, eps ≤ zakPower Q b (placed (Q * b * b) s w) k r)
    (x y : Vec ℂ) (hx : x.len = Q * b * b) (hy : y.len = Q * b * b) (X Y : GaborResult) (hX : gabor x (some (Q * b)) (some Q) (some w) = .ok X)
    (hY : gabor y (some (Q * b)) (some Q) (some w) = .ok Y) :
    (∀ r < Q * b, ∀ n < Q * b, X.dgr.get r n = Y.dgr.get r n) ↔ ∀ j < Q * b * b, x.get j = y.get j := by
  constructor
  · intro he j hj
    obtain ⟨X', x1, -, -, x4⟩ := C59_reconstruction Q b s H.hb H.hQ w H.odd H.start H.fit hpow x hx
    obtain ⟨Y', y1, -, -, y4⟩ := C59_reconstruction Q b s H.hb H.hQ w H.odd H.start H.fit hpow y hy
    obtain rfl := Except.ok.inj (hX.symm.trans x1)
    obtain rfl := Except.ok.inj (hY.symm.trans y1)
    rw [x4 j (by omega), y4 j (by omega)]
    refine Finset.sum_congr rfl fun n hn => Finset.sum_congr rfl fun r hr => ?_
    rw [he r (Finset.mem_range.1 hr) n (Finset.mem_range.1 hn)]
  · intro he r hr n hn
    obtain ⟨gam, -, h⟩ := gabor_coeff H
    obtain ⟨X', x1, -, -, -, -, x6⟩ := h x hx
    obtain ⟨Y', y1, -, -, -, -, y6⟩ := h y hy
    obtain rfl := Except.ok.inj (hX.symm.trans x1)
    obtain rfl := Except.ok.inj (hY.symm.trans y1)
    rw [x6 r hr n hn, y6 r hr n hn]
    refine Finset.sum_congr rfl fun j hj => ?_
    rw [he j (Finset.mem_range.1 hj)]

/-- **Critical sampling.**  Without oversampling every matrix of coefficients is the one `gabor` returns for the signal put together from it with the window: the shifted and modulated
windows are biorthogonal to the dual ones. -/
theorem C121_critical (b s : ℕ) (w : Vec ℝ) (H : SquareLattice 1 b s w) (hpow : ∀ k < b, ∀ r < b, eps ≤ zakPower 1 b (placed (1 * b * b) s w) k r)
    (C : ℕ → ℕ → ℂ) :
    ∃ R, gabor (synthesis 1 b (placed (1 * b * b) s w) C) (some (1 * b)) (some 1) (some w) = .ok R ∧ R.dgr.rows = 1 * b ∧ R.dgr.cols = 1 * b ∧
      ∀ r < 1 * b, ∀ n < 1 * b, R.dgr.get r n = C r n := by
  obtain ⟨gam, hg, h⟩ := gabor_coeff H
  set hw := placed (1 * b * b) s w with hhw
  set γ := gam.map Complex.ofReal with hγ
  set c : ℤ := ((1 * b * b / 2 : ℕ) : ℤ) with hc
  -- analysis and synthesis as matrices
  let A : Matrix (Fin (1 * b) × Fin (1 * b)) (Fin (1 * b * b)) ℂ := fun i j => cyc γ ((j : ℕ) - c - (i.2 : ℕ) * b) * rootPow (1 * b) (((i.1 : ℕ) : ℤ) * (j : ℕ))
  let S : Matrix (Fin (1 * b * b)) (Fin (1 * b) × Fin (1 * b)) ℂ := fun j i => cyc hw ((j : ℕ) - c - (i.2 : ℕ) * b) * expi (2 * Real.pi * ((i.1 : ℕ) * (j : ℕ) / ((1 * b : ℕ) : ℝ)))
  have hSA : S * A = 1 := by
    ext j l
    obtain ⟨R, r1, -, -, r4⟩ := C59_reconstruction 1 b s H.hb H.hQ w H.odd H.start H.fit hpow ⟨1 * b * b, fun i => if i = (l : ℕ) then 1 else 0⟩ rfl
    obtain ⟨R', r1', -, -, -, -, r6⟩ := h ⟨1 * b * b, fun i => if i = (l : ℕ) then 1 else 0⟩ rfl
    obtain rfl := Except.ok.inj (r1.symm.trans r1')
    have h1 := r4 j j.2
    dsimp only at h1
    have h2 : (if (j : ℕ) = (l : ℕ) then (1 : ℂ) else 0) = (1 : Matrix (Fin (1 * b * b)) (Fin (1 * b * b)) ℂ) j l := by
      rw [Matrix.one_apply]
      simp only [Fin.ext_iff]
    rw [← h2, h1, Matrix.mul_apply, Fintype.sum_prod_type_right, Finset.sum_range]
    refine Finset.sum_congr rfl fun n _ => ?_
    rw [Finset.sum_range]
    refine Finset.sum_congr rfl fun r _ => ?_
    rw [r6 r r.2 n n.2, Finset.sum_eq_single (l : ℕ)]
    · simp only [if_true, S, A]
      ring
    · intro i _ hi
      simp only [if_neg hi, zero_mul]
    · intro hl
      exact absurd (Finset.mem_range.2 l.2) hl
  have hAS : A * S = 1 := (Matrix.mul_eq_one_comm_of_card_eq _ _ _ (by simp)).1 hSA
  obtain ⟨R, r1, -, r3, r4, -, r6⟩ := h (synthesis 1 b hw C) rfl
  refine ⟨R, r1, r3, r4, fun r hr n hn => ?_⟩
  rw [r6 r hr n hn, Finset.sum_range]
  have e : ∀ j : Fin (1 * b * b), (synthesis 1 b hw C).get j * cyc γ ((j : ℕ) - c - (n : ℤ) * b) * rootPow (1 * b) ((r : ℤ) * (j : ℕ))
      = ∑ i : Fin (1 * b) × Fin (1 * b), A (⟨r, hr⟩, ⟨n, hn⟩) j * S j i * C i.1 i.2 := by
    intro j
    rw [Fintype.sum_prod_type_right]
    show (∑ n ∈ range (1 * b), ∑ r ∈ range (1 * b), C r n * cyc hw ((j : ℕ) - c - n * b) * expi (2 * Real.pi * (r * (j : ℕ) / ((1 * b : ℕ) : ℝ)))) * _ * _ = _
    rw [Finset.sum_range, Finset.sum_mul, Finset.sum_mul]
    refine Finset.sum_congr rfl fun n' _ => ?_
    rw [Finset.sum_range, Finset.sum_mul, Finset.sum_mul]
    refine Finset.sum_congr rfl fun r' _ => ?_
    simp only [A, S]
    ring
  rw [Finset.sum_congr rfl fun j _ => e j, Finset.sum_comm]
  have e2 : ∀ i : Fin (1 * b) × Fin (1 * b), ∑ j, A (⟨r, hr⟩, ⟨n, hn⟩) j * S j i * C i.1 i.2 = (A * S) (⟨r, hr⟩, ⟨n, hn⟩) i * C i.1 i.2 := by
    intro i
    rw [Matrix.mul_apply, Finset.sum_mul]
  rw [Finset.sum_congr rfl fun i _ => e2 i, hAS, Finset.sum_eq_single (⟨r, hr⟩, ⟨n, hn⟩)]
  · simp
  · intro i _ hi
    rw [Matrix.one_apply_ne (Ne.symm hi), zero_mul]
  · intro hi
    exact absurd (Finset.mem_univ _) hi

/-- Default arguments, `p²` samples for an odd prime `p` (up to `10^5`): every `p × p` matrix is the matrix of coefficients of exactly one signal. -/
theorem C121_default (p : ℕ) (hp : p.Prime) (h3 : 3 ≤ p) (hmax : p ≤ 100000) (C : ℕ → ℕ → ℂ) :
    ∃ x : Vec ℂ, x.len = p * p ∧ (∃ R, gabor x none none none = .ok R ∧ R.dgr.rows = p ∧ R.dgr.cols = p ∧ ∀ r < p, ∀ n < p, R.dgr.get r n = C r n) ∧
      ∀ y : Vec ℂ, y.len = p * p → ∀ R, gabor y none none none = .ok R → (∀ r < p, ∀ n < p, R.dgr.get r n = C r n) → ∀ j < p * p, y.get j = x.get j := by
  obtain ⟨s, hs, hodd, hwl, hfit, hpow, hdef⟩ := default_square_lattice p hp h3 hmax
  have H : SquareLattice 1 p s (defaultWindow p) := ⟨by omega, le_rfl, by rw [hwl]; exact hodd, by rw [hwl]; exact hs.symm, by rw [hwl, one_mul]; exact hfit⟩
  obtain ⟨R, r1, r2, r3, r4⟩ := C121_critical p s (defaultWindow p) H hpow C
  refine ⟨synthesis 1 p (placed (1 * p * p) s (defaultWindow p)) C, by show 1 * p * p = _; rw [one_mul], ⟨R, ?_, by rw [r2, one_mul], by rw [r3, one_mul], ?_⟩, ?_⟩
  · rw [hdef _ (by show 1 * p * p = _; rw [one_mul])]
    exact r1
  · simpa only [one_mul] using r4
  · intro y hy Y hY he j hj
    rw [hdef y hy] at hY
    refine (C121_injective 1 p s (defaultWindow p) H hpow y _ (by rw [hy, one_mul]) rfl Y R hY r1).1 (fun r hr n hn => ?_) j (by rw [one_mul]; exact hj)
    rw [r4 r hr n hn, he r (by omega) n (by omega)]

/-- The Zak transform is injective. -/
theorem zak_injective {n m : ℕ} (hn : 1 ≤ n) {x y : Vec ℂ} (hx : x.len = n * m) (hy : y.len = n * m)
    (h : ∀ k < n, ∀ r < m, (zak n m x).get k r = (zak n m y).get k r) : ∀ j < n * m, x.get j = y.get j := by
  intro j hj
  have hm : 0 < m := Nat.pos_of_ne_zero (by rintro rfl; simp at hj)
  have hn0 : n ≠ 0 := by omega
  have hr := Nat.mod_lt j hm
  have hc : j / m < n := Nat.div_lt_of_lt_mul (by rw [mul_comm]; exact hj)
  have hs0 : ((Real.sqrt n : ℝ) : ℂ) ≠ 0 := by
    rw [Complex.ofReal_ne_zero]
    exact (Real.sqrt_pos.2 (by exact_mod_cast hn)).ne'
  have h2 : ∀ k < n, dftC n (fun c => x.get (j % m + c * m)) (k : ℤ) = dftC n (fun c => y.get (j % m + c * m)) (k : ℤ) := by
    intro k hk
    have := h k hk _ hr
    rw [zak_get_eq, zak_get_eq] at this
    exact (div_left_inj' hs0).1 this
  have h3 := idftC_dftC hn0 (fun c => x.get (j % m + c * m)) hc
  have h4 := idftC_dftC hn0 (fun c => y.get (j % m + c * m)) hc
  rw [idftC_congr' h2] at h3
  have h5 := h3.symm.trans h4
  have hdm : j % m + j / m * m = j := by rw [mul_comm]; exact Nat.mod_add_div j m
  rwa [hdm] at h5

/-- **Gain of the window.**  A window `a` times as large (`a ≠ 0`), as long as the Zak transforms of both are nowhere below the threshold, gives the dual window and the coefficients divided by `a`. -/
theorem C121_window_gain (Q b s : ℕ) (w v : Vec ℝ) (H : SquareLattice Q b s w) (a : ℝ) (ha : a ≠ 0) (hv : v.len = w.len) (hvw : ∀ i < w.len, v.get i = a * w.get i)
    (hpow : ∀ k < b, ∀ r < b, eps ≤ zakPower Q b (placed (Q * b * b) s w) k r ∧ eps ≤ a ^ 2 * zakPower Q b (placed (Q * b * b) s w) k r)
    (x : Vec ℂ) (hx : x.len = Q * b * b) :
    ∃ R R', gabor x (some (Q * b)) (some Q) (some w) = .ok R ∧ gabor x (some (Q * b)) (some Q) (some v) = .ok R' ∧
      (∀ j < Q * b * b, R'.gam.get j = R.gam.get j / a) ∧
      ∀ r < Q * b, ∀ n < Q * b, R'.dgr.get r n = R.dgr.get r n / a ∧ R'.tfr.get r n = R.tfr.get r n / a ^ 2 := by
  have hb0 : b ≠ 0 := by have := H.hb; omega
  have hQ0 : Q ≠ 0 := by have := H.hQ; omega
  have hm : 1 ≤ Q * b := Nat.pos_of_ne_zero (Nat.mul_ne_zero hQ0 hb0)
  have ha' : (a : ℂ) ≠ 0 := Complex.ofReal_ne_zero.2 ha
  obtain ⟨gam, g1, g2, g3⟩ := C59_coefficients Q b s H.hb H.hQ w H.odd H.start H.fit
  obtain ⟨gam', g1', g2', g3'⟩ := C59_coefficients Q b s H.hb H.hQ v (by rw [hv]; exact H.odd) (by rw [hv]; exact H.start) (by rw [hv]; exact H.fit)
  obtain ⟨R, r1, r2, -, -, -, -, r7, r8⟩ := g3 x hx
  obtain ⟨R', r1', r2', -, -, -, -, r7', r8'⟩ := g3' x hx
  have hpl : ∀ j, (placed (Q * b * b) s v).get j = a * (placed (Q * b * b) s w).get j := by
    intro j
    simp only [placed, hv]
    split_ifs with h
    · rw [hvw _ (by omega)]
      push_cast
      rfl
    · simp
  have hzak : ∀ (y z : Vec ℂ) (t : ℂ), (∀ j, z.get j = t * y.get j) → ∀ k r, (zak (Q * b) b z).get k r = t * (zak (Q * b) b y).get k r := by
    intro y z t h k r
    simp only [zak]
    rw [← mul_div_assoc, Finset.mul_sum]
    congr 1
    refine Finset.sum_congr rfl fun c _ => ?_
    rw [h]
    ring
  have hP : ∀ k r, zakPower Q b (placed (Q * b * b) s v) k r = a ^ 2 * zakPower Q b (placed (Q * b * b) s w) k r := by
    intro k r
    unfold zakPower
    rw [Finset.mul_sum]
    refine Finset.sum_congr rfl fun l _ => ?_
    rw [hzak _ _ _ hpl, norm_mul, mul_pow, Complex.norm_real, Real.norm_eq_abs, sq_abs]
  have heps : 0 < eps := by unfold eps; positivity
  have hgam : ∀ j < Q * b * b, ((gam'.get j : ℝ) : ℂ) = (gam.get j : ℂ) / a := by
    refine zak_injective (x := gam'.map Complex.ofReal) (y := ⟨Q * b * b, fun j => (gam.get j : ℂ) / a⟩) hm g1' rfl (fun k hk r hr => ?_)
    have hP0 := hpow (k % b) (Nat.mod_lt _ (by omega)) r hr
    rw [g2' k hk r hr, hP, hzak _ _ _ hpl, hzak (gam.map Complex.ofReal) ⟨Q * b * b, fun j => (gam.get j : ℂ) / a⟩ (1 / (a : ℂ)) (fun j => by show (gam.get j : ℂ) / a = 1 / a * (gam.get j : ℂ); ring),
      g2 k hk r hr, zakPower_congr_mod _ (k' := k % b) (by simp) r, if_neg (not_lt.2 hP0.1), if_neg (not_lt.2 hP0.2)]
    have hne : ((zakPower Q b (placed (Q * b * b) s w) (k % b) r : ℝ) : ℂ) ≠ 0 := Complex.ofReal_ne_zero.2 (lt_of_lt_of_le heps hP0.1).ne'
    have hL : ((Q * b * b : ℕ) : ℂ) ≠ 0 := Nat.cast_ne_zero.2 (Nat.mul_ne_zero (Nat.mul_ne_zero hQ0 hb0) hb0)
    rw [Complex.ofReal_mul, Complex.ofReal_pow]
    field_simp
  have hgamr : ∀ j < Q * b * b, gam'.get j = gam.get j / a := by
    intro j hj
    have := hgam j hj
    exact_mod_cast this
  have key : ∀ r < Q * b, ∀ n < Q * b, R'.dgr.get r n = R.dgr.get r n / a := by
    intro r hr n hn
    rw [r8 r hr n hn, r8' r hr n hn, Finset.sum_div]
    refine Finset.sum_congr rfl fun j _ => ?_
    have e : ∀ i : ℤ, cyc (gam'.map Complex.ofReal) i = cyc (gam.map Complex.ofReal) i / a := by
      intro i
      unfold Spec.cyc
      have hl : (gam'.map Complex.ofReal).len = Q * b * b := g1'
      have hl2 : (gam.map Complex.ofReal).len = Q * b * b := g1
      rw [hl, hl2]
      have hL : (0 : ℤ) < ((Q * b * b : ℕ) : ℤ) := by
        have := Nat.pos_of_ne_zero (Nat.mul_ne_zero (Nat.mul_ne_zero hQ0 hb0) hb0)
        exact_mod_cast this
      have h1 := Int.emod_nonneg i hL.ne'
      have h2 := Int.emod_lt_of_pos i hL
      exact hgam _ (by omega)
    rw [e]
    ring
  refine ⟨R, R', r1, r1', fun j hj => by rw [r2, r2']; exact hgamr j hj, fun r hr n hn => ⟨key r hr n hn, ?_⟩⟩
  rw [r7 r hr n hn, r7' r hr n hn, key r hr n hn, norm_div, div_pow, Complex.norm_real, Real.norm_eq_abs, sq_abs]

/-! ## Concrete cases -/

theorem three_ones : SquareLattice 2 2 2 ⟨3, fun _ => 1⟩ := ⟨by norm_num, by norm_num, rfl, three_ones_lattice.1, by norm_num⟩

/-- Eight samples, four instants and frequencies, three ones as window: the tone of frequency 1/4 has in row 1 what the constant has in row 0. -/
example : ∃ X Y, gabor ⟨8, fun _ => 1⟩ (some 4) (some 2) (some ⟨3, fun _ => 1⟩) = .ok X ∧
    gabor ⟨8, fun t => expi (2 * Real.pi * (t / 4))⟩ (some 4) (some 2) (some ⟨3, fun _ => 1⟩) = .ok Y ∧ ∀ n < 4, Y.dgr.get 1 n = X.dgr.get 0 n := by
  obtain ⟨X, Y, h1, h2, h3⟩ := C121_modulate 2 2 2 ⟨3, fun _ => 1⟩ three_ones ⟨8, fun _ => 1⟩ rfl 1
  have e : modulateBins 1 (2 * 2) ⟨8, fun _ => 1⟩ = ⟨8, fun t => expi (2 * Real.pi * (t / 4))⟩ := by
    unfold modulateBins
    congr 1
    funext t
    rw [one_mul]
    congr 2
    push_cast
    ring
  rw [e] at h2
  exact ⟨X, Y, h1, h2, fun n hn => (h3 1 (by norm_num) n hn).1⟩

/-- An impulse at sample 0 and the impulse at sample 6 (three steps of two samples later): column 3 of the second is column 0 of the first, column 0 is column 1. -/
example : ∃ X Y, gabor ⟨8, fun i => if i = 0 then 1 else 0⟩ (some 4) (some 2) (some ⟨3, fun _ => 1⟩) = .ok X ∧
    gabor ⟨8, fun i => if i = 6 then 1 else 0⟩ (some 4) (some 2) (some ⟨3, fun _ => 1⟩) = .ok Y ∧
    ∀ r < 4, Y.tfr.get r 3 = X.tfr.get r 0 ∧ Y.tfr.get r 0 = X.tfr.get r 1 := by
  obtain ⟨X, Y, h1, h2, h3⟩ := C121_delay 2 2 2 ⟨3, fun _ => 1⟩ three_ones ⟨8, fun i => if i = 0 then 1 else 0⟩ ⟨8, fun i => if i = 6 then 1 else 0⟩ rfl rfl 3
    (fun j hj => by
      show (if j = 6 then (1 : ℂ) else 0) = if (((j : ℤ) - 3 * ((2 : ℕ) : ℤ)) % ((8 : ℕ) : ℤ)).toNat = 0 then 1 else 0
      have hj' : j < 8 := hj
      congr 1
      rw [eq_iff_iff]
      omega)
  exact ⟨X, Y, h1, h2, fun r hr => ⟨(h3 r hr 3 (by norm_num)).2, (h3 r hr 0 (by norm_num)).2⟩⟩

/-- A real signal, 8 samples: rows 1 and 3 of the representation are equal. -/
example : ∃ X, gabor ⟨8, fun i => (i : ℂ)⟩ (some 4) (some 2) (some ⟨3, fun _ => 1⟩) = .ok X ∧ ∀ n < 4, X.tfr.get 1 n = X.tfr.get 3 n := by
  obtain ⟨X, Y, h1, h2, h3⟩ := C121_conj 2 2 2 ⟨3, fun _ => 1⟩ three_ones ⟨8, fun i => (i : ℂ)⟩ ⟨8, fun i => (i : ℂ)⟩ rfl (IsConj.of_real (by simp))
  obtain rfl := Except.ok.inj (h1.symm.trans h2)
  exact ⟨X, h1, fun n hn => (h3 1 (by norm_num) n hn).2⟩

/-- Windows of three ones and of three twos. -/
example (x : Vec ℂ) (hx : x.len = 8) : ∃ R R', gabor x (some 4) (some 2) (some ⟨3, fun _ => 1⟩) = .ok R ∧ gabor x (some 4) (some 2) (some ⟨3, fun _ => 2⟩) = .ok R' ∧
    ∀ r < 4, ∀ n < 4, R'.dgr.get r n = R.dgr.get r n / 2 := by
  obtain ⟨R, R', h1, h2, -, h4⟩ := C121_window_gain 2 2 2 ⟨3, fun _ => 1⟩ ⟨3, fun _ => 2⟩ three_ones 2 (by norm_num) rfl (fun _ _ => by norm_num)
    (fun k hk r hr => by
      have := three_ones_lattice.2.2 k hk r hr
      have h0 : 0 < eps := by unfold eps; positivity
      exact ⟨this, by linarith⟩) x hx
  exact ⟨R, R', h1, h2, fun r hr n hn => by simpa using (h4 r hr n hn).1⟩

/-- Nine samples, default arguments: some signal has the single coefficient 1 at frequency 1 and instant 2. -/
example : ∃ (x : Vec ℂ) (R : GaborResult), x.len = 9 ∧ gabor x none none none = .ok R ∧ ∀ r < 3, ∀ n < 3, R.dgr.get r n = if r = 1 ∧ n = 2 then 1 else 0 := by
  obtain ⟨x, h1, ⟨R, h2, -, -, h3⟩, -⟩ := C121_default 3 (by norm_num) (by norm_num) (by norm_num) (fun r n => if r = 1 ∧ n = 2 then 1 else 0)
  exact ⟨x, R, h1, h2, h3⟩

/-- Two signals of eight samples with the same coefficients are the same. -/
example (x y : Vec ℂ) (hx : x.len = 8) (hy : y.len = 8) (X : GaborResult) (h1 : gabor x (some 4) (some 2) (some ⟨3, fun _ => 1⟩) = .ok X)
    (h2 : gabor y (some 4) (some 2) (some ⟨3, fun _ => 1⟩) = .ok X) : x.get 5 = y.get 5 :=
  (C121_injective 2 2 2 ⟨3, fun _ => 1⟩ three_ones three_ones_lattice.2.2 x y hx hy X X h1 h2).1 (fun _ _ _ _ => rfl) 5 (by norm_num)

end Tftb.Props
