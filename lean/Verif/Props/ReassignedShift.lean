import Verif.Props.Covariance
import Verif.Props.Conj
import Verif.Props.RidgeReassigned

/-! # C104 Frequency shifts, conjugates and delays of reassigned representations -/

namespace Tftb.Props

open Tftb Tftb.Spec Tftb.Cohen Finset ProcUtils Reassigned ComplexConjugate

/-! ## Bins -/

/-- Rounding to the nearest integer, ties to even, is odd. -/
theorem roundEven_neg (x : ℝ) : roundEven (-x) = -roundEven x := by
  by_cases hx : x = (⌊x⌋ : ℤ)
  · rw [hx, ← Int.cast_neg, roundEven_intCast, roundEven_intCast]
  · have h1 := Int.floor_le x
    have h2 := Int.lt_floor_add_one x
    have h1' : (⌊x⌋ : ℝ) < x := lt_of_le_of_ne h1 (fun h => hx h.symm)
    have hf : ⌊-x⌋ = -⌊x⌋ - 1 := by
      rw [Int.floor_eq_iff]
      push_cast
      constructor <;> linarith
    unfold roundEven
    rw [hf]
    push_cast
    by_cases c1 : x - ⌊x⌋ < 1 / 2
    · rw [if_pos c1, if_neg (by linarith), if_pos (by linarith)]; ring
    · rw [if_neg c1]
      by_cases c2 : 1 / 2 < x - ⌊x⌋
      · rw [if_pos c2, if_pos (by linarith)]; ring
      · rw [if_neg c2, if_neg (by linarith), if_neg (by linarith)]
        have hp : Even (-⌊x⌋ - 1) ↔ ¬ Even ⌊x⌋ := by
          rw [Int.even_sub, even_neg]
          simp
        by_cases c3 : Even ⌊x⌋
        · rw [if_pos c3, if_neg (by rw [hp]; exact not_not.2 c3)]; ring
        · rw [if_neg c3, if_pos (by rw [hp]; exact c3)]; ring

/-- Two bins that differ by a multiple of `n` are equal. -/
theorem bin_eq {n : ℕ} {a b : ℤ} (a0 : 0 ≤ a) (a1 : a < n) (b0 : 0 ≤ b) (b1 : b < n) (h : (n : ℤ) ∣ a - b) : a = b := by
  have := Int.emod_eq_emod_iff_emod_sub_eq_zero.2 (Int.emod_eq_zero_of_dvd h)
  rwa [Int.emod_eq_of_lt a0 a1, Int.emod_eq_of_lt b0 b1] at this

theorem emod_bin_iff {n : ℕ} {a b : ℤ} (b0 : 0 ≤ b) (b1 : b < n) : a % n = b ↔ (n : ℤ) ∣ a - b := by
  constructor
  · rintro rfl
    exact Int.dvd_self_sub_emod
  · intro h
    refine bin_eq (Int.emod_nonneg _ (by omega)) (Int.emod_lt_of_pos _ (by omega)) b0 b1 ?_
    have := dvd_sub h (Int.dvd_self_sub_emod (x := a) (m := (n : ℤ)))
    rwa [show a - b - (a - a % n) = a % n - b by ring] at this

theorem rollRow_inj {n : ℕ} {m : ℤ} {k l : ℕ} (hk : k < n) (hl : l < n) (h : rollRow n m k = rollRow n m l) : k = l := by
  have hn : n ≠ 0 := by omega
  have a := rollRow_dvd hn m k
  have b := rollRow_dvd hn m l
  rw [h] at a
  have := dvd_sub b a
  rw [show ((rollRow n m l : ℕ) : ℤ) - ((l : ℤ) - m) - (((rollRow n m l : ℕ) : ℤ) - ((k : ℤ) - m)) = (k : ℤ) - l by ring] at this
  have := bin_eq (n := n) (by omega) (by omega) (by omega) (by omega) this
  omega

theorem sum_rollRow {n : ℕ} (hn : n ≠ 0) (m : ℤ) (f : ℕ → ℝ) : ∑ k ∈ range n, f (rollRow n m k) = ∑ k ∈ range n, f k := by
  have hinj : Set.InjOn (rollRow n m) (range n : Set ℕ) := fun a ha b hb h =>
    rollRow_inj (by simpa using ha) (by simpa using hb) h
  have himg : (range n).image (rollRow n m) = range n := by
    refine Finset.eq_of_subset_of_card_le (fun a ha => ?_) (by rw [Finset.card_image_of_injOn hinj])
    obtain ⟨k, -, rfl⟩ := Finset.mem_image.1 ha
    exact Finset.mem_range.2 (rollRow_lt hn m k)
  conv_rhs => rw [← himg, Finset.sum_image hinj]

/-- The bin opposite to `p`, two bins further down: `-p - 2` modulo `n`. -/
def mirrorBin (n : ℕ) (p : ℕ) : ℕ := ((-(p : ℤ) - 2) % n).toNat

theorem mirrorBin_cast {n : ℕ} (hn : n ≠ 0) (p : ℕ) : ((mirrorBin n p : ℕ) : ℤ) = (-(p : ℤ) - 2) % n :=
  Int.toNat_of_nonneg (Int.emod_nonneg _ (by exact_mod_cast hn))

theorem mirrorBin_lt {n : ℕ} (hn : n ≠ 0) (p : ℕ) : mirrorBin n p < n := by
  have := mirrorBin_cast hn p
  have := Int.emod_lt_of_pos (-(p : ℤ) - 2) (by omega : (0 : ℤ) < n)
  omega

theorem mirrorBin_dvd {n : ℕ} (hn : n ≠ 0) (p : ℕ) : (n : ℤ) ∣ (-(p : ℤ) - 2) - (mirrorBin n p : ℕ) := by
  rw [mirrorBin_cast hn]
  exact Int.dvd_self_sub_emod

/-! ## Pseudo Wigner-Ville: frequency shift -/

theorem pwvSum_modulate {n : ℕ} (hn : n ≠ 0) (m : ℤ) (x : Vec ℂ) (g : ℕ → ℝ) (L : ℕ) (t : ℤ) (k : ℕ) :
    pwvSum (modulateBins m (2 * n) x) g n L t k = pwvSum x g n L t (rollRow n m k : ℕ) := by
  unfold pwvSum
  simp only [wignerKernel_modulate hn, ← mul_assoc]
  rw [lagSum_modulate]
  refine lagSum_periodic _ hn _ ?_
  have := rollRow_dvd hn m k
  rwa [← dvd_neg, neg_sub] at this

theorem slicePower_modulate (m : ℤ) (n : ℕ) (x : Vec ℂ) (a b : ℤ) : slicePower (modulateBins m n x) a b = slicePower x a b := by
  unfold slicePower
  simp only [zext_modulate, norm_mul, norm_rootPow, mul_one]
  rfl

theorem pwvDest_roll {n : ℕ} (m : ℤ) (thr A D : ℝ) {k p : ℕ} (hk : k < n) (hp : p < n) :
    pwvDest n thr A D k = (p : ℤ) ↔ pwvDest n thr A D (rollRow n m k) = (rollRow n m p : ℕ) := by
  have hn : n ≠ 0 := by omega
  have e1 := rollRow_dvd hn m k
  have e2 := rollRow_dvd hn m p
  have l1 := rollRow_lt hn m p
  unfold pwvDest
  by_cases h : thr < |A|
  · rw [if_pos h, if_pos h, emod_bin_iff (by omega) (by omega), emod_bin_iff (by omega) (by omega)]
    set z := roundEven (n / (2 * Real.pi) * (D / A))
    have e3 := dvd_sub e1 e2
    constructor
    · intro h2
      have := dvd_add e3 h2
      rwa [show ((rollRow n m k : ℕ) : ℤ) - ((k : ℤ) - m) - (((rollRow n m p : ℕ) : ℤ) - ((p : ℤ) - m)) + ((k : ℤ) - z - 1 - p)
        = (rollRow n m k : ℕ) - z - 1 - (rollRow n m p : ℕ) by ring] at this
    · intro h2
      have := dvd_sub h2 e3
      rwa [show ((rollRow n m k : ℕ) : ℤ) - z - 1 - (rollRow n m p : ℕ)
          - (((rollRow n m k : ℕ) : ℤ) - ((k : ℤ) - m) - (((rollRow n m p : ℕ) : ℤ) - ((p : ℤ) - m))) = (k : ℤ) - z - 1 - p by ring] at this
  · rw [if_neg h, if_neg h, Nat.cast_inj, Nat.cast_inj]
    exact ⟨fun e => by rw [e], fun e => rollRow_inj hk hp e⟩

/-- What `pseudoWignerVille` returns when its arguments are fit. -/
theorem pwv_run (n L : ℕ) (w : Vec ℝ) (hn : n ≠ 0) (hw : w.len = 2 * L + 1) (hL : 1 ≤ L) (hmid : w.get L ≠ 0) :
    ∃ dw : ℕ → ℝ, ∀ (x : Vec ℂ) (ts : Vec ℤ) (a b : ℤ), IsRange ts a b → 0 ≤ a → a < x.len →
    (∀ c < ts.len, ts.get c ≤ roundEven ((n : ℝ) / 2) ∨ (x.len : ℤ) - ts.get c < roundEven ((n : ℝ) / 2) ∨
      (L : ℤ) < roundEven ((n : ℝ) / 2) - 1) →
    ∃ tfr rtfr v, pseudoWignerVille x (some ts) (some n) (some w) = .ok (tfr, rtfr, v) ∧
      (∀ k < n, ∀ c < ts.len, tfr.get k c = (pwvSum x (fun j => w.get j / w.get L) n L (ts.get c) k).re) ∧
      (∀ k < n, ∀ c < ts.len, v.get k c = if 1e-6 * slicePower x a b < |tfr.get k c| then
        some (((pwvDest n (1e-6 * slicePower x a b) (tfr.get k c) (pwvSum x dw n L (ts.get c) k).im k : ℤ) : ℂ) + 1) else none) ∧
      ∀ p < n, ∀ c < ts.len, rtfr.get p c = ∑ k ∈ range n,
        if pwvDest n (1e-6 * slicePower x a b) (tfr.get k c) (pwvSum x dw n L (ts.get c) k).im k = (p : ℤ) then tfr.get k c else 0 := by
  obtain ⟨dw, e, hl, -⟩ := deriveWindow_eq (w.map (· / w.get L)) (by rw [Vec.map_len]; omega)
  refine ⟨dw.get, fun x ts a b hab h0 h1 hr => ?_⟩
  obtain ⟨tfr, rtfr, v, e, -, -, -, -, -, -, r7, r8, r9⟩ := pwv_ok (x := x) (ts? := some ts) (n? := some n) (w? := some w) (ts := ts) (n := n) (w := w)
    rfl rfl rfl hn hw hmid e hl hab h0 h1 (fun c hc => by have := hr c hc; omega)
  exact ⟨tfr, rtfr, v, e, fun k _ c hc => r7 k c hc, r8, fun p _ c hc => r9 p c hc⟩

/-- Reassigned pseudo Wigner-Ville: multiplying the signal by the exponential of frequency `m/(2n)` rolls the distribution and the
reassigned distribution by `m` bins, and the destinations stored in the third matrix likewise; cells that stay put are the same. -/
theorem C104_pwv_shift (x : Vec ℂ) (ts : Vec ℤ) (n L : ℕ) (w : Vec ℝ) (m : ℤ) (hn : n ≠ 0) (hw : w.len = 2 * L + 1) (hL : 1 ≤ L)
    (hmid : w.get L ≠ 0) (a b : ℤ) (hab : IsRange ts a b) (h0 : 0 ≤ a) (h1 : a < x.len)
    (hr : ∀ c < ts.len, ts.get c ≤ roundEven ((n : ℝ) / 2) ∨ (x.len : ℤ) - ts.get c < roundEven ((n : ℝ) / 2) ∨
      (L : ℤ) < roundEven ((n : ℝ) / 2) - 1) :
    ∃ X Rx Vx Y Ry Vy, pseudoWignerVille x (some ts) (some n) (some w) = .ok (X, Rx, Vx) ∧
      pseudoWignerVille (modulateBins m (2 * n) x) (some ts) (some n) (some w) = .ok (Y, Ry, Vy) ∧
      ∀ k < n, ∀ c < ts.len,
        Y.get k c = X.get (rollRow n m k) c ∧ Ry.get k c = Rx.get (rollRow n m k) c ∧
        (Vy.get k c = none ↔ Vx.get (rollRow n m k) c = none) ∧
        ∀ p < n, Vy.get k c = some ((p : ℂ) + 1) ↔ Vx.get (rollRow n m k) c = some ((rollRow n m p : ℂ) + 1) := by
  obtain ⟨dw, hdw⟩ := pwv_run n L w hn hw hL hmid
  obtain ⟨X, Rx, Vx, hX, x1, x2, x3⟩ := hdw x ts a b hab h0 h1 hr
  obtain ⟨Y, Ry, Vy, hY, y1, y2, y3⟩ := hdw (modulateBins m (2 * n) x) ts a b hab h0 h1 hr
  have hT : ∀ k < n, ∀ c < ts.len, Y.get k c = X.get (rollRow n m k) c := by
    intro k hk c hc
    rw [y1 k hk c hc, x1 _ (rollRow_lt hn m k) c hc, pwvSum_modulate hn]
  refine ⟨X, Rx, Vx, Y, Ry, Vy, hX, hY, fun k hk c hc => ⟨hT k hk c hc, ?_, ?_, fun p hp => ?_⟩⟩
  · rw [y3 k hk c hc, x3 _ (rollRow_lt hn m k) c hc]
    conv_rhs => rw [← sum_rollRow hn m]
    refine Finset.sum_congr rfl (fun j hj => ?_)
    have hj := Finset.mem_range.1 hj
    rw [slicePower_modulate, pwvSum_modulate hn, hT j hj c hc]
    exact if_congr (pwvDest_roll m _ _ _ hj hk) rfl rfl
  · rw [y2 k hk c hc, x2 _ (rollRow_lt hn m k) c hc, slicePower_modulate, hT k hk c hc]
    split_ifs <;> simp
  · rw [y2 k hk c hc, x2 _ (rollRow_lt hn m k) c hc, slicePower_modulate, hT k hk c hc, pwvSum_modulate hn]
    split_ifs with h
    · have := pwvDest_roll m (1e-6 * slicePower x a b) (X.get (rollRow n m k) c) (pwvSum x dw n L (ts.get c) (rollRow n m k : ℕ)).im hk hp
      simp only [Option.some.injEq, add_left_inj]
      rw [← Int.cast_natCast (R := ℂ) p, ← Int.cast_natCast (R := ℂ) (rollRow n m p), Int.cast_inj, Int.cast_inj]
      exact this
    · simp

/-! ## Pseudo Wigner-Ville: conjugate signal -/

theorem pwvSum_conj {x y : Vec ℂ} (h : IsConj x y) {n k : ℕ} (hk : k < n) (g : ℕ → ℝ) (L : ℕ) (t : ℤ) :
    pwvSum y g n L t k = conj (pwvSum x g n L t (flipRow n k : ℕ)) := by
  unfold pwvSum
  rw [← conj_lagSum_flip _ (by omega) hk]
  congr 1
  funext τ
  rw [h.wigner, map_mul, Complex.conj_ofReal]

theorem IsConj.slicePower {x y : Vec ℂ} (h : IsConj x y) (a b : ℤ) : Tftb.slicePower y a b = Tftb.slicePower x a b := by
  unfold Tftb.slicePower
  simp only [h.zext, h.1, Complex.norm_conj]

/-- A moved cell of the conjugate signal arrives at the bin opposite to where the cell of the signal arrives, two bins lower. -/
theorem pwvDest_mirror {n : ℕ} {thr A D : ℝ} {k p : ℕ} (hk : k < n) (hp : p < n) (h : thr < |A|) :
    pwvDest n thr A (-D) k = (p : ℤ) ↔ pwvDest n thr A D (flipRow n k) = (mirrorBin n p : ℕ) := by
  have hn : n ≠ 0 := by omega
  have e1 := flipRow_dvd hk
  have e2 := mirrorBin_dvd hn p
  have l1 := mirrorBin_lt hn p
  unfold pwvDest
  rw [if_pos h, if_pos h, neg_div, mul_neg, roundEven_neg, emod_bin_iff (by omega) (by omega), emod_bin_iff (by omega) (by omega)]
  set z := roundEven (n / (2 * Real.pi) * (D / A))
  have e3 := dvd_sub e2 e1
  constructor
  · intro h2
    have := dvd_sub e3 h2
    rwa [show (-(p : ℤ) - 2 - (mirrorBin n p : ℕ)) - (-(k : ℤ) - (flipRow n k : ℕ)) - ((k : ℤ) - -z - 1 - p)
      = (flipRow n k : ℕ) - z - 1 - (mirrorBin n p : ℕ) by ring] at this
  · intro h2
    have := dvd_sub e3 h2
    rwa [show (-(p : ℤ) - 2 - (mirrorBin n p : ℕ)) - (-(k : ℤ) - (flipRow n k : ℕ)) - ((flipRow n k : ℕ) - z - 1 - (mirrorBin n p : ℕ))
      = (k : ℤ) - -z - 1 - p by ring] at this

/-- Reassigned pseudo Wigner-Ville of the conjugate signal (of the signal itself if it is real): the distribution is mirrored, `k ↦ -k`,
but the destinations are not: a cell goes to bin `p` exactly if the mirror cell goes to bin `-p - 2`.  Where all the cells of a column
move, so does the reassigned column: bin `p` is bin `-p - 2`. -/
theorem C104_pwv_conj (x y : Vec ℂ) (hxy : IsConj x y) (ts : Vec ℤ) (n L : ℕ) (w : Vec ℝ) (hn : n ≠ 0) (hw : w.len = 2 * L + 1)
    (hL : 1 ≤ L) (hmid : w.get L ≠ 0) (a b : ℤ) (hab : IsRange ts a b) (h0 : 0 ≤ a) (h1 : a < x.len)
    (hr : ∀ c < ts.len, ts.get c ≤ roundEven ((n : ℝ) / 2) ∨ (x.len : ℤ) - ts.get c < roundEven ((n : ℝ) / 2) ∨
      (L : ℤ) < roundEven ((n : ℝ) / 2) - 1) :
    ∃ X Rx Vx Y Ry Vy, pseudoWignerVille x (some ts) (some n) (some w) = .ok (X, Rx, Vx) ∧
      pseudoWignerVille y (some ts) (some n) (some w) = .ok (Y, Ry, Vy) ∧
      ∀ c < ts.len,
        (∀ k < n, Y.get k c = X.get (flipRow n k) c ∧ (Vy.get k c = none ↔ Vx.get (flipRow n k) c = none) ∧
          ∀ p < n, Vy.get k c = some ((p : ℂ) + 1) ↔ Vx.get (flipRow n k) c = some ((mirrorBin n p : ℂ) + 1)) ∧
        ((∀ k < n, Vx.get k c ≠ none) → ∀ p < n, Ry.get p c = Rx.get (mirrorBin n p) c) ∧
        ((∀ k < n, Vx.get k c = none) → ∀ p < n, Ry.get p c = Rx.get (flipRow n p) c) := by
  obtain ⟨dw, hdw⟩ := pwv_run n L w hn hw hL hmid
  obtain ⟨X, Rx, Vx, hX, x1, x2, x3⟩ := hdw x ts a b hab h0 h1 hr
  obtain ⟨Y, Ry, Vy, hY, y1, y2, y3⟩ := hdw y ts a b hab h0 (by rw [hxy.1]; exact h1) (by rw [hxy.1]; exact hr)
  have hT : ∀ k < n, ∀ c < ts.len, Y.get k c = X.get (flipRow n k) c := by
    intro k hk c hc
    rw [y1 k hk c hc, x1 _ (flipRow_lt hn k) c hc, pwvSum_conj hxy hk, Complex.conj_re]
  have hD : ∀ k < n, ∀ c < ts.len, (pwvSum y dw n L (ts.get c) k).im = -(pwvSum x dw n L (ts.get c) (flipRow n k : ℕ)).im := by
    intro k hk c hc
    rw [pwvSum_conj hxy hk, Complex.conj_im]
  refine ⟨X, Rx, Vx, Y, Ry, Vy, hX, hY, fun c hc => ⟨fun k hk => ⟨hT k hk c hc, ?_, fun p hp => ?_⟩, fun hall p hp => ?_, fun hall p hp => ?_⟩⟩
  · rw [y2 k hk c hc, x2 _ (flipRow_lt hn k) c hc, hxy.slicePower, hT k hk c hc]
    split_ifs <;> simp
  · rw [y2 k hk c hc, x2 _ (flipRow_lt hn k) c hc, hxy.slicePower, hT k hk c hc, hD k hk c hc]
    split_ifs with h
    · have := pwvDest_mirror (D := (pwvSum x dw n L (ts.get c) (flipRow n k : ℕ)).im) hk hp h
      simp only [Option.some.injEq, add_left_inj]
      rw [← Int.cast_natCast (R := ℂ) p, ← Int.cast_natCast (R := ℂ) (mirrorBin n p), Int.cast_inj, Int.cast_inj]
      exact this
    · simp
  · rw [y3 p hp c hc, x3 _ (mirrorBin_lt hn p) c hc]
    conv_rhs => rw [← sum_flipRow]
    refine Finset.sum_congr rfl (fun j hj => ?_)
    have hj := Finset.mem_range.1 hj
    have hab : 1e-6 * Tftb.slicePower x a b < |X.get (flipRow n j) c| := by
      have := hall _ (flipRow_lt hn j)
      rw [x2 _ (flipRow_lt hn j) c hc] at this
      by_contra h
      exact this (if_neg h)
    rw [hxy.slicePower, hT j hj c hc, hD j hj c hc]
    exact if_congr (pwvDest_mirror hj hp hab) rfl rfl
  · rw [y3 p hp c hc, x3 _ (flipRow_lt hn p) c hc]
    conv_rhs => rw [← sum_flipRow]
    refine Finset.sum_congr rfl (fun j hj => ?_)
    have hj := Finset.mem_range.1 hj
    have hab : ¬ 1e-6 * Tftb.slicePower x a b < |X.get (flipRow n j) c| := by
      have := hall _ (flipRow_lt hn j)
      rw [x2 _ (flipRow_lt hn j) c hc] at this
      intro h
      rw [if_pos h] at this
      simp at this
    rw [hxy.slicePower, hT j hj c hc]
    unfold pwvDest
    rw [if_neg hab, if_neg hab]
    refine if_congr ⟨fun e => by rw [Nat.cast_inj.1 e], fun e => ?_⟩ rfl rfl
    rw [← flipRow_flipRow hj, Nat.cast_inj.1 e, flipRow_flipRow hp]

/-! ## Pseudo Wigner-Ville: delay -/

theorem delayBy_len (d : ℕ) (x : Vec ℂ) : (delayBy d x).len = x.len + d := rfl

theorem slicePower_delayBy (d : ℕ) (x : Vec ℂ) (a b : ℤ) : slicePower (delayBy d x) (a + d) (b + d) = slicePower x a b := by
  unfold slicePower
  rw [delayBy_len, show min (b + d) (((x.len + d : ℕ) : ℤ) - 1) = min b ((x.len : ℤ) - 1) + d by push_cast; omega]
  congr 1
  · rw [← Finset.image_add_right_Icc, Finset.sum_image (fun _ _ _ _ h => by simpa using h)]
    refine Finset.sum_congr rfl (fun t _ => ?_)
    rw [zext_delayBy, add_sub_cancel_right]
  · push_cast
    rw [show (x.len : ℝ) + d - 1 = (x.len - 1) + d by ring, min_add_add_right]
    ring

theorem isRange_add {ts : Vec ℤ} {a b : ℤ} (h : IsRange ts a b) (d : ℤ) : IsRange (ts.map (· + d)) (a + d) (b + d) := by
  obtain ⟨⟨c, hc, e⟩, ⟨c', hc', e'⟩, h⟩ := h
  refine ⟨⟨c, hc, by show ts.get c + d = _; rw [e]⟩, ⟨c', hc', by show ts.get c' + d = _; rw [e']⟩, fun j hj => ?_⟩
  have := h j hj
  change a + d ≤ ts.get j + d ∧ ts.get j + d ≤ b + d
  omega

/-- Reassigned pseudo Wigner-Ville, window shorter than half the bins: with `d` zeros before the signal and the instants moved by `d`, the
three matrices are the same. -/
theorem C104_pwv_delay (x : Vec ℂ) (ts : Vec ℤ) (n L d : ℕ) (w : Vec ℝ) (hw : w.len = 2 * L + 1) (hL : 1 ≤ L)
    (hmid : w.get L ≠ 0) (a b : ℤ) (hab : IsRange ts a b) (h0 : 0 ≤ a) (h1 : a < x.len) (hR : (L : ℤ) < roundEven ((n : ℝ) / 2) - 1) :
    ∃ X Rx Vx Y Ry Vy, pseudoWignerVille x (some ts) (some n) (some w) = .ok (X, Rx, Vx) ∧
      pseudoWignerVille (delayBy d x) (some (ts.map (· + (d : ℤ)))) (some n) (some w) = .ok (Y, Ry, Vy) ∧
      ∀ k < n, ∀ c < ts.len, Y.get k c = X.get k c ∧ Ry.get k c = Rx.get k c ∧ Vy.get k c = Vx.get k c := by
  have hn : n ≠ 0 := by
    rintro rfl
    rw [roundEven_half] at hR
    simp at hR
    omega
  obtain ⟨dw, hdw⟩ := pwv_run n L w hn hw hL hmid
  obtain ⟨X, Rx, Vx, hX, x1, x2, x3⟩ := hdw x ts a b hab h0 h1 (fun _ _ => .inr (.inr hR))
  obtain ⟨Y, Ry, Vy, hY, y1, y2, y3⟩ := hdw (delayBy d x) (ts.map (· + (d : ℤ))) (a + d) (b + d) (isRange_add hab d) (by omega)
    (by rw [delayBy_len]; push_cast; omega) (fun _ _ => .inr (.inr hR))
  have hS : ∀ (g : ℕ → ℝ) (k : ℤ) (c : ℕ), pwvSum (delayBy d x) g n L ((ts.map (· + (d : ℤ))).get c) k = pwvSum x g n L (ts.get c) k := by
    intro g k c
    unfold pwvSum
    congr 1
    funext τ
    rw [show (ts.map (· + (d : ℤ))).get c - 1 = ts.get c - 1 + d by simp only [Vec.map]; ring, wignerKernel_delayBy]
  have hT : ∀ k < n, ∀ c < ts.len, Y.get k c = X.get k c := by
    intro k hk c hc
    rw [y1 k hk c hc, x1 k hk c hc, hS]
  refine ⟨X, Rx, Vx, Y, Ry, Vy, hX, hY, fun k hk c hc => ⟨hT k hk c hc, ?_, ?_⟩⟩
  · rw [y3 k hk c hc, x3 k hk c hc]
    refine Finset.sum_congr rfl (fun j hj => ?_)
    rw [slicePower_delayBy, hS, hT j (Finset.mem_range.1 hj) c hc]
  · rw [y2 k hk c hc, x2 k hk c hc, slicePower_delayBy, hS, hT k hk c hc]

/-! ## Spectrogram -/

/-- No lag of instant `t` reaches before the first sample. -/
def Interior (n L : ℕ) (t : ℤ) : Prop := min (roundEven ((n : ℝ) / 2) - 1) (L : ℤ) < t

theorem mem_reassignLags {n L N : ℕ} {t τ : ℤ} (h : τ ∈ reassignLags n L N t) : -1 ≤ t + τ - 1 ∧ t + τ - 1 < N := by
  unfold reassignLags at h
  exact (Finset.mem_filter.1 h).2

theorem Interior.lag {n L N : ℕ} {t τ : ℤ} (h : Interior n L t) (hτ : τ ∈ reassignLags n L N t) : 0 ≤ t + τ - 1 := by
  unfold reassignLags at hτ
  unfold Interior at h
  have := Finset.mem_Icc.1 (Finset.mem_filter.1 hτ).1
  omega

theorem cyc_modulate {n : ℕ} (hn : n ≠ 0) (m : ℤ) (x : Vec ℂ) (hx : 1 ≤ x.len) {i : ℤ} (hi : (n : ℤ) ∣ m * x.len ∨ 0 ≤ i ∧ i < x.len) :
    cyc (modulateBins m n x) i = cyc x i * rootPow n (-(m * i)) := by
  unfold cyc
  change x.get (i % (x.len : ℤ)).toNat * expi _ = _
  congr 1
  have h0 : 0 ≤ i % (x.len : ℤ) := Int.emod_nonneg _ (by omega)
  have e : rootPow n (-(m * (i % (x.len : ℤ)))) = rootPow n (-(m * i)) := by
    refine rootPow_congr hn ?_
    rcases hi with hd | ⟨i0, i1⟩
    · obtain ⟨q, hq⟩ := Int.dvd_self_sub_emod (x := i) (m := (x.len : ℤ))
      have : -(m * (i % (x.len : ℤ))) - -(m * i) = m * x.len * q := by
        calc -(m * (i % (x.len : ℤ))) - -(m * i) = m * (i - i % (x.len : ℤ)) := by ring
          _ = m * (x.len * q) := by rw [hq]
          _ = _ := by ring
      rw [this]
      exact Dvd.dvd.mul_right hd q
    · rw [Int.emod_eq_of_lt i0 i1, sub_self]
      exact dvd_zero _
  rw [← e, rootPow_eq_expi]
  congr 1
  change 2 * Real.pi * (m * ((i % (x.len : ℤ)).toNat : ℕ) / n) = _
  have : (((i % (x.len : ℤ)).toNat : ℕ) : ℝ) = ((i % (x.len : ℤ) : ℤ) : ℝ) := by
    exact_mod_cast Int.toNat_of_nonneg h0
  rw [this]
  push_cast
  ring

theorem reassignSum_modulate {n : ℕ} (hn : n ≠ 0) (m : ℤ) (x : Vec ℂ) (hx : 1 ≤ x.len) (g : ℕ → ℝ) (L : ℕ) (t : ℤ) (k : ℕ)
    (hi : (n : ℤ) ∣ m * x.len ∨ Interior n L t) :
    reassignSum (modulateBins m n x) g n L t k = rootPow n (-(m * (t - 1))) * reassignSum x g n L t (rollRow n m k) := by
  unfold reassignSum
  rw [Finset.mul_sum]
  refine Finset.sum_congr rfl (fun τ hτ => ?_)
  change τ ∈ reassignLags n L x.len t at hτ
  rw [cyc_modulate hn m x hx (hi.imp id (fun h => ⟨h.lag hτ, (mem_reassignLags hτ).2⟩))]
  have e : ∀ j : ℕ, expi (-(2 * Real.pi * (j * τ / n))) = rootPow n (j * τ) := by
    intro j
    rw [rootPow_eq_expi]
    congr 1
    push_cast
    ring
  rw [e, e]
  have e2 : rootPow n (-(m * (t + τ - 1))) * rootPow n (k * τ) = rootPow n (-(m * (t - 1))) * rootPow n ((rollRow n m k : ℕ) * τ) := by
    rw [← rootPow_add, ← rootPow_add]
    refine rootPow_congr hn ?_
    obtain ⟨q, hq⟩ := rollRow_dvd hn m k
    refine ⟨-(q * τ), ?_⟩
    linear_combination (-τ) * hq
  linear_combination (cyc x (t + τ - 1) * (g ((L : ℤ) + τ).toNat : ℂ)) * e2

theorem meanPower_modulate (m : ℤ) (n : ℕ) (x : Vec ℂ) (a b : ℤ) : meanPower (modulateBins m n x) a b = meanPower x a b := by
  unfold meanPower
  congr 1
  refine Finset.sum_congr rfl (fun t _ => ?_)
  unfold cyc
  change ‖x.get _ * expi _‖ ^ 2 = _
  rw [norm_mul, norm_expi, mul_one]
  rfl

theorem reassignDest_roll {n : ℕ} (m : ℤ) (x : Vec ℂ) (hx : 1 ≤ x.len) (w dw : ℕ → ℝ) (L T : ℕ) (thr : ℝ) (t : ℤ) {k p : ℕ} (c : ℕ) (q : ℤ)
    (hk : k < n) (hp : p < n) (hi : (n : ℤ) ∣ m * x.len ∨ Interior n L t) :
    reassignDest (modulateBins m n x) w dw n L T thr t k c = ((p : ℤ), q) ↔
      reassignDest x w dw n L T thr t (rollRow n m k) c = (((rollRow n m p : ℕ) : ℤ), q) := by
  have hn : n ≠ 0 := by omega
  unfold reassignDest
  simp only [reassignSum_modulate hn m x hx _ L t k hi, mul_div_mul_left _ _ (rootPow_ne_zero n _), norm_mul, norm_rootPow, one_mul]
  change (if thr < _ / reassignMass w n L x.len t then _ else _) = _ ↔ _
  have e1 := rollRow_dvd hn m k
  have e2 := rollRow_dvd hn m p
  have l1 := rollRow_lt hn m p
  have e3 := dvd_sub e1 e2
  by_cases h : thr < ‖reassignSum x w n L t (rollRow n m k)‖ ^ 2 / reassignMass w n L x.len t
  · rw [if_pos h, if_pos h, Prod.mk.injEq, Prod.mk.injEq]
    refine and_congr_left (fun _ => ?_)
    rw [emod_bin_iff (by omega) (by omega), emod_bin_iff (by omega) (by omega)]
    set z := roundEven ((n / (2 * Real.pi)) * (reassignSum x dw n L t (rollRow n m k) / reassignSum x w n L t (rollRow n m k)).im)
    constructor
    · intro h2
      have := dvd_add e3 h2
      rwa [show ((rollRow n m k : ℕ) : ℤ) - ((k : ℤ) - m) - (((rollRow n m p : ℕ) : ℤ) - ((p : ℤ) - m)) + ((k : ℤ) - z - 1 - p)
        = (rollRow n m k : ℕ) - z - 1 - (rollRow n m p : ℕ) by ring] at this
    · intro h2
      have := dvd_sub h2 e3
      rwa [show ((rollRow n m k : ℕ) : ℤ) - z - 1 - (rollRow n m p : ℕ)
          - (((rollRow n m k : ℕ) : ℤ) - ((k : ℤ) - m) - (((rollRow n m p : ℕ) : ℤ) - ((p : ℤ) - m))) = (k : ℤ) - z - 1 - p by ring] at this
  · rw [if_neg h, if_neg h, Prod.mk.injEq, Prod.mk.injEq, Nat.cast_inj, Nat.cast_inj]
    refine and_congr_left (fun _ => ⟨fun e => by rw [e], fun e => rollRow_inj hk hp e⟩)

theorem dest_inj {p q p' q' : ℤ} : ((p : ℂ) + Complex.I * ((q : ℂ) + 1) = (p' : ℂ) + Complex.I * ((q' : ℂ) + 1)) ↔ p = p' ∧ q = q' := by
  constructor
  · intro h
    have h1 := congrArg Complex.re h
    have h2 := congrArg Complex.im h
    simp at h1 h2
    exact ⟨h1, h2⟩
  · rintro ⟨rfl, rfl⟩
    rfl

/-- What `Reassigned.spectrogram` returns when its arguments are fit. -/
theorem rspec_run (n L : ℕ) (w : Vec ℝ) (hn : 2 ≤ n) (hw : w.len = 2 * L + 1) (hL : 1 ≤ L) (hmid : w.get L ≠ 0) :
    ∃ dw : ℕ → ℝ, ∀ (x : Vec ℂ) (ts : Vec ℤ) (a b : ℤ), 1 ≤ x.len → Regular ts → IsRange ts a b → 0 ≤ a → b ≤ x.len →
    ∃ tfr rtfr v, Reassigned.spectrogram x (some ts) (some n) (some w) = .ok (tfr, rtfr, v) ∧
      (∀ k : ℕ, ∀ c < ts.len, tfr.get k c = ‖reassignSum x w.get n L (ts.get c) k‖ ^ 2 / reassignMass w.get n L x.len (ts.get c)) ∧
      (∀ k < n, ∀ c < ts.len, v.get k c = none ↔ ¬ 1e-6 * meanPower x a b < tfr.get k c) ∧
      (∀ k < n, ∀ c < ts.len, ∀ p q : ℤ, v.get k c = some ((p : ℂ) + Complex.I * ((q : ℂ) + 1)) ↔ 1e-6 * meanPower x a b < tfr.get k c ∧
        reassignDest x w.get dw n L ts.len (1e-6 * meanPower x a b) (ts.get c) k c = (p, q)) ∧
      ∀ p q : ℕ, rtfr.get p q = ∑ c ∈ range ts.len, ∑ k ∈ range n,
        if reassignDest x w.get dw n L ts.len (1e-6 * meanPower x a b) (ts.get c) k c = ((p : ℤ), (q : ℤ)) then tfr.get k c
        else 0 := by
  obtain ⟨dw, e, hl, -⟩ := deriveWindow_eq w (by omega)
  refine ⟨dw.get, fun x ts a b hx hreg hab h0 h1 => ?_⟩
  obtain ⟨tfr, rtfr, v, e, -, -, -, -, -, -, r5, r6, r7, r8⟩ := spectrogram_ok (ts? := some ts) (n? := some n) (w? := some w) rfl rfl rfl
    hn hx hw hL e hl hreg hab h0 h1 (fun c hc => reassignMass_ne_zero hn hmid (h0.trans (hab.2.2 c hc).1) ((hab.2.2 c hc).2.trans h1))
  refine ⟨tfr, rtfr, v, e, r5, fun k hk c hc => ⟨fun h1 h2 => ?_, r7 k hk c hc⟩, fun k hk c hc p q => ⟨fun h1 => ?_, fun h1 => r6 k hk c hc h1.1 p q h1.2⟩, r8⟩
  · rw [r6 k hk c hc h2 _ _ rfl] at h1
    simp at h1
  · have h2 : 1e-6 * meanPower x a b < tfr.get k c := by
      by_contra h
      rw [r7 k hk c hc h] at h1
      simp at h1
    refine ⟨h2, ?_⟩
    rw [r6 k hk c hc h2 _ _ rfl, Option.some.injEq, dest_inj] at h1
    exact Prod.ext h1.1 h1.2

/-- Reassigned spectrogram: multiplying the signal by the exponential of frequency `m/n` rolls the spectrogram, the reassigned
spectrogram and the destinations by `m` bins.  As instants close to the start make use of the last sample, this holds only when
`m/n` has a whole number of periods in the signal, or when no instant is that close. -/
theorem C104_spectrogram_shift (x : Vec ℂ) (ts : Vec ℤ) (n L : ℕ) (w : Vec ℝ) (m : ℤ) (hn : 2 ≤ n) (hx : 1 ≤ x.len) (hw : w.len = 2 * L + 1)
    (hL : 1 ≤ L) (hmid : w.get L ≠ 0) (hreg : Regular ts) (a b : ℤ) (hab : IsRange ts a b) (h0 : 0 ≤ a) (h1 : b ≤ x.len)
    (hm : (n : ℤ) ∣ m * x.len ∨ min (roundEven ((n : ℝ) / 2) - 1) (L : ℤ) < a) :
    ∃ X Rx Vx Y Ry Vy, Reassigned.spectrogram x (some ts) (some n) (some w) = .ok (X, Rx, Vx) ∧
      Reassigned.spectrogram (modulateBins m n x) (some ts) (some n) (some w) = .ok (Y, Ry, Vy) ∧
      ∀ k < n, ∀ c < ts.len,
        Y.get k c = X.get (rollRow n m k) c ∧ Ry.get k c = Rx.get (rollRow n m k) c ∧
        (Vy.get k c = none ↔ Vx.get (rollRow n m k) c = none) ∧
        ∀ p < n, ∀ q : ℕ, Vy.get k c = some ((p : ℂ) + Complex.I * ((q : ℂ) + 1)) ↔
          Vx.get (rollRow n m k) c = some ((rollRow n m p : ℂ) + Complex.I * ((q : ℂ) + 1)) := by
  have hn0 : n ≠ 0 := by omega
  obtain ⟨dw, hdw⟩ := rspec_run n L w hn hw hL hmid
  obtain ⟨X, Rx, Vx, hX, x1, x2, x3, x4⟩ := hdw x ts a b hx hreg hab h0 h1
  obtain ⟨Y, Ry, Vy, hY, y1, y2, y3, y4⟩ := hdw (modulateBins m n x) ts a b hx hreg hab h0 h1
  have hi : ∀ c < ts.len, (n : ℤ) ∣ m * x.len ∨ Interior n L (ts.get c) := fun c hc =>
    hm.imp id (fun h => lt_of_lt_of_le h (hab.2.2 c hc).1)
  have hT : ∀ k : ℕ, ∀ c < ts.len, Y.get k c = X.get (rollRow n m k) c := by
    intro k c hc
    rw [y1 k c hc, x1 _ c hc, reassignSum_modulate hn0 m x hx _ L _ k (hi c hc), norm_mul, norm_rootPow, one_mul]
    rfl
  refine ⟨X, Rx, Vx, Y, Ry, Vy, hX, hY, fun k hk c hc => ⟨hT k c hc, ?_, ?_, fun p hp q => ?_⟩⟩
  · rw [y4 k c, x4 _ c]
    refine Finset.sum_congr rfl (fun c' hc' => ?_)
    have hc' := Finset.mem_range.1 hc'
    conv_rhs => rw [← sum_rollRow hn0 m]
    refine Finset.sum_congr rfl (fun j hj => ?_)
    have hj := Finset.mem_range.1 hj
    rw [meanPower_modulate, hT j c' hc']
    exact if_congr (reassignDest_roll m x hx _ _ _ _ _ _ _ _ hj hk (hi c' hc')) rfl rfl
  · rw [y2 k hk c hc, x2 _ (rollRow_lt hn0 m k) c hc, meanPower_modulate, hT k c hc]
  · have e1 := y3 k hk c hc p q
    have e2 := x3 _ (rollRow_lt hn0 m k) c hc (rollRow n m p : ℕ) q
    rw [meanPower_modulate, hT k c hc, reassignDest_roll m x hx _ _ _ _ _ _ _ _ hk hp (hi c hc)] at e1
    rw [Int.cast_natCast, Int.cast_natCast] at e1 e2
    rw [e1, e2]

/-! ## Spectrogram: conjugate signal -/

theorem IsConj.cyc {x y : Vec ℂ} (h : IsConj x y) (hx : 1 ≤ x.len) (i : ℤ) : Spec.cyc y i = conj (Spec.cyc x i) := by
  unfold Spec.cyc
  rw [h.1]
  have := Int.emod_nonneg i (by omega : (x.len : ℤ) ≠ 0)
  have := Int.emod_lt_of_pos i (by omega : (0 : ℤ) < x.len)
  exact h.2 _ (by omega)

theorem reassignSum_conj {x y : Vec ℂ} (h : IsConj x y) (hx : 1 ≤ x.len) {n k : ℕ} (hk : k < n) (g : ℕ → ℝ) (L : ℕ) (t : ℤ) :
    reassignSum y g n L t k = conj (reassignSum x g n L t (flipRow n k)) := by
  unfold reassignSum
  rw [h.1, map_sum]
  refine Finset.sum_congr rfl (fun τ _ => ?_)
  rw [h.cyc hx, expi_flip (by omega) hk, map_mul, map_mul, Complex.conj_ofReal]

theorem IsConj.meanPower {x y : Vec ℂ} (h : IsConj x y) (hx : 1 ≤ x.len) (a b : ℤ) : Spec.meanPower y a b = Spec.meanPower x a b := by
  unfold Spec.meanPower
  simp only [h.cyc hx, Complex.norm_conj]

theorem reassignDest_mirror {x y : Vec ℂ} (hxy : IsConj x y) (hx : 1 ≤ x.len) {n : ℕ} (w dw : ℕ → ℝ) (L T : ℕ) (thr : ℝ) (t : ℤ) {k p : ℕ} (c : ℕ)
    (q : ℤ) (hk : k < n) (hp : p < n) (h : thr < ‖reassignSum x w n L t (flipRow n k)‖ ^ 2 / reassignMass w n L x.len t) :
    reassignDest y w dw n L T thr t k c = ((p : ℤ), q) ↔
      reassignDest x w dw n L T thr t (flipRow n k) c = (((mirrorBin n p : ℕ) : ℤ), q) := by
  have hn : n ≠ 0 := by omega
  unfold reassignDest
  simp only [reassignSum_conj hxy hx hk, Complex.norm_conj, hxy.1, ← map_div₀, Complex.conj_re, Complex.conj_im]
  rw [if_pos h, if_pos h, Prod.mk.injEq, Prod.mk.injEq]
  refine and_congr_left (fun _ => ?_)
  have e1 := flipRow_dvd hk
  have e2 := mirrorBin_dvd hn p
  have l1 := mirrorBin_lt hn p
  rw [mul_neg, roundEven_neg, emod_bin_iff (by omega) (by omega), emod_bin_iff (by omega) (by omega)]
  set z := roundEven ((n / (2 * Real.pi)) * (reassignSum x dw n L t (flipRow n k) / reassignSum x w n L t (flipRow n k)).im)
  have e3 := dvd_sub e2 e1
  constructor
  · intro h2
    have := dvd_sub e3 h2
    rwa [show (-(p : ℤ) - 2 - (mirrorBin n p : ℕ)) - (-(k : ℤ) - (flipRow n k : ℕ)) - ((k : ℤ) - -z - 1 - p)
      = (flipRow n k : ℕ) - z - 1 - (mirrorBin n p : ℕ) by ring] at this
  · intro h2
    have := dvd_sub e3 h2
    rwa [show (-(p : ℤ) - 2 - (mirrorBin n p : ℕ)) - (-(k : ℤ) - (flipRow n k : ℕ)) - ((flipRow n k : ℕ) - z - 1 - (mirrorBin n p : ℕ))
      = (k : ℤ) - -z - 1 - p by ring] at this

/-- Reassigned spectrogram of the conjugate signal (of the signal itself if it is real): the spectrogram is mirrored, but a cell goes to bin
`p` of a column exactly if the mirror cell goes to bin `-p - 2` of that column. -/
theorem C104_spectrogram_conj (x y : Vec ℂ) (hxy : IsConj x y) (ts : Vec ℤ) (n L : ℕ) (w : Vec ℝ) (hn : 2 ≤ n) (hx : 1 ≤ x.len)
    (hw : w.len = 2 * L + 1) (hL : 1 ≤ L) (hmid : w.get L ≠ 0) (hreg : Regular ts) (a b : ℤ) (hab : IsRange ts a b) (h0 : 0 ≤ a)
    (h1 : b ≤ x.len) :
    ∃ X Rx Vx Y Ry Vy, Reassigned.spectrogram x (some ts) (some n) (some w) = .ok (X, Rx, Vx) ∧
      Reassigned.spectrogram y (some ts) (some n) (some w) = .ok (Y, Ry, Vy) ∧
      (∀ k < n, ∀ c < ts.len, Y.get k c = X.get (flipRow n k) c ∧ (Vy.get k c = none ↔ Vx.get (flipRow n k) c = none) ∧
        ∀ p < n, ∀ q : ℕ, Vy.get k c = some ((p : ℂ) + Complex.I * ((q : ℂ) + 1)) ↔
          Vx.get (flipRow n k) c = some ((mirrorBin n p : ℂ) + Complex.I * ((q : ℂ) + 1))) ∧
      ((∀ k < n, ∀ c < ts.len, Vx.get k c ≠ none) → ∀ p < n, ∀ c < ts.len, Ry.get p c = Rx.get (mirrorBin n p) c) := by
  have hn0 : n ≠ 0 := by omega
  obtain ⟨dw, hdw⟩ := rspec_run n L w hn hw hL hmid
  obtain ⟨X, Rx, Vx, hX, x1, x2, x3, x4⟩ := hdw x ts a b hx hreg hab h0 h1
  obtain ⟨Y, Ry, Vy, hY, y1, y2, y3, y4⟩ := hdw y ts a b (by rw [hxy.1]; exact hx) hreg hab h0 (by rw [hxy.1]; exact h1)
  have hT : ∀ k < n, ∀ c < ts.len, Y.get k c = X.get (flipRow n k) c := by
    intro k hk c hc
    rw [y1 k c hc, x1 _ c hc, reassignSum_conj hxy hx hk, Complex.norm_conj, hxy.1]
  refine ⟨X, Rx, Vx, Y, Ry, Vy, hX, hY, fun k hk c hc => ⟨hT k hk c hc, ?_, fun p hp q => ?_⟩, fun hall p hp c hc => ?_⟩
  · rw [y2 k hk c hc, x2 _ (flipRow_lt hn0 k) c hc, hxy.meanPower hx, hT k hk c hc]
  · have e1 := y3 k hk c hc p q
    have e2 := x3 _ (flipRow_lt hn0 k) c hc (mirrorBin n p : ℕ) q
    rw [hxy.meanPower hx, hT k hk c hc] at e1
    rw [Int.cast_natCast, Int.cast_natCast] at e1 e2
    rw [e1, e2]
    refine and_congr_right (fun h => ?_)
    rw [x1 _ c hc] at h
    exact reassignDest_mirror hxy hx _ _ _ _ _ _ _ _ hk hp h
  · rw [y4 p c, x4 _ c]
    refine Finset.sum_congr rfl (fun c' hc' => ?_)
    have hc' := Finset.mem_range.1 hc'
    conv_rhs => rw [← sum_flipRow]
    refine Finset.sum_congr rfl (fun j hj => ?_)
    have hj := Finset.mem_range.1 hj
    have h := hall _ (flipRow_lt hn0 j) c' hc'
    rw [Ne, x2 _ (flipRow_lt hn0 j) c' hc', not_not, x1 _ c' hc'] at h
    rw [hxy.meanPower hx, hT j hj c' hc']
    exact if_congr (reassignDest_mirror hxy hx _ _ _ _ _ _ _ _ hj hp h) rfl rfl

/-! ## Spectrogram: delay -/

theorem cyc_delayBy (d : ℕ) (x : Vec ℂ) {i : ℤ} (h0 : 0 ≤ i) (h1 : i < x.len) : cyc (delayBy d x) (i + d) = cyc x i := by
  unfold cyc
  rw [delayBy_len, Int.emod_eq_of_lt (by omega) (by push_cast; omega), Int.emod_eq_of_lt h0 h1]
  change (if (i + d).toNat < d then 0 else x.get ((i + d).toNat - d)) = _
  rw [if_neg (by omega)]
  congr 1
  omega

theorem reassignLags_delay {n L N d : ℕ} {t : ℤ} (h : Interior n L t) : reassignLags n L (N + d) (t + d) = reassignLags n L N t := by
  unfold reassignLags
  refine Finset.filter_congr (fun τ hτ => ?_)
  unfold Interior at h
  have := Finset.mem_Icc.1 hτ
  push_cast
  omega

theorem regular_add {ts : Vec ℤ} (h : Regular ts) (d : ℤ) : Regular (ts.map (· + d)) := by
  intro i hi j hj
  have := h i hi j hj
  change ts.get (i + 1) + d - (ts.get i + d) = ts.get (j + 1) + d - (ts.get j + d)
  omega

/-- Reassigned spectrogram, no instant so close to the start that the last sample is made use of: with `d` zeros before the signal and the
instants moved by `d`, the spectrogram, the reassigned one and the destinations are the same. -/
theorem C104_spectrogram_delay (x : Vec ℂ) (ts : Vec ℤ) (n L d : ℕ) (w : Vec ℝ) (hn : 2 ≤ n) (hx : 1 ≤ x.len) (hw : w.len = 2 * L + 1)
    (hL : 1 ≤ L) (hmid : w.get L ≠ 0) (hreg : Regular ts) (a b : ℤ) (hab : IsRange ts a b) (h1 : b ≤ x.len)
    (ha : min (roundEven ((n : ℝ) / 2) - 1) (L : ℤ) < a) :
    ∃ X Rx Vx Y Ry Vy, Reassigned.spectrogram x (some ts) (some n) (some w) = .ok (X, Rx, Vx) ∧
      Reassigned.spectrogram (delayBy d x) (some (ts.map (· + (d : ℤ)))) (some n) (some w) = .ok (Y, Ry, Vy) ∧
      ∀ k < n, ∀ c < ts.len, Y.get k c = X.get k c ∧ Ry.get k c = Rx.get k c ∧ Vy.get k c = Vx.get k c := by
  have h0 : 1 ≤ a := by
    rw [roundEven_half] at ha
    split_ifs at ha <;> omega
  obtain ⟨dw, hdw⟩ := rspec_run n L w hn hw hL hmid
  obtain ⟨X, Rx, Vx, hX, x1, x2, x3, x4⟩ := hdw x ts a b hx hreg hab (by omega) h1
  obtain ⟨Y, Ry, Vy, hY, y1, y2, y3, y4⟩ := hdw (delayBy d x) (ts.map (· + (d : ℤ))) (a + d) (b + d) (by rw [delayBy_len]; omega) (regular_add hreg d) (isRange_add hab d)
    (by omega) (by rw [delayBy_len]; push_cast; omega)
  have hS : ∀ (g : ℕ → ℝ) (k c : ℕ), c < ts.len →
      reassignSum (delayBy d x) g n L ((ts.map (· + (d : ℤ))).get c) k = reassignSum x g n L (ts.get c) k := by
    intro g k c hc
    have hI : Interior n L (ts.get c) := lt_of_lt_of_le ha (hab.2.2 c hc).1
    unfold reassignSum
    change ∑ τ ∈ reassignLags n L (x.len + d) (ts.get c + d), _ = _
    rw [reassignLags_delay hI]
    refine Finset.sum_congr rfl (fun τ hτ => ?_)
    change cyc (delayBy d x) (ts.get c + d + τ - 1) * _ * _ = _
    rw [show ts.get c + d + τ - 1 = ts.get c + τ - 1 + d by ring, cyc_delayBy d x (hI.lag hτ) (mem_reassignLags hτ).2]
  have hM : ∀ c < ts.len, reassignMass w.get n L (delayBy d x).len ((ts.map (· + (d : ℤ))).get c) = reassignMass w.get n L x.len (ts.get c) := by
    intro c hc
    have hI : Interior n L (ts.get c) := lt_of_lt_of_le ha (hab.2.2 c hc).1
    unfold reassignMass
    change ∑ τ ∈ reassignLags n L (x.len + d) (ts.get c + d), _ = _
    rw [reassignLags_delay hI]
  have hP : meanPower (delayBy d x) (a + d) (b + d) = meanPower x a b := by
    unfold meanPower
    congr 1
    · rw [← Finset.image_add_right_Icc, Finset.sum_image (fun _ _ _ _ h => by simpa using h)]
      refine Finset.sum_congr rfl (fun t ht => ?_)
      have := Finset.mem_Icc.1 ht
      rw [show t + d - 1 = t - 1 + (d : ℤ) by ring, cyc_delayBy d x (by omega) (by omega)]
    · push_cast; ring
  have hT : ∀ k : ℕ, ∀ c < ts.len, Y.get k c = X.get k c := by
    intro k c hc
    rw [y1 k c hc, x1 k c hc, hS _ _ _ hc, hM c hc]
  have hD : ∀ thr : ℝ, ∀ k : ℕ, ∀ c < ts.len, reassignDest (delayBy d x) w.get dw n L ts.len thr ((ts.map (· + (d : ℤ))).get c) k c
      = reassignDest x w.get dw n L ts.len thr (ts.get c) k c := by
    intro thr k c hc
    unfold reassignDest
    rw [hS _ _ _ hc, hS _ _ _ hc, hS _ _ _ hc, hM c hc]
  refine ⟨X, Rx, Vx, Y, Ry, Vy, hX, hY, fun k hk c hc => ⟨hT k c hc, ?_, ?_⟩⟩
  · rw [y4 k c, x4 k c]
    refine Finset.sum_congr rfl (fun c' hc' => ?_)
    have hc' := Finset.mem_range.1 hc'
    refine Finset.sum_congr rfl (fun j _ => ?_)
    rw [hP, hT j c' hc']
    change (if reassignDest (delayBy d x) w.get dw n L ts.len _ _ j c' = _ then _ else _) = _
    rw [hD _ j c' hc']
  · by_cases h : 1e-6 * meanPower x a b < X.get k c
    · rw [(x3 k hk c hc _ _).2 ⟨h, rfl⟩]
      refine (y3 k hk c hc _ _).2 ⟨by rw [hP, hT k c hc]; exact h, ?_⟩
      change reassignDest (delayBy d x) w.get dw n L ts.len _ _ k c = _
      rw [hP, hD _ k c hc]
      rfl
    · rw [(x2 k hk c hc).2 h, (y2 k hk c hc).2 (by rw [hP, hT k c hc]; exact h)]

/-! ## Concrete cases -/

private theorem r8 : roundEven (((8 : ℕ) : ℝ) / 2) = 4 := by rw [roundEven_half]; norm_num

/-- Six samples of a constant, 8 bins, shifted by three half-bins: bin `k + 3` of the shifted signal is bin `k`. -/
example : ∃ X Rx Vx Y Ry Vy, pseudoWignerVille ⟨6, fun _ => (1 : ℂ)⟩ (some (arange 0 (6 : ℕ))) (some 8) (some hann3) = .ok (X, Rx, Vx) ∧
    pseudoWignerVille (modulateBins 3 (2 * 8) ⟨6, fun _ => (1 : ℂ)⟩) (some (arange 0 (6 : ℕ))) (some 8) (some hann3) = .ok (Y, Ry, Vy) ∧
    Y.get 3 2 = X.get 0 2 ∧ Ry.get 2 2 = Rx.get 7 2 := by
  obtain ⟨X, Rx, Vx, Y, Ry, Vy, h1, h2, h3⟩ := C104_pwv_shift ⟨6, fun _ => (1 : ℂ)⟩ (arange 0 (6 : ℕ)) 8 1 hann3 3 (by norm_num) rfl (le_refl 1)
    (by norm_num [hann3]) 0 5 (arange_range (by norm_num)) (le_refl 0) (by norm_num) (fun c _ => by rw [r8]; right; right; norm_num)
  exact ⟨X, Rx, Vx, Y, Ry, Vy, h1, h2, (h3 3 (by norm_num) 2 (by simp [arange])).1, (h3 2 (by norm_num) 2 (by simp [arange])).2.1⟩

/-- Two samples, 4 bins, shifted by two bins (a whole period). -/
example : ∃ X Rx Vx Y Ry Vy, Reassigned.spectrogram ⟨2, fun _ => (1 : ℂ)⟩ (some (arange 0 (2 : ℕ))) (some 4) (some hann3) = .ok (X, Rx, Vx) ∧
    Reassigned.spectrogram (modulateBins 2 4 ⟨2, fun _ => (1 : ℂ)⟩) (some (arange 0 (2 : ℕ))) (some 4) (some hann3) = .ok (Y, Ry, Vy) ∧
    Y.get 3 0 = X.get 1 0 ∧ Ry.get 0 1 = Rx.get 2 1 := by
  obtain ⟨X, Rx, Vx, Y, Ry, Vy, h1, h2, h3⟩ := C104_spectrogram_shift ⟨2, fun _ => (1 : ℂ)⟩ (arange 0 (2 : ℕ)) 4 1 hann3 2 (by norm_num) (by norm_num) rfl
    (le_refl 1) (by norm_num [hann3]) (arange_regular 2) 0 1 (arange_range (by norm_num)) (le_refl 0) (by norm_num) (.inl ⟨1, by norm_num⟩)
  exact ⟨X, Rx, Vx, Y, Ry, Vy, h1, h2, (h3 3 (by norm_num) 0 (by simp [arange])).1, (h3 0 (by norm_num) 1 (by simp [arange])).2.1⟩

/-- The constant signal, which is real: bin 0, its frequency and its own mirror image, is moved to bin `n - 1` at every instant `1 ≤ t ≤ N`, so the displacement field of a
real signal is not symmetric. -/
theorem C104_constant (N n L c : ℕ) (ts : Vec ℤ) (w : Vec ℝ) (hw : w.len = 2 * L + 1) (hL : 1 ≤ L) (hw0 : ∀ j < w.len, 0 ≤ w.get j)
    (hmid : w.get L ≠ 0) (a b : ℤ) (hab : IsRange ts a b) (h0 : 0 ≤ a) (h1 : a < N) (hb : b ≤ N) (hR : (L : ℤ) < roundEven ((n : ℝ) / 2) - 1)
    (hc : c < ts.len) (ht : 1 ≤ ts.get c) :
    ∃ tfr rtfr v, pseudoWignerVille ⟨N, fun _ => (1 : ℂ)⟩ (some ts) (some n) (some w) = .ok (tfr, rtfr, v) ∧ 1 ≤ tfr.get 0 c ∧
      v.get 0 c = some (((n - 1 : ℕ) : ℂ) + 1) := by
  have hn : 2 ≤ n := by
    by_contra h
    have : n = 0 ∨ n = 1 := by omega
    rcases this with rfl | rfl
    · rw [roundEven_half] at hR; norm_num at hR; omega
    · rw [roundEven_half] at hR; norm_num at hR; omega
  have hs : (⟨N, fun m => expi (2 * Real.pi * (((0 : ℕ) : ℝ) * m / (2 * n)))⟩ : Vec ℂ) = ⟨N, fun _ => (1 : ℂ)⟩ := by
    congr 1
    funext m
    simp [expi]
  obtain ⟨X, Rx, Vx, e1, e2, -, e4⟩ := C71_tone_misplaced N n L 0 c ts w (by omega) hw hL hw0 hmid a b hab h0 h1 hb hR hc ht
  rw [hs] at e1
  refine ⟨X, Rx, Vx, e1, e2, ?_⟩
  rw [e4]
  have : ((((0 : ℕ) : ℤ) - 1) % n : ℤ) = ((n - 1 : ℕ) : ℤ) := by
    rw [Int.emod_def, show (((0 : ℕ) : ℤ) - 1) / n = -1 from ?_]
    · omega
    · rw [show ((0 : ℕ) : ℤ) - 1 = -1 by norm_num, Int.neg_one_ediv]
      simp
      omega
  rw [this]
  norm_cast

/-- A real signal, six samples equal to one, 8 bins: the distribution of column 2 is symmetric, but bin 0, the frequency of the signal, is
moved to bin 7 and not to a bin that is its own mirror image. -/
example : ∃ X Rx Vx, pseudoWignerVille ⟨6, fun _ => (1 : ℂ)⟩ (some (arange 0 (6 : ℕ))) (some 8) (some hann3) = .ok (X, Rx, Vx) ∧
    X.get 3 2 = X.get 5 2 ∧ Vx.get 0 2 = some (7 + 1) := by
  have hs : (⟨6, fun m => expi (2 * Real.pi * (((0 : ℕ) : ℝ) * m / (2 * (8 : ℕ))))⟩ : Vec ℂ) = ⟨6, fun _ => (1 : ℂ)⟩ := by
    congr 1
    funext m
    simp [expi]
  obtain ⟨X, Rx, Vx, h1, -, -, h4⟩ := C71_tone_misplaced 6 8 1 0 2 (arange 0 (6 : ℕ)) hann3 (by norm_num) rfl (le_refl 1)
    (by intro j hj; simp only [hann3]; split <;> norm_num) (by norm_num [hann3]) 0 5 (arange_range (by norm_num)) (le_refl 0) (by norm_num)
    (by norm_num) (by rw [r8]; norm_num) (by simp [arange]) (by simp [arange])
  rw [hs] at h1
  obtain ⟨X', Rx', Vx', Y, Ry, Vy, g1, g2, g3⟩ := C104_pwv_conj ⟨6, fun _ => (1 : ℂ)⟩ _ (IsConj.of_real (by simp)) (arange 0 (6 : ℕ)) 8 1 hann3
    (by norm_num) rfl (le_refl 1) (by norm_num [hann3]) 0 5 (arange_range (by norm_num)) (le_refl 0) (by norm_num)
    (fun c _ => by rw [r8]; right; right; norm_num)
  rw [h1] at g1 g2
  injection g1 with g1
  injection g2 with g2
  cases g1
  cases g2
  refine ⟨X, Rx, Vx, h1, ((g3 2 (by simp [arange])).1 3 (by norm_num)).1, ?_⟩
  rw [h4]
  norm_num

/-- A delay by two samples. -/
example : ∃ X Rx Vx Y Ry Vy, Reassigned.spectrogram ⟨4, fun _ => (1 : ℂ)⟩ (some (arange 2 (4 : ℕ))) (some 4) (some hann3) = .ok (X, Rx, Vx) ∧
    Reassigned.spectrogram (delayBy 2 ⟨4, fun _ => (1 : ℂ)⟩) (some ((arange 2 (4 : ℕ)).map (· + 2))) (some 4) (some hann3) = .ok (Y, Ry, Vy) ∧
    Y.get 1 0 = X.get 1 0 := by
  obtain ⟨X, Rx, Vx, Y, Ry, Vy, h1, h2, h3⟩ := C104_spectrogram_delay ⟨4, fun _ => (1 : ℂ)⟩ (arange 2 (4 : ℕ)) 4 1 2 hann3 (by norm_num) (by norm_num) rfl
    (le_refl 1) (by norm_num [hann3]) (by intro i hi j hj; simp [arange] at *) 2 3
    ⟨⟨0, by simp [arange], by simp [arange]⟩, ⟨1, by simp [arange], by simp [arange]⟩, fun c hc => by simp [arange] at *; omega⟩ (by norm_num)
    (by rw [roundEven_half]; norm_num)
  exact ⟨X, Rx, Vx, Y, Ry, Vy, h1, h2, (h3 1 (by norm_num) 0 (by simp [arange])).1⟩

end Tftb.Props
