import Verif.Model.Misc
import Verif.Lemmas.Hilbert
import Verif.Lemmas.Analytic
import Verif.Lemmas.Post
import Verif.Props.FM
import Mathlib.Analysis.SpecialFunctions.Sqrt
import Mathlib.Analysis.Calculus.Deriv.Inv

/-! # C22, C23, C25: Gaussian atoms, Doppler signal, Mexican hat -/

namespace Tftb.Props

open Finset Spec Misc AM FM

/-! ## C22: atoms -/

/-- Time centre of an atom: its first coordinate clamped to `[1, n]` and rounded. -/
noncomputable def atomCentre (n : ℕ) (c : ℝ) : ℤ := roundEven (max (min c n) 1)

/-- Frequency of an atom: its second coordinate clamped to `[0, 1/2]`. -/
noncomputable def atomFreq (f : ℝ) : ℝ := max (min f (1 / 2)) 0

/-- Sample `i` of the Gaussian atom centred at instant `t0` and frequency `f0`, of spread `T` and amplitude `A`. -/
noncomputable def gaussAtom (t0 : ℤ) (f0 T A : ℝ) (i : ℕ) : ℂ :=
  ((A * Real.exp (-Real.pi * (((i : ℝ) + 1 - t0) / T) ^ 2) : ℝ) : ℂ) * expi (2 * Real.pi * f0 * ((i : ℝ) - t0))

theorem atomCentre_pos (n : ℕ) (c : ℝ) : 1 ≤ atomCentre n c := by
  have h := abs_le.1 (abs_sub_roundEven_le (max (min c (n : ℝ)) 1))
  have h1 : (1 : ℝ) ≤ max (min c (n : ℝ)) 1 := le_max_right _ _
  have h2 : (0 : ℝ) < (roundEven (max (min c (n : ℝ)) 1) : ℝ) := by linarith [h.2]
  have : (0 : ℤ) < roundEven (max (min c (n : ℝ)) 1) := by exact_mod_cast h2
  exact this

theorem atomCentre_le (n : ℕ) (c : ℝ) (hn : 1 ≤ n) : atomCentre n c ≤ n := by
  have h := abs_le.1 (abs_sub_roundEven_le (max (min c (n : ℝ)) 1))
  have hn' : (1 : ℝ) ≤ n := by exact_mod_cast hn
  have h1 : max (min c (n : ℝ)) 1 ≤ n := max_le (min_le_right _ _) hn'
  have h2 : (roundEven (max (min c (n : ℝ)) 1) : ℝ) < (n : ℝ) + 1 := by linarith [h.1]
  have : roundEven (max (min c (n : ℝ)) 1) < (n : ℤ) + 1 := by exact_mod_cast h2
  unfold atomCentre
  omega

theorem amgauss_eq (n : ℕ) (hn : 1 ≤ n) (t0 s : ℝ) (hs : s ≠ 0) :
    amgauss n (some t0) (some s) = .ok ⟨n, fun i => Real.exp (-Real.pi * (((i : ℝ) + 1 - t0) / s) ^ 2)⟩ := by
  have hn' : ¬ (n : ℤ) ≤ 0 := by omega
  simp only [amgauss, defaultSpread, defaultT0, ok_bind, if_neg hn', if_neg hs, Vec.map, arange]
  congr 1
  have e : ((n : ℤ) + 1 - 1).toNat = n := by omega
  rw [e]
  congr 1
  funext i
  congr 1
  push_cast
  ring

theorem atomFreq_eq (f : ℝ) : max (min f 0.5) 0.0 = atomFreq f := by
  unfold atomFreq
  norm_num

theorem atomFreq_abs (f : ℝ) : |atomFreq f| ≤ 1 / 2 := by
  unfold atomFreq
  rw [abs_of_nonneg (le_max_right _ _)]
  exact max_le (min_le_right _ _) (by norm_num)

/-- A zero spread: the centre is the instant of a sample, where the quotient is 0/0. -/
theorem amgauss_zero (n : ℕ) (t0 : ℤ) (h1 : 1 ≤ t0) (hn : t0 ≤ n) : amgauss n (some (t0 : ℝ)) (some 0) = .error .nonFinite := by
  have hn' : ¬ (n : ℤ) ≤ 0 := by omega
  unfold amgauss
  simp only [defaultSpread, ok_bind]
  rw [if_neg hn']
  rw [if_pos trivial, if_pos]
  refine ⟨(t0 - 1).toNat, by show (t0 - 1).toNat < ((n : ℤ) + 1 - 1).toNat; omega, ?_⟩
  show (((1 : ℤ) + ((t0 - 1).toNat : ℕ) : ℤ) : ℝ) - t0 = 0
  have : (((1 : ℤ) + ((t0 - 1).toNat : ℕ) : ℤ)) = t0 := by omega
  rw [this, sub_self]

theorem items_ok {M : Mat ℝ} {k : ℕ} (hk : k < M.rows) (hc : 4 ≤ M.cols) :
    M.item (k : ℤ) 0 = .ok (M.get k 0) ∧ M.item (k : ℤ) 1 = .ok (M.get k 1) ∧ M.item (k : ℤ) 2 = .ok (M.get k 2) ∧ M.item (k : ℤ) 3 = .ok (M.get k 3) := by
  have hi : ∀ j : ℕ, j < 4 → M.item (k : ℤ) (j : ℤ) = .ok (M.get k j) := fun j hj => by
    rw [Mat.item_ok ⟨by omega, by omega⟩ ⟨by omega, by omega⟩, wrapIdx_natCast, wrapIdx_natCast]
  have h0 := hi 0 (by norm_num)
  have h1 := hi 1 (by norm_num)
  have h2 := hi 2 (by norm_num)
  have h3 := hi 3 (by norm_num)
  push_cast at h0 h1 h2 h3
  exact ⟨h0, h1, h2, h3⟩

theorem atomStep_ok {n : ℕ} {M : Mat ℝ} (hn : 1 ≤ n) (hc : 4 ≤ M.cols) {k : ℕ} (hk : k < M.rows) (ht : atomCentre n (M.get k 0) < n) :
    (M.get k 2 ≠ 0 → ∀ s : ℕ → ℂ, atomStep n M (some ⟨n, s⟩) k
      = .ok (some ⟨n, fun i => s i + gaussAtom (atomCentre n (M.get k 0)) (atomFreq (M.get k 1)) (M.get k 2) (M.get k 3) i⟩)) ∧
    (M.get k 2 = 0 → ∀ s, atomStep n M s k = .ok none) ∧ atomStep n M none k = .ok none := by
  have hpos := atomCentre_pos n (M.get k 0)
  obtain ⟨c, hcc⟩ := Int.eq_ofNat_of_zero_le (show 0 ≤ atomCentre n (M.get k 0) by omega)
  have hce : atomCentre n (M.get k 0) = (c : ℤ) := hcc
  have hcn : c < n := by omega
  obtain ⟨h0, h1, h2, h3⟩ := items_ok hk hc
  have hround : roundEven (max (min (M.get k 0) (((n : ℤ)) : ℝ)) 1) = (c : ℤ) := by
    rw [← hce]; rfl
  have hz := amgauss_zero n c (by omega) (by omega)
  rw [Int.cast_natCast] at hz
  have hcast : (((c : ℤ) : ℝ)) = (c : ℝ) := by push_cast; rfl
  refine ⟨fun hT s => ?_, fun hT s => ?_, ?_⟩
  · unfold atomStep
    rw [h0, ok_bind, h1]
    simp only [hround]
    rw [ok_bind, h2, ok_bind, h3, ok_bind, atomFreq_eq, hcast, amgauss_eq n hn _ _ hT]
    simp only
    rw [ok_bind, fmconst_ok n c _ hcn (atomFreq_abs _), ok_bind]
    simp only
    rw [Vec.bcast_ok (by rfl), ok_bind, Vec.bcast_ok (by rfl), ok_bind]
    congr 3
    funext i
    unfold gaussAtom
    rw [hce]
    simp only [Int.cast_natCast]
  · unfold atomStep
    rw [h0, ok_bind, h1]
    simp only [hround]
    rw [ok_bind, h2, ok_bind, h3, ok_bind, atomFreq_eq, hcast, hT, hz]
    simp only
    rw [ok_bind, fmconst_ok n c _ hcn (atomFreq_abs _), ok_bind]
    cases s <;> rfl
  · unfold atomStep
    rw [h0, ok_bind, h1]
    simp only [hround]
    rw [ok_bind, h2, ok_bind, h3, ok_bind, atomFreq_eq, hcast]
    by_cases hT : M.get k 2 = 0
    · rw [hT, hz]
      simp only
      rw [ok_bind, fmconst_ok n c _ hcn (atomFreq_abs _), ok_bind]
    · rw [amgauss_eq n hn _ _ hT]
      simp only
      rw [ok_bind, fmconst_ok n c _ hcn (atomFreq_abs _), ok_bind]

/-- `atoms`: the signal is the sum of the Gaussian atoms described by the rows, each centred inside the signal and of non-zero spread.  An atom of zero spread
makes a sample of it NaN. -/
theorem C22_atoms (n : ℕ) (M : Mat ℝ) (hn : 1 ≤ n) (hc : 4 ≤ M.cols) (ht : ∀ k < M.rows, atomCentre n (M.get k 0) < n) :
    ((∀ k < M.rows, M.get k 2 ≠ 0) → ∃ z, atoms n (.two M) = .ok z ∧ z.len = n ∧ ∀ i < n, z.get i
      = ∑ k ∈ range M.rows, gaussAtom (atomCentre n (M.get k 0)) (atomFreq (M.get k 1)) (M.get k 2) (M.get k 3) i) ∧
    ((∃ k < M.rows, M.get k 2 = 0) → atoms n (.two M) = .error .nonFinite) := by
  unfold atoms
  simp only
  rw [if_neg (by omega), Int.toNat_natCast]
  constructor
  · intro hT
    obtain ⟨z, hz, w, hw, hl, hg⟩ := foldlM_range_ok (f := atomStep n M) (N := M.rows) (s := some (⟨n, fun _ => 0⟩ : Vec ℂ))
      (fun k z => ∃ w, z = some w ∧ w.len = n ∧ ∀ i < n, w.get i
        = ∑ j ∈ range k, gaussAtom (atomCentre n (M.get j 0)) (atomFreq (M.get j 1)) (M.get j 2) (M.get j 3) i)
      ⟨_, rfl, rfl, fun i _ => by simp⟩ (by
        rintro k hk z ⟨⟨len, g⟩, rfl, hl, hg⟩
        simp only at hl hg
        subst hl
        refine ⟨_, (atomStep_ok hn hc hk (ht k hk)).1 (hT k hk) g, _, rfl, rfl, fun i hi => ?_⟩
        rw [Finset.sum_range_succ, ← hg i hi])
    subst hw
    exact ⟨w, by rw [hz, ok_bind], hl, hg⟩
  · rintro ⟨m, hm, hT⟩
    obtain ⟨z, hz, -, hw⟩ := foldlM_range_ok (f := atomStep n M) (N := M.rows) (s := some (⟨n, fun _ => 0⟩ : Vec ℂ))
      (fun k z => (∀ w, z = some w → w.len = n) ∧ (m < k → z = none)) ⟨fun w hw => by cases hw; rfl, fun h => absurd h (by omega)⟩ (by
        rintro k hk z ⟨hl, hz⟩
        obtain ⟨a1, a2, a3⟩ := atomStep_ok hn hc hk (ht k hk)
        cases z with
        | none => exact ⟨none, a3, fun w hw => (by cases hw), fun _ => rfl⟩
        | some w =>
          by_cases hk0 : M.get k 2 = 0
          · exact ⟨none, a2 hk0 _, fun w hw => (by cases hw), fun _ => rfl⟩
          · obtain ⟨len, g⟩ := w
            have : len = n := hl _ rfl
            subst this
            refine ⟨_, a1 hk0 g, fun w hw => by cases hw; rfl, fun h => ?_⟩
            rcases Nat.lt_succ_iff_lt_or_eq.1 h with h | h
            · cases hz h
            · rw [h] at hT; exact absurd hT hk0)
    rw [hz, ok_bind, hw hm]

/-- Linear combination: stacking two descriptions adds the signals. -/
theorem C22_stack (n : ℕ) (M M' : Mat ℝ) (hn : 1 ≤ n) (hc : 4 ≤ M.cols) (hcc : M'.cols = M.cols)
    (ht : ∀ k < M.rows, atomCentre n (M.get k 0) < n) (hT : ∀ k < M.rows, M.get k 2 ≠ 0)
    (ht' : ∀ k < M'.rows, atomCentre n (M'.get k 0) < n) (hT' : ∀ k < M'.rows, M'.get k 2 ≠ 0) :
    ∃ z a b, atoms n (.two ⟨M.rows + M'.rows, M.cols, fun r c => if r < M.rows then M.get r c else M'.get (r - M.rows) c⟩) = .ok z ∧
      atoms n (.two M) = .ok a ∧ atoms n (.two M') = .ok b ∧ ∀ i < n, z.get i = a.get i + b.get i := by
  obtain ⟨a, ha, -, hga⟩ := (C22_atoms n M hn hc ht).1 hT
  obtain ⟨b, hb, -, hgb⟩ := (C22_atoms n M' hn (by omega) ht').1 hT'
  obtain ⟨z, hz, -, hgz⟩ := (C22_atoms n ⟨M.rows + M'.rows, M.cols, fun r c => if r < M.rows then M.get r c else M'.get (r - M.rows) c⟩ hn hc
    (fun k hk => by
      simp only at hk ⊢
      split_ifs with h
      · exact ht k h
      · exact ht' _ (by omega))).1
    (fun k hk => by
      simp only at hk ⊢
      split_ifs with h
      · exact hT k h
      · exact hT' _ (by omega))
  refine ⟨z, a, b, hz, ha, hb, fun i hi => ?_⟩
  rw [hgz i hi, hga i hi, hgb i hi]
  simp only
  rw [Finset.sum_range_add]
  congr 1
  · apply Finset.sum_congr rfl
    intro k hk
    simp only [if_pos (Finset.mem_range.1 hk)]
  · apply Finset.sum_congr rfl
    intro k _
    rw [if_neg (by omega), if_neg (by omega), if_neg (by omega), if_neg (by omega), Nat.add_sub_cancel_left]

/-- Sizes without samples: a negative one is refused by `np.zeros`; with zero points no atom can be placed (`TypeError`), but an empty
description gives the empty signal. -/
theorem C22_no_samples (coords : Utils.Arr12 ℝ) (M : Mat ℝ) :
    (∀ n : ℤ, n < 0 → atoms n coords = .error .valueError) ∧
    (1 ≤ M.rows → 4 ≤ M.cols → atoms 0 (.two M) = .error .typeError) ∧
    (M.rows = 0 → ∀ n : ℕ, atoms n (.two M) = .ok ⟨n, fun _ => 0⟩) := by
  refine ⟨fun n hn => if_pos hn, fun hr hc => ?_, fun hr n => ?_⟩
  · unfold atoms
    simp only
    rw [if_neg (by omega)]
    obtain ⟨r, hr'⟩ : ∃ r, M.rows = r + 1 := ⟨M.rows - 1, by omega⟩
    have hi : ∀ j : ℕ, j < 4 → M.item ((0 : ℕ) : ℤ) (j : ℤ) = .ok (M.get 0 j) := fun j hj => by
      rw [Mat.item_ok ⟨by omega, by omega⟩ ⟨by omega, by omega⟩, wrapIdx_natCast, wrapIdx_natCast]
    have h0 := hi 0 (by norm_num)
    have h1 := hi 1 (by norm_num)
    have h2 := hi 2 (by norm_num)
    have h3 := hi 3 (by norm_num)
    push_cast at h0 h1 h2 h3
    rw [hr', List.range_succ_eq_map, List.foldlM_cons]
    unfold atomStep
    push_cast
    rw [h0, ok_bind, h1, ok_bind, h2, ok_bind, h3, ok_bind]
    rfl
  · unfold atoms
    simp only
    rw [if_neg (by omega), hr]
    rfl

/-- Any atom whose centre rounds to the last instant raises `IndexError`, whatever the others, as do fewer than four columns and any
one-dimensional description. -/
theorem C22_raises (n : ℕ) (hn : 1 ≤ n) :
    (∀ (M : Mat ℝ) (k : ℕ), k < M.rows → 4 ≤ M.cols → atomCentre n (M.get k 0) = n → atoms n (.two M) = .error .indexError) ∧
    (∀ M : Mat ℝ, 1 ≤ M.rows → M.cols < 4 → atoms n (.two M) = .error .indexError) ∧
    (∀ v : Vec ℝ, 1 ≤ v.len → atoms n (.one v) = .error .indexError) := by
  have hfirst : ∀ (M : Mat ℝ), 1 ≤ M.rows → (∀ s, atomStep n M s 0 = .error .indexError) → ∀ s : Option (Vec ℂ),
      (List.range M.rows).foldlM (atomStep n M) s = .error .indexError := by
    intro M hr h s
    obtain ⟨r, hr'⟩ : ∃ r, M.rows = r + 1 := ⟨M.rows - 1, by omega⟩
    rw [hr', List.range_succ_eq_map, List.foldlM_cons, h, error_bind]
  have hcols : ∀ M : Mat ℝ, 1 ≤ M.rows → M.cols < 4 → ∀ s, atomStep n M s 0 = .error .indexError := by
    intro M hr hc s
    unfold atomStep
    have hi : ∀ j : ℤ, 0 ≤ j → M.item ((0 : ℕ) : ℤ) j = if j < M.cols then .ok (M.get 0 j.toNat) else .error .indexError := by
      intro j hj
      unfold Mat.item
      by_cases h : j < (M.cols : ℤ)
      · rw [if_pos ⟨⟨by omega, by omega⟩, ⟨by omega, h⟩⟩, if_pos h, wrapIdx_natCast, wrapIdx_of_nonneg hj]
      · rw [if_neg (fun hh => h hh.2.2), if_neg h]
    rw [hi 0 (by norm_num), hi 1 (by norm_num), hi 2 (by norm_num), hi 3 (by norm_num)]
    rw [if_neg (show ¬ (3 : ℤ) < (M.cols : ℤ) by omega)]
    split_ifs <;> rfl
  refine ⟨fun M k hr hc ht => ?_, fun M hr hc => ?_, fun v hv => ?_⟩
  · unfold atoms
    simp only
    rw [if_neg (by omega)]
    -- the first such atom
    obtain ⟨k, ⟨hr, ht⟩, hmin⟩ : ∃ k, (k < M.rows ∧ atomCentre n (M.get k 0) = n) ∧ ∀ j < k, ¬ (j < M.rows ∧ atomCentre n (M.get j 0) = n) := by
      classical
      exact ⟨Nat.find ⟨k, hr, ht⟩, Nat.find_spec (⟨k, hr, ht⟩ : ∃ k, k < M.rows ∧ atomCentre n (M.get k 0) = n), fun j hj => Nat.find_min _ hj⟩
    obtain ⟨r, hr'⟩ : ∃ r, M.rows = k + (r + 1) := ⟨M.rows - k - 1, by omega⟩
    obtain ⟨z, hz, -⟩ := foldlM_range_ok (f := atomStep n M) (N := k) (s := some (⟨(n : ℤ).toNat, fun _ => 0⟩ : Vec ℂ))
      (fun _ z => ∀ w, z = some w → w.len = n) (fun w hw => by cases hw; rfl) (by
        intro j hjk z hl
        have hlt : atomCentre n (M.get j 0) < n := lt_of_le_of_ne (atomCentre_le n _ hn) (fun h => hmin j hjk ⟨by omega, h⟩)
        obtain ⟨a1, a2, a3⟩ := atomStep_ok hn hc (by omega) hlt
        cases z with
        | none => exact ⟨none, a3, fun w hw => by cases hw⟩
        | some w =>
          by_cases hk0 : M.get j 2 = 0
          · exact ⟨none, a2 hk0 _, fun w hw => by cases hw⟩
          · obtain ⟨len, g⟩ := w
            have : len = n := hl _ rfl
            subst this
            exact ⟨_, a1 hk0 g, fun w hw => by cases hw; rfl⟩)
    rw [hr', List.range_add, List.foldlM_append, hz, ok_bind, List.range_succ_eq_map, List.map_cons, List.foldlM_cons, Nat.add_zero]
    obtain ⟨h0, h1, h2, h3⟩ := items_ok hr hc
    have hround : roundEven (max (min (M.get k 0) (((n : ℤ)) : ℝ)) 1) = (n : ℤ) := ht
    have hcast : (((n : ℤ) : ℝ)) = (n : ℝ) := by push_cast; rfl
    have hstep : atomStep n M z k = .error .indexError := by
      unfold atomStep
      rw [h0, ok_bind, h1]
      simp only [hround]
      rw [ok_bind, h2, ok_bind, h3, ok_bind, atomFreq_eq]
      by_cases hT : M.get k 2 = 0
      · rw [hT, amgauss_zero n n (by omega) le_rfl]
        simp only
        rw [ok_bind, hcast, C09_fmconst_late_centre n _ _ hn (atomFreq_abs _) le_rfl]
        rfl
      · rw [hcast, amgauss_eq n hn _ _ hT]
        simp only
        rw [ok_bind, C09_fmconst_late_centre n _ _ hn (atomFreq_abs _) le_rfl]
        rfl
    rw [hstep]
    rfl
  · unfold atoms
    simp only
    rw [if_neg (by omega), hfirst M hr (hcols M hr hc) _]
    rfl
  · unfold atoms
    simp only
    rw [if_neg (by omega), hfirst ⟨v.len, 1, fun i _ => v.get i⟩ hv (hcols _ hv (by norm_num)) _]
    rfl

example : ∃ z, atoms 16 (.two ⟨1, 4, fun _ c => if c = 0 then 8 else if c = 1 then 1 / 4 else if c = 2 then 5 else 3⟩) = .ok z ∧
    z.get 7 = 3 * expi (-(Real.pi / 2)) := by
  have hcen : atomCentre 16 8 = 8 := by
    unfold atomCentre
    have : max (min (8 : ℝ) ((16 : ℕ) : ℝ)) 1 = ((8 : ℕ) : ℝ) := by norm_num
    rw [this, roundEven_natCast]; rfl
  obtain ⟨z, hz, -, h⟩ := (C22_atoms 16 ⟨1, 4, fun _ c => if c = 0 then 8 else if c = 1 then 1 / 4 else if c = 2 then 5 else 3⟩ (by norm_num)
    (by norm_num) (fun k _ => by simp only [if_true]; rw [hcen]; norm_num)).1 (fun k _ => by norm_num)
  refine ⟨z, by exact_mod_cast hz, ?_⟩
  rw [h 7 (by norm_num)]
  simp only [Finset.sum_range_one, if_true]
  rw [hcen]
  unfold gaussAtom atomFreq
  norm_num
  congr 1
  ring

/-- Two atoms on four points, the first of zero spread: the result has a NaN if the second is centred at instant 2, and the call raises if it is centred at 4. -/
example : atoms (4 : ℕ) (.two ⟨2, 4, fun k c => if c = 0 then 2 else if c = 2 then (k : ℝ) else 1⟩) = .error .nonFinite ∧
    atoms (4 : ℕ) (.two ⟨2, 4, fun k c => if c = 0 then (if k = 0 then 2 else 4) else if c = 2 then (k : ℝ) else 1⟩) = .error .indexError := by
  have h2 : atomCentre 4 2 = 2 := by
    unfold atomCentre
    rw [show max (min (2 : ℝ) ((4 : ℕ) : ℝ)) 1 = ((2 : ℕ) : ℝ) by norm_num, roundEven_natCast]; rfl
  have h4 : atomCentre 4 4 = 4 := by
    unfold atomCentre
    rw [show max (min (4 : ℝ) ((4 : ℕ) : ℝ)) 1 = ((4 : ℕ) : ℝ) by norm_num, roundEven_natCast]; rfl
  refine ⟨(C22_atoms 4 ⟨2, 4, fun k c => if c = 0 then 2 else if c = 2 then (k : ℝ) else 1⟩ (by norm_num) (by norm_num) (fun k _ => ?_)).2 ⟨0, by norm_num, by norm_num⟩,
    (C22_raises 4 (by norm_num)).1 ⟨2, 4, fun k c => if c = 0 then (if k = 0 then 2 else 4) else if c = 2 then (k : ℝ) else 1⟩ 1 (by norm_num) (by norm_num) ?_⟩
  · dsimp only
    rw [if_pos rfl, h2]
    norm_num
  · dsimp only
    rw [if_pos rfl, if_neg (by norm_num), h4]
    rfl

/-! ## C23: Doppler signal -/

/-- Phase (in cycles) of a source of frequency `f0` passing at distance `d` with velocity `v`, at the continuous sample time `t`. -/
noncomputable def dopplerPhase (s f0 d v t0 c t : ℝ) : ℝ := f0 * ((t - t0) / s - Real.sqrt (d ^ 2 + (v * ((t - t0) / s)) ^ 2) / c)

/-- `doppler`: unit modulus; the frequency law is the derivative of the phase; it equals `f0 / s` at the closest approach, is non-increasing,
and differs from `f0 / s` by at most the fraction `v / c`; the amplitude is the inverse square root of the distance. -/
theorem C23_doppler (n : ℕ) (s f0 d v t0 c : ℝ) (hs : 0 < s) (hd : 0 < d) (ht1 : 1 ≤ t0) (htn : t0 ≤ n) (hf0 : 0 ≤ f0) (hf1 : f0 ≤ s / 2)
    (hv : 0 ≤ v) (hc : 0 < c) :
    ∃ r, doppler n s f0 d v (some t0) c = .ok r ∧ r.fm.len = n ∧ r.iflaw.len = n ∧
      (∀ i < n, r.fm.get i = expi (2 * Real.pi * dopplerPhase s f0 d v t0 c (i + 1))) ∧
      (∀ i < n, HasDerivAt (dopplerPhase s f0 d v t0 c) (r.iflaw.get i) ((i : ℝ) + 1)) ∧
      (∀ i < n, (i : ℝ) + 1 = t0 → r.iflaw.get i = f0 / s) ∧
      (∀ i < n, |r.iflaw.get i - f0 / s| ≤ v / c * (f0 / s)) ∧
      (∀ i j, i ≤ j → j < n → r.iflaw.get j ≤ r.iflaw.get i) ∧
      (eps ≤ f0 → ∃ am, r.am = some am ∧ am.len = n ∧
        ∀ i < n, am.get i = 1 / Real.sqrt (Real.sqrt (d ^ 2 + (v * (((i : ℝ) + 1 - t0) / s)) ^ 2))) ∧
      (f0 < eps → r.am = none) := by
  have hD : ∀ τ : ℝ, 0 < d ^ 2 + (v * τ) ^ 2 := fun τ => by positivity
  set law : ℝ → ℝ := fun τ => (1 - v ^ 2 * τ / Real.sqrt (d ^ 2 + (v * τ) ^ 2) / c) * f0 / s with hlaw
  have hok : doppler n s f0 d v (some t0) c = .ok ⟨⟨n, fun i => expi (2 * Real.pi * dopplerPhase s f0 d v t0 c (i + 1))⟩,
      if |f0| < eps then none else some ⟨n, fun i => 1 / Real.sqrt (Real.sqrt (d ^ 2 + (v * (((i : ℝ) + 1 - t0) / s)) ^ 2))⟩,
      ⟨n, fun i => law (((i : ℝ) + 1 - t0) / s)⟩⟩ := by
    unfold doppler
    simp only [Option.getD_some]
    rw [if_neg (by linarith), if_neg (by linarith), if_neg (by push_cast; push Not; constructor <;> linarith),
      if_neg (by push Not; constructor <;> linarith), if_neg (by linarith), if_neg (by push Not; exact ⟨hs.ne', hc.ne'⟩)]
    have e : ((n : ℤ) + 1 - 1).toNat = n := by omega
    have e2 : ∀ i : ℕ, (((1 : ℤ) + (i : ℤ) : ℤ) : ℝ) = (i : ℝ) + 1 := fun i => by push_cast; ring
    simp only [Vec.map, arange, e, e2]
    congr 2
    · congr 1
      funext i
      unfold expi dopplerPhase
      congr 1
      push_cast
      ring
  have hsq : ∀ τ, |v * τ| ≤ Real.sqrt (d ^ 2 + (v * τ) ^ 2) := fun τ => by
    apply Real.abs_le_sqrt
    nlinarith [sq_nonneg d]
  have hmono : ∀ a b : ℝ, a ≤ b → v * a / Real.sqrt (d ^ 2 + (v * a) ^ 2) ≤ v * b / Real.sqrt (d ^ 2 + (v * b) ^ 2) := by
    have key : ∀ p q : ℝ, p ≤ q → p / Real.sqrt (d ^ 2 + p ^ 2) ≤ q / Real.sqrt (d ^ 2 + q ^ 2) := by
      intro p q hpq
      have hp : 0 < Real.sqrt (d ^ 2 + p ^ 2) := Real.sqrt_pos.2 (by positivity)
      have hq : 0 < Real.sqrt (d ^ 2 + q ^ 2) := Real.sqrt_pos.2 (by positivity)
      rw [div_le_div_iff₀ hp hq]
      by_cases h1 : p ≤ 0
      · by_cases h2 : 0 ≤ q
        · have := mul_nonpos_of_nonpos_of_nonneg h1 hq.le
          have := mul_nonneg h2 hp.le
          linarith
        · push Not at h2
          have : -(q * Real.sqrt (d ^ 2 + p ^ 2)) ≤ -(p * Real.sqrt (d ^ 2 + q ^ 2)) := by
            rw [← neg_mul, ← neg_mul]
            apply abs_le_of_sq_le_sq' _ (by nlinarith) |>.2
            rw [mul_pow, mul_pow, Real.sq_sqrt (by positivity), Real.sq_sqrt (by positivity)]
            nlinarith [sq_nonneg d, mul_nonneg (sq_nonneg d) (show 0 ≤ (q - p) * (-(p + q)) by nlinarith)]
          linarith
      · push Not at h1
        apply abs_le_of_sq_le_sq' _ (by nlinarith) |>.2
        rw [mul_pow, mul_pow, Real.sq_sqrt (by positivity), Real.sq_sqrt (by positivity)]
        nlinarith [mul_nonneg (sq_nonneg d) (show 0 ≤ (q - p) * (p + q) by nlinarith)]
    intro a b hab
    exact key _ _ (mul_le_mul_of_nonneg_left hab hv)
  refine ⟨_, hok, rfl, rfl, fun _ _ => rfl, fun i _ => ?_, fun i _ h => ?_, fun i _ => ?_, fun i j hij _ => ?_, fun h => ?_, fun h => ?_⟩
  · set τ : ℝ := ((i : ℝ) + 1 - t0) / s with hτ
    have h1 : HasDerivAt (fun t : ℝ => (t - t0) / s) (1 / s) ((i : ℝ) + 1) := ((hasDerivAt_id _).sub_const t0).div_const s
    have h2 : HasDerivAt (fun t : ℝ => d ^ 2 + (v * ((t - t0) / s)) ^ 2) (2 * (v * τ) * (v * (1 / s))) ((i : ℝ) + 1) := by
      have := ((h1.const_mul v).pow 2).const_add (d ^ 2)
      refine HasDerivAt.congr_deriv this ?_
      rw [hτ]
      norm_num
    have h3 := h2.sqrt (hD τ).ne'
    have h4 := (h1.sub (h3.div_const c)).const_mul f0
    refine HasDerivAt.congr_deriv h4 ?_
    rw [hlaw]
    simp only
    rw [← hτ]
    have := (Real.sqrt_pos.2 (hD τ)).ne'
    field_simp
  · simp only [hlaw]
    rw [h]
    simp
  · simp only [hlaw]
    set τ : ℝ := ((i : ℝ) + 1 - t0) / s with hτ
    have hq := Real.sqrt_pos.2 (hD τ)
    have e : (1 - v ^ 2 * τ / Real.sqrt (d ^ 2 + (v * τ) ^ 2) / c) * f0 / s - f0 / s
        = -(v * τ / Real.sqrt (d ^ 2 + (v * τ) ^ 2)) * (v / c * (f0 / s)) := by
      field_simp
      ring
    have hnn : 0 ≤ v / c * (f0 / s) := by positivity
    rw [e, abs_mul, abs_of_nonneg hnn, abs_neg, abs_div, abs_of_pos hq]
    calc |v * τ| / Real.sqrt (d ^ 2 + (v * τ) ^ 2) * (v / c * (f0 / s)) ≤ 1 * (v / c * (f0 / s)) := by
          apply mul_le_mul_of_nonneg_right _ hnn
          rw [div_le_one hq]
          exact hsq τ
      _ = v / c * (f0 / s) := one_mul _
  · simp only [hlaw]
    have hτ : ((i : ℝ) + 1 - t0) / s ≤ ((j : ℝ) + 1 - t0) / s := by
      have : (i : ℝ) ≤ j := by exact_mod_cast hij
      exact div_le_div_of_nonneg_right (by linarith) hs.le
    have h1 := hmono _ _ hτ
    set a := ((i : ℝ) + 1 - t0) / s
    set b := ((j : ℝ) + 1 - t0) / s
    have h2 : v ^ 2 * a / Real.sqrt (d ^ 2 + (v * a) ^ 2) / c ≤ v ^ 2 * b / Real.sqrt (d ^ 2 + (v * b) ^ 2) / c := by
      apply div_le_div_of_nonneg_right _ hc.le
      have e : ∀ x : ℝ, v ^ 2 * x / Real.sqrt (d ^ 2 + (v * x) ^ 2) = v * (v * x / Real.sqrt (d ^ 2 + (v * x) ^ 2)) := fun x => by ring
      rw [e, e]
      exact mul_le_mul_of_nonneg_left h1 hv
    apply div_le_div_of_nonneg_right _ hs.le
    apply mul_le_mul_of_nonneg_right _ hf0
    linarith
  · refine ⟨_, if_neg (by rw [abs_of_nonneg hf0]; linarith), rfl, fun _ _ => rfl⟩
  · exact if_pos (by rw [abs_of_nonneg hf0]; exact h)

/-- Arguments outside their domains raise `TypeError`. -/
theorem C23_rejects (n : ℤ) (s f0 d v t0 c : ℝ) (h : d ≤ 0 ∨ s < 0 ∨ t0 < 1 ∨ (n : ℝ) < t0 ∨ f0 < 0 ∨ s / 2 < f0 ∨ v < 0) :
    doppler n s f0 d v (some t0) c = .error .typeError := by
  unfold doppler
  simp only [Option.getD_some]
  by_cases h1 : d ≤ 0
  · rw [if_pos h1]
  by_cases h2 : s < 0
  · rw [if_neg h1, if_pos h2]
  by_cases h3 : t0 < 1 ∨ t0 > n
  · rw [if_neg h1, if_neg h2, if_pos h3]
  by_cases h4 : f0 < 0 ∨ f0 > s / 2
  · rw [if_neg h1, if_neg h2, if_neg h3, if_pos h4]
  have h5 : v < 0 := by
    push Not at h1 h2 h3 h4
    rcases h with h | h | h | h | h | h | h
    all_goals first | exact h | (exfalso; linarith [h3.1, h3.2, h4.1, h4.2])
  rw [if_neg h1, if_neg h2, if_neg h3, if_neg h4, if_pos h5]

/-- The closest approach defaults to the middle, so that a single sample is refused. -/
theorem C23_default (n : ℤ) (s f0 d v c : ℝ) : doppler n s f0 d v none c = doppler n s f0 d v (some ((n : ℝ) / 2)) c := rfl

/-- A single sample: the default instant of closest approach is refused. -/
theorem C23_single (s f0 d v c : ℝ) : doppler 1 s f0 d v none c = .error .typeError := by
  have : doppler 1 s f0 d v none c = doppler 1 s f0 d v (some (1 / 2)) c := by unfold doppler; simp
  rw [this]
  exact C23_rejects 1 s f0 d v (1 / 2) c (by norm_num)

example : ∃ r, doppler 64 200 65 10 50 (some 32) 340 = .ok r ∧ r.iflaw.get 31 = 65 / 200 := by
  obtain ⟨r, h, -, -, -, -, h1, -⟩ := C23_doppler 64 200 65 10 50 32 340 (by norm_num) (by norm_num) (by norm_num) (by norm_num) (by norm_num)
    (by norm_num) (by norm_num) (by norm_num)
  exact ⟨r, by exact_mod_cast h, h1 31 (by norm_num) (by norm_num)⟩

/-! ## C25: Mexican hat -/

/-- `mexhat`: `2 ⌈3/(2ν)⌉ + 1` samples of the Mexican hat, symmetric about the middle one, which alone attains the maximum `ν √π / 2`. -/
theorem C25_mexhat (ν : ℝ) (h0 : 0 < ν) (h1 : ν ≤ 1 / 2) :
    ∃ (h : Vec ℝ) (m : ℕ), mexhat ν = .ok h ∧ (m : ℤ) = ⌈3 / (2 * ν)⌉ ∧ h.len = 2 * m + 1 ∧
      (∀ i < 2 * m + 1, h.get i = ν * Real.sqrt Real.pi / 2 * Real.exp (-(Real.pi * ν * ((i : ℝ) - m)) ^ 2)
        * (1 - 2 * (Real.pi * ν * ((i : ℝ) - m)) ^ 2)) ∧
      (∀ i ≤ 2 * m, h.get (2 * m - i) = h.get i) ∧ h.get m = ν * Real.sqrt Real.pi / 2 ∧
      (∀ i < 2 * m + 1, i ≠ m → h.get i < h.get m) := by
  have hpos : 0 < 3 / (2 * ν) := by positivity
  obtain ⟨m, hm⟩ := Int.eq_ofNat_of_zero_le (Int.ceil_nonneg hpos.le)
  have hm' : (⌈1.5 / ν⌉ : ℤ) = (m : ℤ) := by
    rw [show (1.5 : ℝ) / ν = 3 / (2 * ν) by norm_num; field_simp]
    exact hm
  set g : ℝ → ℝ := fun τ => ν * Real.sqrt Real.pi / 2 * Real.exp (-(Real.pi * ν * τ) ^ 2) * (1 - 2 * (Real.pi * ν * τ) ^ 2) with hg
  have hok : mexhat ν = .ok ⟨2 * m + 1, fun i => g ((i : ℝ) - m)⟩ := by
    unfold mexhat
    rw [if_neg (by push Not; norm_num; exact ⟨h1, h0.le⟩), if_neg h0.ne']
    simp only [hm']
    unfold arangeF Vec.map
    have e : ⌈(((m : ℤ) : ℝ) + 1 - -((m : ℤ) : ℝ))⌉.toNat = 2 * m + 1 := by
      have : (((m : ℤ) : ℝ) + 1 - -((m : ℤ) : ℝ)) = ((2 * m + 1 : ℕ) : ℝ) := by push_cast; ring
      rw [this, Int.ceil_natCast, Int.toNat_natCast]
    simp only [e]
    congr 2
    funext i
    rw [hg]
    simp only
    have e2 : -((m : ℤ) : ℝ) + i = i - m := by push_cast; ring
    rw [e2]
    congr 2
    · congr 1; ring
    · ring
  have hc : 0 < ν * Real.sqrt Real.pi / 2 := by
    have := Real.sqrt_pos.2 Real.pi_pos
    positivity
  refine ⟨_, m, hok, hm.symm, rfl, fun _ _ => rfl, fun i hi => ?_, ?_, fun i _ him => ?_⟩
  · simp only [hg]
    have : ((2 * m - i : ℕ) : ℝ) - m = -((i : ℝ) - m) := by push_cast [Nat.cast_sub hi]; ring
    rw [this]
    congr 2
    · congr 1; ring
    · ring
  · simp only [hg]
    simp
  · simp only [hg]
    simp only [sub_self, mul_zero]
    have hne : (i : ℝ) - m ≠ 0 := sub_ne_zero.2 (by exact_mod_cast him)
    set u := (Real.pi * ν * ((i : ℝ) - m)) ^ 2 with hu
    have hup : 0 < u := by
      have := Real.pi_pos.ne'
      have := h0.ne'
      positivity
    have e1 : -(Real.pi * ν * ((i : ℝ) - m)) ^ 2 = -u := rfl
    rw [e1]
    have he : Real.exp (-u) ≤ 1 := Real.exp_le_one_iff.2 (by linarith)
    have he0 := Real.exp_pos (-u)
    have : Real.exp (-u) * (1 - 2 * u) < 1 := by nlinarith
    calc ν * Real.sqrt Real.pi / 2 * Real.exp (-u) * (1 - 2 * u) = ν * Real.sqrt Real.pi / 2 * (Real.exp (-u) * (1 - 2 * u)) := by ring
      _ < ν * Real.sqrt Real.pi / 2 * 1 := mul_lt_mul_of_pos_left this hc
      _ = _ := by simp

/-- Outside `[0, 1/2]` `mexhat` raises `AssertionError`, at zero `ZeroDivisionError`. -/
theorem C25_rejects (ν : ℝ) : (ν < 0 ∨ 1 / 2 < ν → mexhat ν = .error .assertionError) ∧ mexhat 0 = .error .zeroDivisionError := by
  constructor
  · intro h
    unfold mexhat
    rw [if_pos]
    norm_num
    intro h'
    rcases h with h | h <;> linarith
  · unfold mexhat
    rw [if_neg (by norm_num), if_pos rfl]

example : ∃ h, mexhat (1 / 2) = .ok h ∧ h.len = 7 ∧ h.get 0 = h.get 6 := by
  obtain ⟨h, m, hm, hc, hl, -, hs, -⟩ := C25_mexhat (1 / 2) (by norm_num) (by norm_num)
  have : m = 3 := by
    have : (m : ℤ) = 3 := by rw [hc]; norm_num
    exact_mod_cast this
  subst this
  exact ⟨h, hm, hl, (hs 0 (by norm_num)).symm⟩

end Tftb.Props
