import Verif.Lemmas.AffineClass
import Verif.Props.Scalogram
import Verif.Props.Dilation
import Verif.Props.WideBand
import Verif.Lemmas.Gabor
import Mathlib.Analysis.Complex.ExponentialBounds

/-! # Distributions of Unterberger, D-Flandrin and Bertrand: runs (C68) and constructors (C69) -/

namespace Tftb.Props

open Tftb Spec AffDist WideBand

/-! ## C68 -/

/-- **Representation before interpolation.**  Before the interpolation, the entry of voice `i` and column `j` is the inverse Fourier transform over
the dilations of the product of the spectrum dilated by the two functions `λ(-u)` and `λ(u)`, times the frequency; the frequencies are in
geometric progression from `fmin` to `fmax`. -/
theorem C68_transform (o : Disp) (hk : o.kind ≠ .unterberger true) (h0 : 0 < o.fmin) (h1 : o.fmin < o.fmax) (hN : 2 ≤ o.nv) (m1 : ℕ)
    (hm1 : o.m1 = (m1 : ℤ)) (hm : 0 < m1) (hu : 0 < o.umax) (hf : o.kind = .dflandrin → o.umax < 4) :
    ∃ f M, tffr o = .ok (f, M) ∧ f.len = o.nv ∧ M.rows = o.nv ∧ M.cols = 2 * m1 ∧ (∀ k, f.get k = geoFreq o.nv o.fmin o.fmax k) ∧
      f.get 0 = o.fmin ∧ f.get (o.nv - 1) = o.fmax ∧
      ∀ i < o.nv, ∀ j < 2 * m1, M.get i j = affineAt o.kind (o.x.map Complex.re) o.m o.nv m1 o.fmin o.fmax o.umax i j := by
  obtain ⟨geo, M, h, hg, hM⟩ := tffr_ok o hk h0 h1 hN hm1 hm hu hf
  refine ⟨_, _, h, rfl, rfl, rfl, hg, ?_, ?_, hM⟩
  · show geo 0 = _
    rw [hg]; unfold geoFreq; simp
  · show geo (o.nv - 1) = _
    rw [hg]
    unfold geoFreq
    have : (o.nv : ℝ) - 1 ≠ 0 := by have : (2 : ℝ) ≤ o.nv := by exact_mod_cast hN
                                    linarith
    rw [Nat.cast_sub (by omega), Nat.cast_one, div_self this, Real.rpow_one, mul_div_cancel₀ _ h0.ne']

/-- **Frequency marginal.**  Summed over its columns, row `i` of the representation is the frequency times the squared modulus of the spectrum of the
real part at that frequency, for each of the three distributions. -/
theorem C68_marginal (o : Disp) (hk : o.kind ≠ .unterberger true) (h0 : 0 < o.fmin) (h1 : o.fmin < o.fmax) (hN : 2 ≤ o.nv) (m1 : ℕ)
    (hm1 : o.m1 = (m1 : ℤ)) (hm : 0 < m1) (hu : 0 < o.umax) (hf : o.kind = .dflandrin → o.umax < 4) :
    ∃ f M, tffr o = .ok (f, M) ∧ ∀ i < o.nv, ∑ j ∈ Finset.range (2 * m1), M.get i j =
      f.get i * ‖spectrumAt ⟨o.x.len, fun t => ((o.x.get t).re : ℂ)⟩ o.m (f.get i)‖ ^ 2 := by
  obtain ⟨geo, M, h, hg, hM⟩ := tffr_ok o hk h0 h1 hN hm1 hm hu hf
  refine ⟨_, _, h, fun i hi => ?_⟩
  rw [Finset.sum_congr rfl (fun j hj => hM i hi j (Finset.mem_range.1 hj)), affineAt_marginal _ _ _ hm]
  show _ = geo i * ‖spectrumAt _ o.m (geo i)‖ ^ 2
  rw [hg]
  rfl

/-- Coordinate `j` of the grid of `2 m1` points on which the rows are interpolated: from `-fmax τ` to `fmax τ`, `τ` half the duration. -/
noncomputable def gridAt (fmax τ : ℝ) (m1 j : ℕ) : ℝ := fmax * τ * (2 * j / (2 * m1 - 1) - 1)

open Classical in
/-- The points of the grid used for the frequency `f`: those of modulus at most `f τ`. -/
noncomputable def gridPoints (f fmax τ : ℝ) (m1 : ℕ) : List ℕ := (List.range (2 * m1)).filter (fun j => |gridAt fmax τ m1 j| ≤ f * τ)

/-- Shift of the instants: one sample for Unterberger. -/
noncomputable def lateness : Kind → ℝ
  | .unterberger _ => 1
  | _ => 0

/-- **Runs.**  Row `i` of the result is, up to one constant factor for the whole matrix, what the spline routine returns for: the grid points of
modulus at most `f τ`, the values of the representation there, and the instants `(t - τ) f` (`(t - τ - 1) f` for Unterberger), `f` being
frequency `i`. -/
theorem C68_run (spline : Spline) (o : Disp) (hk : o.kind ≠ .unterberger true) (h0 : 0 < o.fmin) (h1 : o.fmin < o.fmax) (h2 : o.fmax ≤ 1)
    (hN : 2 ≤ o.nv) (m1 : ℕ) (hm1 : o.m1 = (m1 : ℤ)) (hm : 0 < m1) (hu : 0 < o.umax) (hf : o.kind = .dflandrin → o.umax < 4)
    (hT : 2 ≤ o.ts.len) (hreg : Regular o.ts) (hs : o.ts.len ≤ o.x.len) (z : Vec ℂ) (hz : IsAnalytic (o.x.map Complex.re) z) (v : ℕ → ℕ → ℝ)
    (hsp : ∀ i < o.nv,
      let f := geoFreq o.nv o.fmin o.fmax i
      let τ := ((o.x.len : ℝ) - 1) / 2
      spline (Vec.ofEntries ((gridPoints f o.fmax τ m1).map (gridAt o.fmax τ m1)))
        (Vec.ofEntries ((gridPoints f o.fmax τ m1).map (affineAt o.kind (o.x.map Complex.re) o.m o.nv m1 o.fmin o.fmax o.umax i)))
        (o.ts.map (fun t : ℤ => ((t : ℝ) - τ - lateness o.kind) * f)) = .ok ⟨o.ts.len, v i⟩) :
    let I := trapz o.nv (geoFreq o.nv o.fmin o.fmax) (fun i => trapz o.ts.len (fun t => (o.ts.get t : ℝ)) (v i))
    let S := ∑ k ∈ Finset.Icc (bandBin' o.ts.len o.fmin) (bandBin' o.ts.len o.fmax), ‖dft z k‖ ^ 2
    (I = 0 → run spline o = .error .nonFinite) ∧
    (I ≠ 0 → ∃ R f, run spline o = .ok (R, o.ts, f) ∧ R.rows = o.nv ∧ R.cols = o.ts.len ∧ f.len = o.nv ∧
      (∀ i, f.get i = geoFreq o.nv o.fmin o.fmax i) ∧ (∀ i < o.nv, ∀ t < o.ts.len, R.get i t = S / (I * o.nv) * v i t) ∧
      trapz2 R (fun t => (o.ts.get t : ℝ)) f.get * o.nv = S) := by
  intro I S
  obtain ⟨geo, M, h, hg, hM⟩ := tffr_ok o hk h0 h1 hN hm1 hm hu hf
  set τ : ℝ := ((o.x.len : ℝ) - 1) / 2 with hτ
  have hnv1 : (o.nv : ℝ) - 1 ≠ 0 := by have : (2 : ℝ) ≤ o.nv := by exact_mod_cast hN
                                       linarith
  have hlast : (⟨o.nv, geo⟩ : Vec ℝ).item ((o.nv : ℤ) - 1) = .ok o.fmax := by
    rw [Vec.item_ok (by omega) (by show (o.nv : ℤ) - 1 < (o.nv : ℤ); omega)]
    show Except.ok (geo ((o.nv : ℤ) - 1).toNat) = _
    have : ((o.nv : ℤ) - 1).toNat = o.nv - 1 := by omega
    rw [this, hg]
    unfold geoFreq
    rw [Nat.cast_sub (by omega), Nat.cast_one, div_self hnv1, Real.rpow_one, mul_div_cancel₀ _ h0.ne']
  have hgrid : ∀ j, (linspace (-o.fmax * τ) (o.fmax * τ) (2 * m1)).get j = gridAt o.fmax τ m1 j := fun j => by
    show (if 2 * m1 = 1 then _ else _) = _
    rw [if_neg (by omega)]
    unfold gridAt
    have h2 : (2 * m1 : ℝ) - 1 ≠ 0 := by
      have : (1 : ℝ) ≤ m1 := by exact_mod_cast hm
      linarith
    push_cast
    field_simp
    ring
  have hi : interpolate spline o ⟨o.nv, geo⟩ ⟨o.nv, 2 * m1, M⟩ = .ok ⟨o.nv, o.ts.len, fun i t => if i < o.nv then v i t else 0⟩ := by
    unfold interpolate
    simp only
    rw [hlast, ok_bind, hm1, Int.toNat_natCast, ← hτ]
    obtain ⟨R, hR, hP⟩ := foldlM_range_ok (σ := Mat ℝ) (N := o.nv) (s := Mat.zeros o.nv o.ts.len)
      (fun k R => R = ⟨o.nv, o.ts.len, fun i t => if i < k then v i t else 0⟩)
      (f := fun (R : Mat ℝ) (i : ℕ) => do
        let g ← (⟨o.nv, geo⟩ : Vec ℝ).item i
        let ind := Vec.positions (linspace (-o.fmax * τ) (o.fmax * τ) (2 * m1)).len (fun j => -g * τ ≤ (linspace (-o.fmax * τ) (o.fmax * τ) (2 * m1)).get j ∧
          (linspace (-o.fmax * τ) (o.fmax * τ) (2 * m1)).get j ≤ g * τ)
        let xs : Vec ℝ := Vec.ofEntries (ind.map (linspace (-o.fmax * τ) (o.fmax * τ) (2 * m1)).get)
        let ys : Vec ℝ := Vec.ofEntries (ind.map (fun j => M i j))
        let xi := o.ts.map (fun t : ℤ => ((t : ℝ) - τ - (match o.kind with | .unterberger _ => 1 | _ => 0)) * g)
        let v ← spline xs ys xi
        setRow R i v)
      (by unfold Mat.zeros; simp) (fun k hk' R hR => by
        subst hR
        rw [Vec.item_ok (by omega) (by show (k : ℤ) < (o.nv : ℤ); omega), ok_bind, Int.toNat_natCast]
        have hgk : geo k = geoFreq o.nv o.fmin o.fmax k := hg k
        simp only [hgk]
        have hpos : Vec.positions (linspace (-o.fmax * τ) (o.fmax * τ) (2 * m1)).len (fun j => -geoFreq o.nv o.fmin o.fmax k * τ ≤
            (linspace (-o.fmax * τ) (o.fmax * τ) (2 * m1)).get j ∧ (linspace (-o.fmax * τ) (o.fmax * τ) (2 * m1)).get j ≤ geoFreq o.nv o.fmin o.fmax k * τ)
            = gridPoints (geoFreq o.nv o.fmin o.fmax k) o.fmax τ m1 := by
          unfold Vec.positions gridPoints
          show (List.range (2 * m1)).filter _ = _
          refine List.filter_congr (fun j _ => ?_)
          rw [decide_eq_decide]
          simp only
          rw [hgrid, abs_le, neg_mul]
        rw [hpos]
        have e1 : (gridPoints (geoFreq o.nv o.fmin o.fmax k) o.fmax τ m1).map (linspace (-o.fmax * τ) (o.fmax * τ) (2 * m1)).get
            = (gridPoints (geoFreq o.nv o.fmin o.fmax k) o.fmax τ m1).map (gridAt o.fmax τ m1) := List.map_congr_left (fun j _ => hgrid j)
        have e2 : (gridPoints (geoFreq o.nv o.fmin o.fmax k) o.fmax τ m1).map (fun j => M k j) = (gridPoints (geoFreq o.nv o.fmin o.fmax k) o.fmax τ m1).map
            (affineAt o.kind (o.x.map Complex.re) o.m o.nv m1 o.fmin o.fmax o.umax k) := List.map_congr_left (fun j hj => by
          unfold gridPoints at hj
          exact hM k hk' j (List.mem_range.1 (List.mem_of_mem_filter hj)))
        have e3 : (match o.kind with | .unterberger _ => (1 : ℝ) | _ => 0) = lateness o.kind := by cases o.kind <;> rfl
        rw [e1, e2, e3, hsp k hk', ok_bind]
        unfold setRow
        rw [if_neg (by show ¬ o.nv ≤ k; omega), if_pos (by rfl)]
        refine ⟨_, rfl, ?_⟩
        congr 1
        funext i t
        simp only
        by_cases hik : i = k
        · subst hik; rw [if_pos rfl, if_pos (by omega)]
        · rw [if_neg hik]
          by_cases hlt : i < k
          · rw [if_pos hlt, if_pos (by omega)]
          · rw [if_neg hlt, if_neg (by omega)])
    subst hP
    exact hR
  have hrun : run spline o = (Aff.normaliseTf (⟨o.nv, o.ts.len, fun i t => if i < o.nv then v i t else 0⟩ : Mat ℝ) (o.x.map Complex.re) o.ts ⟨o.nv, geo⟩ o.fmin o.fmax o.nv >>=
      fun R => .ok (R, o.ts, ⟨o.nv, geo⟩)) := by
    unfold run
    rw [h, ok_bind]
    simp only
    rw [hi, ok_bind]
  obtain ⟨hz0, hnz⟩ := C56_affine (⟨o.nv, o.ts.len, fun i t => if i < o.nv then v i t else 0⟩ : Mat ℝ) (o.x.map Complex.re) z hz o.ts hT hreg ⟨o.nv, geo⟩ o.fmin o.fmax o.nv
    (by omega) rfl rfl hs h0.le h1.le h2
  have hI : trapz2 (⟨o.nv, o.ts.len, fun i t => if i < o.nv then v i t else 0⟩ : Mat ℝ) (fun i => (o.ts.get i : ℝ)) geo = I := by
    unfold trapz2
    refine trapz_congr (fun i _ => hg i) (fun i hi => ?_)
    exact trapz_congr (fun _ _ => rfl) (fun t _ => by show (if i < o.nv then _ else _) = _; rw [if_pos hi])
  rw [hI] at hz0 hnz
  refine ⟨fun h => ?_, fun h => ?_⟩
  · rw [hrun, hz0 h]; rfl
  · obtain ⟨R, hR, hr, hc, hent, htr⟩ := hnz h
    refine ⟨R, ⟨o.nv, geo⟩, by rw [hrun, hR, ok_bind], hr, hc, rfl, hg, fun i hi t _ => ?_, htr⟩
    rw [hent i t]
    show _ * (if i < o.nv then _ else _) = _
    rw [if_pos hi]

/-- A spline routine that is given the instants and answers 1 everywhere. -/
def oneSpline : Spline := fun _ _ xi => .ok ⟨xi.len, fun _ => 1⟩

/-- The other form of Unterberger's distribution (`form` different from "A") reads one dilation too many: every run raises `IndexError`. -/
theorem C55_unterberger_form (spline : Spline) (o : Disp) (hk : o.kind = .unterberger true) (h0 : 0 < o.fmin) (h1 : o.fmin < o.fmax) (hN : 2 ≤ o.nv)
    (m1 : ℕ) (hm1 : o.m1 = (m1 : ℤ)) (hm : 0 < m1) (hu : 0 < o.umax) : run spline o = .error .indexError := by
  have hba : 0 < o.fmax / o.fmin := div_pos (h0.trans h1) h0
  obtain ⟨geo, S, hg, hgeo, hS, hS0⟩ := geometricSample_ok (o.x.map Complex.re) o.m h0 h1 hN
  obtain ⟨y, hy, hmel⟩ := mellin_ok o.nv hN S hS0
  obtain ⟨u, hua, hug⟩ := uAxis_ok hu hm
  set q : ℝ := (o.fmax / o.fmin) ^ (1 / ((o.nv : ℝ) - 1)) with hq
  have hpos : ∀ (sgn v : ℝ), sgn = -1 ∨ sgn = 1 → 0 < lam (.unterberger true) sgn v := fun sgn v h =>
    lam_pos (.unterberger true) h (by simp) (by simp)
  choose f1 hf1 _ using fun v => dilate_ok (.unterberger true) hN q S (fftshift ⟨o.nv + o.nv, y⟩) rfl hmel (hpos (-1) v (Or.inl rfl))
  choose f2 hf2 _ using fun v => dilate_ok (.unterberger true) hN q S (fftshift ⟨o.nv + o.nv, y⟩) rfl hmel (hpos 1 v (Or.inr rfl))
  have hrow : ∀ n < 2 * m1, wafRow (.unterberger true) o.nv m1 q ⟨2 * m1, u⟩ ⟨o.nv + o.nv, S⟩ (fftshift ⟨o.nv + o.nv, y⟩) n =
      ((⟨2 * m1, u⟩ : Vec ℝ).item ((n : ℤ) + 1) >>= fun v => .ok (⟨o.nv, fun i => f1 (u n) i * (starRingEnd ℂ) (f2 (u n) i) *
        ((1 / Real.sqrt (1 + (v / 2) ^ 2) : ℝ) : ℂ)⟩ : Vec ℂ)) := fun n hn => by
    unfold wafRow
    rw [Vec.item_ok (by omega) (by show (n : ℤ) < ((2 * m1 : ℕ) : ℤ); omega), ok_bind, if_neg (by simp), Int.toNat_natCast]
    show (dilate (.unterberger true) o.nv q _ (-1) (u n) >>= fun f1 => _) = _
    rw [hf1 (u n), ok_bind]
    show (dilate (.unterberger true) o.nv q _ 1 (u n) >>= fun f2 => _) = _
    rw [hf2 (u n), ok_bind, Vec.bcast_ok (by rfl), ok_bind]
    rfl
  have he : tffr o = .error .indexError := by
    unfold tffr
    simp only
    rw [hg, ok_bind]
    simp only
    rw [hy, ok_bind, hm1, hua, ok_bind, Int.toNat_natCast, hk,
      Mat.forCols_error (M := Mat.zeros o.nv (2 * m1)) (T := 2 * m1) (c0 := 2 * m1 - 1) (e := .indexError)
        (g := fun n => ⟨o.nv, fun i => f1 (u n) i * (starRingEnd ℂ) (f2 (u n) i) * ((1 / Real.sqrt (1 + (u (n + 1) / 2) ^ 2) : ℝ) : ℂ)⟩)
        (le_refl _) (by omega) (fun n hn => ?_) ?_]
    · rfl
    · rw [hrow _ (by omega)]
      unfold Vec.item
      rw [if_neg (by unfold IdxOk; show ¬ (-((2 * m1 : ℕ) : ℤ) ≤ _ ∧ _ < ((2 * m1 : ℕ) : ℤ)); omega)]
      rfl
    · rw [hrow n (by omega), Vec.item_ok (by omega) (by show (n : ℤ) + 1 < ((2 * m1 : ℕ) : ℤ); omega)]
      rfl
  unfold run
  rw [he]
  rfl

/-! ## C69 -/

/-- Unterberger's equation has exactly one solution, `√r - 1/√r`. -/
theorem C69_unterberger_root (r x : ℝ) (hr : 0 < r) : umaxunt r x = 0 ↔ x = Real.sqrt r - 1 / Real.sqrt r := by
  unfold umaxunt
  simp only
  set a := Real.sqrt (1 + (x / 2) ^ 2) with ha
  set s := Real.sqrt r with hs
  have hs0 : 0 < s := Real.sqrt_pos.2 hr
  have hr2 : r = s ^ 2 := (Real.sq_sqrt hr.le).symm
  have ha2 : a ^ 2 = 1 + (x / 2) ^ 2 := Real.sq_sqrt (by positivity)
  have ha0 : 0 ≤ a := Real.sqrt_nonneg _
  have hlt : |x / 2| < a := by
    rw [ha, ← Real.sqrt_sq_eq_abs]
    exact Real.sqrt_lt_sqrt (sq_nonneg _) (by linarith)
  obtain ⟨hl, hr'⟩ := abs_lt.1 hlt
  have hprod : (a + x / 2) * (a - x / 2) = 1 := by linear_combination ha2
  have hinv : a - x / 2 = (a + x / 2)⁻¹ := by
    exact eq_inv_of_mul_eq_one_right hprod
  have hy : 0 < a + x / 2 := by linarith
  rw [hinv, div_inv_eq_mul, sub_eq_zero, hr2]
  constructor
  · intro h
    have : a + x / 2 = s := by nlinarith
    have h2 : a - x / 2 = 1 / s := by rw [hinv, this, one_div]
    linarith
  · intro h
    have hx : x = s - 1 / s := h
    have ha' : a = (s + 1 / s) / 2 := by
      have : (1 + (x / 2) ^ 2) = ((s + 1 / s) / 2) ^ 2 := by rw [hx]; field_simp; ring
      rw [ha, this, Real.sqrt_sq (by positivity)]
    have : a + x / 2 = s := by rw [ha', hx]; ring
    rw [this]; ring

/-- The sizes for a positive `p = fmax * umax`. -/
theorem sizes_eq (kind : Kind) (g : Bool) {n m : ℕ} (hm : 2 * m = n + n % 2) (hn : 1 ≤ n) {b u : ℝ} (hb : 0 < b) (hu : 0 < u) :
    (kind ≠ .bertrand ∨ n % 2 = 0 → 1 / 2 < b * u → ∃ m1 : ℕ, sizes kind g n m b u = .ok ((m1 : ℤ), some (2 * (m1 : ℤ) - 1)) ∧
      2 * m * (b * u) + 1 / 2 ≤ m1 ∧ (m1 : ℝ) ≤ 2 * m * (b * u) + 3 / 2) ∧
    (kind = .bertrand → (m : ℝ) < n * (b * u) → ∃ m1 : ℕ, sizes kind g n m b u = .ok ((m1 : ℤ), some (2 * (m1 : ℤ) - 1)) ∧
      2 * m * (b * u) + 1 / 2 ≤ m1 ∧ (m1 : ℝ) ≤ 2 * m * (b * u) + 3 / 2) ∧
    (kind ≠ .bertrand ∨ n % 2 = 0 → b * u ≤ 1 / 2 → sizes kind g n m b u = .ok ((m : ℤ), none)) ∧
    (kind = .bertrand → (n : ℝ) * (b * u) ≤ m → sizes kind g n m b u = .ok ((m : ℤ), none)) := by
  have hp : 0 < b * u := mul_pos hb hu
  have hm0 : (0 : ℝ) < m := by exact_mod_cast (by omega : 0 < m)
  have key : ∀ L : ℝ, limit kind n m = L → 
      ((m : ℝ) < L * (b * u) → 1 / 2 < b * u → ∃ m1 : ℕ, sizes kind g n m b u = .ok ((m1 : ℤ), some (2 * (m1 : ℤ) - 1)) ∧
      2 * m * (b * u) + 1 / 2 ≤ m1 ∧ (m1 : ℝ) ≤ 2 * m * (b * u) + 3 / 2) ∧ (L * (b * u) ≤ m → sizes kind g n m b u = .ok ((m : ℤ), none)) := by
    intro L hL
    have e : 2 * (m : ℝ) ^ 2 / ((m : ℝ) / (b * u)) - m = 2 * m * (b * u) - m := by field_simp
    refine ⟨fun h hh => ?_, fun h => ?_⟩
    · have hb2 := roundEven_bounds (2 * m * (b * u) - m)
      set w := roundEven (2 * m * (b * u) - m) with hw
      have hw0 : 0 ≤ (m : ℤ) + (w + 1) := by
        have : (-1 : ℝ) < (((m : ℤ) + (w + 1) : ℤ) : ℝ) := by push_cast; nlinarith [hb2.1]
        have : (-1 : ℤ) < (m : ℤ) + (w + 1) := by exact_mod_cast this
        omega
      refine ⟨((m : ℤ) + (w + 1)).toNat, ?_, ?_, ?_⟩
      · unfold sizes
        simp only
        rw [if_neg hp.ne', hL, if_pos (by rw [div_lt_iff₀ hp]; exact h), e, ← hw, Int.toNat_of_nonneg hw0]
      · have : ((((m : ℤ) + (w + 1)).toNat : ℤ) : ℝ) = m + (w + 1) := by rw [Int.toNat_of_nonneg hw0]; push_cast; ring
        rw [Int.cast_natCast] at this
        rw [this]; linarith [hb2.1]
      · have : ((((m : ℤ) + (w + 1)).toNat : ℤ) : ℝ) = m + (w + 1) := by rw [Int.toNat_of_nonneg hw0]; push_cast; ring
        rw [Int.cast_natCast] at this
        rw [this]; linarith [hb2.2]
    · unfold sizes
      simp only
      rw [if_neg hp.ne', hL, if_neg (by rw [div_lt_iff₀ hp]; linarith)]
  have hL : kind ≠ .bertrand ∨ n % 2 = 0 → limit kind n m = 2 * m := by
    intro h
    cases kind with
    | bertrand =>
      rcases h with h | h
      · exact absurd rfl h
      · show (n : ℝ) = 2 * m
        exact_mod_cast (by omega : n = 2 * m)
    | _ => rfl
  have hLb : kind = .bertrand → limit kind n m = n := by rintro rfl; rfl
  refine ⟨fun h hh => ((key _ (hL h)).1 (by nlinarith) hh), fun h hh => (key _ (hLb h)).1 hh ?_, fun h hh => (key _ (hL h)).2 (by nlinarith),
    fun h hh => (key _ (hLb h)).2 hh⟩
  have : (n : ℝ) ≤ 2 * m := by exact_mod_cast (by omega : n ≤ 2 * m)
  nlinarith

/-- The largest dilation of the three classes. -/
theorem umaxOf_ok (kind : Kind) (newt : Py ℝ) {a b : ℝ} (h0 : 0 < a) (h1 : a < b)
    (hu : (∀ f, kind = .unterberger f → ∃ u, newt = .ok u ∧ umaxunt (b / a) u = 0)) (hb : kind = .bertrand → b ≤ Real.exp 4 * a) :
    ∃ u, umaxOf kind newt a b = .ok u ∧ 0 < u ∧ (kind = .dflandrin → u < 4) ∧ lam kind 1 u = b / a * lam kind (-1) u := by
  have hr : 1 < b / a := by rw [lt_div_iff₀ h0]; linarith
  unfold umaxOf
  rw [if_neg h0.ne']
  cases kind with
  | unterberger f =>
    obtain ⟨u, hn, h⟩ := hu f rfl
    refine ⟨u, hn, ?_, by simp, ?_⟩
    · rw [C69_unterberger_root _ _ (by linarith)] at h
      have hs : 1 < Real.sqrt (b / a) := by rw [Real.lt_sqrt (by norm_num)]; linarith
      have : 1 / Real.sqrt (b / a) < 1 := by rw [div_lt_one (by linarith)]; exact hs
      linarith
    · unfold umaxunt at h
      simp only [lam]
      have hlt : u / 2 < Real.sqrt (1 + (u / 2) ^ 2) := by
        refine lt_of_le_of_lt (le_abs_self _) ?_
        rw [← Real.sqrt_sq_eq_abs]
        exact Real.sqrt_lt_sqrt (sq_nonneg _) (by linarith)
      have h' := sub_eq_zero.1 h
      rw [div_eq_iff (by linarith)] at h'
      rw [one_mul, h']; ring
  | dflandrin =>
    obtain ⟨u, hv, -, hu0, hu4, hrat⟩ := C67_ratio (b / a) hr.le
    have h4 : (1 - u / 4) ≠ 0 := by linarith
    refine ⟨u, hv, lt_of_le_of_ne hu0 ?_, fun _ => hu4, ?_⟩
    · rintro rfl
      norm_num at hrat
      linarith
    · simp only [lam]
      rw [← hrat, div_pow, show 1 + -1 * (u / 4) = 1 - u / 4 by ring, div_mul_cancel₀ _ (pow_ne_zero 2 h4), one_mul]
  | bertrand =>
    have hb' : b / a ≤ Real.exp 4 := by rw [div_le_iff₀ h0]; exact hb rfl
    have hl : 0 < Real.log (b / a) := Real.log_pos hr
    refine ⟨Real.log (b / a), if_neg ?_, hl, by simp, ?_⟩
    · rw [Real.exp_zero]
      nlinarith
    · simp only [lam]
      have : Real.exp (1 * (Real.log (b / a) / 2)) = b / a * Real.exp (-1 * (Real.log (b / a) / 2)) := by
        conv_rhs => rw [← Real.exp_log (show 0 < b / a by linarith), ← Real.exp_add]
        rw [Real.exp_log (show 0 < b / a by linarith)]
        congr 1; ring
      rw [this]; ring

/-- **Constructors**, the band and the number of voices being given.  The largest dilation `umax` is the one that stretches `fmin` onto `fmax`
(the ratio of `λ(umax)` to `λ(-umax)` is `fmax / fmin`), and the number `2 m1` of dilations is at least `4 m fmax umax`, which avoids aliasing,
except for Bertrand's distribution of an odd number `n` of samples when `1/2 < fmax umax ≤ m / n`. -/
theorem C69_construct (kind : Kind) (newt : ℝ → Py ℝ) (x : Vec ℂ) (hx : 1 ≤ x.len) (ts : Option (Vec ℤ)) (a b : ℝ) (N : ℕ) (h0 : 0 < a) (h1 : a < b)
    (hu : (∀ f, kind = .unterberger f → ∃ u, newt (b / a) = .ok u ∧ umaxunt (b / a) u = 0)) (hb : kind = .bertrand → b ≤ Real.exp 4 * a) :
    ∃ o, mk kind newt x ts (some a) (some b) (some N) = .ok o ∧ o.kind = kind ∧ o.x = x ∧ o.ts = ts.getD (arange 0 x.len) ∧ o.fmin = a ∧ o.fmax = b ∧
      o.nv = N ∧ 2 * o.m = x.len + x.len % 2 ∧ 0 < o.umax ∧ (kind = .dflandrin → o.umax < 4) ∧
      lam kind 1 o.umax = b / a * lam kind (-1) o.umax ∧
      ∃ m1 : ℕ, o.m1 = (m1 : ℤ) ∧ 0 < m1 ∧ o.m ≤ m1 ∧ (m1 = o.m ∨ (m1 : ℝ) ≤ 2 * o.m * (b * o.umax) + 3 / 2) ∧
        (2 * o.m * (b * o.umax) ≤ m1 ↔ ¬ (kind = .bertrand ∧ x.len % 2 = 1 ∧ 1 / 2 < b * o.umax ∧ x.len * (b * o.umax) ≤ o.m)) := by
  obtain ⟨u, hu1, hu0, hu4, hl⟩ := umaxOf_ok kind (newt (b / a)) h0 h1 hu hb
  have hm : 2 * ((x.len + x.len % 2) / 2) = x.len + x.len % 2 := by omega
  have hmp : 0 < (x.len + x.len % 2) / 2 := by omega
  set m := (x.len + x.len % 2) / 2 with hmdef
  have hp : 0 < b * u := mul_pos (h0.trans h1) hu0
  have hmr : (0 : ℝ) < m := by exact_mod_cast hmp
  obtain ⟨s1, s2, s3, s4⟩ := sizes_eq kind true (n := x.len) (m := m) hm hx (h0.trans h1) hu0
  have hmk : ∀ m1 T, sizes kind true x.len m b u = .ok (m1, T) → mk kind newt x ts (some a) (some b) (some N) =
      .ok ⟨kind, x, ts.getD (arange 0 x.len), a, b, u, m, m1, N⟩ := fun m1 T h => by
    unfold mk
    simp only
    rw [init_given x _ (by linarith), ok_bind]
    simp only
    rw [hu1, ok_bind, ← hmdef, Option.isSome_some, h, ok_bind]
    rfl
  by_cases hS : (kind ≠ .bertrand ∨ x.len % 2 = 0) ∧ b * u ≤ 1 / 2
  · exact ⟨_, hmk _ _ (s3 hS.1 hS.2), rfl, rfl, rfl, rfl, rfl, rfl, hm, hu0, hu4, hl, m, rfl, hmp, le_rfl, Or.inl rfl, iff_of_true (by
        show 2 * (m : ℝ) * (b * u) ≤ m
        nlinarith [hS.2]) (fun h => by have := hS.2; have h3 := h.2.2.1; simp only at h3; linarith)⟩
  by_cases hB : kind = .bertrand ∧ (x.len : ℝ) * (b * u) ≤ m
  · refine ⟨_, hmk _ _ (s4 hB.1 hB.2), rfl, rfl, rfl, rfl, rfl, rfl, hm, hu0, hu4, hl, m, rfl, hmp, le_rfl, Or.inl rfl, ?_⟩
    show 2 * (m : ℝ) * (b * u) ≤ m ↔ ¬ (_ ∧ _ ∧ 1 / 2 < b * u ∧ x.len * (b * u) ≤ m)
    constructor
    · rintro h ⟨-, -, h3, -⟩
      nlinarith
    · intro h
      by_cases hodd : x.len % 2 = 1
      · have : b * u ≤ 1 / 2 := by
          by_contra hc
          exact h ⟨hB.1, hodd, by linarith, hB.2⟩
        nlinarith
      · have : (x.len : ℝ) = 2 * m := by exact_mod_cast (by omega : x.len = 2 * m)
        rw [← this]
        exact hB.2
  · have hhalf : 1 / 2 < b * u := by
      by_contra hc
      by_cases hk : kind = .bertrand
      · refine hB ⟨hk, ?_⟩
        have : (x.len : ℝ) ≤ 2 * m := by exact_mod_cast (by omega : x.len ≤ 2 * m)
        nlinarith
      · exact hS ⟨Or.inl hk, by linarith⟩
    have : ∃ m1 : ℕ, sizes kind true x.len m b u = .ok ((m1 : ℤ), some (2 * (m1 : ℤ) - 1)) ∧ 2 * m * (b * u) + 1 / 2 ≤ m1 ∧
        (m1 : ℝ) ≤ 2 * m * (b * u) + 3 / 2 := by
      by_cases hk : kind = .bertrand
      · exact s2 hk (by by_contra hc; exact hB ⟨hk, by linarith⟩)
      · exact s1 (Or.inl hk) hhalf
    obtain ⟨m1, e, l, r⟩ := this
    have hle : m ≤ m1 := by
      have : (m : ℝ) ≤ m1 := by nlinarith
      exact_mod_cast this
    exact ⟨_, hmk _ _ e, rfl, rfl, rfl, rfl, rfl, rfl, hm, hu0, hu4, hl, m1, rfl, by omega, hle, Or.inr r, iff_of_true (by
      show 2 * (m : ℝ) * (b * u) ≤ m1
      linarith) (fun h => hB ⟨h.1, h.2.2.2⟩)⟩

/-- **Wide bands.**  When the ratio of the frequencies exceeds `e⁴`, Bertrand's constructor raises `ValueError`. -/
theorem C69_bertrand_limit (newt : ℝ → Py ℝ) (x : Vec ℂ) (ts : Option (Vec ℤ)) (a b : ℝ) (nv : Option ℕ) (h0 : 0 < a) (h : Real.exp 4 * a < b) :
    mk .bertrand newt x ts (some a) (some b) nv = .error .valueError := by
  have he : 1 < Real.exp 4 := by rw [← Real.exp_zero]; exact Real.exp_lt_exp.2 (by norm_num)
  have hr : Real.exp 4 < b / a := by rw [lt_div_iff₀ h0]; exact h
  unfold mk
  simp only
  rw [init_given x _ (by nlinarith), ok_bind]
  simp only
  unfold umaxOf
  rw [if_neg h0.ne']
  simp only
  rw [if_pos (by rw [Real.exp_zero]; nlinarith)]
  rfl

/-- **Odd numbers of samples.**  For `2 m - 1` samples and `1/2 < fmax umax ≤ m / (2 m - 1)` Bertrand's constructor keeps `2 m` dilations, fewer than
the `4 m fmax umax` required. -/
theorem C69_bertrand_odd (newt : ℝ → Py ℝ) (x : Vec ℂ) (m : ℕ) (hx : x.len + 1 = 2 * m) (hx1 : 1 ≤ x.len) (ts : Option (Vec ℤ)) (a b : ℝ) (N : ℕ) (h0 : 0 < a)
    (h1 : a < b) (hb : b ≤ Real.exp 4 * a) (hl : 1 / 2 < b * Real.log (b / a)) (hr : b * Real.log (b / a) ≤ m / (2 * m - 1)) :
    ∃ o, mk .bertrand newt x ts (some a) (some b) (some N) = .ok o ∧ o.umax = Real.log (b / a) ∧ o.m = m ∧ o.m1 = m ∧
      (o.m1 : ℝ) < 2 * m * (b * o.umax) := by
  have hm0 : (1 : ℝ) ≤ m := by exact_mod_cast (by omega : 1 ≤ m)
  have hb0 : 0 < b := h0.trans h1
  have hu : 0 < Real.log (b / a) := Real.log_pos (by rw [lt_div_iff₀ h0]; linarith)
  have hr1 : 1 < b / a := by rw [lt_div_iff₀ h0]; linarith
  have hr4 : b / a ≤ Real.exp 4 := by rw [div_le_iff₀ h0]; exact hb
  have hmx : (x.len + x.len % 2) / 2 = m := by omega
  have hs := (sizes_eq .bertrand true (n := x.len) (m := m) (by omega) hx1 hb0 hu).2.2.2 rfl (by
    have : (x.len : ℝ) = 2 * m - 1 := by
      have : ((x.len + 1 : ℕ) : ℝ) = ((2 * m : ℕ) : ℝ) := by rw [hx]
      push_cast at this
      linarith
    rw [this]
    rw [le_div_iff₀ (by linarith)] at hr
    linarith)
  refine ⟨⟨.bertrand, x, ts.getD (arange 0 x.len), a, b, Real.log (b / a), m, m, N⟩, ?_, rfl, rfl, rfl, ?_⟩
  · unfold mk
    simp only
    rw [init_given x _ (by linarith), ok_bind]
    simp only
    unfold umaxOf
    rw [if_neg h0.ne']
    simp only
    rw [if_neg (by rw [Real.exp_zero]; nlinarith), ok_bind, hmx, Option.isSome_some, hs, ok_bind]
    rfl
  · show (((m : ℤ)) : ℝ) < 2 * m * (b * Real.log (b / a))
    rw [Int.cast_natCast]
    nlinarith

theorem getNVoices_eq (a b : ℝ) (T : ℤ) : getNVoices a b (some T) = voiceCount false T a b none := by
  have e : (b - a) / (a + b) * 2 = (b - a) / ((a + b) / 2) := by rw [div_div_eq_mul_div, div_mul_eq_mul_div]
  unfold getNVoices voiceCount
  simp only [true_and]
  rw [e]
  by_cases h : a + b = 0 ∨ (b - a) / ((a + b) / 2) = 0 ∨ 1 - (b - a) / ((a + b) / 2) / 2 = 0
  · rw [if_pos h, if_pos h]
  · rw [if_neg h, if_neg h]
    by_cases h' : (1 + (b - a) / ((a + b) / 2) / 2) / (1 - (b - a) / ((a + b) / 2) / 2) ≤ 0
    · rw [if_pos h', if_pos (by tauto)]
    · rw [if_neg h', if_neg (by tauto)]

/-- **Default number of voices.**  Without `n_voices`, when `fmax umax ≤ 1/2` the constructor raises `AttributeError` (the attribute `T` has not been set);
when it exceeds 1/2, the number of voices is the least power of two not below the even part of `⌈fmax (2 m1 - 1) ln(fmax / fmin)⌉`, and
`ValueError` is raised if that even part is zero.  For Bertrand's distribution of `n` samples the bound is `m / n` instead of 1/2. -/
theorem C69_voices (kind : Kind) (newt : ℝ → Py ℝ) (x : Vec ℂ) (hx : 1 ≤ x.len) (ts : Option (Vec ℤ)) (a b : ℝ) (h0 : 0 < a) (h1 : a < b)
    (N : ℕ) (o : Disp) (ho : mk kind newt x ts (some a) (some b) (some N) = .ok o) (hu : 0 < o.umax) :
    let nq := ⌈b * (2 * (o.m1 : ℝ) - 1) * Real.log (b / a)⌉
    let unset := if kind = .bertrand then x.len * (b * o.umax) ≤ o.m else b * o.umax ≤ 1 / 2
    (unset → mk kind newt x ts (some a) (some b) none = .error .attributeError) ∧
    (¬ unset → nq < 2 → mk kind newt x ts (some a) (some b) none = .error .valueError) ∧
    (¬ unset → 2 ≤ nq → ∃ p : ℕ, 1 ≤ p ∧ nq - nq % 2 ≤ 2 ^ p ∧ (∀ j : ℕ, nq - nq % 2 ≤ 2 ^ j → p ≤ j) ∧
      mk kind newt x ts (some a) (some b) none = .ok { o with nv := 2 ^ p }) := by
  intro nq unset
  have hm : 2 * ((x.len + x.len % 2) / 2) = x.len + x.len % 2 := by omega
  have hmp : 0 < (x.len + x.len % 2) / 2 := by omega
  set m := (x.len + x.len % 2) / 2 with hmdef
  have hmr : (0 : ℝ) < m := by exact_mod_cast hmp
  have hform : ∀ nv, mk kind newt x ts (some a) (some b) nv = (umaxOf kind (newt (b / a)) a b >>= fun u => sizes kind true x.len m b u >>= fun s =>
      (match nv with | some k => (.ok k : Py ℕ) | none => getNVoices a b s.2) >>= fun k =>
        .ok ⟨kind, x, ts.getD (arange 0 x.len), a, b, u, m, s.1, k⟩) := fun nv => by
    unfold mk
    simp only
    rw [init_given x _ (by linarith), ok_bind]
    cases nv <;> rfl
  rw [hform] at ho ⊢
  cases hU : umaxOf kind (newt (b / a)) a b with
  | error e => rw [hU] at ho; exact absurd ho (by simp [bind, Except.bind])
  | ok u =>
    rw [hU, ok_bind] at ho
    rw [ok_bind]
    cases hS : sizes kind true x.len m b u with
    | error e => rw [hS] at ho; exact absurd ho (by simp [bind, Except.bind])
    | ok s =>
      rw [hS, ok_bind] at ho
      rw [ok_bind]
      simp only [ok_bind] at ho
      cases ho
      simp only at hu ⊢
      obtain ⟨s1, s2, s3, s4⟩ := sizes_eq kind true (n := x.len) (m := m) hm hx (h0.trans h1) hu
      have hyes : unset → sizes kind true x.len m b u = .ok ((m : ℤ), none) := fun h => by
        by_cases hk : kind = .bertrand
        · exact s4 hk (by simpa [unset, hk] using h)
        · exact s3 (Or.inl hk) (by simpa [unset, hk] using h)
      have hno : ¬ unset → ∃ m1 : ℕ, sizes kind true x.len m b u = .ok ((m1 : ℤ), some (2 * (m1 : ℤ) - 1)) ∧ (m : ℝ) ≤ m1 := fun h => by
        by_cases hk : kind = .bertrand
        · have h' : (m : ℝ) < x.len * (b * u) := by simpa [unset, hk] using h
          obtain ⟨m1, e, l, -⟩ := s2 hk h'
          have : (x.len : ℝ) ≤ 2 * m := by exact_mod_cast (by omega : x.len ≤ 2 * m)
          exact ⟨m1, e, by nlinarith [mul_pos (h0.trans h1) hu]⟩
        · have h' : 1 / 2 < b * u := by simpa [unset, hk] using h
          obtain ⟨m1, e, l, -⟩ := s1 (Or.inl hk) h'
          exact ⟨m1, e, by nlinarith⟩
      have hlog : 0 < Real.log (b / a) := Real.log_pos (by rw [lt_div_iff₀ h0]; linarith)
      refine ⟨fun h => ?_, fun h hq => ?_, fun h hq => ?_⟩
      · have := hyes h
        rw [hS] at this
        cases this
        rfl
      all_goals
        obtain ⟨m1, e, l⟩ := hno h
        rw [hS] at e
        cases e
        simp only at nq ⊢
        rw [getNVoices_eq, voiceCount_eq h0 (h0.trans h1) h1.ne false _ none]
        simp only
        have hnq : ⌈b * ((2 * (m1 : ℤ) - 1 : ℤ) : ℝ) * Real.log (b / a)⌉ = nq := by push_cast; rfl
        rw [hnq]
        have hnq0 : 0 ≤ nq := Int.ceil_nonneg (mul_nonneg (mul_nonneg (h0.trans h1).le (by
          have hm1 : (1 : ℝ) ≤ m := by exact_mod_cast hmp
          rw [Int.cast_natCast]
          linarith)) hlog.le)
      · have e : nq - nq % 2 = 0 := by omega
        rw [e]
        rfl
      · obtain ⟨p, hp, hle, hmin⟩ := C04_nextpow2_least (nq - nq % 2) (by omega)
        refine ⟨p, ?_, hle, hmin, ?_⟩
        · by_contra hp0
          have : p = 0 := by omega
          rw [this] at hle
          norm_num at hle
          omega
        · rw [hp]
          rfl

/-- **Runs that cannot work**, for positive edges.  One voice raises `ZeroDivisionError`, no voice `ValueError`.  With two or more voices a zero largest dilation
raises `ValueError`; otherwise no dilations at all raise `IndexError`, and a negative number of them, or a negative largest dilation, `ValueError`. -/
theorem C69_run_errors (spline : Spline) (o : Disp) (h0 : 0 < o.fmin) (h1 : 0 < o.fmax) :
    (o.nv = 1 → run spline o = .error .zeroDivisionError) ∧
    (o.nv = 0 → run spline o = .error .valueError) ∧
    (2 ≤ o.nv → (o.umax = 0 → run spline o = .error .valueError) ∧
      (o.umax ≠ 0 → o.m1 = 0 → run spline o = .error .indexError) ∧
      (o.umax ≠ 0 → o.m1 ≠ 0 → o.m1 < 0 ∨ o.umax < 0 → run spline o = .error .valueError)) := by
  have hr : ¬ o.fmax / o.fmin ≤ 0 := not_le.2 (div_pos h1 h0)
  have hu : 2 ≤ o.nv → ∀ e, uAxis o.umax o.m1 = .error e → run spline o = .error e := fun hN e he => by
    unfold run tffr geometricSample
    simp only
    rw [if_neg (by push Not; exact ⟨h0.ne', by omega⟩), if_neg hr, ok_bind]
    simp only
    rw [ifft_ok (by show o.nv + o.nv ≠ 0; omega), ok_bind, he]
    rfl
  refine ⟨fun h => ?_, fun h => ?_, fun hN => ⟨fun h => hu hN _ ?_, fun h h' => hu hN _ ?_, fun h h' h'' => hu hN _ ?_⟩⟩
  · unfold run tffr geometricSample
    rw [if_pos (Or.inr h)]
    rfl
  · unfold run tffr geometricSample
    rw [if_neg (by push Not; exact ⟨h0.ne', by omega⟩), if_neg hr, ok_bind]
    simp only
    have : ∀ v : Vec ℂ, v.len = 0 → ifft v = .error .valueError := fun v hv => by unfold ifft; rw [if_pos hv]
    rw [this _ (by show o.nv + o.nv = 0; omega)]
    rfl
  · unfold uAxis; simp only; rw [if_pos h]
  · unfold uAxis; simp only; rw [if_neg h, if_pos h']
  · unfold uAxis; simp only; rw [if_neg h, if_neg h', if_pos h'']

/-- **No voice**: `run` raises `ValueError` for all edges that are not zero, `ZeroDivisionError` if one is. -/
theorem C69_no_voice (spline : Spline) (o : Disp) (hn : o.nv = 0) :
    (o.fmin = 0 ∨ o.fmax = 0 → run spline o = .error .zeroDivisionError) ∧ (o.fmin ≠ 0 → o.fmax ≠ 0 → run spline o = .error .valueError) := by
  constructor
  · intro h
    unfold run tffr geometricSample
    by_cases h0 : o.fmin = 0
    · rw [if_pos (Or.inl h0)]; rfl
    · have h1 : o.fmax = 0 := h.resolve_left h0
      rw [if_neg (by push Not; exact ⟨h0, by omega⟩), if_pos (by rw [h1, zero_div]), if_pos hn, if_pos h1]
      rfl
  · intro h0 h1
    unfold run tffr geometricSample
    rw [if_neg (by push Not; exact ⟨h0, by omega⟩)]
    by_cases hr : o.fmax / o.fmin ≤ 0
    · rw [if_pos hr, if_pos hn, if_neg h1]; rfl
    · rw [if_neg hr, ok_bind]
      simp only
      have : ∀ v : Vec ℂ, v.len = 0 → ifft v = .error .valueError := fun v hv => by unfold ifft; rw [if_pos hv]
      rw [this _ (by show o.nv + o.nv = 0; omega)]
      rfl

/-- Two samples, edges -1/4 and 1/4, no voice. -/
example (spline : Spline) : run spline ⟨.dflandrin, ⟨2, fun _ => 1⟩, arange 0 (2 : ℕ), -1 / 4, 1 / 4, 1, 1, 1, 0⟩ = .error .valueError :=
  (C69_no_voice spline _ rfl).2 (by norm_num) (by norm_num)

theorem umaxdflaSolve_one : umaxdflaSolve 1 = .ok 0 := by
  have hroots : npRoots ((1 - 1) / 16) ((1 + 1) / 2) (1 - 1) = {0} := by
    unfold npRoots
    norm_num
  unfold umaxdflaSolve
  simp only
  rw [hroots]
  simp

/-- **Equal edges.**  Bertrand's constructor divides by zero; the two others accept the band, given a number of voices, but no run ever succeeds (`ValueError`
from two voices on). -/
theorem C69_equal_edges (kind : Kind) (newt : ℝ → Py ℝ) (spline : Spline) (x : Vec ℂ) (ts : Option (Vec ℤ)) (a : ℝ) (h0 : 0 < a) (N : ℕ)
    (hu : (∀ f, kind = .unterberger f → ∃ u, newt 1 = .ok u ∧ umaxunt 1 u = 0)) :
    (kind = .bertrand → ∀ nv, mk kind newt x ts (some a) (some a) nv = .error .zeroDivisionError) ∧
    (kind ≠ .bertrand → mk kind newt x ts (some a) (some a) none = .error .attributeError ∧
      ∃ o, mk kind newt x ts (some a) (some a) (some N) = .ok o ∧
        run spline o = .error (if N = 1 then .zeroDivisionError else .valueError)) := by
  have hdiv : a / a = 1 := div_self h0.ne'
  have hU : umaxOf kind (newt (a / a)) a a = .ok 0 := by
    unfold umaxOf
    rw [if_neg h0.ne', hdiv]
    cases kind with
    | unterberger f =>
      obtain ⟨u, e, hz⟩ := hu f rfl
      rw [C69_unterberger_root 1 u one_pos, Real.sqrt_one] at hz
      simp only
      rw [e, hz]
      norm_num
    | dflandrin => exact umaxdflaSolve_one
    | bertrand =>
      simp only
      rw [Real.exp_zero, sub_self, zero_mul, if_neg (lt_irrefl _), Real.log_one]
  have hform : ∀ nv, mk kind newt x ts (some a) (some a) nv = (sizes kind true x.len ((x.len + x.len % 2) / 2) a 0 >>= fun s =>
      (match nv with | some k => (.ok k : Py ℕ) | none => getNVoices a a s.2) >>= fun k =>
        .ok ⟨kind, x, ts.getD (arange 0 x.len), a, a, 0, (x.len + x.len % 2) / 2, s.1, k⟩) := fun nv => by
    unfold mk
    simp only
    rw [init_given x _ (by linarith), ok_bind]
    simp only
    rw [hU, ok_bind]
    cases nv <;> rfl
  constructor
  · intro hk nv
    rw [hform]
    unfold sizes
    rw [if_pos (mul_zero a), if_pos ⟨hk, rfl⟩]
    rfl
  · intro hk
    have hs : sizes kind true x.len ((x.len + x.len % 2) / 2) a 0 = .ok ((((x.len + x.len % 2) / 2 : ℕ) : ℤ), none) := by
      unfold sizes
      rw [if_pos (mul_zero a), if_neg (fun h => hk h.1)]
    rw [hform, hform, hs, ok_bind, ok_bind]
    refine ⟨rfl, _, rfl, ?_⟩
    obtain ⟨h1, h2, h3⟩ := C69_run_errors spline ⟨kind, x, ts.getD (arange 0 x.len), a, a, 0, (x.len + x.len % 2) / 2, (((x.len + x.len % 2) / 2 : ℕ) : ℤ), N⟩ h0 h0
    by_cases hN : N = 1
    · rw [if_pos hN]; exact h1 hN
    · rw [if_neg hN]
      rcases Nat.eq_zero_or_pos N with h | h
      · exact h2 h
      · exact (h3 (by show 2 ≤ N; omega)).1 rfl

/-- **Reversed edges** `fmin > fmax`.  Bertrand's constructor raises `ValueError`; Unterberger's, the equation being solved, accepts the band, but no run
succeeds (from two voices on: `IndexError` if the dilations cancel out, else `ValueError`). -/
theorem C69_reversed (newt : ℝ → Py ℝ) (spline : Spline) (x : Vec ℂ) (ts : Option (Vec ℤ)) (a b : ℝ) (hb : 0 < b) (hba : b < a) (nv : Option ℕ) (f : Bool)
    (hu : ∃ u, newt (b / a) = .ok u ∧ umaxunt (b / a) u = 0) :
    mk .bertrand newt x ts (some a) (some b) nv = .error .valueError ∧
    ∀ N, 2 ≤ N → ∃ o, mk (.unterberger f) newt x ts (some a) (some b) (some N) = .ok o ∧ o.umax < 0 ∧
      run spline o = .error (if o.m1 = 0 then .indexError else .valueError) := by
  have ha : 0 < a := hb.trans hba
  have hr1 : b / a < 1 := by rw [div_lt_one ha]; exact hba
  have hr0 : 0 < b / a := div_pos hb ha
  constructor
  · unfold mk
    simp only
    rw [init_given x _ (by linarith), ok_bind]
    simp only
    unfold umaxOf
    rw [if_neg ha.ne']
    simp only
    have h4 : (1 : ℝ) ≤ Real.exp 4 := Real.one_le_exp (by norm_num)
    rw [Real.exp_zero, if_pos (mul_pos (by linarith) (by linarith))]
    rfl
  · intro N hN
    obtain ⟨u, e, hz⟩ := hu
    rw [C69_unterberger_root _ u hr0] at hz
    have hs : Real.sqrt (b / a) < 1 := by rw [Real.sqrt_lt' one_pos]; simpa using hr1
    have hs0 : 0 < Real.sqrt (b / a) := Real.sqrt_pos.2 hr0
    have hneg : u < 0 := by
      have : 1 < 1 / Real.sqrt (b / a) := by rw [lt_div_iff₀ hs0]; linarith
      rw [hz]; linarith
    have hU : umaxOf (.unterberger f) (newt (b / a)) a b = .ok u := by
      unfold umaxOf
      rw [if_neg ha.ne']
      exact e
    have hsz : ∃ s, sizes (.unterberger f) true x.len ((x.len + x.len % 2) / 2) b u = .ok s := by
      unfold sizes
      rw [if_neg (mul_ne_zero hb.ne' hneg.ne)]
      simp only
      split <;> exact ⟨_, rfl⟩
    obtain ⟨⟨m1, T⟩, hsz⟩ := hsz
    refine ⟨⟨.unterberger f, x, ts.getD (arange 0 x.len), a, b, u, (x.len + x.len % 2) / 2, m1, N⟩, ?_, hneg, ?_⟩
    · unfold mk
      simp only
      rw [init_given x _ (by linarith), ok_bind]
      simp only
      rw [hU, ok_bind, Option.isSome_some, hsz, ok_bind]
      rfl
    · obtain ⟨-, -, h3⟩ := C69_run_errors spline ⟨.unterberger f, x, ts.getD (arange 0 x.len), a, b, u, (x.len + x.len % 2) / 2, m1, N⟩ ha hb
      obtain ⟨-, h4, h5⟩ := h3 hN
      simp only
      by_cases hm : m1 = 0
      · rw [if_pos hm]; exact h4 hneg.ne hm
      · rw [if_neg hm]; exact h5 hneg.ne hm (Or.inr hneg)

example (newt : ℝ → Py ℝ) (spline : Spline) (x : Vec ℂ) : ∃ o, mk .dflandrin newt x none (some (1 / 4)) (some (1 / 4)) (some 8) = .ok o ∧
    run spline o = .error .valueError := by
  simpa using ((C69_equal_edges .dflandrin newt spline x none (1 / 4) (by norm_num) 8 (by simp)).2 (by simp)).2

/-- Eight samples between the frequencies 1/18 and 1/2, two voices, the D-Flandrin distribution: `umax` is 2, there are 18 dilations, and the run
succeeds for the spline routine answering 1. -/
example (newt : ℝ → Py ℝ) (x : Vec ℂ) (hx : x.len = 8) : ∃ o R f, mk .dflandrin newt x none (some (1 / 18)) (some (1 / 2)) (some 2) = .ok o ∧ o.umax = 2 ∧
    8 ≤ o.m1 ∧ o.m1 ≤ 9 ∧ run oneSpline o = .ok (R, o.ts, f) ∧ R.rows = 2 ∧ R.cols = 8 ∧ f.get 0 = 1 / 18 := by
  obtain ⟨o, ho, k1, k2, k3, k4, k5, k6, k7, k8, k9, k10, m1, k11, k12, k13, k14, k15⟩ := C69_construct .dflandrin newt x (by omega) none (1 / 18) (1 / 2) 2
    (by norm_num) (by norm_num) (by simp) (by simp)
  have hu : o.umax = 2 := by
    have h := k10
    have h4 := k9 rfl
    simp only [lam] at h
    norm_num at h
    have h5 : (1 + o.umax / 4 - 3 * (1 - o.umax / 4)) * (1 + o.umax / 4 + 3 * (1 - o.umax / 4)) = 0 := by linear_combination h
    rcases mul_eq_zero.1 h5 with h6 | h6 <;> linarith
  have hm : o.m = 4 := by omega
  have hm8 : 8 ≤ m1 := by
    have := k15.2 (by simp)
    rw [hm, hu] at this
    have : (8 : ℝ) ≤ m1 := by push_cast at this; linarith
    exact_mod_cast this
  have hm9 : m1 ≤ 9 := by
    rcases k14 with h | h
    · omega
    · rw [hm, hu] at h
      have : (m1 : ℝ) < 10 := by push_cast at h; linarith
      have : m1 < 10 := by exact_mod_cast this
      omega
  have hts : o.ts.len = 8 := by rw [k3]; simp [arange, hx]
  have htg : ∀ t, o.ts.get t = t := fun t => by rw [k3]; simp [arange]
  obtain ⟨z, -, hz, -⟩ := hilbert_analytic (x := x.map Complex.re) (by show x.len ≠ 0; omega)
  obtain ⟨-, hrun⟩ := C68_run oneSpline o (by rw [k1]; simp) (by rw [k4]; norm_num) (by rw [k4, k5]; norm_num) (by rw [k5]; norm_num) (by rw [k6]) m1 k11 k12 k8
    (fun _ => k9 rfl) (by omega) (by
      intro i _ j _
      rw [htg, htg, htg, htg]; push_cast; ring) (by rw [hts, k2, hx]) z (by rw [k2]; exact hz) (fun _ _ => 1) (fun i _ => rfl)
  obtain ⟨R, f, e, r1, r2, -, r3, -, -⟩ := hrun (by
    rw [hts, k6, k4, k5]
    have : ∀ t, ((o.ts.get t : ℤ) : ℝ) = t := fun t => by rw [htg]; simp
    simp only [this]
    unfold trapz geoFreq
    simp
    norm_num)
  refine ⟨o, R, f, ho, hu, by rw [k11]; exact_mod_cast hm8, by rw [k11]; exact_mod_cast hm9, e, by rw [r1, k6], by rw [r2, hts], ?_⟩
  rw [r3, k6, k4]
  unfold geoFreq
  simp

/-- Unterberger's other form: four samples, `umax = 2`, two dilations. -/
example (spline : Spline) : run spline ⟨.unterberger true, ⟨4, fun t => (t : ℂ)⟩, arange 0 4, 1 / 10, 1 / 2, 2, 2, 2, 4⟩ = .error .indexError :=
  C55_unterberger_form spline _ rfl (by norm_num) (by norm_num) (by norm_num) 2 rfl (by norm_num) (by norm_num)

/-- Unterberger's equation for the ratio 4. -/
example : umaxunt 4 (3 / 2) = 0 := by
  rw [C69_unterberger_root 4 _ (by norm_num), show (4 : ℝ) = 2 ^ 2 by norm_num, Real.sqrt_sq (by norm_num)]
  norm_num

/-- A ratio of 100 is too large for Bertrand's constructor. -/
example (newt : ℝ → Py ℝ) (x : Vec ℂ) : mk .bertrand newt x none (some (1 / 200)) (some (1 / 2)) none = .error .valueError := by
  refine C69_bertrand_limit newt x none _ _ none (by norm_num) ?_
  have h : Real.exp 4 = Real.exp 1 ^ 4 := by rw [← Real.exp_nat_mul]; norm_num
  have h1 := Real.exp_one_lt_d9
  have h2 : Real.exp 1 ^ 4 < 100 := by
    calc Real.exp 1 ^ 4 < 3 ^ 4 := pow_lt_pow_left₀ (by linarith) (Real.exp_pos 1).le (by norm_num)
      _ < 100 := by norm_num
  rw [h]
  linarith

/-- Three samples, `fmax umax = 3/5`: two half-dilations where `12/5` are required. -/
example (newt : ℝ → Py ℝ) (x : Vec ℂ) (hx : x.len = 3) : ∃ o, mk .bertrand newt x none (some (Real.exp (-(6 / 5)) / 2)) (some (1 / 2)) (some 4) = .ok o ∧ o.m1 = 2 ∧
    2 * (o.m : ℝ) * (1 / 2 * o.umax) = 12 / 5 := by
  have hr : (1 / 2 : ℝ) / (Real.exp (-(6 / 5)) / 2) = Real.exp (6 / 5) := by rw [Real.exp_neg]; field_simp
  have hl : Real.log ((1 / 2 : ℝ) / (Real.exp (-(6 / 5)) / 2)) = 6 / 5 := by rw [hr, Real.log_exp]
  obtain ⟨o, ho, h1, h2, h3, -⟩ := C69_bertrand_odd newt x 2 (by omega) (by omega) none (Real.exp (-(6 / 5)) / 2) (1 / 2) 4 (by positivity)
    (by have : Real.exp (-(6 / 5)) < 1 := by rw [← Real.exp_zero]; exact Real.exp_lt_exp.2 (by norm_num)
        linarith)
    (by rw [← mul_div_assoc, ← Real.exp_add]
        have : Real.exp 0 ≤ Real.exp (4 + -(6 / 5)) := Real.exp_le_exp.2 (by norm_num)
        rw [Real.exp_zero] at this
        linarith) (by rw [hl]; norm_num) (by rw [hl]; norm_num)
  refine ⟨o, ho, by rw [h3]; norm_num, ?_⟩
  rw [h1, h2, hl]
  norm_num

/-- The band from 9/50 to 1/2 (`umax = 1`) without a number of voices: `AttributeError`. -/
example (newt : ℝ → Py ℝ) (x : Vec ℂ) (hx : 1 ≤ x.len) : mk .dflandrin newt x none (some (9 / 50)) (some (1 / 2)) none = .error .attributeError := by
  obtain ⟨o, ho, -, -, -, -, -, -, -, k8, k9, k10, -⟩ := C69_construct .dflandrin newt x hx none (9 / 50) (1 / 2) 2 (by norm_num) (by norm_num) (by simp) (by simp)
  refine (C69_voices .dflandrin newt x hx none _ _ (by norm_num) (by norm_num) 2 o ho k8).1 ?_
  rw [if_neg (by simp)]
  have h := k10
  have h4 := k9 rfl
  simp only [lam] at h
  norm_num at h
  have h5 : (1 + o.umax / 4 - 5 / 3 * (1 - o.umax / 4)) * (1 + o.umax / 4 + 5 / 3 * (1 - o.umax / 4)) = 0 := by linear_combination h
  rcases mul_eq_zero.1 h5 with h6 | h6 <;> linarith

end Tftb.Props
