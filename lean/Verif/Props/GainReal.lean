import Verif.Props.Gain
import Verif.Model.AffineSpwv
import Verif.Model.Morlet
import Verif.Props.AffineBand
import Verif.Props.WideBand

/-! # C100 A signal multiplied by a constant: affine and wide-band representations -/

namespace Tftb.Props

open Tftb ComplexConjugate

/-! ## Steps -/

theorem PyRel.ifft (v : Vec ℂ) (a : ℂ) : PyRel (fun x y => y = x.map (a * ·)) (Tftb.ifft v) (Tftb.ifft (v.map (a * ·))) := by
  unfold Tftb.ifft
  refine PyRel.ite (fun _ => rfl) (fun _ => ?_)
  show _ = Vec.map _ _
  unfold Vec.map
  congr 1
  funext k
  dsimp only
  rw [← mul_div_assoc, Finset.mul_sum]
  congr 1
  exact Finset.sum_congr rfl (fun j _ => by ring)

theorem ofReal_scale (v : Vec ℝ) (r : ℝ) : (v.map (r * ·)).map (fun a : ℝ => (a : ℂ)) = (v.map (fun a : ℝ => (a : ℂ))).map ((r : ℂ) * ·) := by
  unfold Vec.map
  simp

theorem re_scale (x : Vec ℂ) (r : ℝ) : (amplify (r : ℂ) x).map Complex.re = (x.map Complex.re).map (r * ·) := by
  unfold amplify Vec.map
  simp

theorem sq_scale (v : Vec ℂ) (r : ℝ) : (v.map ((r : ℂ) * ·)).map (fun z => ‖z‖ ^ 2) = (v.map (fun z => ‖z‖ ^ 2)).map (r ^ 2 * ·) := by
  unfold Vec.map
  simp [mul_pow]

theorem norm_scale (v : Vec ℂ) (r : ℝ) : (v.map ((r : ℂ) * ·)).norm ^ 2 = r ^ 2 * v.norm ^ 2 := by
  unfold Vec.norm
  rw [Real.sq_sqrt (Finset.sum_nonneg fun _ _ => sq_nonneg _), Real.sq_sqrt (Finset.sum_nonneg fun _ _ => sq_nonneg _), Finset.mul_sum]
  refine Finset.sum_congr rfl (fun i _ => ?_)
  show ‖(r : ℂ) * v.get i‖ ^ 2 = _
  rw [norm_mul, mul_pow]
  simp

theorem PyRel.hilbert (v : Vec ℝ) (r : ℝ) : PyRel (fun x y => y = x.map ((r : ℂ) * ·)) (Tftb.hilbert v) (Tftb.hilbert (v.map (r * ·))) := by
  unfold Tftb.hilbert
  rw [ofReal_scale]
  refine PyRel.bind (PyRel.fft _ _) (fun X _ h => ?_)
  subst h
  have e : (⟨(X.map ((r : ℂ) * ·)).len, fun k => (X.map ((r : ℂ) * ·)).get k * (hilbertMask (X.map ((r : ℂ) * ·)).len k : ℂ)⟩ : Vec ℂ) =
      Vec.map ((r : ℂ) * ·) ⟨X.len, fun k => X.get k * (hilbertMask X.len k : ℂ)⟩ := by
    unfold Vec.map
    congr 1
    funext k
    dsimp only
    ring
  rw [e]
  exact PyRel.ifft _ _

theorem PyRel.amax {r : ℝ} (hr : 0 < r) (v : Vec ℝ) : PyRel (fun x y => y = r * x) v.amax (v.map (r * ·)).amax := by
  unfold Vec.amax
  by_cases h : v.len = 0
  · rw [dif_pos h, dif_pos (show (v.map (r * ·)).len = 0 from h)]
    rfl
  · rw [dif_neg h, dif_neg (show ¬ (v.map (r * ·)).len = 0 from h)]
    show Finset.sup' (Finset.range v.len) _ (fun i => r * v.get i) = r * Finset.sup' (Finset.range v.len) _ v.get
    exact (Finset.apply_sup'_eq_sup'_comp _ (fun y => r * y) (fun a b => by
      show r * max a b = max (r * a) (r * b)
      rw [mul_max_of_nonneg _ _ hr.le])).symm

theorem positions_scale {r : ℝ} (hr : 0 < r) (v : Vec ℝ) (m : ℝ) :
    Vec.positions (v.map (r * ·)).len (fun i => r * m / 100 < (v.map (r * ·)).get i) = Vec.positions v.len (fun i => m / 100 < v.get i) := by
  have : ∀ i, r * m / 100 < (v.map (r * ·)).get i ↔ m / 100 < v.get i := by
    intro i
    show r * m / 100 < r * v.get i ↔ _
    rw [mul_div_assoc, mul_lt_mul_iff_right₀ hr]
  simp only [this]
  rfl

theorem PyRel.convolve (z h : Vec ℂ) (a : ℂ) : PyRel (fun x y => y = x.map (a * ·)) (Aff.convolve z h) (Aff.convolve (z.map (a * ·)) h) := by
  unfold Aff.convolve
  refine PyRel.ite (fun _ => rfl) (fun _ => ?_)
  show _ = Vec.map _ _
  unfold Vec.map
  congr 1
  funext k
  dsimp only
  rw [Finset.mul_sum]
  refine Finset.sum_congr rfl (fun j _ => ?_)
  split_ifs <;> ring

theorem PyRel.setRow (M : Mat ℂ) (a : ℂ) (i : ℕ) (v : Vec ℂ) :
    PyRel (fun x y => y = x.map (a * ·)) (Aff.setRow M i v) (Aff.setRow (M.map (a * ·)) i (v.map (a * ·))) := by
  unfold Aff.setRow
  refine PyRel.ite (fun _ => rfl) (fun _ => PyRel.ite (fun _ => ?_) (fun _ => PyRel.ite (fun _ => ?_) (fun _ => rfl)))
  all_goals
    show _ = Mat.map _ _
    unfold Mat.map Vec.map
    congr 1
    funext p q
    dsimp only
    split_ifs <;> rfl

theorem PyRel.setRowR (M : Mat ℝ) (a : ℝ) (i : ℕ) (v : Vec ℝ) :
    PyRel (fun x y => y = x.map (a * ·)) (AffDist.setRow M i v) (AffDist.setRow (M.map (a * ·)) i (v.map (a * ·))) := by
  unfold AffDist.setRow
  refine PyRel.ite (fun _ => rfl) (fun _ => PyRel.ite (fun _ => ?_) (fun _ => PyRel.ite (fun _ => ?_) (fun _ => rfl)))
  all_goals
    show _ = Mat.map _ _
    unfold Mat.map Vec.map
    congr 1
    funext p q
    dsimp only
    split_ifs <;> rfl

theorem PyRel.integrate2d (M : Mat ℝ) (a : ℝ) (x y : Option (Vec ℝ)) :
    PyRel (fun p q => q = a * p) (ProcUtils.integrate2d M x y) (ProcUtils.integrate2d (M.map (a * ·)) x y) := by
  unfold ProcUtils.integrate2d
  refine PyRel.ite (fun _ => rfl) (fun _ => ?_)
  refine PyRel.bind (PyRel.refl _) (fun _ x1 h => ?_)
  subst h
  refine PyRel.bind (PyRel.refl _) (fun _ x0 h => ?_)
  subst h
  have e : (⟨(M.map (a * ·)).rows, fun j => ((∑ i ∈ Finset.range (M.map (a * ·)).cols, (M.map (a * ·)).get j i) - (M.map (a * ·)).get j 0 / 2.0 -
      (M.map (a * ·)).get j ((M.map (a * ·)).cols - 1) / 2.0) * (x1 - x0)⟩ : Vec ℝ) =
      Vec.map (a * ·) ⟨M.rows, fun j => ((∑ i ∈ Finset.range M.cols, M.get j i) - M.get j 0 / 2.0 - M.get j (M.cols - 1) / 2.0) * (x1 - x0)⟩ := by
    unfold Mat.map Vec.map
    congr 1
    funext j
    dsimp only
    rw [← Finset.mul_sum]
    generalize (2.0 : ℝ) = c
    ring
  dsimp only
  rw [e]
  refine PyRel.bind (PyRel.bcast _ _ (a * ·) (a * ·) (a * ·) _ _ (fun p q => by ring)) (fun d _ h => ?_)
  subst h
  refine PyRel.bind (PyRel.refl _) (fun _ dy h => ?_)
  subst h
  refine PyRel.bind (PyRel.bcast d _ (a * ·) id (a * ·) _ _ (fun p q => by show a * p * q = _; ring)) (fun p _ h => ?_)
  subst h
  show Vec.sum _ = a * Vec.sum _
  unfold Vec.sum
  rw [Finset.mul_sum]
  rfl

/-! ## The default band -/

theorem C100_band {r : ℝ} (hr : r ≠ 0) (x : Vec ℂ) (ts : Vec ℤ) (fmin fmax : Option ℝ) :
    Aff.init (amplify (r : ℂ) x) ts fmin fmax = Aff.init x ts fmin fmax := by
  have hp : 0 < r ^ 2 := by positivity
  refine PyRel.of_eq ?_
  unfold Aff.init
  rw [re_scale]
  refine PyRel.bind (R := fun p q => q = p) ?_ (fun _ p h => ?_)
  · have hX : ∀ X : Vec ℂ, ((X.map ((r : ℂ) * ·)).slice 0 (roundEven (((X.map ((r : ℂ) * ·)).len : ℝ) / 2))).map (fun z => ‖z‖ ^ 2) =
        ((X.slice 0 (roundEven ((X.len : ℝ) / 2))).map (fun z => ‖z‖ ^ 2)).map (r ^ 2 * ·) :=
      fun X => sq_scale (X.slice 0 (roundEven ((X.len : ℝ) / 2))) r
    have hF : ∀ lo hi : ℤ, PyRel (fun p q => q = p.map ((r : ℂ) * ·)) (fft ((fftshift ((x.map Complex.re).slice lo hi)).map (fun a : ℝ => (a : ℂ))))
        (fft ((fftshift (((x.map Complex.re).map (r * ·)).slice lo hi)).map (fun a : ℝ => (a : ℂ)))) := by
      intro lo hi
      have := PyRel.fft ((fftshift ((x.map Complex.re).slice lo hi)).map (fun a : ℝ => (a : ℂ))) (r : ℂ)
      rw [← ofReal_scale] at this
      exact this
    by_cases hg : fmin ≠ none ∧ fmax ≠ none
    · obtain ⟨a, rfl⟩ := Option.ne_none_iff_exists'.1 hg.1
      obtain ⟨b, rfl⟩ := Option.ne_none_iff_exists'.1 hg.2
      exact PyRel.refl _
    · unfold Aff.band
      cases fmin <;> cases fmax
      case some.some => simp at hg
      all_goals
        dsimp only
        refine PyRel.bind (PyRel.refl _) (fun _ lo h => ?_)
        subst h
        refine PyRel.bind (PyRel.refl _) (fun _ hi h => ?_)
        subst h
        refine PyRel.bind (hF _ _) (fun X _ h => ?_)
        subst h
        rw [hX]
        refine PyRel.bind (PyRel.amax hp _) (fun m _ h => ?_)
        subst h
        rw [positions_scale hp]
        exact PyRel.refl _
  · subst h
    exact PyRel.refl _

/-! ## Scalogram -/

theorem voice_scale (r : ℝ) (d : Vec ℂ) :
    (d.map ((r : ℂ) * ·)).map (fun v => v * conj v) = (d.map (fun v => v * conj v)).map (((r ^ 2 : ℝ) : ℂ) * ·) := by
  unfold Vec.map
  congr 1
  funext k
  dsimp only
  rw [map_mul, Complex.conj_ofReal]
  push_cast
  ring

theorem div_scale (a b : ℂ) (d : Vec ℂ) : (d.map (a * ·)).map (fun v => v / b) = (d.map (fun v => v / b)).map (a * ·) := by
  unfold Vec.map
  simp only [mul_div_assoc]

/-- A row of coefficients times `r`, its squares times `r²`. -/
def Rows (r : ℝ) (p q : Vec ℂ × Vec ℂ) : Prop := q.1 = p.1.map ((r : ℂ) * ·) ∧ q.2 = p.2.map (((r ^ 2 : ℝ) : ℂ) * ·)

theorem PyRel.morletVoice (r : ℝ) (z : Vec ℂ) (ts : Vec ℤ) (w a f : ℝ) :
    PyRel (Rows r) (Aff.morletVoice z ts w a f) (Aff.morletVoice (z.map ((r : ℂ) * ·)) ts w a f) := by
  unfold Aff.morletVoice
  refine PyRel.bind (PyRel.convolve z _ _) (fun c _ h => ?_)
  subst h
  rw [div_scale]
  refine PyRel.bind (PyRel.take _ _ _) (fun wt _ h => ?_)
  subst h
  refine PyRel.bind (PyRel.take _ _ _) (fun d _ h => ?_)
  subst h
  refine PyRel.bind (PyRel.take _ _ _) (fun d _ h => ?_)
  subst h
  exact ⟨rfl, voice_scale r d⟩

theorem PyRel.mexhatVoice (r : ℝ) (z : Vec ℂ) (ts : Vec ℤ) (a f : ℝ) :
    PyRel (Rows r) (Aff.mexhatVoice z ts a f) (Aff.mexhatVoice (z.map ((r : ℂ) * ·)) ts a f) := by
  unfold Aff.mexhatVoice
  refine PyRel.bind (PyRel.refl _) (fun _ ha h => ?_)
  subst h
  refine PyRel.bind (PyRel.convolve z _ _) (fun c _ h => ?_)
  subst h
  rw [div_scale]
  refine PyRel.bind (PyRel.take _ _ _) (fun d _ h => ?_)
  subst h
  refine PyRel.bind (PyRel.take _ _ _) (fun d _ h => ?_)
  subst h
  exact ⟨rfl, voice_scale r d⟩

theorem PyRel.voices (r : ℝ) (nv : ℕ) (f a : Vec ℝ) (v v' : ℝ → ℝ → Py (Vec ℂ × Vec ℂ)) (h : ∀ a f, PyRel (Rows r) (v a f) (v' a f)) (wt tfr : Mat ℂ) :
    PyRel (fun p q => q.1 = p.1.map ((r : ℂ) * ·) ∧ q.2 = p.2.map (((r ^ 2 : ℝ) : ℂ) * ·)) (Aff.voices nv f a v wt tfr)
      (Aff.voices nv f a v' (wt.map ((r : ℂ) * ·)) (tfr.map (((r ^ 2 : ℝ) : ℂ) * ·))) := by
  unfold Aff.voices
  refine PyRel.foldlM _ (fun s s' p hs => ?_) _ _ ⟨rfl, rfl⟩
  obtain ⟨s1, s2⟩ := s
  obtain ⟨t1, t2⟩ := s'
  obtain ⟨rfl, rfl⟩ := hs
  refine PyRel.bind (h _ _) (fun u u' hu => ?_)
  obtain ⟨u1, u2⟩ := u
  obtain ⟨v1, v2⟩ := u'
  obtain ⟨rfl, rfl⟩ := hu
  refine PyRel.bind (PyRel.setRow _ _ _ _) (fun w _ hw => ?_)
  subst hw
  refine PyRel.bind (PyRel.setRow _ _ _ _) (fun w _ hw => ?_)
  subst hw
  exact ⟨rfl, rfl⟩

theorem PyRel.transform (r : ℝ) (z : Vec ℂ) (ts : Vec ℤ) (w : ℝ) (nv : ℕ) (f a : Vec ℝ) (n m n' m' : ℕ) :
    PyRel (fun p q => q.1 = p.1.map ((r : ℂ) * ·) ∧ q.2 = p.2.map (((r ^ 2 : ℝ) : ℂ) * ·)) (Aff.transform z ts w nv f a (Mat.zeros n m) (Mat.zeros n' m'))
      (Aff.transform (z.map ((r : ℂ) * ·)) ts w nv f a (Mat.zeros n m) (Mat.zeros n' m')) := by
  conv in Aff.transform (z.map ((r : ℂ) * ·)) ts w nv f a (Mat.zeros n m) (Mat.zeros n' m') =>
    rw [zeros_scale (r : ℂ) n m, zeros_scale ((r ^ 2 : ℝ) : ℂ) n' m']
  unfold Aff.transform
  refine PyRel.ite (fun _ => ?_) (fun _ => PyRel.ite (fun _ => ?_) (fun _ => ?_))
  · exact PyRel.voices r nv f a _ _ (fun a f => PyRel.morletVoice r z ts w a f) _ _
  · exact PyRel.voices r nv f a _ _ (fun a f => PyRel.mexhatVoice r z ts a f) _ _
  · exact ⟨rfl, rfl⟩

theorem center_scale (s : Vec ℝ) (r m : ℝ) : (s.map (r * ·)).map (fun a => a - r * m) = (s.map (fun a => a - m)).map (r * ·) := by
  unfold Vec.map
  simp only [mul_sub]

theorem factor_scale {r : ℝ} (hr : r ≠ 0) (m I : ℝ) : r ^ 2 * m / (r ^ 2 * I) = m / I :=
  mul_div_mul_left _ _ (pow_ne_zero 2 hr)

/-- For every choice of band (given or found), voices and wavelet, whatever the outcome: the distribution times `r²`, the coefficients times `r`. -/
theorem C100_scalogram {r : ℝ} (hr : r ≠ 0) (x : Vec ℂ) (fmin fmax : Option ℝ) (nv : Option ℕ) (w : Option ℝ) :
    Aff.scalogram (amplify (r : ℂ) x) fmin fmax nv w =
      (Aff.scalogram x fmin fmax nv w).map (fun R => ⟨R.tfr.map (r ^ 2 * ·), R.ts, R.f, R.wt.map ((r : ℂ) * ·)⟩) := by
  apply PyRel.map_eq
  unfold Aff.scalogram
  simp only [C100_band hr, re_scale, show (amplify (r : ℂ) x).len = x.len from rfl]
  refine PyRel.bind (PyRel.refl _) (fun _ b h => ?_)
  subst h
  obtain ⟨fmin, fmax, b1, b2⟩ := b
  refine PyRel.bind (PyRel.mean _ _) (fun mu _ h => ?_)
  subst h
  dsimp only
  rw [center_scale]
  refine PyRel.bind (PyRel.hilbert _ _) (fun z _ h => ?_)
  subst h
  refine PyRel.bind (PyRel.refl _) (fun _ u h => ?_)
  refine PyRel.bind (PyRel.refl _) (fun _ f h => ?_)
  subst h
  refine PyRel.bind (PyRel.refl _) (fun _ a h => ?_)
  subst h
  refine PyRel.bind (PyRel.transform r z _ _ _ _ _ _ _ _ _) (fun p q h => ?_)
  obtain ⟨p1, p2⟩ := p
  obtain ⟨q1, q2⟩ := q
  obtain ⟨rfl, rfl⟩ := h
  refine PyRel.bind (PyRel.fft z _) (fun SP _ h => ?_)
  subst h
  dsimp only
  rw [map_re_scale]
  refine PyRel.bind (PyRel.integrate2d _ _ _ _) (fun I _ h => ?_)
  subst h
  simp only [mul_eq_zero, pow_ne_zero 2 hr, false_or]
  refine PyRel.ite (fun _ => rfl) (fun _ => ?_)
  show Aff.ScalResult.mk _ _ _ _ = Aff.ScalResult.mk _ _ _ _
  have e : ∀ i j, ((SP.map ((r : ℂ) * ·)).slice i j).norm ^ 2 = r ^ 2 * (SP.slice i j).norm ^ 2 := fun i j => norm_scale (SP.slice i j) r
  rw [e, factor_scale hr]
  congr 1
  unfold Mat.map
  congr 1
  funext i j
  dsimp only
  ring

/-! ## Wide-band ambiguity -/

theorem append_zeros_scale (a : ℂ) (v : Vec ℂ) (n : ℕ) :
    (v.map (a * ·)).append ⟨n, fun _ => 0⟩ = (v.append ⟨n, fun _ => 0⟩).map (a * ·) := by
  unfold Vec.append Vec.map
  congr 1
  funext i
  dsimp only
  split_ifs
  · rfl
  · rw [mul_zero]

theorem PyRel.mellin (q : ℝ) (v : Vec ℂ) (a : ℂ) : PyRel (fun x y => y = x.map (a * ·)) (WideBand.mellin q v) (WideBand.mellin q (v.map (a * ·))) := by
  unfold WideBand.mellin
  refine PyRel.bind (PyRel.bcast v _ (a * ·) id (a * ·) _ _ (fun p q => by show a * p * q = _; ring)) (fun w _ h => ?_)
  subst h
  refine PyRel.bind (PyRel.ifft w _) (fun y _ h => ?_)
  subst h
  rfl

/-- A loop which stores computed columns. -/
theorem PyRel.forConst (n T : ℕ) (a : ℂ) (b b' : ℕ → Py (Vec ℂ)) (h : ∀ c, PyRel (fun x y => y = x.map (a * ·)) (b c) (b' c)) :
    PyRel (fun x y => y = x.map (a * ·)) ((Mat.zeros n T : Mat ℂ).forCols T (fun i _ => b i)) ((Mat.zeros n T : Mat ℂ).forCols T (fun i _ => b' i)) := by
  have hc := PyRel.forCols (Mat.zeros n T : Mat ℂ) (a * ·) T (fun i _ => b i) (fun i _ => b' i) (fun c _ => h c)
  rw [← zeros_scale] at hc
  exact hc

theorem PyRel.wideTransform (r : ℝ) (z : Vec ℂ) (m : ℤ) (fmin fmax : ℝ) (N : ℕ) :
    PyRel (fun x y => y = x.map (((r ^ 2 : ℝ) : ℂ) * ·)) (WideBand.transform z m fmin fmax N) (WideBand.transform (z.map ((r : ℂ) * ·)) m fmin fmax N) := by
  unfold WideBand.transform
  refine PyRel.ite (fun _ => rfl) (fun _ => ?_)
  dsimp only
  have hS : ∀ g : ℕ → ℕ → ℂ, (⟨N, fun k => ∑ i ∈ Finset.range (z.map ((r : ℂ) * ·)).len, (z.map ((r : ℂ) * ·)).get i * g i k⟩ : Vec ℂ) =
      Vec.map ((r : ℂ) * ·) ⟨N, fun k => ∑ i ∈ Finset.range z.len, z.get i * g i k⟩ := by
    intro g
    unfold Vec.map
    congr 1
    funext k
    dsimp only
    rw [Finset.mul_sum]
    exact Finset.sum_congr rfl (fun i _ => by ring)
  have hSb : ∀ (g : ℕ → ℕ → ℂ) (e : ℕ → ℂ),
      (⟨N, fun k => (∑ i ∈ Finset.range (z.map ((r : ℂ) * ·)).len, (z.map ((r : ℂ) * ·)).get i * g i k) * e k⟩ : Vec ℂ) =
        Vec.map ((r : ℂ) * ·) ⟨N, fun k => (∑ i ∈ Finset.range z.len, z.get i * g i k) * e k⟩ := by
    intro g e
    unfold Vec.map
    congr 1
    funext k
    dsimp only
    rw [← mul_assoc, Finset.mul_sum]
    congr 1
    exact Finset.sum_congr rfl (fun i _ => by ring)
  have hpad : ∀ v : Vec ℂ, WideBand.pad (v.map ((r : ℂ) * ·)) N = (WideBand.pad v N).map ((r : ℂ) * ·) := fun v => append_zeros_scale _ v N
  simp only [hS, hSb, hpad]
  refine PyRel.bind (PyRel.mellin _ _ _) (fun mS _ h => ?_)
  subst h
  refine PyRel.bind (R := fun x y => y = x.map ((r : ℂ) * ·)) ?_ (fun mSb _ h => ?_)
  · exact PyRel.forConst _ _ _ _ _ (fun c => PyRel.mellin _ _ _)
  subst h
  refine PyRel.bind (R := fun x y => y = x.map (((r ^ 2 : ℝ) : ℂ) * ·)) ?_ (fun W _ h => ?_)
  · unfold WideBand.ifftRows
    refine PyRel.ite (fun _ => rfl) (fun _ => ?_)
    show Mat.mk _ _ _ = Mat.map _ _
    unfold Mat.map
    congr 1
    funext p q
    dsimp only
    rw [← mul_div_assoc, Finset.mul_sum]
    congr 1
    refine Finset.sum_congr rfl (fun k _ => ?_)
    show ((r : ℂ) * mS.get k) * conj ((r : ℂ) * mSb.get k q) * _ = _
    rw [map_mul, Complex.conj_ofReal]
    push_cast
    ring
  · subst h
    show WideBand.stack _ _ = Mat.map _ _
    unfold WideBand.stack Mat.map
    congr 1
    funext p q
    dsimp only
    split_ifs with h1 h2 h2
    · rfl
    · exact absurd h1 h2
    · exact absurd h2 h1
    · rfl

theorem wideBand_band {r : ℝ} (hr : r ≠ 0) (z : Vec ℂ) (m : ℤ) (fmin fmax : Option ℝ) :
    WideBand.band (z.map ((r : ℂ) * ·)) m fmin fmax = WideBand.band z m fmin fmax := by
  have hp : 0 < r ^ 2 := by positivity
  have hX : ((fftshift (z.map ((r : ℂ) * ·))).slice 0 m).map (fun v => ‖v‖ ^ 2) = (((fftshift z).slice 0 m).map (fun v => ‖v‖ ^ 2)).map (r ^ 2 * ·) :=
    sq_scale ((fftshift z).slice 0 m) r
  refine PyRel.of_eq ?_
  by_cases hg : fmin ≠ none ∧ fmax ≠ none
  · obtain ⟨a, rfl⟩ := Option.ne_none_iff_exists'.1 hg.1
    obtain ⟨b, rfl⟩ := Option.ne_none_iff_exists'.1 hg.2
    exact PyRel.refl _
  · unfold WideBand.band
    cases fmin <;> cases fmax
    case some.some => simp at hg
    all_goals
      dsimp only
      rw [hX]
      refine PyRel.bind (PyRel.amax hp _) (fun m _ h => ?_)
      subst h
      rw [positions_scale hp]
      exact PyRel.refl _

/-- The wide-band ambiguity function, its default band included: times `r²`, at the same lags and dilations. -/
theorem C100_wide_band {r : ℝ} (hr : r ≠ 0) (x : Vec ℂ) (fmin fmax : Option ℝ) (N : Option ℕ) :
    WideBand.wideBand (amplify (r : ℂ) x) fmin fmax N =
      (WideBand.wideBand x fmin fmax N).map (fun R => (R.1.map (((r ^ 2 : ℝ) : ℂ) * ·), R.2)) := by
  apply PyRel.map_eq
  unfold WideBand.wideBand
  simp only [re_scale, show (amplify (r : ℂ) x).len = x.len from rfl]
  refine PyRel.bind (PyRel.hilbert _ _) (fun z _ h => ?_)
  subst h
  rw [wideBand_band hr]
  refine PyRel.bind (PyRel.refl _) (fun _ b h => ?_)
  subst h
  obtain ⟨fmin, fmax, np⟩ := b
  refine PyRel.bind (PyRel.refl _) (fun _ N h => ?_)
  subst h
  refine PyRel.bind (PyRel.refl _) (fun _ _ _ => ?_)
  refine PyRel.bind (PyRel.wideTransform r z _ _ _ _) (fun W _ h => ?_)
  subst h
  refine PyRel.bind (PyRel.refl _) (fun _ sc h => ?_)
  subst h
  have e1 : (z.map ((r : ℂ) * ·)).map Complex.re = (z.map Complex.re).map (r * ·) := re_scale z r
  rw [e1]
  refine PyRel.bind (PyRel.hilbert _ _) (fun z2 _ h => ?_)
  subst h
  refine PyRel.bind (PyRel.fft z2 _) (fun SP _ h => ?_)
  subst h
  refine PyRel.bind (R := fun x y => y = ((r ^ 2 : ℝ) : ℂ) * x) ?_ (fun ref _ h => ?_)
  · unfold Mat.item
    exact PyRel.ite (fun _ => rfl) (fun _ => rfl)
  subst h
  have hr2 : ((r ^ 2 : ℝ) : ℂ) ≠ 0 := by exact_mod_cast pow_ne_zero 2 hr
  simp only [mul_eq_zero, hr2, false_or]
  refine PyRel.ite (fun _ => rfl) (fun _ => ?_)
  have e : ∀ i j, ((SP.map ((r : ℂ) * ·)).slice i j).norm ^ 2 = r ^ 2 * (SP.slice i j).norm ^ 2 := fun i j => norm_scale (SP.slice i j) r
  show (_, _, _) = (_, _, _)
  congr 1
  unfold Mat.map
  congr 1
  funext i j
  dsimp only
  rw [e, Complex.ofReal_mul, mul_div_mul_left _ _ hr2]
  ring

/-! ## Unterberger, D-Flandrin and Bertrand distributions -/

open AffDist in
/-- The object of the amplified signal. -/
noncomputable def amplifyDisp (r : ℝ) (o : Disp) : Disp := { o with x := amplify (r : ℂ) o.x }

open AffDist in
/-- The constructors choose the same band, dilations and voices. -/
theorem C100_constructor {r : ℝ} (hr : r ≠ 0) (kind : Kind) (newt : ℝ → Py ℝ) (x : Vec ℂ) (ts : Option (Vec ℤ)) (fmin fmax : Option ℝ) (nv : Option ℕ) :
    mk kind newt (amplify (r : ℂ) x) ts fmin fmax nv = (mk kind newt x ts fmin fmax nv).map (amplifyDisp r) := by
  apply PyRel.map_eq
  unfold mk
  simp only [C100_band hr, show (amplify (r : ℂ) x).len = x.len from rfl]
  refine PyRel.bind (PyRel.refl _) (fun _ b h => ?_)
  subst h
  obtain ⟨fmin, fmax, _, _⟩ := b
  refine PyRel.bind (PyRel.refl _) (fun _ u h => ?_)
  subst h
  refine PyRel.bind (PyRel.refl _) (fun _ m h => ?_)
  subst h
  obtain ⟨m1, T⟩ := m
  cases nv with
  | some k => exact rfl
  | none =>
    dsimp only
    refine PyRel.bind (PyRel.refl _) (fun _ k h => ?_)
    subst h
    exact rfl

/-- The spline routine is homogeneous in the values at the nodes. -/
def Homogeneous (spline : AffDist.Spline) : Prop :=
  ∀ (c : ℝ) (xs ys xi : Vec ℝ), spline xs (ys.map (c * ·)) xi = (spline xs ys xi).map (fun v => v.map (c * ·))

theorem slice_scale (a : ℂ) (v : Vec ℂ) (i j : ℤ) : (v.map (a * ·)).slice i j = (v.slice i j).map (a * ·) := rfl

open AffDist in
theorem PyRel.dilate (r : ℝ) (kind : Kind) (nv : ℕ) (q : ℝ) (mel : Vec ℂ) (sgn u : ℝ) :
    PyRel (fun x y => y = x.map ((r : ℂ) * ·)) (dilate kind nv q mel sgn u) (dilate kind nv q (mel.map ((r : ℂ) * ·)) sgn u) := by
  unfold AffDist.dilate
  dsimp only
  have e : ∀ g : ℕ → ℂ, fftshift (⟨(mel.map ((r : ℂ) * ·)).len, fun p => g p * (mel.map ((r : ℂ) * ·)).get p⟩ : Vec ℂ) =
      (fftshift (⟨mel.len, fun p => g p * mel.get p⟩ : Vec ℂ)).map ((r : ℂ) * ·) := by
    intro g
    unfold fftshift Vec.map
    congr 1
    funext p
    dsimp only
    ring
  rw [e]
  refine PyRel.bind (PyRel.fft _ _) (fun X _ h => ?_)
  subst h
  rfl

open AffDist in
theorem PyRel.wafRow (r : ℝ) (kind : Kind) (nv : ℕ) (m1 : ℤ) (q : ℝ) (u : Vec ℝ) (S mel : Vec ℂ) (n : ℕ) :
    PyRel (fun x y => y = x.map (((r ^ 2 : ℝ) : ℂ) * ·)) (wafRow kind nv m1 q u S mel n)
      (wafRow kind nv m1 q u (S.map ((r : ℂ) * ·)) (mel.map ((r : ℂ) * ·)) n) := by
  unfold AffDist.wafRow
  refine PyRel.bind (PyRel.refl _) (fun _ un h => ?_)
  subst h
  refine PyRel.ite (fun _ => ?_) (fun _ => ?_)
  · exact voice_scale r (S.slice 0 nv)
  refine PyRel.bind (PyRel.dilate r _ _ _ _ _ _) (fun f1 _ h => ?_)
  subst h
  refine PyRel.bind (PyRel.dilate r _ _ _ _ _ _) (fun f2 _ h => ?_)
  subst h
  refine PyRel.bind (PyRel.bcast f1 f2 ((r : ℂ) * ·) ((r : ℂ) * ·) (((r ^ 2 : ℝ) : ℂ) * ·) _ _ (fun p q => ?_)) (fun w _ h => ?_)
  · show (r : ℂ) * p * conj ((r : ℂ) * q) = _
    rw [map_mul, Complex.conj_ofReal]
    push_cast
    ring
  subst h
  cases kind with
  | unterberger b => cases b with
    | true =>
      dsimp only
      refine PyRel.bind (PyRel.refl _) (fun _ v h => ?_)
      subst h
      show Vec.map _ _ = Vec.map _ _
      unfold Vec.map
      congr 1
      funext k
      dsimp only
      ring
    | false => exact rfl
  | dflandrin => exact rfl
  | bertrand => exact rfl

open AffDist in
theorem tffrOf_scale (c : ℝ) (W : Mat ℂ) (geo : Vec ℝ) (m1 : ℕ) : tffrOf (W.map ((c : ℂ) * ·)) geo m1 = (tffrOf W geo m1).map (c * ·) := by
  unfold tffrOf Mat.map
  dsimp only
  congr 1
  funext i j
  rw [← Complex.re_ofReal_mul, ← mul_div_assoc, Finset.mul_sum]
  congr 2
  exact Finset.sum_congr rfl (fun n _ => by ring)

open AffDist in
theorem PyRel.tffr (r : ℝ) (o : Disp) :
    PyRel (fun x y => y = (x.1, x.2.map (r ^ 2 * ·))) (AffDist.tffr o) (AffDist.tffr (amplifyDisp r o)) := by
  unfold AffDist.tffr
  show PyRel _ _ (geometricSample ((amplify (r : ℂ) o.x).map Complex.re) o.m o.fmin o.fmax o.nv >>= _)
  rw [re_scale]
  refine PyRel.bind (R := fun x y => y = (x.1, x.2.1, x.2.2.map ((r : ℂ) * ·))) ?_ (fun p _ h => ?_)
  · unfold geometricSample
    refine PyRel.ite (fun _ => rfl) (fun _ => PyRel.ite (fun _ => rfl) (fun _ => ?_))
    show (_, _, _) = (_, _, _)
    congr 2
    rw [← append_zeros_scale]
    congr 1
    unfold Vec.map
    congr 1
    funext k
    dsimp only
    rw [Finset.mul_sum]
    exact Finset.sum_congr rfl (fun i _ => by push_cast; ring)
  subst h
  obtain ⟨q, geo, S⟩ := p
  dsimp only
  refine PyRel.bind (PyRel.ifft S _) (fun mel _ h => ?_)
  subst h
  refine PyRel.bind (PyRel.refl _) (fun _ u h => ?_)
  subst h
  refine PyRel.bind (PyRel.forConst _ _ _ _ _ (fun c => PyRel.wafRow r _ _ _ _ _ S (fftshift mel) c)) (fun W _ h => ?_)
  subst h
  show (_, _) = (_, _)
  rw [← tffrOf_scale]
  rfl

theorem PyRel.map_self {α β : Type} (p : Py α) (f : α → β) : PyRel (fun x y => y = f x) p (p.map f) := by
  cases p <;> rfl

open AffDist in
theorem PyRel.interpolate (c : ℝ) {spline : Spline} (hs : Homogeneous spline) (r : ℝ) (o : Disp) (geo : Vec ℝ) (M : Mat ℝ) :
    PyRel (fun x y => y = x.map (c * ·)) (AffDist.interpolate spline o geo M) (AffDist.interpolate spline (amplifyDisp r o) geo (M.map (c * ·))) := by
  unfold AffDist.interpolate
  dsimp only
  refine PyRel.bind (PyRel.refl _) (fun _ last h => ?_)
  subst h
  refine PyRel.foldlM _ (fun s s' i hss => ?_) _ _ ?_
  · subst hss
    refine PyRel.bind (PyRel.refl _) (fun _ g h => ?_)
    subst h
    have e : ∀ ind : List ℕ, (Vec.ofEntries (ind.map (fun j => (M.map (c * ·)).get i j)) : Vec ℝ) =
        (Vec.ofEntries (ind.map (fun j => M.get i j))).map (c * ·) := by
      intro ind
      unfold Vec.ofEntries Vec.map Mat.map
      simp only [List.length_map]
      congr 1
      funext k
      simp only [List.getD_eq_getElem?_getD, List.getElem?_map]
      cases ind[k]? <;> simp
    rw [e, hs]
    refine PyRel.bind (R := fun x y => y = x.map (c * ·)) ?_ (fun v _ h => ?_)
    · exact PyRel.map_self _ _
    · subst h
      exact PyRel.setRowR _ _ _ _
  · unfold Mat.zeros Mat.map
    simp only [mul_zero]
    rfl

open AffDist in
/-- With a spline routine that is homogeneous in the interpolated values: the distribution times `r²`, at the same instants and frequencies. -/
theorem C100_affine {r : ℝ} (hr : r ≠ 0) {spline : Spline} (hs : Homogeneous spline) (o : Disp) :
    AffDist.run spline (amplifyDisp r o) = (AffDist.run spline o).map (fun R => (R.1.map (r ^ 2 * ·), R.2)) := by
  apply PyRel.map_eq
  unfold AffDist.run
  refine PyRel.bind (PyRel.tffr r o) (fun p _ h => ?_)
  subst h
  obtain ⟨geo, M⟩ := p
  dsimp only
  refine PyRel.bind (PyRel.interpolate (r ^ 2) hs r o geo M) (fun R _ h => ?_)
  subst h
  refine PyRel.bind (R := fun x y => y = x.map (r ^ 2 * ·)) ?_ (fun R _ h => ?_)
  · unfold Aff.normaliseTf Aff.normalizeAna
    show PyRel _ _ (((hilbert ((amplify (r : ℂ) o.x).map Complex.re) >>= _) : Py (Vec ℂ)) >>= _)
    rw [re_scale]
    refine PyRel.bind (R := fun x y => y = x.map ((r : ℂ) * ·)) ?_ (fun sp _ h => ?_)
    · refine PyRel.bind (PyRel.hilbert _ _) (fun z _ h => ?_)
      subst h
      refine PyRel.bind (PyRel.fft z _) (fun SP _ h => ?_)
      subst h
      rfl
    subst h
    dsimp only
    refine PyRel.bind (PyRel.integrate2d _ _ _ _) (fun I _ h => ?_)
    subst h
    have hr2 := pow_ne_zero 2 hr
    simp only [mul_eq_zero, hr2, false_or]
    refine PyRel.ite (fun _ => rfl) (fun _ => ?_)
    show Mat.map _ _ = Mat.map _ _
    rw [norm_scale]
    unfold Mat.map
    congr 1
    funext i j
    dsimp only
    rw [mul_left_comm, mul_div_mul_left _ _ hr2, show (amplifyDisp r o).nv = o.nv from rfl]
    ring
  · subst h
    rfl

/-! ## Affine smoothed pseudo Wigner distribution -/

open AffSpwv in
theorem PyRel.waveletCoeffs {r : ℝ} (hr : r ≠ 0) (x : Vec ℂ) (fmin fmax : ℝ) (nv : ℕ) (w : ℝ) :
    PyRel (fun x y => y = x.map ((r : ℂ) * ·)) (waveletCoeffs x fmin fmax nv w) (waveletCoeffs (amplify (r : ℂ) x) fmin fmax nv w) := by
  unfold AffSpwv.waveletCoeffs
  simp only [C100_band hr, re_scale, show (amplify (r : ℂ) x).len = x.len from rfl]
  refine PyRel.bind (PyRel.refl _) (fun _ b h => ?_)
  subst h
  obtain ⟨fmin, fmax, b1, b2⟩ := b
  refine PyRel.bind (PyRel.mean _ _) (fun mu _ h => ?_)
  subst h
  rw [center_scale]
  refine PyRel.bind (PyRel.hilbert _ _) (fun z _ h => ?_)
  subst h
  refine PyRel.bind (PyRel.refl _) (fun _ u h => ?_)
  refine PyRel.bind (PyRel.refl _) (fun _ f h => ?_)
  subst h
  refine PyRel.bind (PyRel.refl _) (fun _ a h => ?_)
  subst h
  refine PyRel.bind (PyRel.transform r z _ _ _ _ _ _ _ _ _) (fun p q h => ?_)
  obtain ⟨p1, p2⟩ := p
  obtain ⟨q1, q2⟩ := q
  obtain ⟨rfl, rfl⟩ := h
  refine PyRel.bind (PyRel.fft z _) (fun SP _ h => ?_)
  dsimp only
  rw [map_re_scale]
  refine PyRel.bind (PyRel.integrate2d _ _ _ _) (fun I _ h => ?_)
  exact rfl

open AffSpwv in
theorem PyRel.total (r : ℝ) (l : Mat ℂ) (G : Vec ℝ) (nv mu : ℕ) (S : Vec ℂ) :
    PyRel (fun x y => y = r ^ 2 * x) (total l G nv mu S) (total l G nv mu (S.map ((r : ℂ) * ·))) := by
  unfold AffSpwv.total
  rw [append_zeros_scale]
  refine PyRel.bind (PyRel.ifft _ _) (fun m _ h => ?_)
  subst h
  refine PyRel.ite (fun _ => rfl) (fun _ => ?_)
  show (∑ c ∈ Finset.range (2 * nv), ∑ p ∈ Finset.range nv, _) = r ^ 2 * (∑ c ∈ Finset.range (2 * nv), ∑ p ∈ Finset.range nv, _)
  rw [Finset.mul_sum]
  refine Finset.sum_congr rfl (fun c _ => ?_)
  rw [Finset.mul_sum]
  refine Finset.sum_congr rfl (fun p _ => ?_)
  have e : ∑ k ∈ Finset.range (2 * mu), (l.get k c * (fftshift (m.map ((r : ℂ) * ·))).get c) * rootPow (2 * mu) ((k : ℤ) * (p : ℤ)) =
      (r : ℂ) * ∑ k ∈ Finset.range (2 * mu), (l.get k c * (fftshift m).get c) * rootPow (2 * mu) ((k : ℤ) * (p : ℤ)) := by
    rw [Finset.mul_sum]
    refine Finset.sum_congr rfl (fun k _ => ?_)
    show (l.get k c * ((r : ℂ) * (fftshift m).get c)) * _ = _
    ring
  dsimp only
  rw [e, Complex.mul_conj, Complex.mul_conj, Complex.normSq_mul, Complex.normSq_ofReal, Complex.ofReal_re, Complex.ofReal_re]
  ring

open AffSpwv in
/-- The affine smoothed pseudo Wigner distribution: times `r²`. -/
theorem C100_aspw {r : ℝ} (hr : r ≠ 0) (x : Vec ℂ) (ts : Option (Vec ℤ)) (K : String) (nh0 : Option Half) (ng0 : ℝ) (fmin fmax : Option ℝ) (nv : Option ℕ) :
    smoothedPseudoWigner (amplify (r : ℂ) x) ts K nh0 ng0 fmin fmax nv =
      (smoothedPseudoWigner x ts K nh0 ng0 fmin fmax nv).map (fun R => (R.1.map (r ^ 2 * ·), R.2)) := by
  apply PyRel.map_eq
  unfold AffSpwv.smoothedPseudoWigner
  have hr2 := pow_ne_zero 2 hr
  simp only [re_scale, show (amplify (r : ℂ) x).len = x.len from rfl]
  have hre : ((x.map Complex.re).map (r * ·)).map (fun v : ℝ => (v : ℂ)) = amplify (r : ℂ) ((x.map Complex.re).map (fun v : ℝ => (v : ℂ))) := ofReal_scale _ _
  refine PyRel.bind (R := fun p q => q = p) ?_ (fun _ b h => ?_)
  · unfold AffSpwv.edges
    cases fmin <;> cases fmax
    case some.some => exact PyRel.refl _
    all_goals
      dsimp only
      unfold AffSpwv.band
      refine PyRel.bind (PyRel.refl _) (fun _ lo h => ?_)
      subst h
      refine PyRel.bind (PyRel.refl _) (fun _ hi h => ?_)
      subst h
      have hF := PyRel.fft ((fftshift ((x.map Complex.re).slice lo (hi + 1))).map (fun a : ℝ => (a : ℂ))) (r : ℂ)
      rw [← ofReal_scale] at hF
      refine PyRel.bind hF (fun X _ h => ?_)
      subst h
      exact PyRel.ite (fun _ => rfl) (fun _ => rfl)
  subst h
  obtain ⟨fmin, fmax⟩ := b
  dsimp only
  refine PyRel.ite (fun _ => rfl) (fun _ => PyRel.ite (fun _ => ?_) (fun _ => ?_))
  · unfold AffSpwv.badRatio
    refine PyRel.bind (PyRel.refl _) (fun _ k h => ?_)
    subst h
    refine PyRel.ite (fun _ => rfl) (fun _ => ?_)
    rw [hre]
    refine PyRel.bind (PyRel.waveletCoeffs hr _ _ _ _ _) (fun W _ h => ?_)
    exact rfl
  refine PyRel.bind (PyRel.refl _) (fun _ k h => ?_)
  subst h
  refine PyRel.ite (fun _ => rfl) (fun _ => ?_)
  rw [hre]
  refine PyRel.bind (PyRel.waveletCoeffs hr _ _ _ _ _) (fun W _ h => ?_)
  subst h
  refine PyRel.bind (R := fun x y => y = x.map ((r : ℂ) * ·)) ?_ (fun M _ h => ?_)
  · unfold AffSpwv.scaled
    refine PyRel.foldlM _ (fun s s' p hs => ?_) _ _ (zeros_scale _ _ _)
    subst hs
    have e : ∀ c : ℂ, (⟨(W.map ((r : ℂ) * ·)).cols, fun t => (W.map ((r : ℂ) * ·)).get p t * c⟩ : Vec ℂ) =
        Vec.map ((r : ℂ) * ·) ⟨W.cols, fun t => W.get p t * c⟩ := by
      intro c
      unfold Vec.map Mat.map
      congr 1
      funext t
      dsimp only
      ring
    rw [e]
    exact PyRel.setRow _ _ _ _
  subst h
  refine PyRel.bind (PyRel.refl _) (fun _ u h => ?_)
  subst h
  refine PyRel.bind (PyRel.refl _) (fun _ l h => ?_)
  subst h
  refine PyRel.bind (R := fun x y => y = x.map (r ^ 2 * ·)) ?_ (fun R _ h => ?_)
  · unfold AffSpwv.columns
    refine PyRel.foldlM _ (fun s s' t hs => ?_) _ _ ?_
    · subst hs
      refine PyRel.bind (PyRel.total r _ _ _ _ (M.col t)) (fun v _ h => ?_)
      subst h
      show Mat.mk _ _ _ = Mat.map _ _
      unfold Mat.map
      congr 1
      funext i j
      dsimp only
      split_ifs
      · ring
      · rfl
    · unfold Mat.zeros Mat.map
      simp
  subst h
  refine PyRel.bind (R := fun x y => y = x.map (r ^ 2 * ·)) ?_ (fun R _ h => ?_)
  · unfold AffSpwv.normalise
    refine PyRel.bind (PyRel.hilbert _ _) (fun z _ h => ?_)
    subst h
    refine PyRel.bind (PyRel.fft z _) (fun SP _ h => ?_)
    subst h
    dsimp only
    refine PyRel.bind (PyRel.integrate2d _ _ _ _) (fun I _ h => ?_)
    subst h
    simp only [mul_eq_zero, hr2, false_or]
    refine PyRel.ite (fun _ => rfl) (fun _ => ?_)
    have e : ∀ A : Vec ℂ, (∑ k ∈ Finset.range (A.map ((r : ℂ) * ·)).len, ((A.map ((r : ℂ) * ·)).get k).re * ((A.map ((r : ℂ) * ·)).get k).re) +
        ∑ k ∈ Finset.range (A.map ((r : ℂ) * ·)).len, ((A.map ((r : ℂ) * ·)).get k).im * ((A.map ((r : ℂ) * ·)).get k).im =
        r ^ 2 * ((∑ k ∈ Finset.range A.len, (A.get k).re * (A.get k).re) + ∑ k ∈ Finset.range A.len, (A.get k).im * (A.get k).im) := by
      intro A
      rw [mul_add, Finset.mul_sum, Finset.mul_sum]
      congr 1
      · refine Finset.sum_congr rfl (fun k _ => ?_)
        show ((r : ℂ) * A.get k).re * ((r : ℂ) * A.get k).re = _
        rw [Complex.re_ofReal_mul]
        ring
      · refine Finset.sum_congr rfl (fun k _ => ?_)
        show ((r : ℂ) * A.get k).im * ((r : ℂ) * A.get k).im = _
        rw [Complex.im_ofReal_mul]
        ring
    show Mat.map _ _ = Mat.map _ _
    simp only [slice_scale, e]
    unfold Mat.map
    congr 1
    funext i j
    dsimp only
    rw [mul_left_comm, mul_div_mul_left _ _ hr2, show ((x.map Complex.re).map (r * ·)).len = (x.map Complex.re).len from rfl]
    ring
  · subst h
    rfl

/-! ## morlet_scalogram -/

theorem dotC_scale (a : ℂ) (h s : Vec ℂ) : Reassigned.dotC h (s.map (a * ·)) = a * Reassigned.dotC h s := by
  unfold Reassigned.dotC
  rw [Finset.mul_sum]
  refine Finset.sum_congr rfl (fun i _ => ?_)
  show h.get i * (a * s.get i) = _
  ring

theorem PyRel.mapM {α β γ : Type} {R : β → γ → Prop} (f : α → Py β) (g : α → Py γ) (l : List α) (h : ∀ x, PyRel R (f x) (g x)) :
    PyRel (fun u v => List.Forall₂ R u v) (l.mapM f) (l.mapM g) := by
  induction l with
  | nil => exact List.Forall₂.nil
  | cons x l ih =>
    rw [List.mapM_cons, List.mapM_cons]
    refine PyRel.bind (h x) (fun u v huv => PyRel.bind ih (fun us vs hus => ?_))
    exact List.Forall₂.cons huv hus

theorem PyRel.ofLoop {β : Type} [Inhabited β] (φ : β → β) (hφ : φ default = default) (k : ℕ) (f g : ℕ → Py β)
    (h : ∀ j, PyRel (fun x y => y = φ x) (f j) (g j)) :
    PyRel (fun u v => v = u.map φ) (Reassigned.ofLoop k f) (Reassigned.ofLoop k g) := by
  unfold Reassigned.ofLoop
  refine PyRel.bind (PyRel.mapM f g _ h) (fun u v huv => ?_)
  show _ = Vec.map _ _
  unfold Vec.map
  congr 1
  funext i
  dsimp only
  have e : v = u.map φ := by
    induction huv with
    | nil => rfl
    | cons h _ ih => rw [List.map_cons, h, ih]
  rw [e]
  simp only [List.getD_eq_getElem?_getD, List.getElem?_map]
  cases u[i]? with
  | none => exact hφ.symm
  | some v => rfl

/-- The two sums times `a`. -/
def scalePair (a : ℂ) (p : ℂ × ℂ) : ℂ × ℂ := (a * p.1, a * p.2)

theorem PyRel.morletSums (a : ℂ) (tbp : ℝ) (x : Vec ℂ) (ts : Vec ℤ) (n : ℕ) :
    PyRel (fun f g => g = fun r c => a * f r c) (Reassigned.morletSums tbp x ts n) (Reassigned.morletSums tbp (amplify a x) ts n) := by
  unfold Reassigned.morletSums
  refine PyRel.ite (fun _ => rfl) (fun _ => PyRel.ite (fun _ => rfl) (fun _ => ?_))
  refine PyRel.bind (PyRel.ofLoop (fun v : Vec (ℂ × ℂ) => v.map (scalePair a)) ?_ _ _ _ (fun j => PyRel.ofLoop (scalePair a) ?_ _ _ _ (fun c => ?_)))
    (fun rows _ h => ?_)
  · show Vec.map _ (Vec.mk 0 _) = Vec.mk 0 _
    unfold Vec.map scalePair
    congr 1
    funext i
    show (a * (0 : ℂ), a * (0 : ℂ)) = (0, 0)
    simp
  · show (a * (0 : ℂ), a * (0 : ℂ)) = (0, 0)
    simp
  · unfold Reassigned.morletEntry
    refine PyRel.bind (PyRel.refl _) (fun _ hp h => ?_)
    subst h
    refine PyRel.bind (PyRel.take x (a * ·) _) (fun sp _ h => ?_)
    subst h
    refine PyRel.ite (fun _ => ?_) (fun _ => ?_)
    · refine PyRel.bind (PyRel.refl _) (fun _ hn h => ?_)
      subst h
      refine PyRel.bind (PyRel.take x (a * ·) _) (fun sn _ h => ?_)
      subst h
      show (_, _) = (_, _)
      simp only [dotC_scale, ← mul_add]
    · show (_, _) = (_, _)
      simp only [dotC_scale]
  subst h
  refine PyRel.bind (PyRel.ofLoop (a * ·) (mul_zero a) _ _ _ (fun c => ?_)) (fun last _ h => ?_)
  · unfold Reassigned.morletLast
    refine PyRel.bind (PyRel.refl _) (fun _ hp h => ?_)
    subst h
    refine PyRel.bind (PyRel.take x (a * ·) _) (fun sp _ h => ?_)
    subst h
    refine PyRel.ite (fun _ => ?_) (fun _ => ?_)
    · refine PyRel.bind (PyRel.refl _) (fun _ hn h => ?_)
      subst h
      refine PyRel.bind (PyRel.take x (a * ·) _) (fun sn _ h => ?_)
      subst h
      show _ + _ = _ * (_ + _)
      simp only [dotC_scale, ← mul_add]
    · exact dotC_scale _ _ _
  subst h
  refine PyRel.ite (fun _ => rfl) (fun _ => ?_)
  show _ = fun r c => _
  funext r c
  unfold Reassigned.morletAssemble
  dsimp only
  split_ifs
  · show _ * (a * _) = _
    ring
  · show _ * (a * _) = _
    ring
  · show _ * (a * _) = _
    ring
  · rw [mul_zero]

/-- `morlet_scalogram`: refused or not alike, and times `|a|²`. -/
theorem C100_morlet_scalogram {a : ℂ} (ha : a ≠ 0) (x : Vec ℂ) (ts : Option (Vec ℤ)) (n : Option ℕ) (tbp : ℝ) :
    Reassigned.morletScalogramRun (amplify a x) ts n tbp =
      (Reassigned.morletScalogramRun x ts n tbp).map (fun r => (r.1.map (‖a‖ ^ 2 * ·), r.2.1.map (‖a‖ ^ 2 * ·), r.2.2)) := by
  have hp : 0 < ‖a‖ ^ 2 := by positivity
  apply PyRel.map_eq
  unfold Reassigned.morletScalogramRun Reassigned.morletScalogram
  refine PyRel.ite (fun _ => rfl) (fun _ => PyRel.ite (fun _ => rfl) (fun _ => ?_))
  refine PyRel.bind (PyRel.morletSums a tbp x _ _) (fun F _ h => ?_)
  subst h
  dsimp only
  have hthr : (if (amplify a x).len = 0 then none else some (((amplify a x).map (fun z => ‖z‖ ^ 2)).sum / ((amplify a x).len : ℝ) * 1.0e-6)) =
      (if x.len = 0 then none else some ((x.map (fun z => ‖z‖ ^ 2)).sum / (x.len : ℝ) * 1.0e-6)).map (‖a‖ ^ 2 * ·) := by
    show (if x.len = 0 then none else some (_ / (x.len : ℝ) * 1.0e-6)) = _
    by_cases h : x.len = 0
    · rw [if_pos h, if_pos h]
      rfl
    · rw [if_neg h, if_neg h, Option.map_some]
      have : ((amplify a x).map (fun z => ‖z‖ ^ 2)).sum = ‖a‖ ^ 2 * (x.map (fun z => ‖z‖ ^ 2)).sum := by
        unfold Vec.sum
        rw [Finset.mul_sum]
        refine Finset.sum_congr rfl (fun k _ => ?_)
        show ‖a * _‖ ^ 2 = ‖a‖ ^ 2 * ‖_‖ ^ 2
        rw [norm_mul, mul_pow]
      rw [this]
      generalize (1.0e-6 : ℝ) = c
      congr 1
      ring
  have htfr : ∀ N T, (⟨N, T, fun r c => ‖a * F r c‖ ^ 2⟩ : Mat ℝ) = Mat.map (‖a‖ ^ 2 * ·) ⟨N, T, fun r c => ‖F r c‖ ^ 2⟩ := by
    intro N T
    unfold Mat.map
    simp only [norm_mul, mul_pow]
  have htg : ∀ (t : Option ℝ) (v : ℝ) (A B : Py (ℤ × ℤ)), (if Reassigned.above (t.map (‖a‖ ^ 2 * ·)) (‖a‖ ^ 2 * v) = true then A else B) =
      if Reassigned.above t v = true then A else B := by
    intro t v A B
    rw [above_scale hp]
  simp only [norm_mul, mul_pow] at htfr ⊢
  rw [hthr]
  simp only [htg, htfr]
  refine PyRel.bind (PyRel.scatterAdd _ _ _) (fun R _ h => ?_)
  subst h
  rfl

/-! ## Splines, phases, and an example -/

/-- Every routine that combines basis functions (of the nodes) with the values at the nodes is homogeneous; interpolating splines are of this kind. -/
theorem homogeneous_basis (b : Vec ℝ → ℕ → ℝ → ℝ) (ok : Vec ℝ → Vec ℝ → Prop) [∀ xs xi, Decidable (ok xs xi)] (e : PyErr) :
    Homogeneous (fun xs ys xi => if ok xs xi then .ok (xi.map (fun u => ∑ i ∈ Finset.range xs.len, ys.get i * b xs i u)) else .error e) := by
  intro c xs ys xi
  dsimp only
  by_cases h : ok xs xi
  · rw [if_pos h, if_pos h]
    refine congrArg Except.ok ?_
    unfold Vec.map
    congr 1
    funext k
    dsimp only
    rw [Finset.mul_sum]
    exact Finset.sum_congr rfl (fun i _ => by ring)
  · rw [if_neg h, if_neg h]
    rfl

/-- A complex factor matters: turned by a quarter of a circle, every real-valued signal is refused by the scalogram, by the wide-band ambiguity function and by the
constructors of the affine distributions when one of the band edges is missing. -/
theorem C100_phase (x : Vec ℂ) (hn : 2 ≤ x.len) (hx : ∀ t < x.len, (x.get t).im = 0) (fmin fmax : Option ℝ) (hb : fmin = none ∨ fmax = none) :
    (∀ nv w, Aff.scalogram (amplify Complex.I x) fmin fmax nv w = .error .valueError) ∧
    (∀ kind newt nv, AffDist.mk kind newt (amplify Complex.I x) none fmin fmax nv = .error .valueError) ∧
    ∀ N, WideBand.wideBand (amplify Complex.I x) fmin fmax N = .error .valueError := by
  have hre : ∀ t < x.len, ((amplify Complex.I x).get t).re = 0 := by
    intro t ht
    show (Complex.I * x.get t).re = 0
    simp [hx t ht]
  have hi : Aff.init (amplify Complex.I x) (arange 0 (amplify Complex.I x).len) fmin fmax = .error .valueError := by
    refine C58_raises (amplify Complex.I x) fmin fmax hb (fun k _ => ?_)
    unfold Spec.dft Spec.dtft
    refine Finset.sum_eq_zero (fun j hj => ?_)
    have : ((realPart (amplify Complex.I x)).map Complex.ofReal).get j = 0 := by
      show (((amplify Complex.I x).get j).re : ℂ) = 0
      rw [hre j (Finset.mem_range.1 hj)]
      rfl
    rw [this, zero_mul]
  refine ⟨fun nv w => ?_, fun kind newt nv => ?_, fun N => C57_silent (amplify Complex.I x) hn hre fmin fmax hb N⟩
  · unfold Aff.scalogram
    simp only [hi]
    rfl
  · unfold AffDist.mk
    simp only [Option.getD_none, hi]
    rfl

/-- Half as loud and inverted: the same default band. -/
example : ∃ b, Aff.init ⟨4, fun i => (i : ℂ)⟩ (arange 0 4) none none = .ok b ∧
    Aff.init (amplify (((-1 / 2 : ℝ)) : ℂ) ⟨4, fun i => (i : ℂ)⟩) (arange 0 4) none none = .ok b := by
  obtain ⟨_, _, _, _, h, -⟩ := C58_band ⟨4, fun i => (i : ℂ)⟩ (by norm_num) ⟨0, by unfold Spec.halfBins; norm_num, by
    unfold Spec.dft Spec.dtft
    simp [Finset.sum_range_succ, Vec.map, realPart]
    norm_num⟩
  refine ⟨_, h, ?_⟩
  rw [C100_band (by norm_num)]
  exact h

end Tftb.Props
