import Verif.Lemmas.Rel
import Verif.Model.Cohen
import Verif.Model.Ambiguity
import Verif.Model.Reassigned
import Verif.Model.TimeFreq
import Verif.Props.TimeFreq
import Verif.Props.Wvd

/-! # C99 A signal multiplied by a constant -/

namespace Tftb.Props

open Tftb Tftb.Linear Tftb.Cohen ComplexConjugate

/-- The signal times a constant. -/
noncomputable def amplify (a : ℂ) (x : Vec ℂ) : Vec ℂ := x.map (a * ·)

/-- A stored array times a real constant. -/
noncomputable def scaleStore (r : ℝ) : Store → Store
  | .cplx M => .cplx (M.map ((r : ℂ) * ·))
  | .real M => .real (M.map (r * ·))

/-- The object with its signal times `a` and its array times `|a|²`. -/
noncomputable def amplifyObj {τ : Type} (a : ℂ) (o : TFR τ) : TFR τ :=
  { o with signal := amplify a o.signal, tfr := scaleStore (‖a‖ ^ 2) o.tfr }

theorem amplifyObj_init {τ : Type} (a : ℂ) (mkw : ℕ → Vec ℂ) (x : Vec ℂ) (ts : Vec τ) (n : ℕ) (h : Option (Vec ℂ)) :
    amplifyObj a (TFR.init mkw x ts n h) = TFR.init mkw (amplify a x) ts n h := by
  unfold amplifyObj TFR.init scaleStore Mat.zeros Mat.map
  simp

theorem scaleStore_asC (r : ℝ) (S : Store) : (scaleStore r S).asC = S.asC.map ((r : ℂ) * ·) := by
  cases S with
  | cplx M => rfl
  | real M =>
    unfold scaleStore Store.asC Mat.map
    simp

theorem map_re_scale (r : ℝ) (F : Mat ℂ) : (F.map ((r : ℂ) * ·)).map Complex.re = (F.map Complex.re).map (r * ·) := by
  unfold Mat.map
  simp

theorem PyRel.storeForCols (r : ℝ) (S : Store) (T : ℕ) (body body' : ℕ → Vec ℂ → Py (Vec ℂ))
    (h : ∀ c v, PyRel (fun x y => y = x.map ((r : ℂ) * ·)) (body c v) (body' c (v.map ((r : ℂ) * ·)))) :
    PyRel (fun x y => y = scaleStore r x) (S.forCols T body) ((scaleStore r S).forCols T body') := by
  cases S with
  | cplx M =>
    unfold scaleStore Store.forCols
    refine PyRel.bind (PyRel.forCols M _ T body body' h) (fun x y hxy => ?_)
    subst hxy
    rfl
  | real M =>
    unfold scaleStore Store.forCols
    have e : (M.map (r * ·)).map (fun a : ℝ => (a : ℂ)) = (M.map (fun a : ℝ => (a : ℂ))).map ((r : ℂ) * ·) := by
      unfold Mat.map
      simp
    dsimp only
    rw [e]
    refine PyRel.bind (PyRel.forCols _ _ T _ _ (fun c v => ?_)) (fun x y hxy => ?_)
    · refine PyRel.bind (h c v) (fun x y hxy => ?_)
      subst hxy
      show _ = Vec.map _ _
      unfold Vec.map
      simp
    · subst hxy
      show Store.real _ = Store.real _
      rw [map_re_scale]

theorem normSq_eq (a : ℂ) : a * conj a = ((‖a‖ ^ 2 : ℝ) : ℂ) := by
  rw [Complex.mul_conj, Complex.normSq_eq_norm_sq]

theorem norm_mul_conj (a p q : ℂ) : a * p * conj (a * q) = ((‖a‖ ^ 2 : ℝ) : ℂ) * (p * conj q) := by
  rw [← normSq_eq, map_mul]
  ring

/-! ## Runs of Cohen's class, for any object (fresh or used) -/

theorem C99_page (a : ℂ) (o : TFR ℤ) : pageRun (amplifyObj a o) = (pageRun o).map (amplifyObj a) := by
  apply PyRel.map_eq
  unfold pageRun
  refine PyRel.bind (PyRel.storeForCols (‖a‖ ^ 2) o.tfr _ _ _ (fun c v => ?_)) (fun S S' hS => ?_)
  · unfold pageCol
    refine PyRel.bind (PyRel.refl _) (fun ti _ h => ?_)
    subst h
    refine PyRel.bind (PyRel.item o.signal (a * ·) _) (fun s _ h => ?_)
    subst h
    refine PyRel.bind (PyRel.take o.signal (a * ·) _) (fun b _ h => ?_)
    subst h
    have e : (b.map (a * ·)).map (fun z => a * s * conj z) = (b.map (fun z => s * conj z)).map (((‖a‖ ^ 2 : ℝ) : ℂ) * ·) := by
      unfold Vec.map
      simp only [norm_mul_conj]
    show PyRel _ _ (Vec.put _ _ _)
    rw [e]
    exact PyRel.put v _ _ _
  · subst hS
    rw [scaleStore_asC]
    refine PyRel.bind (PyRel.fft0 _ _) (fun F _ h => ?_)
    subst h
    show _ = amplifyObj a _
    unfold amplifyObj scaleStore
    rw [map_re_scale]

theorem C99_margenau_hill (a : ℂ) (o : TFR ℤ) : mhRun (amplifyObj a o) = (mhRun o).map (amplifyObj a) := by
  apply PyRel.map_eq
  unfold mhRun
  refine PyRel.bind (PyRel.storeForCols (‖a‖ ^ 2) o.tfr _ _ _ (fun c v => ?_)) (fun S S' hS => ?_)
  · unfold mhCol
    refine PyRel.bind (PyRel.refl _) (fun ti _ h => ?_)
    subst h
    refine PyRel.bind (PyRel.item o.signal (a * ·) _) (fun s _ h => ?_)
    subst h
    refine PyRel.bind (PyRel.take o.signal (a * ·) _) (fun b _ h => ?_)
    subst h
    have e : (b.map (a * ·)).map (fun z => a * s * conj z) = (b.map (fun z => s * conj z)).map (((‖a‖ ^ 2 : ℝ) : ℂ) * ·) := by
      unfold Vec.map
      simp only [norm_mul_conj]
    show PyRel _ _ (Vec.put _ _ _)
    rw [e]
    exact PyRel.put v _ _ _
  · subst hS
    rw [scaleStore_asC]
    refine PyRel.bind (PyRel.fft0 _ _) (fun F _ h => ?_)
    subst h
    show _ = amplifyObj a _
    unfold amplifyObj scaleStore
    rw [map_re_scale]

theorem C99_pmh {τ : Type} (a : ℂ) (o : TFR τ) : pmhRun (amplifyObj a o) = (pmhRun o).map (amplifyObj a) := by
  apply PyRel.map_eq
  unfold pmhRun
  refine PyRel.bind (PyRel.storeForCols (‖a‖ ^ 2) o.tfr _ _ _ (fun c v => ?_)) (fun S S' hS => ?_)
  · unfold pmhCol
    refine PyRel.ite (fun _ => rfl) (fun _ => ?_)
    refine PyRel.bind (PyRel.refl _) (fun w _ h => ?_)
    subst h
    refine PyRel.bind (PyRel.item o.signal (a * ·) _) (fun s _ h => ?_)
    subst h
    refine PyRel.bind (PyRel.take o.signal (a * ·) _) (fun b _ h => ?_)
    subst h
    refine PyRel.bind (PyRel.bcast _ b id (a * ·) (((‖a‖ ^ 2 : ℝ) : ℂ) * ·) _ _ (fun p q => ?_)) (fun u _ h => ?_)
    · show p * (a * s) * conj (a * q) = _
      rw [← normSq_eq, map_mul]
      ring
    · subst h
      exact PyRel.put v _ _ _
  · subst hS
    rw [scaleStore_asC]
    refine PyRel.bind (PyRel.fft0 _ _) (fun F _ h => ?_)
    subst h
    rfl

theorem C99_wvd {τ : Type} (a : ℂ) (o : TFR τ) : wvdRun (amplifyObj a o) = (wvdRun o).map (amplifyObj a) := by
  apply PyRel.map_eq
  unfold wvdRun
  refine PyRel.ite (fun _ => rfl) (fun _ => ?_)
  refine PyRel.bind (PyRel.storeForCols (‖a‖ ^ 2) o.tfr _ _ _ (fun c v => ?_)) (fun S S' hS => ?_)
  · unfold wvdCol
    refine PyRel.bind (PyRel.take o.signal (a * ·) _) (fun u _ h => ?_)
    subst h
    have e : (amplifyObj a o).signal.map (starRingEnd ℂ) = (o.signal.map (starRingEnd ℂ)).map (conj a * ·) := by
      show (o.signal.map (a * ·)).map _ = _
      unfold Vec.map
      simp only [map_mul]
    rw [e]
    refine PyRel.bind (PyRel.take _ (conj a * ·) _) (fun b _ h => ?_)
    subst h
    refine PyRel.bind (PyRel.bcast u b (a * ·) (conj a * ·) (((‖a‖ ^ 2 : ℝ) : ℂ) * ·) _ _ (fun p q => ?_)) (fun w _ h => ?_)
    · show a * p * (conj a * q) = _
      rw [← normSq_eq]
      ring
    · subst h
      refine PyRel.bind (PyRel.put v _ _ _) (fun w' _ h => ?_)
      subst h
      exact PyRel.ite (fun _ => rfl) (fun _ => rfl)
  · subst hS
    rw [scaleStore_asC]
    refine PyRel.bind (PyRel.fft0 _ _) (fun F _ h => ?_)
    subst h
    show _ = amplifyObj a _
    unfold amplifyObj scaleStore
    rw [map_re_scale]

/-- The returned (real) matrix scales, too. -/
theorem C99_pwvd {τ : Type} (a : ℂ) (o : TFR τ) :
    pwvdRun (amplifyObj a o) = (pwvdRun o).map (fun r => (amplifyObj a r.1, r.2.map (‖a‖ ^ 2 * ·))) := by
  apply PyRel.map_eq
  unfold pwvdRun
  refine PyRel.bind (PyRel.storeForCols (‖a‖ ^ 2) o.tfr _ _ _ (fun c v => ?_)) (fun S S' hS => ?_)
  · unfold pwvdCol
    refine PyRel.bind (PyRel.refl _) (fun w _ h => ?_)
    subst h
    refine PyRel.bind (PyRel.take o.signal (a * ·) _) (fun u _ h => ?_)
    subst h
    refine PyRel.bind (PyRel.take o.signal (a * ·) _) (fun b _ h => ?_)
    subst h
    refine PyRel.bind (PyRel.bcast _ u id (a * ·) (a * ·) _ _ (fun p q => ?_)) (fun wa _ h => ?_)
    · show p * (a * q) = a * (p * q)
      ring
    subst h
    refine PyRel.bind (PyRel.bcast wa b (a * ·) (a * ·) (((‖a‖ ^ 2 : ℝ) : ℂ) * ·) _ _ (fun p q => norm_mul_conj a p q)) (fun w' _ h => ?_)
    subst h
    refine PyRel.bind (PyRel.put v _ _ _) (fun w' _ h => ?_)
    subst h
    exact PyRel.ite (fun _ => rfl) (fun _ => rfl)
  · subst hS
    rw [scaleStore_asC]
    refine PyRel.bind (PyRel.fft0 _ _) (fun F _ h => ?_)
    subst h
    show (_, _) = (_, _)
    rw [map_re_scale]
    rfl

/-- The spectrogram of a new object. -/
theorem C99_spectrogram (a : ℂ) (x : Vec ℂ) (ts : Vec ℤ) (n : ℕ) (h : Option (Vec ℂ)) :
    spectroRun (TFR.init makeWindow (amplify a x) ts n h) = (spectroRun (TFR.init makeWindow x ts n h)).map (amplifyObj a) := by
  apply PyRel.map_eq
  unfold spectroRun
  have e0 : (TFR.init makeWindow (amplify a x) ts n h).tfr = .cplx ((Mat.zeros n ts.len).map (a * ·)) := by
    unfold TFR.init Mat.zeros Mat.map
    simp
  rw [e0]
  unfold Store.forCols
  dsimp only [TFR.init, Store.asC]
  have h1 := PyRel.forCols (Mat.zeros n ts.len) (a * ·) ts.len (spectroCol (TFR.init makeWindow x ts n h))
    (spectroCol (TFR.init makeWindow (amplify a x) ts n h)) (fun c v => by
      unfold spectroCol
      refine PyRel.bind (PyRel.refl _) (fun ti _ h => ?_)
      subst h
      refine PyRel.bind (PyRel.take x (a * ·) _) (fun u _ h => ?_)
      subst h
      refine PyRel.bind (PyRel.refl _) (fun b _ h => ?_)
      subst h
      refine PyRel.bind (PyRel.refl _) (fun w _ h => ?_)
      subst h
      refine PyRel.ite (fun _ => rfl) (fun _ => ?_)
      refine PyRel.bind (PyRel.bcast u _ (a * ·) id (a * ·) _ _ (fun p q => ?_)) (fun w' _ h => ?_)
      · show a * p * q / _ = a * (p * q / _)
        ring
      · subst h
        exact PyRel.put v _ _ _)
  refine PyRel.bind (PyRel.bind h1 (fun S S' hS => ?_)) (fun S S' hS => ?_) (R := fun S S' => ∃ M : Mat ℂ, S = .cplx M ∧ S' = .cplx (M.map (a * ·)))
  · subst hS
    exact ⟨S, rfl, rfl⟩
  · obtain ⟨M, rfl, rfl⟩ := hS
    refine PyRel.bind (PyRel.fft0 _ a) (fun F _ h => ?_)
    subst h
    show _ = amplifyObj a _
    unfold amplifyObj scaleStore
    congr 2
    unfold Mat.map
    congr 1
    funext r c
    show ‖a * F.get r c‖ ^ 2 = ‖a‖ ^ 2 * ‖F.get r c‖ ^ 2
    rw [norm_mul, mul_pow]

/-- `k` calls of `run` on the same object, each starting from the array that the last one left. -/
def runAgain {τ : Type} (run : TFR τ → Py (TFR τ)) (k : ℕ) (o : TFR τ) : Py (TFR τ) :=
  (List.range k).foldlM (fun o _ => run o) o

theorem C99_again {τ : Type} (a : ℂ) (run : TFR τ → Py (TFR τ)) (h : ∀ o, run (amplifyObj a o) = (run o).map (amplifyObj a)) (k : ℕ) (o : TFR τ) :
    runAgain run k (amplifyObj a o) = (runAgain run k o).map (amplifyObj a) := by
  apply PyRel.map_eq
  unfold runAgain
  refine PyRel.foldlM _ (fun s s' _ hs => ?_) _ _ rfl
  subst hs
  rw [h s]
  cases run s <;> rfl

/-- Any number of calls of `run` on an object made from the signal: the results of the amplified signal are the same ones times `|a|²`, used
arrays included. -/
theorem C99_histories (a : ℂ) (x : Vec ℂ) (ts : Vec ℤ) (n : ℕ) (h : Option (Vec ℂ)) (k : ℕ) :
    runAgain wvdRun k (TFR.init makeWindow (amplify a x) ts n h) = (runAgain wvdRun k (TFR.init makeWindow x ts n h)).map (amplifyObj a) ∧
    runAgain mhRun k (TFR.init makeWindow (amplify a x) ts n h) = (runAgain mhRun k (TFR.init makeWindow x ts n h)).map (amplifyObj a) ∧
    runAgain pmhRun k (TFR.init makeWindow (amplify a x) ts n h) = (runAgain pmhRun k (TFR.init makeWindow x ts n h)).map (amplifyObj a) ∧
    runAgain pageRun k (TFR.init makeWindow (amplify a x) ts n h) = (runAgain pageRun k (TFR.init makeWindow x ts n h)).map (amplifyObj a) := by
  rw [← amplifyObj_init]
  exact ⟨C99_again a _ (C99_wvd a) k _, C99_again a _ (C99_margenau_hill a) k _, C99_again a _ (C99_pmh a) k _, C99_again a _ (C99_page a) k _⟩

/-! ## Functions -/

theorem C99_spwv (a : ℂ) (x : Vec ℂ) (ts : Option (Vec ℤ)) (n : Option ℕ) (tw fw : Option (Vec ℂ)) :
    spwv (amplify a x) ts n tw fw = (spwv x ts n tw fw).map (fun M => M.map (‖a‖ ^ 2 * ·)) := by
  have hcorr : ∀ g i j, PyRel (fun p q : ℂ => q = ((‖a‖ ^ 2 : ℝ) : ℂ) * p) (spwvCorr x g i j) (spwvCorr (amplify a x) g i j) := by
    intro g i j
    unfold spwvCorr
    refine PyRel.bind (PyRel.take x (a * ·) _) (fun u _ h => ?_)
    subst h
    refine PyRel.bind (PyRel.bcast g u id (a * ·) (a * ·) _ _ (fun p q => ?_)) (fun wa _ h => ?_)
    · show p * (a * q) = a * (p * q)
      ring
    subst h
    refine PyRel.bind (PyRel.take x (a * ·) _) (fun b _ h => ?_)
    subst h
    refine PyRel.bind (PyRel.bcast wa b (a * ·) (a * ·) (((‖a‖ ^ 2 : ℝ) : ℂ) * ·) _ _ (fun p q => norm_mul_conj a p q)) (fun w' _ h => ?_)
    subst h
    show Vec.sum _ = _ * Vec.sum _
    unfold Vec.sum
    rw [Finset.mul_sum]
    rfl
  have hset : ∀ (col : Vec ℂ) (i : ℤ) (w R : ℂ), PyRel (fun p q : Vec ℂ => q = p.map (((‖a‖ ^ 2 : ℝ) : ℂ) * ·)) (col.setItem i (w * R))
      ((col.map (((‖a‖ ^ 2 : ℝ) : ℂ) * ·)).setItem i (w * (((‖a‖ ^ 2 : ℝ) : ℂ) * R))) := by
    intro col i w R
    rw [mul_left_comm]
    exact PyRel.setItem col (((‖a‖ ^ 2 : ℝ) : ℂ) * ·) i (w * R)
  apply PyRel.map_eq
  unfold spwv
  refine PyRel.bind (PyRel.refl _) (fun fw' _ h => ?_)
  subst h
  refine PyRel.bind (PyRel.refl _) (fun tw' _ h => ?_)
  subst h
  have e0 : ∀ r c, (Mat.zeros r c : Mat ℂ) = (Mat.zeros r c).map (((‖a‖ ^ 2 : ℝ) : ℂ) * ·) := by
    intro r c
    unfold Mat.zeros Mat.map
    simp
  show PyRel _ _ ((Mat.zeros (n.getD x.len) (ts.getD (arange 0 x.len)).len : Mat ℂ).forCols _ _ >>= _)
  refine PyRel.bind (R := fun p q : Mat ℂ => q = p.map (((‖a‖ ^ 2 : ℝ) : ℂ) * ·)) ?_ (fun S S' hS => ?_)
  · conv in (Mat.zeros (n.getD x.len) (ts.getD (arange 0 x.len)).len).forCols _ (spwvCol (amplify a x) _ _ _ _) => rw [e0]
    refine PyRel.forCols _ _ _ _ _ (fun c v => ?_)
    unfold spwvCol
    refine PyRel.bind (PyRel.refl _) (fun ti _ h => ?_)
    subst h
    refine PyRel.bind (PyRel.refl _) (fun g _ h => ?_)
    subst h
    refine PyRel.bind (hcorr _ _ _) (fun R _ h => ?_)
    subst h
    refine PyRel.bind (PyRel.setItem v (((‖a‖ ^ 2 : ℝ) : ℂ) * ·) 0 R) (fun col col' h => ?_)
    refine PyRel.bind (PyRel.foldlM (R := fun p q : Vec ℂ => q = p.map (((‖a‖ ^ 2 : ℝ) : ℂ) * ·)) _ (fun s s' tau hs => ?_) _ _ h)
      (fun col col' h => ?_)
    · subst hs
      unfold spwvLag
      refine PyRel.bind (PyRel.refl _) (fun g _ h => ?_)
      subst h
      refine PyRel.bind (hcorr _ _ _) (fun R _ h => ?_)
      subst h
      refine PyRel.bind (PyRel.refl _) (fun w _ h => ?_)
      subst h
      refine PyRel.bind (hset _ _ _ _) (fun col _ h => ?_)
      subst h
      refine PyRel.bind (hcorr _ _ _) (fun R _ h => ?_)
      subst h
      refine PyRel.bind (PyRel.refl _) (fun w _ h => ?_)
      subst h
      exact hset _ _ _ _
    · subst h
      exact PyRel.ite (fun _ => rfl) (fun _ => rfl)
  · subst hS
    refine PyRel.bind (PyRel.fft0 _ _) (fun F _ h => ?_)
    subst h
    exact map_re_scale _ _

theorem zeros_scale (a : ℂ) (r c : ℕ) : (Mat.zeros r c : Mat ℂ) = (Mat.zeros r c).map (a * ·) := by
  unfold Mat.zeros Mat.map
  simp

theorem C99_narrow_band (a : ℂ) (x : Vec ℂ) (lag : Option (Vec ℝ)) (nf : Option ℕ) :
    Ambiguity.narrowBand (amplify a x) lag nf =
      (Ambiguity.narrowBand x lag nf).map (fun r => (r.1.map (((‖a‖ ^ 2 : ℝ) : ℂ) * ·), r.2)) := by
  apply PyRel.map_eq
  unfold Ambiguity.narrowBand
  show PyRel _ _ ((Mat.zeros (nf.getD x.len) (lag.getD (Ambiguity.nbLags x.len)).len : Mat ℂ).forCols _ _ >>= _)
  refine PyRel.bind (R := fun p q : Mat ℂ => q = p.map (((‖a‖ ^ 2 : ℝ) : ℂ) * ·)) ?_ (fun S S' hS => ?_)
  · conv in (Mat.zeros (nf.getD x.len) (lag.getD (Ambiguity.nbLags x.len)).len).forCols _ (Ambiguity.nbCol (amplify a x) _) =>
      rw [zeros_scale ((‖a‖ ^ 2 : ℝ) : ℂ)]
    refine PyRel.forCols _ _ _ _ _ (fun c v => ?_)
    unfold Ambiguity.nbCol
    refine PyRel.bind (PyRel.refl _) (fun l _ h => ?_)
    subst h
    refine PyRel.bind (PyRel.take x (a * ·) _) (fun u _ h => ?_)
    subst h
    refine PyRel.bind (PyRel.take x (a * ·) _) (fun b _ h => ?_)
    subst h
    refine PyRel.bind (PyRel.bcast u b (a * ·) (a * ·) (((‖a‖ ^ 2 : ℝ) : ℂ) * ·) _ _ (fun p q => norm_mul_conj a p q)) (fun w _ h => ?_)
    subst h
    exact PyRel.put v _ _ _
  · subst hS
    refine PyRel.bind (PyRel.fft0 _ _) (fun F _ h => ?_)
    subst h
    refine PyRel.bind (PyRel.takeRows _ _ _) (fun F _ h => ?_)
    subst h
    rfl

/-- The frequencies estimated from phase differences do not depend on a non-zero constant factor. -/
theorem C99_inst_freq {a : ℂ} (ha : a ≠ 0) (x : Vec ℂ) (t : Option (Vec ℤ)) : TF.instFreq (amplify a x) t = TF.instFreq x t := by
  have hp : 0 < ‖a‖ ^ 2 := by positivity
  have h : PyRel (fun p q => q = p) (TF.instFreq x t) (TF.instFreq (amplify a x) t) := by
    unfold TF.instFreq
    refine PyRel.bind (PyRel.take x (a * ·) _) (fun u _ h => ?_)
    subst h
    refine PyRel.bind (PyRel.take x (a * ·) _) (fun b _ h => ?_)
    subst h
    refine PyRel.bind (PyRel.bcast u b (a * ·) (a * ·) (((‖a‖ ^ 2 : ℝ) : ℂ) * ·) _ _ (fun p q => ?_)) (fun w _ h => ?_)
    · show -(a * p) * conj (a * q) = _
      rw [neg_mul, norm_mul_conj]
      ring
    · subst h
      show (_, _) = (_, _)
      congr 1
      unfold Vec.map
      simp only [Complex.arg_real_mul _ hp]
  have := h.map_eq (f := id)
  rw [this]
  cases TF.instFreq x t <;> rfl

theorem PyRel.of_eq {α : Type} {p q : Py α} (h : PyRel (fun x y => y = x) p q) : q = p := by
  have := h.map_eq (f := id)
  rw [this]
  cases p <;> rfl

/-! ## Reassigned representations -/

theorem PyRel.addItem (M : Mat ℝ) (r : ℝ) (i j : ℤ) (b : ℝ) :
    PyRel (fun x y => y = x.map (r * ·)) (M.addItem i j b) ((M.map (r * ·)).addItem i j (r * b)) := by
  unfold Mat.addItem
  refine PyRel.bind (R := fun p q => q = r * p) ?_ (fun p q h => ?_)
  · unfold Mat.item
    exact PyRel.ite (fun _ => rfl) (fun _ => rfl)
  · subst h
    unfold Mat.setItem
    refine PyRel.ite (fun _ => ?_) (fun _ => rfl)
    show _ = Mat.map _ _
    unfold Mat.map
    congr 1
    funext k l
    dsimp only
    split_ifs
    · ring
    · rfl

theorem PyRel.scatterAdd (M : Mat ℝ) (r : ℝ) (tg : ℕ → ℕ → Py (ℤ × ℤ)) :
    PyRel (fun x y => y = x.map (r * ·)) (Reassigned.scatterAdd M tg) (Reassigned.scatterAdd (M.map (r * ·)) tg) := by
  unfold Reassigned.scatterAdd
  refine PyRel.foldlM _ (fun s s' c hs => ?_) _ _ ?_
  · refine PyRel.foldlM _ (fun s s' c hs => ?_) _ _ hs
    subst hs
    refine PyRel.bind (PyRel.refl _) (fun t _ h => ?_)
    subst h
    exact PyRel.addItem s r _ _ _
  · unfold Mat.zeros Mat.map
    simp

theorem above_scale {r : ℝ} (hr : 0 < r) (t : Option ℝ) (v : ℝ) : Reassigned.above (t.map (r * ·)) (r * v) = Reassigned.above t v := by
  cases t with
  | none => rfl
  | some t =>
    unfold Reassigned.above
    simp only [Option.map_some, abs_mul, abs_of_pos hr, mul_lt_mul_iff_right₀ hr]

theorem pwvThreshold_scale (a : ℂ) (x : Vec ℂ) (i j : ℤ) :
    Reassigned.pwvThreshold (amplify a x) i j = (Reassigned.pwvThreshold x i j).map (‖a‖ ^ 2 * ·) := by
  unfold Reassigned.pwvThreshold
  show (if (x.slice i (j + 1)).len = 0 then none else some (1.0e-6 * (Vec.sum _ / ((x.slice i (j + 1)).len : ℝ)))) = _
  by_cases h : (x.slice i (j + 1)).len = 0
  · simp [h]
  · simp only [if_neg h, Option.map_some, Option.some.injEq]
    have : (((amplify a x).slice i (j + 1)).map (fun z => ‖z‖ ^ 2)).sum = ‖a‖ ^ 2 * ((x.slice i (j + 1)).map (fun z => ‖z‖ ^ 2)).sum := by
      unfold Vec.sum
      rw [Finset.mul_sum]
      refine Finset.sum_congr rfl (fun k _ => ?_)
      show ‖a * _‖ ^ 2 = ‖a‖ ^ 2 * ‖_‖ ^ 2
      rw [norm_mul, mul_pow]
      rfl
    rw [this]
    ring

theorem pwvRow_scale {r : ℝ} (hr : 0 < r) (n j : ℕ) (v d : ℝ) : Reassigned.pwvRow n j (r * v) (r * d) = Reassigned.pwvRow n j v d := by
  unfold Reassigned.pwvRow
  have : r * d * ((n : ℝ) / (r * v) / (2 * Real.pi)) = d * ((n : ℝ) / v / (2 * Real.pi)) := by
    by_cases hv : v = 0
    · simp [hv]
    · have := Real.pi_ne_zero
      have := hr.ne'
      field_simp
  rw [this]

/-- The transform with the derived window, as the code sees it. -/
theorem PyRel.derived (a : ℂ) (D : Option (Mat ℂ)) :
    PyRel (fun f g => ∀ i j, PyRel (fun p q => q = a * p) (f i j) (g i j)) (Reassigned.derived D)
      (Reassigned.derived (D.map (fun M => M.map (a * ·)))) := by
  cases D with
  | none => exact fun _ _ => rfl
  | some D =>
    unfold Reassigned.derived
    refine PyRel.bind (PyRel.fft0 D a) (fun F _ h => ?_)
    subst h
    exact fun _ _ => rfl

theorem C99_reassigned_pwv {a : ℂ} (ha : a ≠ 0) (x : Vec ℂ) (ts : Option (Vec ℤ)) (n : Option ℕ) (w : Option (Vec ℝ)) :
    Reassigned.pseudoWignerVille (amplify a x) ts n w =
      (Reassigned.pseudoWignerVille x ts n w).map (fun r => (r.1.map (‖a‖ ^ 2 * ·), r.2.1.map (‖a‖ ^ 2 * ·), r.2.2)) := by
  have hp : 0 < ‖a‖ ^ 2 := by positivity
  apply PyRel.map_eq
  have hcol : ∀ n lh w ts T, PyRel (fun p q : Mat ℂ => q = p.map (((‖a‖ ^ 2 : ℝ) : ℂ) * ·))
      ((Mat.zeros n T : Mat ℂ).forCols T (Reassigned.pwvCol x n lh w ts))
      ((Mat.zeros n T : Mat ℂ).forCols T (Reassigned.pwvCol (amplify a x) n lh w ts)) := by
    intro n lh w ts T
    conv in (Mat.zeros n T).forCols _ (Reassigned.pwvCol (amplify a x) _ _ _ _) => rw [zeros_scale ((‖a‖ ^ 2 : ℝ) : ℂ)]
    refine PyRel.forCols _ _ _ _ _ (fun c v => ?_)
    unfold Reassigned.pwvCol
    refine PyRel.bind (PyRel.refl _) (fun ti _ h => ?_)
    subst h
    refine PyRel.ite (fun _ => rfl) (fun _ => ?_)
    refine PyRel.bind (PyRel.refl _) (fun g _ h => ?_)
    subst h
    refine PyRel.bind (PyRel.take x (a * ·) _) (fun u _ h => ?_)
    subst h
    refine PyRel.bind (PyRel.take x (a * ·) _) (fun b _ h => ?_)
    subst h
    refine PyRel.bind (PyRel.bcast _ u id (a * ·) (a * ·) _ _ (fun p q => ?_)) (fun wa _ h => ?_)
    · show p * (a * q) = a * (p * q)
      ring
    subst h
    refine PyRel.bind (PyRel.bcast wa b (a * ·) (a * ·) (((‖a‖ ^ 2 : ℝ) : ℂ) * ·) _ _ (fun p q => norm_mul_conj a p q)) (fun w' _ h => ?_)
    subst h
    refine PyRel.bind (PyRel.put v _ _ _) (fun w' _ h => ?_)
    subst h
    exact PyRel.ite (fun _ => rfl) (fun _ => rfl)
  have hfin : ∀ n ts A D, PyRel (fun r q : Mat ℝ × Mat ℝ × Mat (Option ℂ) => q = (r.1.map (‖a‖ ^ 2 * ·), r.2.1.map (‖a‖ ^ 2 * ·), r.2.2))
      (Reassigned.pwvFinish x n ts A D)
      (Reassigned.pwvFinish (amplify a x) n ts (A.map (((‖a‖ ^ 2 : ℝ) : ℂ) * ·)) (D.map (fun M => M.map (((‖a‖ ^ 2 : ℝ) : ℂ) * ·)))) := by
    intro n ts A D
    unfold Reassigned.pwvFinish
    refine PyRel.bind (PyRel.fft0 A _) (fun F _ h => ?_)
    subst h
    refine PyRel.bind (PyRel.derived _ D) (fun f g hfg => ?_)
    refine PyRel.bind (PyRel.refl _) (fun i _ h => ?_)
    subst h
    refine PyRel.bind (PyRel.refl _) (fun j _ h => ?_)
    subst h
    have htg : ∀ (t : Option ℝ), Reassigned.pwvTarget n (t.map (‖a‖ ^ 2 * ·)) ((F.map (((‖a‖ ^ 2 : ℝ) : ℂ) * ·)).map Complex.re) g =
        Reassigned.pwvTarget n t (F.map Complex.re) f := by
      intro t
      funext p q
      rw [map_re_scale]
      unfold Reassigned.pwvTarget
      show (if Reassigned.above _ (‖a‖ ^ 2 * (F.map Complex.re).get p q) = true then _ else _) = _
      rw [above_scale hp]
      by_cases hab : Reassigned.above t ((F.map Complex.re).get p q) = true
      · rw [if_pos hab, if_pos hab]
        refine PyRel.of_eq (PyRel.bind (hfg p q) (fun u _ h => ?_))
        subst h
        show (_, _) = (_, _)
        congr 1
        show Reassigned.pwvRow n p (‖a‖ ^ 2 * _) (((‖a‖ ^ 2 : ℝ) : ℂ) * u).im = _
        rw [Complex.im_ofReal_mul, pwvRow_scale hp]
      · rw [if_neg hab, if_neg hab]
    simp only [pwvThreshold_scale, htg]
    rw [map_re_scale]
    refine PyRel.bind (PyRel.scatterAdd _ _ _) (fun R _ h => ?_)
    subst h
    show (_, _, _) = (_, _, _)
    congr 3
    funext p q
    show (if Reassigned.above _ (‖a‖ ^ 2 * (F.map Complex.re).get p q) = true then _ else _) = _
    rw [above_scale hp]
  unfold Reassigned.pseudoWignerVille
  refine PyRel.ite (fun _ => rfl) (fun _ => ?_)
  refine PyRel.bind (PyRel.refl _) (fun m _ h => ?_)
  subst h
  refine PyRel.ite (fun _ => rfl) (fun _ => ?_)
  refine PyRel.bind (PyRel.refl _) (fun _ dh h => ?_)
  subst h
  refine PyRel.bind (hcol _ _ _ _ _) (fun A _ h => ?_)
  subst h
  cases dh with
  | none => exact hfin _ _ A none
  | some dh =>
    refine PyRel.bind (hcol _ _ _ _ _) (fun D _ h => ?_)
    subst h
    exact hfin _ _ A (some D)

theorem C99_reassigned_spectrogram {a : ℂ} (ha : a ≠ 0) (x : Vec ℂ) (ts : Option (Vec ℤ)) (n : Option ℕ) (w : Option (Vec ℝ)) :
    Reassigned.spectrogram (amplify a x) ts n w =
      (Reassigned.spectrogram x ts n w).map (fun r => (r.1.map (‖a‖ ^ 2 * ·), r.2.1.map (‖a‖ ^ 2 * ·), r.2.2)) := by
  have hp : 0 < ‖a‖ ^ 2 := by positivity
  apply PyRel.map_eq
  have hcol : ∀ n lh u w ts T, PyRel (fun p q : Mat ℂ => q = p.map (a * ·))
      ((Mat.zeros n T : Mat ℂ).forCols T (Reassigned.specCol x n lh u w ts))
      ((Mat.zeros n T : Mat ℂ).forCols T (Reassigned.specCol (amplify a x) n lh u w ts)) := by
    intro n lh u w ts T
    conv in (Mat.zeros n T).forCols _ (Reassigned.specCol (amplify a x) _ _ _ _ _) => rw [zeros_scale a]
    refine PyRel.forCols _ _ _ _ _ (fun c v => ?_)
    unfold Reassigned.specCol
    refine PyRel.bind (PyRel.refl _) (fun _ ti h => ?_)
    subst h
    refine PyRel.bind (PyRel.refl _) (fun _ g h => ?_)
    subst h
    refine PyRel.bind (PyRel.take x (a * ·) _) (fun u _ h => ?_)
    subst h
    refine PyRel.bind (PyRel.refl _) (fun _ b h => ?_)
    subst h
    refine PyRel.bind (PyRel.bcast u b (a * ·) id (a * ·) _ _ (fun p q => ?_)) (fun w' _ h => ?_)
    · show a * p * (q : ℂ) / _ = a * (p * (q : ℂ) / _)
      ring
    subst h
    refine PyRel.ite (fun _ => rfl) (fun _ => ?_)
    exact PyRel.put v _ _ _
  have hfin : ∀ n ts A B D, PyRel (fun r q : Mat ℝ × Mat ℝ × Mat (Option ℂ) => q = (r.1.map (‖a‖ ^ 2 * ·), r.2.1.map (‖a‖ ^ 2 * ·), r.2.2))
      (Reassigned.specFinish x n ts A B D)
      (Reassigned.specFinish (amplify a x) n ts (A.map (a * ·)) (B.map (a * ·)) (D.map (fun M => M.map (a * ·)))) := by
    intro n ts A B D
    unfold Reassigned.specFinish
    refine PyRel.bind (PyRel.fft0 A _) (fun F _ h => ?_)
    subst h
    refine PyRel.bind (PyRel.fft0 B _) (fun G _ h => ?_)
    subst h
    refine PyRel.bind (PyRel.derived _ D) (fun f g hfg => ?_)
    refine PyRel.bind (PyRel.refl _) (fun _ i h => ?_)
    subst h
    refine PyRel.bind (PyRel.refl _) (fun _ j h => ?_)
    subst h
    refine PyRel.bind (PyRel.take x (a * ·) _) (fun s _ h => ?_)
    subst h
    have hsq : (s.map (a * ·)).map (fun z => ‖z‖ ^ 2) = (s.map (fun z => ‖z‖ ^ 2)).map (‖a‖ ^ 2 * ·) := by
      unfold Vec.map
      simp only [norm_mul, mul_pow]
    rw [hsq]
    refine PyRel.bind (PyRel.mean _ _) (fun m _ h => ?_)
    subst h
    have hthr : (1e-6 : ℝ) * (‖a‖ ^ 2 * m) = ‖a‖ ^ 2 * (1e-6 * m) := by ring
    have hF : (F.map (a * ·)).map (fun z => ‖z‖ ^ 2) = (F.map (fun z => ‖z‖ ^ 2)).map (‖a‖ ^ 2 * ·) := by
      unfold Mat.map
      simp only [norm_mul, mul_pow]
    have habove : ∀ v : ℝ, Reassigned.above (some (‖a‖ ^ 2 * (1e-6 * m))) (‖a‖ ^ 2 * v) = Reassigned.above (some (1e-6 * m)) v :=
      fun v => above_scale hp (some (1e-6 * m)) v
    have hdiv : ∀ p q : ℂ, a * p / (a * q) = p / q := fun p q => mul_div_mul_left p q ha
    have htg : Reassigned.specTarget n ts.len (‖a‖ ^ 2 * (1e-6 * m)) (F.map (a * ·)) (G.map (a * ·)) g =
        Reassigned.specTarget n ts.len (1e-6 * m) F G f := by
      funext p q
      unfold Reassigned.specTarget
      have e : ‖(F.map (a * ·)).get p q‖ ^ 2 = ‖a‖ ^ 2 * ‖F.get p q‖ ^ 2 := by
        show ‖a * _‖ ^ 2 = _
        rw [norm_mul, mul_pow]
      rw [e, habove]
      by_cases hab : Reassigned.above (some (1e-6 * m)) (‖F.get p q‖ ^ 2) = true
      · rw [if_pos hab, if_pos hab]
        refine PyRel.of_eq (PyRel.bind (hfg p q) (fun u _ h => ?_))
        subst h
        show (_, _) = (_, _)
        congr 1
        · show Reassigned.specRowHat n p (a * F.get p q) (a * u) = _
          unfold Reassigned.specRowHat
          rw [mul_left_comm, hdiv]
        · show Reassigned.specColHat ts.len q (a * F.get p q) (a * G.get p q) = _
          unfold Reassigned.specColHat
          rw [hdiv]
      · rw [if_neg hab, if_neg hab]
    dsimp only
    rw [hthr, htg, hF]
    refine PyRel.bind (PyRel.scatterAdd _ _ _) (fun R _ h => ?_)
    subst h
    show (_, _, _) = (_, _, _)
    congr 3
    funext p q
    show (if Reassigned.above _ (‖a‖ ^ 2 * (F.map _).get p q) = true then _ else _) = _
    rw [habove]
  unfold Reassigned.spectrogram
  refine PyRel.ite (fun _ => rfl) (fun _ => ?_)
  refine PyRel.ite (fun _ => rfl) (fun _ => ?_)
  refine PyRel.bind (PyRel.refl _) (fun _ th h => ?_)
  subst h
  refine PyRel.bind (PyRel.refl _) (fun _ dh h => ?_)
  subst h
  refine PyRel.bind (hcol _ _ _ _ _ _) (fun A _ h => ?_)
  subst h
  refine PyRel.bind (hcol _ _ _ _ _ _) (fun B _ h => ?_)
  subst h
  cases dh with
  | none => exact hfin _ _ A B none
  | some dh =>
    refine PyRel.bind (hcol _ _ _ _ _ _) (fun D _ h => ?_)
    subst h
    exact hfin _ _ A B (some D)

/-! ## Localisation -/

theorem C99_loctime {a : ℂ} (ha : a ≠ 0) (x : Vec ℂ) : TF.loctime (amplify a x) = TF.loctime x := by
  have hp : 0 < ‖a‖ ^ 2 := by positivity
  refine PyRel.of_eq ?_
  unfold TF.loctime
  have hsq : (amplify a x).map (fun z => ‖z ^ 2‖) = (x.map (fun z => ‖z ^ 2‖)).map (‖a‖ ^ 2 * ·) := by
    unfold amplify Vec.map
    simp only [mul_pow, norm_mul, norm_pow]
  dsimp only
  rw [hsq]
  refine PyRel.bind (PyRel.mean _ _) (fun m _ h => ?_)
  subst h
  simp only [mul_eq_zero, hp.ne', false_or]
  refine PyRel.ite (fun _ => rfl) (fun _ => ?_)
  have e : ((x.map (fun z => ‖z ^ 2‖)).map (‖a‖ ^ 2 * ·)).map (fun v => v / (‖a‖ ^ 2 * m)) = (x.map (fun z => ‖z ^ 2‖)).map (fun v => v / m) := by
    unfold Vec.map
    simp only [mul_div_mul_left _ _ hp.ne']
  rw [e]
  exact PyRel.refl _

theorem C99_locfreq {a : ℂ} (ha : a ≠ 0) (x : Vec ℂ) : TF.locfreq (amplify a x) = TF.locfreq x := by
  have hp : 0 < ‖a‖ ^ 2 := by positivity
  refine PyRel.of_eq ?_
  unfold TF.locfreq
  refine PyRel.bind (PyRel.fft x a) (fun X _ h => ?_)
  subst h
  have hsq : (X.map (a * ·)).map (fun z => ‖z‖ ^ 2) = (X.map (fun z => ‖z‖ ^ 2)).map (‖a‖ ^ 2 * ·) := by
    unfold Vec.map
    simp only [norm_mul, mul_pow]
  dsimp only
  rw [hsq]
  refine PyRel.bind (PyRel.bcast _ (X.map (fun z => ‖z‖ ^ 2)) id (‖a‖ ^ 2 * ·) (‖a‖ ^ 2 * ·) _ _ (fun p q => by show p * (_ * q) = _; ring))
    (fun _ _ _ => ?_)
  refine PyRel.bind (PyRel.mean _ _) (fun m _ h => ?_)
  subst h
  simp only [mul_eq_zero, hp.ne', false_or]
  refine PyRel.ite (fun _ => rfl) (fun _ => ?_)
  have e : ((X.map (fun z => ‖z‖ ^ 2)).map (‖a‖ ^ 2 * ·)).map (fun v => v / (‖a‖ ^ 2 * m)) = (X.map (fun z => ‖z‖ ^ 2)).map (fun v => v / m) := by
    unfold Vec.map
    simp only [mul_div_mul_left _ _ hp.ne']
  rw [e]
  exact PyRel.refl _

theorem gdKeep_scale {a : ℂ} (ha : a ≠ 0) (n : ℕ) (p q : ℂ) : TF.gdKeep n (a * p) (a * q) = TF.gdKeep n p q := by
  unfold TF.gdKeep
  rw [mul_div_mul_left _ _ ha]

theorem C99_group_delay {a : ℂ} (ha : a ≠ 0) (x : Vec ℂ) : TF.groupDelay (amplify a x) = TF.groupDelay x := by
  refine PyRel.of_eq ?_
  unfold TF.groupDelay
  refine PyRel.bind (PyRel.bcast x _ (a * ·) id (a * ·) _ _ (fun p q => by show a * p * _ = a * (p * _); ring_nf; rfl)) (fun w _ h => ?_)
  subst h
  refine PyRel.bind (PyRel.fft w a) (fun N _ h => ?_)
  subst h
  refine PyRel.bind (PyRel.fft x a) (fun X _ h => ?_)
  subst h
  have e : (∃ k < (X.map (a * ·)).len, (X.map (a * ·)).get k = 0) ↔ ∃ k < X.len, X.get k = 0 := by
    unfold Vec.map
    simp only [mul_eq_zero, ha, false_or]
  by_cases hX : ∃ k < X.len, X.get k = 0
  · rw [if_pos hX, if_pos (e.2 hX)]
    rfl
  · rw [if_neg hX, if_neg (fun h => hX (e.1 h))]
    have e2 : (⟨(N.map (a * ·)).len, fun k => TF.gdKeep (amplify a x).len ((N.map (a * ·)).get k) ((X.map (a * ·)).get k)⟩ : Vec ℝ)
        = ⟨N.len, fun k => TF.gdKeep x.len (N.get k) (X.get k)⟩ := by
      show (⟨N.len, fun k => TF.gdKeep x.len (a * N.get k) (a * X.get k)⟩ : Vec ℝ) = _
      simp only [gdKeep_scale ha]
    rw [e2]
    exact PyRel.refl _

theorem C99_group_delay_at {a : ℂ} (ha : a ≠ 0) (x : Vec ℂ) (f : Vec ℝ) : TF.groupDelayAt (amplify a x) f = TF.groupDelayAt x f := by
  unfold TF.groupDelayAt amplify Vec.map
  have e1 : ∀ (g : ℕ → ℂ), ∑ j ∈ Finset.range x.len, g j * (a * x.get j * ((j : ℂ) + 1)) =
      a * ∑ j ∈ Finset.range x.len, g j * (x.get j * ((j : ℂ) + 1)) := by
    intro g
    rw [Finset.mul_sum]
    exact Finset.sum_congr rfl (fun j _ => by ring)
  have e2 : ∀ (g : ℕ → ℂ), ∑ j ∈ Finset.range x.len, g j * (a * x.get j) = a * ∑ j ∈ Finset.range x.len, g j * x.get j := by
    intro g
    rw [Finset.mul_sum]
    exact Finset.sum_congr rfl (fun j _ => by ring)
  simp only [e1, e2, mul_eq_zero, ha, false_or, gdKeep_scale ha]

/-- The factor must not be zero: a signal with a centre of gravity has none any more when multiplied by zero. -/
theorem C99_zero : (∃ r, TF.loctime ⟨4, fun i => (i : ℂ)⟩ = .ok r) ∧ TF.loctime (amplify 0 ⟨4, fun i => (i : ℂ)⟩) = .error .nonFinite := by
  refine ⟨⟨_, C44_loctime _ ?_⟩, C44_loctime_zero _ ?_⟩
  · unfold Spec.energy
    simp [Finset.sum_range_succ]
    norm_num
  · unfold Spec.energy amplify Vec.map
    simp

/-- Played three times as loud and a quarter turn ahead: the same centre and spread, nine times the representation. -/
example :
    TF.loctime (amplify (3 * Complex.I) ⟨4, fun i => (i : ℂ)⟩) = TF.loctime ⟨4, fun i => (i : ℂ)⟩ ∧
    ∃ M, WvdReturns ⟨4, fun i => (i : ℂ)⟩ (arange 0 4) 8 M ∧
      WvdReturns (amplify (3 * Complex.I) ⟨4, fun i => (i : ℂ)⟩) (arange 0 4) 8 (M.map (9 * ·)) := by
  have h9 : ‖(3 * Complex.I : ℂ)‖ ^ 2 = 9 := by
    simp
    norm_num
  refine ⟨C99_loctime (by simp) _, ?_⟩
  obtain ⟨M, ⟨o, ho, hM⟩, -⟩ := C33_wvd ⟨4, fun i => (i : ℂ)⟩ (arange 0 4) 8 (by norm_num) rfl (by
    have h := roundEven_half 8
    rw [h]
    norm_num)
  refine ⟨M, ⟨o, ho, hM⟩, amplifyObj (3 * Complex.I) o, ?_, ?_⟩
  · rw [← amplifyObj_init, C99_wvd, ho]
    rfl
  · show scaleStore _ o.tfr = _
    rw [hM, h9]
    rfl

end Tftb.Props
