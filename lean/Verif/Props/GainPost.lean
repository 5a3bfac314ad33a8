import Verif.Props.Gain
import Verif.Props.GainReal
import Verif.Props.Renyi
import Verif.Props.RidgeReassigned

/-! # Property C103: post-processing of an amplified signal -/

namespace Tftb.Props

open Tftb Tftb.Cohen Finset Spec ProcUtils Post

theorem halfMean_scale (r : ℝ) (M : Mat ℝ) : Post.halfMean (M.map (r * ·)) = r * Post.halfMean M := by
  unfold Post.halfMean Mat.map
  simp only [← Finset.mul_sum]
  generalize (0.5 : ℝ) = h
  ring

theorem above_half_scale {r : ℝ} (hr : 0 < r) (M : Mat ℝ) (i j : ℕ) :
    Post.halfMean (M.map (r * ·)) < (M.map (r * ·)).get i j ↔ Post.halfMean M < M.get i j := by
  rw [halfMean_scale]
  exact mul_lt_mul_iff_right₀ hr

/-! ## One matrix multiplied by a positive constant -/

/-- Friedman's density is the same one: value and exceptions. -/
theorem C103_friedman {r : ℝ} (hr : 0 < r) (M : Mat ℝ) (re : Mat (Option ℂ)) :
    friedmanDensity (M.map (r * ·)) re = friedmanDensity M re := by
  have hc : friedmanCol (M.map (r * ·)) re = friedmanCol M re := by
    funext j c
    unfold friedmanCol
    have e : (fun i => Post.halfMean (M.map (r * ·)) < (M.map (r * ·)).get i j) = fun i => Post.halfMean M < M.get i j :=
      funext fun i => propext (above_half_scale hr M i j)
    rw [e]
    rfl
  unfold friedmanDensity
  rw [hc]
  rfl

/-- The ridges are the same ones: points and exceptions. -/
theorem C103_ridges {r : ℝ} (hr : 0 < r) (M : Mat ℝ) (re : Mat (Option ℂ)) (ts : Option (Vec ℝ)) (m : RidgeMethod) :
    ridges (M.map (r * ·)) re ts m = ridges M re ts m := by
  have hc : ∀ icol, ridgeMask m (M.map (r * ·)) re icol = ridgeMask m M re icol := by
    intro icol
    have e : ((M.map (r * ·)).col icol).map (fun a => Post.halfMean (M.map (r * ·)) < a) = (M.col icol).map (fun a => Post.halfMean M < a) := by
      unfold Mat.col Vec.map
      congr 1
      funext i
      exact propext (above_half_scale hr M i icol)
    unfold ridgeMask
    rw [e]
    rfl
  unfold ridges
  simp only [hc]
  rfl

theorem PyRel.votes (rmax : ℝ) (m n : ℕ) (x y : ℤ) (r p : ℝ) (ht : Mat ℝ) :
    PyRel (fun u v => v = u.map (r * ·)) (houghVotes rmax m n x y p ht) (houghVotes rmax m n x y (r * p) (ht.map (r * ·))) := by
  unfold houghVotes
  refine PyRel.foldlM _ (fun s s' k hs => ?_) _ _ rfl
  subst hs
  exact PyRel.ite (fun _ => PyRel.addItem s r _ _ p) (fun _ => rfl)

theorem PyRel.matItem {α β : Type} (M : Mat α) (f : α → β) (i j : ℤ) : PyRel (fun x y => y = f x) (M.item i j) ((M.map f).item i j) := by
  unfold Mat.item
  exact PyRel.ite (fun _ => rfl) (fun _ => rfl)

/-- The accumulator of the Hough transform is multiplied by the same constant; the axes and the exceptions are the same. -/
theorem C103_hough {r : ℝ} (hr : 0 < r) (M : Mat ℝ) (m n : Option ℕ) :
    houghTransform (M.map (r * ·)) m n = (houghTransform M m n).map (fun t => (t.1.map (r * ·), t.2)) := by
  apply PyRel.map_eq
  unfold houghTransform
  refine PyRel.ite (fun _ => rfl) (fun _ => ?_)
  refine PyRel.bind (PyRel.amax hr _) (fun mx _ h => ?_)
  subst h
  refine PyRel.bind (R := fun p q : Mat ℝ => q = p.map (r * ·)) ?_ (fun S S' hS => ?_)
  · refine PyRel.foldlM _ (fun s s' x hs => PyRel.foldlM _ (fun s s' y hs => ?_) _ _ hs) _ _ ?_
    · subst hs
      refine PyRel.bind (PyRel.matItem M (r * ·) _ _) (fun p _ h => ?_)
      subst h
      have e : |r * p| > r * mx / 20.0 ↔ |p| > mx / 20.0 := by
        rw [abs_mul, abs_of_pos hr, mul_div_assoc]
        exact mul_lt_mul_iff_right₀ hr
      by_cases hp : |p| > mx / 20.0
      · rw [if_pos hp, if_pos (e.2 hp)]
        exact PyRel.votes _ _ _ _ _ r p s
      · rw [if_neg hp, if_neg (fun h => hp (e.1 h))]
        rfl
    · unfold Mat.zeros Mat.map
      simp
  · subst hS
    rfl

/-! ## From the signal on -/

/-- The ridges of a reassigned pseudo Wigner-Ville distribution do not depend on the gain of the signal. -/
theorem C103_ridges_pwv {a : ℂ} (ha : a ≠ 0) (x : Vec ℂ) (ts : Option (Vec ℤ)) (n : Option ℕ) (w : Option (Vec ℝ)) (t : Option (Vec ℝ))
    (m : RidgeMethod) :
    (Reassigned.pseudoWignerVille (amplify a x) ts n w >>= fun p => ridges p.1 p.2.2 t m) =
      Reassigned.pseudoWignerVille x ts n w >>= fun p => ridges p.1 p.2.2 t m := by
  have hp : 0 < ‖a‖ ^ 2 := by positivity
  rw [C99_reassigned_pwv ha]
  cases Reassigned.pseudoWignerVille x ts n w with
  | error e => rfl
  | ok p => exact C103_ridges hp p.1 p.2.2 t m

/-- Nor do those of a reassigned spectrogram. -/
theorem C103_ridges_spectrogram {a : ℂ} (ha : a ≠ 0) (x : Vec ℂ) (ts : Option (Vec ℤ)) (n : Option ℕ) (w : Option (Vec ℝ))
    (t : Option (Vec ℝ)) (m : RidgeMethod) :
    (Reassigned.spectrogram (amplify a x) ts n w >>= fun p => ridges p.1 p.2.2 t m) =
      Reassigned.spectrogram x ts n w >>= fun p => ridges p.1 p.2.2 t m := by
  have hp : 0 < ‖a‖ ^ 2 := by positivity
  rw [C99_reassigned_spectrogram ha]
  cases Reassigned.spectrogram x ts n w with
  | error e => rfl
  | ok p => exact C103_ridges hp p.1 p.2.2 t m

/-- Nor does Friedman's density of either. -/
theorem C103_friedman_reassigned {a : ℂ} (ha : a ≠ 0) (x : Vec ℂ) (ts : Option (Vec ℤ)) (n : Option ℕ) (w : Option (Vec ℝ)) :
    (Reassigned.pseudoWignerVille (amplify a x) ts n w >>= fun p => friedmanDensity p.1 p.2.2) =
      (Reassigned.pseudoWignerVille x ts n w >>= fun p => friedmanDensity p.1 p.2.2) ∧
    (Reassigned.spectrogram (amplify a x) ts n w >>= fun p => friedmanDensity p.1 p.2.2) =
      Reassigned.spectrogram x ts n w >>= fun p => friedmanDensity p.1 p.2.2 := by
  have hp : 0 < ‖a‖ ^ 2 := by positivity
  rw [C99_reassigned_pwv ha, C99_reassigned_spectrogram ha]
  constructor
  · cases Reassigned.pseudoWignerVille x ts n w with
    | error e => rfl
    | ok p => exact C103_friedman hp p.1 p.2.2
  · cases Reassigned.spectrogram x ts n w with
    | error e => rfl
    | ok p => exact C103_friedman hp p.1 p.2.2

/-- Nor does the Renyi information, of any order, of a smoothed pseudo Wigner-Ville distribution or of a reassigned representation (before
and after the reassignment). -/
theorem C103_renyi {a : ℂ} (ha : a ≠ 0) (x : Vec ℂ) (ts : Option (Vec ℤ)) (n : Option ℕ) (tw fw : Option (Vec ℂ)) (w : Option (Vec ℝ))
    (t f : Option (Vec ℝ)) (α : ℝ) :
    (spwv (amplify a x) ts n tw fw >>= fun M => renyiInformation M t f α) = (spwv x ts n tw fw >>= fun M => renyiInformation M t f α) ∧
    (Reassigned.spectrogram (amplify a x) ts n w >>= fun p => renyiInformation p.1 t f α) =
      (Reassigned.spectrogram x ts n w >>= fun p => renyiInformation p.1 t f α) ∧
    (Reassigned.spectrogram (amplify a x) ts n w >>= fun p => renyiInformation p.2.1 t f α) =
      (Reassigned.spectrogram x ts n w >>= fun p => renyiInformation p.2.1 t f α) ∧
    (Reassigned.pseudoWignerVille (amplify a x) ts n w >>= fun p => renyiInformation p.1 t f α) =
      (Reassigned.pseudoWignerVille x ts n w >>= fun p => renyiInformation p.1 t f α) ∧
    (Reassigned.pseudoWignerVille (amplify a x) ts n w >>= fun p => renyiInformation p.2.1 t f α) =
      Reassigned.pseudoWignerVille x ts n w >>= fun p => renyiInformation p.2.1 t f α := by
  have hp : 0 < ‖a‖ ^ 2 := by positivity
  have key : ∀ M, renyiInformation (M.map (‖a‖ ^ 2 * ·)) t f α = renyiInformation M t f α :=
    fun M => C49_scale M t f α _ hp.ne' (fun _ => hp)
  rw [C99_spwv, C99_reassigned_pwv ha, C99_reassigned_spectrogram ha]
  refine ⟨?_, ?_, ?_, ?_, ?_⟩
  · cases spwv x ts n tw fw with
    | error e => rfl
    | ok p => exact key p
  · cases Reassigned.spectrogram x ts n w with
    | error e => rfl
    | ok p => exact key p.1
  · cases Reassigned.spectrogram x ts n w with
    | error e => rfl
    | ok p => exact key p.2.1
  · cases Reassigned.pseudoWignerVille x ts n w with
    | error e => rfl
    | ok p => exact key p.1
  · cases Reassigned.pseudoWignerVille x ts n w with
    | error e => rfl
    | ok p => exact key p.2.1

/-- The Hough accumulator of a smoothed pseudo Wigner-Ville distribution grows with the energy of the signal: a line is found at the same
place. -/
theorem C103_hough_spwv {a : ℂ} (ha : a ≠ 0) (x : Vec ℂ) (ts : Option (Vec ℤ)) (n : Option ℕ) (tw fw : Option (Vec ℂ)) (p q : Option ℕ) :
    (spwv (amplify a x) ts n tw fw >>= fun M => houghTransform M p q) =
      (spwv x ts n tw fw >>= fun M => houghTransform M p q).map (fun t => (t.1.map (‖a‖ ^ 2 * ·), t.2)) := by
  have hp : 0 < ‖a‖ ^ 2 := by positivity
  rw [C99_spwv]
  cases spwv x ts n tw fw with
  | error e => rfl
  | ok M => exact C103_hough hp M p q

/-! ## Concrete cases -/

/-- An impulse amplified by `2 i`: the seven ridge points and the density of the impulse itself (C102). -/
example : ∃ times freqs, (Reassigned.pseudoWignerVille (amplify (2 * Complex.I) ⟨6, fun i => if i = 2 then (3 : ℂ) else 0⟩) (some (arange 0 (6 : ℕ))) (some 8) (some hann3)
    >>= fun p => ridges p.1 p.2.2 (some ((arange 0 (6 : ℕ)).map (fun j : ℤ => (j : ℝ)))) .rpwv) = .ok (times, freqs) ∧ freqs.len = 7 := by
  obtain ⟨tfr, rtfr, v, times, freqs, h1, -, h2, -, h3, -⟩ := C102_impulse_rpwv 6 2 8 1 3 3 (by norm_num) (arange 0 (6 : ℕ)) hann3 (by norm_num) (by norm_num) rfl
    (le_refl 1) (by norm_num [hann3]) 0 5 (arange_range (by norm_num)) (le_refl 0) (by norm_num) (fun c hc => by rw [roundEven_four]; right; right; norm_num)
    (by simp [arange]) (fun c hc => by simp only [arange]; omega)
  refine ⟨times, freqs, ?_, h3⟩
  rw [C103_ridges_pwv (by simp), h1]
  exact h2

/-- The constant has to be positive: with `-1` an entry above half the mean ends up below it, and nothing is left to vote. -/
theorem C103_negative : ∃ T, friedmanDensity ⟨1, 1, fun _ _ => 1⟩ ⟨1, 1, fun _ _ => some 0⟩ = .ok T ∧
    friedmanDensity ((⟨1, 1, fun _ _ => 1⟩ : Mat ℝ).map ((-1 : ℝ) * ·)) ⟨1, 1, fun _ _ => some 0⟩ = .error .nonFinite := by
  obtain ⟨T, h⟩ := ((C52_returns_iff ⟨1, 1, fun _ _ => 1⟩ ⟨1, 1, fun _ _ => some 0⟩ rfl le_rfl le_rfl le_rfl).1).2
    ⟨0, Nat.one_pos, 0, Nat.one_pos, by norm_num [Spec.halfMean]⟩
  refine ⟨T, h, (C52_returns_iff _ ⟨1, 1, fun _ _ => some 0⟩ rfl le_rfl le_rfl le_rfl).2 ?_⟩
  rintro ⟨r, hr, c, hc, h⟩
  revert h
  norm_num [Spec.halfMean, Mat.map]

end Tftb.Props
