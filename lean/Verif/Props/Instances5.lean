import Verif.Props.Ambiguity
import Verif.Props.Bins
import Verif.Props.Chirp
import Verif.Props.Conj
import Verif.Props.Instances3
import Verif.Props.Interference
import Verif.Props.Padding
import Verif.Props.Reversal
import Verif.Props.SameWvd
import Verif.Props.Stft
import Verif.Props.StftInverse
import Verif.Props.Superposition
import Verif.Props.Wvd
import Verif.Props.WvdInverse

/-! # Concrete instances of theorems about results

What a run returned stays a variable here, with the hypothesis that the run returned it; the first example shows that these runs return. -/

namespace Tftb.Props

open Tftb Tftb.Spec Tftb.Cohen Tftb.Linear in
/-- The narrow-band ambiguity function with default arguments returns for every signal that is not empty; the other runs of which the results are variables below return, too. -/
example : (∀ x : Vec ℂ, 1 ≤ x.len → ∃ A l xi, Ambiguity.narrowBand x none none = .ok (A, l, xi)) ∧
    (∀ x : Vec ℂ, x.len = 4 → ∃ M, WvdReturns x (arange 0 (4 : ℕ)) 8 M) ∧ (∀ x : Vec ℂ, ∃ M, PwvdReturns x (arange 0 (4 : ℕ)) 8 (some ⟨3, fun _ => 1⟩) M) ∧
    ∀ x : Vec ℂ, ∃ M, stftOf x (arange 0 (4 : ℕ)) 8 (some ⟨3, fun _ => 1⟩) = .ok M := by
  refine ⟨fun x hx => ?_, fun x hx => ?_, fun x => ?_, fun x => ?_⟩
  · obtain ⟨A, l, xi, h, _⟩ := C42_default x hx
    exact ⟨A, l, xi, h⟩
  · refine (C32_returns_iff x _ 8 (by norm_num)).2 ⟨by rw [arange_len, hx]; rfl, Or.inl ?_⟩
    rw [hx, roundEven_half]
    norm_num
  · obtain ⟨M, h, _⟩ := C36_pwvd x (arange 0 (4 : ℕ)) 8 ⟨3, fun _ => 1⟩ 1 rfl (by rw [roundEven_half]; norm_num)
    exact ⟨M, h⟩
  · obtain ⟨M, h, _⟩ := C27_never_raises x (arange 0 (4 : ℕ)) 8 (some ⟨3, fun _ => 1⟩) (by norm_num)
    exact ⟨M, h⟩

end Tftb.Props

namespace Tftb
section
open Finset ComplexConjugate Spec Ambiguity

example (A : Mat ℂ) (l : Vec ℝ) (xi : Vec ℝ) (h : narrowBand (⟨4, fun _ => 1⟩ : Vec ℂ) none none = .ok (A, l, xi)) :=
  C43_half_iff (⟨4, fun _ => 1⟩ : Vec ℂ) (by inst3) none A l xi h

end
end Tftb

namespace Tftb.Props
section
open Tftb Tftb.Spec Tftb.Linear Tftb.Cohen Finset ComplexConjugate

example (M : Mat ℝ) (hM : WvdReturns (⟨4, fun _ => 1⟩ : Vec ℂ) (arange 0 (4 : ℕ)) 8 M) (A : Mat ℂ) (l : Vec ℝ) (xi : Vec ℝ) (hA : Ambiguity.narrowBand (⟨4, fun _ => 1⟩ : Vec ℂ) none none = .ok (A, l, xi)) :=
  C73_ambiguity (⟨4, fun _ => 1⟩ : Vec ℂ) (arange 0 (4 : ℕ)) 8 (by inst3) (by inst3) M hM none A l xi hA

example (X : Mat ℂ) (l : Vec ℝ) (xi : Vec ℝ) (hX : Ambiguity.narrowBand (⟨4, fun _ => 1⟩ : Vec ℂ) none none = .ok (X, l, xi)) :=
  C83_narrow_band (⟨4, fun _ => 1⟩ : Vec ℂ) (⟨4, fun _ => 1⟩ : Vec ℂ) (by inst3) 2 2 none none X l xi hX

example (X : Mat ℂ) (Y : Mat ℂ) (l : Vec ℝ) (l' : Vec ℝ) (xi : Vec ℝ) (xi' : Vec ℝ) (hX : Ambiguity.narrowBand (⟨4, fun _ => 1⟩ : Vec ℂ) none none = .ok (X, l, xi)) (hY : Ambiguity.narrowBand (⟨4, fun _ => 1⟩ : Vec ℂ) none none = .ok (Y, l', xi')) :=
  C92_narrow_band (⟨4, fun _ => 1⟩ : Vec ℂ) none none none none X Y l l' xi xi' hX hY

example (X : Mat ℂ) (Y : Mat ℂ) (l : Vec ℝ) (l' : Vec ℝ) (xi : Vec ℝ) (xi' : Vec ℝ) (hX : Ambiguity.narrowBand (⟨4, fun _ => 1⟩ : Vec ℂ) none none = .ok (X, l, xi)) (hY : Ambiguity.narrowBand (⟨4, fun _ => 1⟩ : Vec ℂ) none none = .ok (Y, l', xi')) :=
  C93_narrow_band (⟨4, fun _ => 1⟩ : Vec ℂ) (⟨4, fun _ => 1⟩ : Vec ℂ) (by inst3) none none X Y l l' xi xi' hX hY

example (X : Mat ℂ) (Y : Mat ℂ) (l : Vec ℝ) (l' : Vec ℝ) (xi : Vec ℝ) (xi' : Vec ℝ) (hX : Ambiguity.narrowBand (⟨4, fun _ => 1⟩ : Vec ℂ) none none = .ok (X, l, xi)) (hY : Ambiguity.narrowBand (⟨4, fun _ => 1⟩ : Vec ℂ).reverse none none = .ok (Y, l', xi')) :=
  C97_narrow_band (⟨4, fun _ => 1⟩ : Vec ℂ) none none X Y l l' xi xi' hX hY

example (X : Mat ℂ) (Y : Mat ℂ) (l : Vec ℝ) (l' : Vec ℝ) (xi : Vec ℝ) (xi' : Vec ℝ) (hX : Ambiguity.narrowBand (⟨4, fun _ => 1⟩ : Vec ℂ) none none = .ok (X, l, xi)) (hY : Ambiguity.narrowBand (padBy 1 (⟨4, fun _ => 1⟩ : Vec ℂ)) none none = .ok (Y, l', xi')) :=
  C98_narrow_band (⟨4, fun _ => 1⟩ : Vec ℂ) none none none none 1 X Y l l' xi xi' hX hY

example (M : Mat ℂ) (l : Vec ℝ) (xi : Vec ℝ) (hM : Ambiguity.narrowBand (⟨4, fun _ => 1⟩ : Vec ℂ) none none = .ok (M, l, xi)) :=
  C122_parity_narrow_band (⟨4, fun _ => 1⟩ : Vec ℂ) none none M l xi hM

end
end Tftb.Props

namespace Tftb.Props
section
open Tftb Tftb.Spec Tftb.Linear Finset ComplexConjugate

example (M : Mat ℂ) (M' : Mat ℂ) (hM : stftOf (⟨4, fun _ => 1⟩ : Vec ℂ) (arange 0 (4 : ℕ)) 8 (some (⟨3, fun _ => 1⟩ : Vec ℂ)) = .ok M) (hM' : stftOf (⟨4, fun _ => 1⟩ : Vec ℂ) (arange 0 (4 : ℕ)) 8 (some (⟨3, fun _ => 1⟩ : Vec ℂ)) = .ok M') :=
  C74_determines (⟨4, fun _ => 1⟩ : Vec ℂ) (⟨4, fun _ => 1⟩ : Vec ℂ) (by inst3) (arange 0 (4 : ℕ)) 8 1 (⟨3, fun _ => 1⟩ : Vec ℂ) (by inst3) (by inst3) M M' hM hM'

end
end Tftb.Props

namespace Tftb.Props
section
open Tftb Tftb.Spec Tftb.Linear Tftb.Cohen Tftb.FM Finset ComplexConjugate

example (M : Mat ℝ) (hM : WvdReturns (⟨4, fun i => 2 * expi (2 * Real.pi * ((1 / 4 : ℝ) * i + 0 * i ^ 2 / 2))⟩ : Vec ℂ) (arange 0 (4 : ℕ)) 8 M) :=
  C77_wvd_chirp (⟨4, fun i => 2 * expi (2 * Real.pi * ((1 / 4 : ℝ) * i + 0 * i ^ 2 / 2))⟩ : Vec ℂ) 2 (1/4) 0 (by inst3) (arange 0 (4 : ℕ)) 8 (by inst3) M hM 1 (by inst3) 1 (by inst3)

example (M : Mat ℝ) (hM : PwvdReturns (⟨4, fun i => 2 * expi (2 * Real.pi * ((1 / 4 : ℝ) * i + 0 * i ^ 2 / 2))⟩ : Vec ℂ) (arange 0 (4 : ℕ)) 8 (some (⟨3, fun _ => 1⟩ : Vec ℂ)) M) :=
  C77_pwvd_chirp (⟨4, fun i => 2 * expi (2 * Real.pi * ((1 / 4 : ℝ) * i + 0 * i ^ 2 / 2))⟩ : Vec ℂ) 2 (1/4) 0 (by inst3) (arange 0 (4 : ℕ)) 8 (⟨3, fun _ => 1⟩ : Vec ℂ) (fun _ => (1 : ℝ)) 1 (by inst3) (by inst3) (by inst3) (by inst3) M hM 1 (by inst3) 1 (by inst3)

end
end Tftb.Props

namespace Tftb.Props
section
open Tftb Tftb.Spec Tftb.Linear Tftb.Cohen Tftb.Reassigned Finset ComplexConjugate

example (A : Mat ℂ) (B : Mat ℂ) (l : Vec ℝ) (l' : Vec ℝ) (xi : Vec ℝ) (xi' : Vec ℝ) (hA : Ambiguity.narrowBand (⟨4, fun _ => 1⟩ : Vec ℂ) none none = .ok (A, l, xi)) (hB : Ambiguity.narrowBand (⟨4, fun _ => 1⟩ : Vec ℂ) none none = .ok (B, l', xi')) :=
  C106_ambiguity_iff (⟨4, fun _ => 1⟩ : Vec ℂ) (⟨4, fun _ => 1⟩ : Vec ℂ) (by inst3) (by inst3) none A B l l' xi xi' hA hB

end
end Tftb.Props
