import Verif.Props.Reassigned
import Verif.Model.Cohen

/-! # C55: functions of the package that cannot return -/

namespace Tftb

open Spec Reassigned Cohen

/-- `reassigned.pseudo_margenau_hill` never returns: whatever its unreachable remainder does, a call without a window raises
`TypeError`, a call with an even window `ValueError`, and a call with an odd window `IndexError`. -/
theorem C55_reassigned_pmh {α : Type} (x : Vec ℂ) (ts? : Option (Vec ℤ)) (n? : Option ℕ) (rest : Vec ℂ → Vec ℤ → ℕ → Vec ℝ → Py α) :
    Reassigned.pseudoMargenauHill x ts? n? none rest = .error .typeError ∧
    ∀ w : Vec ℝ, Reassigned.pseudoMargenauHill x ts? n? (some w) rest = .error (if w.len % 2 = 0 then .valueError else .indexError) := by
  refine ⟨rfl, fun w => ?_⟩
  unfold Reassigned.pseudoMargenauHill floatWindow
  by_cases h : w.len % 2 = 0
  · simp only [if_pos h]; rfl
  · simp only [if_neg h]; rfl

/-- `reassigned.pseudo_page` never returns either. -/
theorem C55_reassigned_page {α : Type} (x : Vec ℂ) (ts? : Option (Vec ℤ)) (n? : Option ℕ) (rest : Vec ℂ → Vec ℤ → ℕ → Vec ℝ → Py α) :
    Reassigned.pseudoPage x ts? n? none rest = .error .typeError ∧
    ∀ w : Vec ℝ, Reassigned.pseudoPage x ts? n? (some w) rest = .error (if w.len % 2 = 0 then .valueError else .indexError) := by
  refine ⟨rfl, fun w => ?_⟩
  unfold Reassigned.pseudoPage floatWindow
  by_cases h : w.len % 2 = 0
  · simp only [if_pos h]; rfl
  · simp only [if_neg h]; rfl

/-- `reassigned.smoothed_pseudo_wigner_ville` never returns: a missing window is a `TypeError`, an even window a `ValueError`, and with two
odd windows fewer than two time samples or irregular ones are a `ValueError`, anything else an `IndexError`. -/
theorem C55_reassigned_spwv {α : Type} (x : Vec ℂ) (ts? : Option (Vec ℤ)) (n? : Option ℕ) (rest : Vec ℂ → Vec ℤ → ℕ → Vec ℝ → Py α) :
    (∀ tw?, Reassigned.smoothedPseudoWignerVille x ts? n? tw? none rest = .error .typeError) ∧
    (∀ tw? (fw : Vec ℝ), fw.len % 2 = 0 → Reassigned.smoothedPseudoWignerVille x ts? n? tw? (some fw) rest = .error .valueError) ∧
    (∀ fw : Vec ℝ, fw.len % 2 = 1 → Reassigned.smoothedPseudoWignerVille x ts? n? none (some fw) rest = .error .typeError) ∧
    (∀ tw fw : Vec ℝ, fw.len % 2 = 1 → tw.len % 2 = 0 →
      Reassigned.smoothedPseudoWignerVille x ts? n? (some tw) (some fw) rest = .error .valueError) ∧
    ∀ tw fw : Vec ℝ, fw.len % 2 = 1 → tw.len % 2 = 1 →
      ((ts?.getD (arange 0 x.len)).len < 2 ∨ ¬ Regular (ts?.getD (arange 0 x.len)) →
        Reassigned.smoothedPseudoWignerVille x ts? n? (some tw) (some fw) rest = .error .valueError) ∧
      (2 ≤ (ts?.getD (arange 0 x.len)).len → Regular (ts?.getD (arange 0 x.len)) →
        Reassigned.smoothedPseudoWignerVille x ts? n? (some tw) (some fw) rest = .error .indexError) := by
  refine ⟨fun _ => rfl, fun tw? fw h => ?_, fun fw h => ?_, fun tw fw h1 h2 => ?_, fun tw fw h1 h2 => ?_⟩
  · unfold Reassigned.smoothedPseudoWignerVille
    simp only [if_pos h]
    rfl
  · unfold Reassigned.smoothedPseudoWignerVille
    simp only [if_neg (show ¬ fw.len % 2 = 0 by omega)]
    rfl
  · unfold Reassigned.smoothedPseudoWignerVille
    simp only [if_neg (show ¬ fw.len % 2 = 0 by omega), if_pos h2]
    rfl
  · set ts := ts?.getD (arange 0 x.len) with hts
    have key : ∀ e, ((if ts.diff.len = 0 then Except.error PyErr.valueError
        else if ¬ ∀ i < ts.diff.len, ∀ j < ts.diff.len, ts.diff.get i = ts.diff.get j then .error .valueError
        else do
          let _ ← deriveWindow? fw
          let ti ← ts.item 0
          let points := arangeF (-(min (((tw.len : ℝ) - 1) / 2) ((x.len : ℝ) - ti))) (min (((tw.len : ℝ) - 1) / 2) ((ti : ℝ) - 1) + 1)
          let g2 ← tw.takeF (points.map (fun p => ((tw.len : ℝ) - 1) / 2 + p))
          rest x ts (n?.getD x.len) g2) : Py α) = .error e →
        Reassigned.smoothedPseudoWignerVille x ts? n? (some tw) (some fw) rest = .error e := by
      intro e h
      unfold Reassigned.smoothedPseudoWignerVille
      simp only [if_neg (show ¬ fw.len % 2 = 0 by omega), if_neg (show ¬ tw.len % 2 = 0 by omega)]
      exact h
    refine ⟨fun h => key _ ?_, fun h3 h4 => key _ ?_⟩
    · by_cases hd : ts.diff.len = 0
      · rw [if_pos hd]
      · rw [if_neg hd, if_pos]
        intro hr
        rcases h with h | h
        · exact hd (by show ts.len - 1 = 0; omega)
        · exact h (regular_iff.2 hr)
    · rw [if_neg (by show ts.len - 1 ≠ 0; omega), if_neg (not_not.2 (regular_iff.1 h4))]
      have hd : ∃ d, deriveWindow? fw = .ok d := by
        unfold deriveWindow?
        by_cases h1' : fw.len = 1
        · rw [(C48_short fw).2 h1']; exact ⟨_, rfl⟩
        · obtain ⟨d, e, -⟩ := deriveWindow_eq fw (by omega)
          rw [e]; exact ⟨_, rfl⟩
      obtain ⟨d, hd⟩ := hd
      rw [hd, ok_bind, Vec.item_ok (le_refl 0) (by exact_mod_cast (show 0 < ts.len by omega)), ok_bind]
      rfl

/-- `reassigned.morlet_scalogram` never reassigns anything: whatever the wavelet sums are, if the call returns then no value exceeded the
threshold, the reassigned matrix is the scalogram itself and every reassignment vector is infinite; a single value above the threshold makes
the call raise `IndexError`. -/
theorem C55_morlet_scalogram (x : Vec ℂ) (ts? : Option (Vec ℤ)) (n? : Option ℕ) (F : ℕ → ℕ → ℂ)
    (hts : 2 ≤ (ts?.getD (arange 0 x.len)).len) (hreg : Regular (ts?.getD (arange 0 x.len))) (hx : 0 < x.len) :
    ((∃ r < n?.getD x.len, ∃ c < (ts?.getD (arange 0 x.len)).len,
        (∑ i ∈ Finset.range x.len, ‖x.get i‖ ^ 2) / x.len * 1e-6 < ‖F r c‖ ^ 2) →
      morletScalogram x ts? n? (fun _ _ _ => .ok F) = .error .indexError) ∧
    ((∀ r < n?.getD x.len, ∀ c < (ts?.getD (arange 0 x.len)).len,
        ‖F r c‖ ^ 2 ≤ (∑ i ∈ Finset.range x.len, ‖x.get i‖ ^ 2) / x.len * 1e-6) →
      ∃ tfr rtfr v, morletScalogram x ts? n? (fun _ _ _ => .ok F) = .ok (tfr, rtfr, v) ∧
        ∀ r < n?.getD x.len, ∀ c < (ts?.getD (arange 0 x.len)).len,
          tfr.get r c = ‖F r c‖ ^ 2 ∧ rtfr.get r c = ‖F r c‖ ^ 2 ∧ v.get r c = none) := by
  set ts := ts?.getD (arange 0 x.len) with hts'
  set n := n?.getD x.len with hn'
  set thr := (∑ i ∈ Finset.range x.len, ‖x.get i‖ ^ 2) / x.len * 1e-6 with hthr
  set tfr : Mat ℝ := ⟨n, ts.len, fun r c => ‖F r c‖ ^ 2⟩ with htfr
  set target : ℕ → ℕ → Py (ℤ × ℤ) := fun jcol icol =>
    if above (some thr) (tfr.get jcol icol) then .error .indexError else .ok ((jcol : ℤ), (icol : ℤ)) with htgt
  have hrun : morletScalogram x ts? n? (fun _ _ _ => .ok F)
      = (scatterAdd tfr target >>= fun rtfr => .ok (tfr, rtfr, ⟨n, ts.len, fun _ _ => none⟩)) := by
    unfold morletScalogram
    simp only [← hts', ← hn']
    rw [if_neg (by show ts.len - 1 ≠ 0; omega), if_neg (not_not.2 (regular_iff.1 hreg)), ok_bind, if_neg (by omega)]
    have : (x.map (fun z => ‖z‖ ^ 2)).sum / (x.len : ℝ) * 1.0e-6 = thr := by
      rw [hthr, show (1.0e-6 : ℝ) = 1e-6 by norm_num]
      rfl
    rw [this]
  have hab : ∀ r c, (above (some thr) (tfr.get r c) = true) ↔ thr < ‖F r c‖ ^ 2 := fun r c => by
    rw [above_iff, abs_of_nonneg (sq_nonneg _)]
  have hok : ∀ r < n, ∀ c < ts.len, ¬ thr < ‖F r c‖ ^ 2 → target r c = .ok ((r : ℤ), (c : ℤ)) := fun r _ c _ h => by
    rw [htgt]
    exact if_neg (fun h' => h ((hab r c).1 h'))
  have htok : ∀ r < n, ∀ c < ts.len, ¬ thr < ‖F r c‖ ^ 2 → TargetOk tfr target r c := fun r hr c hc h =>
    ⟨_, _, hok r hr c hc h, idxOk_of_lt (by omega) (by exact_mod_cast hr), idxOk_of_lt (by omega) (by exact_mod_cast hc)⟩
  constructor
  · rintro ⟨r, hr, c, hc, h⟩
    have herr : ∀ r c, thr < ‖F r c‖ ^ 2 → target r c = .error .indexError := fun r c h => by
      rw [htgt]
      exact if_pos ((hab r c).2 h)
    rw [hrun, scatterAdd_error (e := .indexError), error_bind]
    · intro j hj i hi
      by_cases h' : thr < ‖F j i‖ ^ 2
      · exact .inr (herr j i h')
      · exact .inl (htok j hj i hi h')
    · exact ⟨r, hr, c, hc, herr r c h⟩
  · intro h
    obtain ⟨R, e, -, -, hR⟩ := scatterAdd_ok (tfr := tfr) (target := target)
      (fun r hr c hc => htok r hr c hc (not_lt.2 (h r hr c hc)))
    rw [hrun, e, ok_bind]
    refine ⟨_, _, _, rfl, fun r hr c hc => ⟨rfl, ?_, rfl⟩⟩
    have hhit : ∀ j < n, ∀ i < ts.len, hit tfr target j i r c = if r = j ∧ c = i then tfr.get j i else 0 := fun j hj i hi => by
      unfold hit
      rw [hok j hj i hi (not_lt.2 (h j hj i hi))]
      simp only [wrapIdx_natCast]
    rw [hR, Finset.sum_eq_single c, Finset.sum_eq_single r, hhit r hr c hc, if_pos ⟨rfl, rfl⟩]
    · intro j hj hne
      rw [hhit j (Finset.mem_range.1 hj) c hc, if_neg (fun h => hne h.1.symm)]
    · intro h; exact absurd (Finset.mem_range.2 hr) h
    · intro i hi hne
      refine Finset.sum_eq_zero (fun j hj => ?_)
      rw [hhit j (Finset.mem_range.1 hj) i (Finset.mem_range.1 hi), if_neg (fun h => hne h.2.symm)]
    · intro h; exact absurd (Finset.mem_range.2 hc) h

/-- `PseudoPageRepresentation` cannot be used: without a window the constructor raises `IndexError`, and with one `run` does, at the first
column, in whatever state the object is. -/
theorem C55_pseudo_page : (∀ nf, pseudoPageWindow nf = .error .indexError) ∧
    ∀ o : TFR ℤ, 1 ≤ o.ts.len → pseudoPageRun o = .error .indexError := by
  refine ⟨fun nf => rfl, fun o h => ?_⟩
  obtain ⟨T, hT⟩ : ∃ T, o.ts.len = T + 1 := ⟨o.ts.len - 1, by omega⟩
  have key : ∀ (M : Mat ℂ) (body : ℕ → Vec ℂ → Py (Vec ℂ)), (∀ v, body 0 v = .error .indexError) → M.forCols (T + 1) body = .error .indexError := by
    intro M body hb
    unfold Mat.forCols
    rw [List.range_succ_eq_map, List.foldlM_cons]
    have h0 : M.updCol 0 (body 0) = .error .indexError := by
      unfold Mat.updCol
      rw [hb]
      split_ifs <;> rfl
    rw [h0]
    rfl
  have hcol : ∀ v, pseudoPageCol o 0 v = .error .indexError := fun v => rfl
  unfold pseudoPageRun
  rw [hT]
  unfold Store.forCols
  cases o.tfr with
  | cplx M => simp only; rw [key M _ hcol]; rfl
  | real M => simp only; rw [key _ _ (fun v => by rw [hcol]; rfl)]; rfl

example : pseudoPageRun (TFR.init makeWindow ⟨4, fun i => (i : ℂ)⟩ (arange 0 4) 4 (some ⟨3, fun _ => 1⟩)) = .error .indexError :=
  C55_pseudo_page.2 _ (by simp [TFR.init, arange])

/-- Both windows given, four samples: the call raises. -/
example : Reassigned.smoothedPseudoWignerVille ⟨4, fun i => (i : ℂ)⟩ none none (some hann3) (some hann3) (fun _ _ _ w => .ok w)
    = .error .indexError :=
  ((C55_reassigned_spwv ⟨4, fun i => (i : ℂ)⟩ none none (fun _ _ _ w => .ok w)).2.2.2.2 hann3 hann3 rfl rfl).2
    (by simp [arange]) (arange_regular 4)

example : Reassigned.pseudoPage ⟨4, fun i => (i : ℂ)⟩ none none (some hann3) (fun _ _ _ w => .ok w) = .error .indexError :=
  (C55_reassigned_page ⟨4, fun i => (i : ℂ)⟩ none none (fun _ _ _ w => .ok w)).2 hann3

/-- A scalogram with one non-negligible coefficient cannot be reassigned. -/
example : morletScalogram ⟨4, fun _ => (1 : ℂ)⟩ none none (fun _ _ _ => .ok (fun r c => if r = 1 ∧ c = 2 then 1 else 0))
    = .error .indexError :=
  (C55_morlet_scalogram ⟨4, fun _ => (1 : ℂ)⟩ none none _ (by simp [arange]) (arange_regular 4) (by norm_num)).1
    ⟨1, by norm_num, 2, by simp [arange], by norm_num [Finset.sum_range_succ]⟩

end Tftb
