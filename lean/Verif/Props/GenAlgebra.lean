import Verif.Props.FM
import Verif.Props.AM
import Verif.Props.Gain

/-! # C101 How generated signals combine -/

namespace Tftb.Props

open Tftb Tftb.FM Tftb.AM Tftb.Spec ComplexConjugate

/-! ## Products -/

/-- The product of two tones with the same reference instant is the tone of the sum of the frequencies. -/
theorem C101_tones (n k : ℕ) (f g : ℝ) (hk : k < n) (hf : |f| ≤ 1 / 2) (hg : |g| ≤ 1 / 2) (hfg : |f + g| ≤ 1 / 2) :
    ∃ (x y z : Vec ℂ) (l l' l'' : Vec ℝ), fmconst n f (some k) = .ok (x, l) ∧ fmconst n g (some k) = .ok (y, l') ∧ fmconst n (f + g) (some k) = .ok (z, l'') ∧
      z.len = n ∧ ∀ i < n, z.get i = x.get i * y.get i := by
  refine ⟨_, _, _, _, _, _, fmconst_ok n k f hk hf, fmconst_ok n k g hk hg, fmconst_ok n k (f + g) hk hfg, rfl, fun i _ => ?_⟩
  dsimp only
  rw [← expi_add]
  congr 1
  ring

theorem linPhase_add (n : ℕ) (fi ff gi gf t : ℝ) : linPhase n (fi + gi) (ff + gf) t = linPhase n fi ff t + linPhase n gi gf t := by
  unfold linPhase
  ring

theorem linPhase_neg (n : ℕ) (fi ff t : ℝ) : linPhase n (-fi) (-ff) t = -linPhase n fi ff t := by
  unfold linPhase
  ring

theorem linPhase_const (n : ℕ) (f t : ℝ) : linPhase n f f t = f * t := by
  unfold linPhase
  ring

/-- The product of two chirps with the same reference instant is the chirp whose law is the sum of the laws. -/
theorem C101_chirps (n k : ℕ) (fi ff gi gf : ℝ) (hn : 2 ≤ n) (hk : 1 ≤ k) (hkn : k ≤ n) (hf : |fi| ≤ 1 / 2 ∧ |ff| ≤ 1 / 2) (hg : |gi| ≤ 1 / 2 ∧ |gf| ≤ 1 / 2)
    (hfg : |fi + gi| ≤ 1 / 2 ∧ |ff + gf| ≤ 1 / 2) :
    ∃ (x y z : Vec ℂ) (l l' l'' : Vec ℝ), fmlin n fi ff (some k) = .ok (x, l) ∧ fmlin n gi gf (some k) = .ok (y, l') ∧
      fmlin n (fi + gi) (ff + gf) (some k) = .ok (z, l'') ∧ z.len = n ∧ ∀ i < n, z.get i = x.get i * y.get i ∧ l''.get i = l.get i + l'.get i := by
  refine ⟨_, _, _, _, _, _, fmlin_ok n k fi ff hn hk hkn hf.1 hf.2, fmlin_ok n k gi gf hn hk hkn hg.1 hg.2, fmlin_ok n k _ _ hn hk hkn hfg.1 hfg.2, rfl,
    fun i _ => ⟨?_, ?_⟩⟩
  · dsimp only
    rw [← expi_add, linPhase_add, linPhase_add]
    congr 1
    ring
  · unfold linspace
    dsimp only
    split <;> ring

/-- The product of two signals made by `fmodany` with the same reference instant is the one made from the sum of the laws. -/
theorem C101_laws (v w : Vec ℝ) (k : ℕ) (hvw : w.len = v.len) (hk : 1 ≤ k) (hkn : k < v.len) (hv : ∀ i < v.len, |v.get i| ≤ 1 / 2)
    (hw : ∀ i < v.len, |w.get i| ≤ 1 / 2) (hs : ∀ i < v.len, |v.get i + w.get i| ≤ 1 / 2) :
    ∃ x y z : Vec ℂ, fmodany (.one v) k = .ok x ∧ fmodany (.one w) k = .ok y ∧ fmodany (.one ⟨v.len, fun i => v.get i + w.get i⟩) k = .ok z ∧
      z.len = v.len ∧ ∀ i < v.len, z.get i = x.get i * y.get i := by
  refine ⟨_, _, _, fmodany_ok v k hk hkn hv, fmodany_ok w k hk (by omega) (by rw [hvw]; exact hw), fmodany_ok ⟨v.len, fun i => v.get i + w.get i⟩ k hk hkn hs, rfl, fun i _ => ?_⟩
  dsimp only
  rw [← expi_add, Finset.sum_add_distrib, Finset.sum_add_distrib]
  congr 1
  ring

/-- Two Gaussian windows around the same centre: the product is the window whose spread `s` has `1/s² = 1/s₁² + 1/s₂²`. -/
theorem C101_gaussians (n : ℕ) (hn : 1 ≤ n) (t0 s₁ s₂ s : ℝ) (h₁ : 0 < s₁) (h₂ : 0 < s₂) (hs : 0 < s) (h : 1 / s ^ 2 = 1 / s₁ ^ 2 + 1 / s₂ ^ 2) :
    ∃ x y z : Vec ℝ, amgauss n (some t0) (some s₁) = .ok x ∧ amgauss n (some t0) (some s₂) = .ok y ∧ amgauss n (some t0) (some s) = .ok z ∧
      ∀ i < n, z.get i = x.get i * y.get i := by
  obtain ⟨x, hx, -, hx', -⟩ := C07_amgauss n hn t0 s₁ h₁
  obtain ⟨y, hy, -, hy', -⟩ := C07_amgauss n hn t0 s₂ h₂
  obtain ⟨z, hz, -, hz', -⟩ := C07_amgauss n hn t0 s hs
  refine ⟨x, y, z, hx, hy, hz, fun i hi => ?_⟩
  rw [hx' i hi, hy' i hi, hz' i hi, ← Real.exp_add]
  congr 1
  have e : ∀ r : ℝ, (((i : ℝ) + 1 - t0) / r) ^ 2 = ((i : ℝ) + 1 - t0) ^ 2 * (1 / r ^ 2) := fun r => by rw [div_pow]; ring
  rw [e, e, e, h]
  ring

/-! ## Opposite frequencies -/

/-- Opposite frequencies give the conjugate signal. -/
theorem C101_conjugate (n k : ℕ) :
    (∀ f, k < n → |f| ≤ 1 / 2 → ∃ (x y : Vec ℂ) (l l' : Vec ℝ), fmconst n f (some k) = .ok (x, l) ∧ fmconst n (-f) (some k) = .ok (y, l') ∧ y = x.map conj) ∧
    (∀ fi ff, 2 ≤ n → 1 ≤ k → k ≤ n → |fi| ≤ 1 / 2 → |ff| ≤ 1 / 2 →
      ∃ (x y : Vec ℂ) (l l' : Vec ℝ), fmlin n fi ff (some k) = .ok (x, l) ∧ fmlin n (-fi) (-ff) (some k) = .ok (y, l') ∧ y = x.map conj) ∧
    (∀ v : Vec ℝ, 1 ≤ k → k < v.len → (∀ i < v.len, |v.get i| ≤ 1 / 2) →
      ∃ x y : Vec ℂ, fmodany (.one v) k = .ok x ∧ fmodany (.one (v.map (- ·))) k = .ok y ∧ y = x.map conj) := by
  refine ⟨fun f hk hf => ?_, fun fi ff hn hk hkn hi hf => ?_, fun v hk hkn hv => ?_⟩
  · refine ⟨_, _, _, _, fmconst_ok n k f hk hf, fmconst_ok n k (-f) hk (by rwa [abs_neg]), ?_⟩
    unfold Vec.map
    congr 1
    funext i
    dsimp only
    rw [conj_expi]
    congr 1
    ring
  · refine ⟨_, _, _, _, fmlin_ok n k fi ff hn hk hkn hi hf, fmlin_ok n k _ _ hn hk hkn (by rwa [abs_neg]) (by rwa [abs_neg]), ?_⟩
    unfold Vec.map
    congr 1
    funext i
    dsimp only
    rw [conj_expi, linPhase_neg, linPhase_neg]
    congr 1
    ring
  · refine ⟨_, _, fmodany_ok v k hk hkn hv, fmodany_ok (v.map (- ·)) k hk hkn (fun i hi => by show |-v.get i| ≤ _; rw [abs_neg]; exact hv i hi), ?_⟩
    unfold Vec.map
    congr 1
    funext i
    dsimp only
    rw [conj_expi, Finset.sum_neg_distrib, Finset.sum_neg_distrib]
    congr 1
    ring

/-! ## The reference instant -/

/-- Another reference instant multiplies the signal by a constant of modulus 1 and leaves the frequency law alone. -/
theorem C101_reference (n k k' : ℕ) :
    (∀ f, k < n → k' < n → |f| ≤ 1 / 2 → ∃ (x : Vec ℂ) (l : Vec ℝ) (c : ℂ), ‖c‖ = 1 ∧ fmconst n f (some k) = .ok (x, l) ∧ fmconst n f (some k') = .ok (amplify c x, l)) ∧
    (∀ fi ff, 2 ≤ n → 1 ≤ k → k ≤ n → 1 ≤ k' → k' ≤ n → |fi| ≤ 1 / 2 → |ff| ≤ 1 / 2 →
      ∃ (x : Vec ℂ) (l : Vec ℝ) (c : ℂ), ‖c‖ = 1 ∧ fmlin n fi ff (some k) = .ok (x, l) ∧ fmlin n fi ff (some k') = .ok (amplify c x, l)) ∧
    (∀ v : Vec ℝ, 1 ≤ k → k < v.len → 1 ≤ k' → k' < v.len → (∀ i < v.len, |v.get i| ≤ 1 / 2) →
      ∃ (x : Vec ℂ) (c : ℂ), ‖c‖ = 1 ∧ fmodany (.one v) k = .ok x ∧ fmodany (.one v) k' = .ok (amplify c x)) := by
  refine ⟨fun f hk hk' hf => ?_, fun fi ff hn hk hkn hk' hkn' hi hf => ?_, fun v hk hkn hk' hkn' hv => ?_⟩
  · refine ⟨_, _, expi (2 * Real.pi * f * ((k : ℝ) - k')), norm_expi _, fmconst_ok n k f hk hf, ?_⟩
    rw [fmconst_ok n k' f hk' hf]
    congr 2
    unfold amplify Vec.map
    congr 1
    funext i
    dsimp only
    rw [← expi_add]
    congr 1
    ring
  · refine ⟨_, _, expi (2 * Real.pi * (linPhase n fi ff ((k : ℝ) - 1) - linPhase n fi ff ((k' : ℝ) - 1))), norm_expi _, fmlin_ok n k fi ff hn hk hkn hi hf, ?_⟩
    rw [fmlin_ok n k' fi ff hn hk' hkn' hi hf]
    congr 2
    unfold amplify Vec.map
    congr 1
    funext i
    dsimp only
    rw [← expi_add]
    congr 1
    ring
  · refine ⟨_, expi (2 * Real.pi * (∑ j ∈ Finset.range (k + 1), v.get j - ∑ j ∈ Finset.range (k' + 1), v.get j)), norm_expi _, fmodany_ok v k hk hkn hv, ?_⟩
    rw [fmodany_ok v k' hk' hkn' hv]
    congr 1
    unfold amplify Vec.map
    congr 1
    funext i
    dsimp only
    rw [← expi_add]
    congr 1
    ring

theorem amplifyObj_unit {τ : Type} {c : ℂ} (hc : ‖c‖ = 1) (o : TFR τ) : amplifyObj c o = { o with signal := amplify c o.signal } := by
  unfold amplifyObj
  rw [hc]
  cases h : o.tfr <;> simp [scaleStore, Mat.map]

/-- … hence the reference instant does not change any of the matrices computed from the signal: whatever the instants, the number of bins and the windows, the
calls for both signals raise the same exceptions or return the same matrices. -/
theorem C101_invisible (x y : Vec ℂ) (c : ℂ) (hc : ‖c‖ = 1) (hy : y = amplify c x) (ts : Vec ℤ) (n : ℕ) (h : Option (Vec ℂ)) :
    (Cohen.wvdRun (TFR.init makeWindow y ts n h)).map TFR.tfr = (Cohen.wvdRun (TFR.init makeWindow x ts n h)).map TFR.tfr ∧
    (Cohen.pwvdRun (TFR.init makeWindow y ts n h)).map Prod.snd = (Cohen.pwvdRun (TFR.init makeWindow x ts n h)).map Prod.snd ∧
    (Cohen.mhRun (TFR.init makeWindow y ts n h)).map TFR.tfr = (Cohen.mhRun (TFR.init makeWindow x ts n h)).map TFR.tfr ∧
    (Cohen.pmhRun (TFR.init Cohen.pmhWindow y ts n h)).map TFR.tfr = (Cohen.pmhRun (TFR.init Cohen.pmhWindow x ts n h)).map TFR.tfr ∧
    (Cohen.pageRun (TFR.init makeWindow y ts n h)).map TFR.tfr = (Cohen.pageRun (TFR.init makeWindow x ts n h)).map TFR.tfr ∧
    (Cohen.spectroRun (TFR.init makeWindow y ts n h)).map TFR.tfr = (Cohen.spectroRun (TFR.init makeWindow x ts n h)).map TFR.tfr ∧
    (∀ tw fw, Cohen.spwv y (some ts) (some n) tw fw = Cohen.spwv x (some ts) (some n) tw fw) ∧
    (∀ lag, Ambiguity.narrowBand y lag (some n) = Ambiguity.narrowBand x lag (some n)) ∧
    (∀ w, Reassigned.pseudoWignerVille y (some ts) (some n) w = Reassigned.pseudoWignerVille x (some ts) (some n) w) ∧
    (∀ w, Reassigned.spectrogram y (some ts) (some n) w = Reassigned.spectrogram x (some ts) (some n) w) := by
  have h0 : c ≠ 0 := by rintro rfl; simp at hc
  have hone : ∀ {α : Type} (p : Py α) (g : α → α), (∀ a, g a = a) → p.map g = p := fun p g hg => by cases p with
    | error e => rfl
    | ok a => exact congrArg Except.ok (hg a)
  have htwo : ∀ {α β : Type} (p : Py α) (g : α → α) (q : α → β), (∀ a, q (g a) = q a) → (p.map g).map q = p.map q := fun p g q hg => by cases p with
    | error e => rfl
    | ok a => exact congrArg Except.ok (hg a)
  have ht : ∀ o : TFR ℤ, (amplifyObj c o).tfr = o.tfr := fun o => by rw [amplifyObj_unit hc]
  have hm : ∀ M : Mat ℝ, M.map (‖c‖ ^ 2 * ·) = M := fun M => by rw [hc]; simp [Mat.map]
  subst hy
  refine ⟨?_, ?_, ?_, ?_, ?_, ?_, fun tw fw => ?_, fun lag => ?_, fun w => ?_, fun w => ?_⟩
  · rw [← amplifyObj_init, C99_wvd, htwo _ _ _ ht]
  · rw [← amplifyObj_init, C99_pwvd, htwo _ _ _ (fun r => hm r.2)]
  · rw [← amplifyObj_init, C99_margenau_hill, htwo _ _ _ ht]
  · rw [← amplifyObj_init, C99_pmh, htwo _ _ _ ht]
  · rw [← amplifyObj_init, C99_page, htwo _ _ _ ht]
  · rw [C99_spectrogram, htwo _ _ _ ht]
  · rw [C99_spwv, hone _ _ hm]
  · rw [C99_narrow_band, hone _ _ (fun r => by rw [hc]; simp [Mat.map])]
  · rw [C99_reassigned_pwv h0, hone _ _ (fun r => by rw [hm, hm])]
  · rw [C99_reassigned_spectrogram h0, hone _ _ (fun r => by rw [hm, hm])]

/-! ## Three generators of the same tone, two of the same chirp -/

/-- A chirp without frequency change is a tone (the reference instant of `fmlin` counts from 1), and so is `fmodany` of a constant law. -/
theorem C101_same_tone (n k : ℕ) (f : ℝ) (hn : 2 ≤ n) (hk : k < n) (hf : |f| ≤ 1 / 2) :
    ∃ (x : Vec ℂ) (l : Vec ℝ), fmconst n f (some k) = .ok (x, l) ∧ (∃ l', fmlin n f f (some ((k + 1 : ℕ) : ℝ)) = .ok (x, l') ∧ l'.len = n ∧ ∀ i < n, l'.get i = f) ∧
      (1 ≤ k → fmodany (.one l) k = .ok x) := by
  refine ⟨_, _, fmconst_ok n k f hk hf, ⟨linspace f f n, ?_, rfl, fun i hi => ?_⟩, fun h => ?_⟩
  · rw [fmlin_ok n (k + 1) f f hn (by omega) (by omega) hf hf]
    congr 3
    funext i
    rw [linPhase_const, linPhase_const]
    congr 1
    push_cast
    ring
  · unfold linspace
    simp
  · rw [fmodany_ok _ k h hk (fun i hi => hf)]
    congr 2
    funext i
    dsimp only
    rw [Finset.sum_const, Finset.sum_const, Finset.card_range, Finset.card_range]
    congr 1
    push_cast [nsmul_eq_mul]
    ring

theorem sum_linspace (n : ℕ) (hn : 2 ≤ n) (fi ff : ℝ) (i : ℕ) :
    ∑ j ∈ Finset.range (i + 1), (linspace fi ff n).get j = fi + linPhase n fi ff i + (ff - fi) / (2 * ((n : ℝ) - 1)) * i := by
  have hn1 : n ≠ 1 := by omega
  have hd : (n : ℝ) - 1 ≠ 0 := by
    have : (2 : ℝ) ≤ n := by exact_mod_cast hn
    linarith
  induction i with
  | zero => simp [linspace, hn1, linPhase]
  | succ i ih =>
    rw [Finset.sum_range_succ, ih]
    unfold linspace linPhase
    simp only [hn1, if_false]
    push_cast
    field_simp
    ring

/-- `fmodany` of the law returned by `fmlin` is not the chirp of `fmlin`: it is this chirp times a tone whose frequency is half the step of the law. -/
theorem C101_same_chirp (n k : ℕ) (fi ff : ℝ) (hn : 2 ≤ n) (hk : 1 ≤ k) (hkn : k < n) (hi : |fi| ≤ 1 / 2) (hf : |ff| ≤ 1 / 2) :
    ∃ (x y z : Vec ℂ) (l l' : Vec ℝ), fmlin n fi ff (some ((k + 1 : ℕ) : ℝ)) = .ok (x, l) ∧ fmodany (.one l) k = .ok y ∧
      fmconst n ((ff - fi) / (2 * ((n : ℝ) - 1))) (some k) = .ok (z, l') ∧ ∀ i < n, y.get i = x.get i * z.get i := by
  have hnr : (2 : ℝ) ≤ n := by exact_mod_cast hn
  have hlaw : ∀ i < n, |(linspace fi ff n).get i| ≤ 1 / 2 := by
    intro i hin
    have hn1 : n ≠ 1 := by omega
    have hi1 : (i : ℝ) ≤ (n : ℝ) - 1 := by
      have : (i : ℝ) + 1 ≤ n := by exact_mod_cast hin
      linarith
    have hi0 : (0 : ℝ) ≤ i := by positivity
    have e : (linspace fi ff n).get i = (1 - i / ((n : ℝ) - 1)) * fi + i / ((n : ℝ) - 1) * ff := by
      unfold linspace
      simp only [hn1, if_false]
      have : (n : ℝ) - 1 ≠ 0 := by linarith
      field_simp
      ring
    have h1 : i / ((n : ℝ) - 1) ≤ 1 := by rw [div_le_one (by linarith)]; exact hi1
    have h0 : 0 ≤ i / ((n : ℝ) - 1) := div_nonneg hi0 (by linarith)
    rw [e]
    generalize (i : ℝ) / ((n : ℝ) - 1) = s at *
    rw [abs_le] at hi hf ⊢
    constructor <;> nlinarith
  have hz : |(ff - fi) / (2 * ((n : ℝ) - 1))| ≤ 1 / 2 := by
    rw [abs_div, abs_of_pos (by linarith : (0 : ℝ) < 2 * ((n : ℝ) - 1)), div_le_iff₀ (by linarith)]
    have : |ff - fi| ≤ 1 := by
      rw [abs_le] at *
      constructor <;> linarith
    nlinarith
  refine ⟨_, _, _, _, _, fmlin_ok n (k + 1) fi ff hn (by omega) (by omega) hi hf, fmodany_ok _ k hk hkn hlaw, fmconst_ok n k _ hkn hz, fun i hin => ?_⟩
  dsimp only
  rw [sum_linspace n hn, sum_linspace n hn, ← expi_add]
  congr 1
  push_cast
  rw [add_sub_cancel_right]
  ring

/-- A chirp played backwards is the chirp of the opposite frequencies, exchanged, with the mirrored reference instant. -/
theorem C101_backwards (n k : ℕ) (fi ff : ℝ) (hn : 2 ≤ n) (hk : 1 ≤ k) (hkn : k ≤ n) (hi : |fi| ≤ 1 / 2) (hf : |ff| ≤ 1 / 2) :
    ∃ (x y : Vec ℂ) (l l' : Vec ℝ), fmlin n fi ff (some k) = .ok (x, l) ∧ fmlin n (-ff) (-fi) (some ((n + 1 - k : ℕ) : ℝ)) = .ok (y, l') ∧
      ∀ i < n, y.get i = x.get (n - 1 - i) ∧ l'.get i = -l.get (n - 1 - i) := by
  have hnr : (2 : ℝ) ≤ n := by exact_mod_cast hn
  have hd : (n : ℝ) - 1 ≠ 0 := by linarith
  refine ⟨_, _, _, _, fmlin_ok n k fi ff hn hk hkn hi hf, fmlin_ok n (n + 1 - k) (-ff) (-fi) hn (by omega) (by omega) (by rwa [abs_neg]) (by rwa [abs_neg]), fun i hin => ?_⟩
  have e1 : ((n - 1 - i : ℕ) : ℝ) = (n : ℝ) - 1 - i := by
    rw [Nat.cast_sub (by omega), Nat.cast_sub (by omega)]
    push_cast
    ring
  have e2 : ((n + 1 - k : ℕ) : ℝ) = (n : ℝ) + 1 - k := by
    rw [Nat.cast_sub (by omega)]
    push_cast
    ring
  constructor
  · dsimp only
    rw [e1, e2]
    congr 1
    unfold linPhase
    field_simp
    ring
  · have hn1 : n ≠ 1 := by omega
    unfold linspace
    simp only [hn1, if_false, e1]
    field_simp
    ring

/-! ## Delays -/

/-- Moving the time centre by `d` samples delays the signal by `d` samples: every envelope and the tone. -/
theorem C101_delay (n d : ℕ) (hn : 1 ≤ n) (t0 s : ℝ) (hs : 0 < s) :
    (∃ x y : Vec ℝ, amgauss n (some t0) (some s) = .ok x ∧ amgauss n (some (t0 + d)) (some s) = .ok y ∧ ∀ i, i + d < n → y.get (i + d) = x.get i) ∧
    (∀ kind, ∃ x y : Vec ℝ, amexpos n (some t0) (some s) kind = .ok x ∧ amexpos n (some (t0 + d)) (some s) kind = .ok y ∧ ∀ i, i + d < n → y.get (i + d) = x.get i) ∧
    (∃ x y : Vec ℝ, amrect n (some t0) (some s) = .ok x ∧ amrect n (some (t0 + d)) (some s) = .ok y ∧ ∀ i, i + d < n → y.get (i + d) = x.get i) ∧
    (∃ x y : Vec ℝ, amtriang n (some t0) (some s) = .ok x ∧ amtriang n (some (t0 + d)) (some s) = .ok y ∧ ∀ i, i + d < n → y.get (i + d) = x.get i) ∧
    (∀ (f : ℝ) (k : ℕ), k + d < n → |f| ≤ 1 / 2 → ∃ (x y : Vec ℂ) (l l' : Vec ℝ), fmconst n f (some k) = .ok (x, l) ∧ fmconst n f (some ((k + d : ℕ) : ℝ)) = .ok (y, l') ∧
      ∀ i, i + d < n → y.get (i + d) = x.get i) := by
  have hd : ∀ i : ℕ, ((i + d : ℕ) : ℝ) - (t0 + d) = i - t0 := fun i => by push_cast; ring
  refine ⟨?_, fun kind => ?_, ?_, ?_, fun f k hk hf => ?_⟩
  · obtain ⟨x, hx, -, hx', -⟩ := C07_amgauss n hn t0 s hs
    obtain ⟨y, hy, -, hy', -⟩ := C07_amgauss n hn (t0 + d) s hs
    refine ⟨x, y, hx, hy, fun i hi => ?_⟩
    rw [hy' _ hi, hx' _ (by omega)]
    congr 4
    push_cast
    ring
  · cases kind with
    | bilateral =>
      obtain ⟨x, hx, -, hx', -⟩ := C07_amexpos_bilateral n hn t0 s hs
      obtain ⟨y, hy, -, hy', -⟩ := C07_amexpos_bilateral n hn (t0 + d) s hs
      refine ⟨x, y, hx, hy, fun i hi => ?_⟩
      rw [hy' _ hi, hx' _ (by omega), hd]
    | unilateral =>
      obtain ⟨x, hx, -, hx0, hx', -⟩ := C07_amexpos_unilateral n hn t0 s hs
      obtain ⟨y, hy, -, hy0, hy', -⟩ := C07_amexpos_unilateral n hn (t0 + d) s hs
      refine ⟨x, y, hx, hy, fun i hi => ?_⟩
      by_cases h : (i : ℝ) < t0
      · rw [hx0 _ (by omega) h, hy0 _ hi (by have := hd i; linarith)]
      · rw [hx' _ (by omega) (not_lt.1 h), hy' _ hi (by have := hd i; linarith), hd]
  · obtain ⟨x, hx, -, hx1, hx', -⟩ := C07_amrect n hn t0 s hs
    obtain ⟨y, hy, -, hy1, hy', -⟩ := C07_amrect n hn (t0 + d) s hs
    refine ⟨x, y, hx, hy, fun i hi => ?_⟩
    have e : y.get (i + d) = 1 ↔ x.get i = 1 := by rw [hy' _ hi, hx' _ (by omega), hd]
    rcases hx1 i (by omega) with h | h <;> rcases hy1 (i + d) hi with h' | h'
    · rw [h, h']
    · rw [h, h'] at e; norm_num at e
    · rw [h, h'] at e; norm_num at e
    · rw [h, h']
  · obtain ⟨x, hx, -, hx', -⟩ := C07_amtriang n hn t0 s hs
    obtain ⟨y, hy, -, hy', -⟩ := C07_amtriang n hn (t0 + d) s hs
    refine ⟨x, y, hx, hy, fun i hi => ?_⟩
    rw [hy' _ hi, hx' _ (by omega), hd]
  · refine ⟨_, _, _, _, fmconst_ok n k f (by omega) hf, fmconst_ok n (k + d) f hk hf, fun i hi => ?_⟩
    dsimp only
    congr 1
    push_cast
    ring

/-! ## Cases -/

example : ∃ (x y : Vec ℂ) (l l' : Vec ℝ) (c : ℂ), fmlin 128 0.05 0.45 (some (64 : ℕ)) = .ok (x, l) ∧ fmlin 128 0.05 0.45 (some (1 : ℕ)) = .ok (y, l') ∧
    l' = l ∧ ‖c‖ = 1 ∧ y = amplify c x := by
  obtain ⟨x, l, c, hc, h1, h2⟩ := (C101_reference 128 64 1).2.1 0.05 0.45 (by norm_num) (by norm_num) (by norm_num) (by norm_num) (by norm_num)
    (by norm_num [abs_of_pos]) (by norm_num [abs_of_pos])
  exact ⟨x, _, l, _, c, h1, h2, rfl, hc, rfl⟩

example : (1 : ℝ) / 12 ^ 2 = 1 / 15 ^ 2 + 1 / 20 ^ 2 := by norm_num

end Tftb.Props
