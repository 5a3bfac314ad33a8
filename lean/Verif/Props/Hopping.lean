import Verif.Props.Chirp
import Verif.Props.Local
import Verif.Props.Analytic

/-! # C127 Keyed signals in time-frequency representations

A signal that is a tone on the samples a column looks at shows the peak of that tone in that column; so the symbols of a
frequency-shift-keyed signal can be read off its spectrogram, its short-time Fourier transform and its pseudo Wigner-Ville distribution.
-/

namespace Tftb.Props

open Tftb Tftb.Spec Tftb.Linear Tftb.Cohen Tftb.Analytic Finset

/-- The samples between `lo` and `hi` are those of a tone of frequency `f` and complex amplitude `A`. -/
def ToneOn (x : Vec ℂ) (lo hi : ℤ) (A : ℂ) (f : ℝ) : Prop :=
  ∀ i < x.len, lo ≤ (i : ℤ) → (i : ℤ) ≤ hi → x.get i = A * expi (2 * Real.pi * (f * i))

/-- The tone on the whole length. -/
noncomputable def toneLike (x : Vec ℂ) (A : ℂ) (f : ℝ) : Vec ℂ := ⟨x.len, fun i => A * expi (2 * Real.pi * (f * i + 0 * (i : ℝ) ^ 2 / 2))⟩

theorem toneLike_chirp (x : Vec ℂ) (A : ℂ) (f : ℝ) : IsChirp (toneLike x A f) A f 0 := fun _ _ => rfl

theorem ToneOn.agree {x : Vec ℂ} {lo hi : ℤ} {A : ℂ} {f : ℝ} (h : ToneOn x lo hi A f) : AgreeOn x (toneLike x A f) lo hi where
  len := rfl
  get i hi' h0 h1 := by
    rw [h i hi' h0 h1]
    show A * expi _ = _
    congr 2
    ring

/-- Short-time Fourier transform: a column that sees a tone peaks at its frequency. -/
theorem C127_stft {τ : Type} (x : Vec ℂ) (ts : Vec τ) (n L : ℕ) (h : Vec ℂ) (w : ℕ → ℝ) (hh : h.len = 2 * L + 1 ∨ h.len = 2 * L + 2) (hL : 2 * L < n)
    (hw : ∀ i, h.get i = (w i : ℂ)) (hw0 : ∀ i, 0 < w i) :
    ∃ M : Mat ℂ, stftOf x ts n (some h) = .ok M ∧ ∀ m < ts.len, ∀ A f, ToneOn x ((m : ℤ) - 1 - L) ((m : ℤ) - 1 + L) A f → ∀ k < n,
      ‖M.get k m‖ ≤ ‖A‖ * ∑ τ ∈ segLags L x.len ((m : ℤ) - 1), w ((L : ℤ) + τ).toNat ∧
      (A ≠ 0 → 1 ≤ L → 2 ≤ x.len → 1 ≤ m → m ≤ x.len →
        (‖M.get k m‖ = ‖A‖ * ∑ τ ∈ segLags L x.len ((m : ℤ) - 1), w ((L : ℤ) + τ).toNat ↔ ∃ q : ℤ, f = k / n + q)) := by
  obtain ⟨M, h1, -⟩ := C27_stft x ts n L h hh hL
  refine ⟨M, h1, fun m hm A f ht k hk => ?_⟩
  obtain ⟨X, Y, x1, y1, h2⟩ := C95_stft x (toneLike x A f) ts n L h hh hL
  obtain ⟨Z, z1, h3⟩ := C78_stft_tone (toneLike x A f) A f (toneLike_chirp x A f) ts n L h w hh hL hw hw0
  rw [h1] at x1
  cases x1
  rw [z1] at y1
  cases y1
  have := h3 k hk m hm
  rw [h2 m hm ht.agree k hk] at this
  exact this

theorem spectro_det {x : Vec ℂ} {ts : Vec ℤ} {n : ℕ} {h : Vec ℂ} {M M' : Mat ℝ} (hM : SpectroReturns x ts n h M) (hM' : SpectroReturns x ts n h M') : M = M' := by
  obtain ⟨o, h1, h2⟩ := hM
  obtain ⟨o', h1', h2'⟩ := hM'
  rw [h1] at h1'
  cases h1'
  rw [h2] at h2'
  injection h2'

/-- A positive window is never zero on the samples used. -/
theorem windowOk_pos (N : ℕ) (ts : Vec ℤ) (n L : ℕ) (h : Vec ℂ) (w : ℕ → ℝ) (hw : ∀ i, h.get i = (w i : ℂ)) (hw0 : ∀ i, 0 < w i) : WindowOk h n L N ts := by
  intro m _
  rcases Finset.eq_empty_or_nonempty (segLags (min (roundEven ((n : ℝ) / 2) - 1) L) N (ts.get m - 1)) with h1 | h1
  · right; exact h1
  · left
    unfold windowEnergy
    refine (Finset.sum_pos (fun τ _ => ?_) h1).ne'
    rw [hw, Complex.norm_real, Real.norm_of_nonneg (hw0 _).le]
    have := hw0 ((L : ℤ) + τ).toNat
    positivity

/-- Spectrogram: a column that sees a tone peaks at its frequency. -/
theorem C127_spectrogram (x : Vec ℂ) (ts : Vec ℤ) (n L : ℕ) (h : Vec ℂ) (w : ℕ → ℝ) (hh : h.len = 2 * L + 1 ∨ h.len = 2 * L + 2) (hn : n ≠ 0)
    (hw : ∀ i, h.get i = (w i : ℂ)) (hw0 : ∀ i, 0 < w i) :
    ∃ M : Mat ℝ, SpectroReturns x ts n h M ∧ ∀ m < ts.len, ∀ A f, ToneOn x (ts.get m - 1 - L) (ts.get m - 1 + L) A f → ∀ k < n,
      let S := segLags (min (roundEven ((n : ℝ) / 2) - 1) L) x.len (ts.get m - 1)
      M.get k m * ∑ τ ∈ S, w ((L : ℤ) + τ).toNat ^ 2 ≤ ‖A‖ ^ 2 * (∑ τ ∈ S, w ((L : ℤ) + τ).toNat) ^ 2 ∧
      (A ≠ 0 → 1 ≤ L → 3 ≤ n → 2 ≤ x.len → 1 ≤ ts.get m → ts.get m ≤ x.len →
        (M.get k m * ∑ τ ∈ S, w ((L : ℤ) + τ).toNat ^ 2 = ‖A‖ ^ 2 * (∑ τ ∈ S, w ((L : ℤ) + τ).toNat) ^ 2 ↔ ∃ q : ℤ, f = k / n + q)) := by
  have hwo := windowOk_pos x.len ts n L h w hw hw0
  obtain ⟨M, h1, -⟩ := C31_closed_form x ts n L h hh hn hwo
  refine ⟨M, h1, fun m hm A f ht k hk => ?_⟩
  obtain ⟨X, Y, x1, y1, h2⟩ := C95_spectrogram x (toneLike x A f) ts n L h hh hn rfl hwo
  obtain ⟨Z, z1, h3⟩ := C78_spectrogram_tone (toneLike x A f) A f (toneLike_chirp x A f) ts n L h w hh hn hw hw0
  obtain rfl := spectro_det h1 x1
  obtain rfl := spectro_det z1 y1
  have := h3 k hk m hm
  rw [h2 m hm ht.agree k hk] at this
  exact this

/-- Pseudo Wigner-Ville: a column that sees a tone peaks at its frequency (modulo 1/2). -/
theorem C127_pwvd {τ : Type} (x : Vec ℂ) (ts : Vec τ) (n : ℕ) (h : Vec ℂ) (w : ℕ → ℝ) (L : ℕ)
    (hh : h.len = 2 * L + 1) (hL : (L : ℤ) < roundEven ((n : ℝ) / 2)) (hw : ∀ i, h.get i = (w i : ℂ)) (hw0 : ∀ i, 0 ≤ w i) :
    ∃ M : Mat ℝ, PwvdReturns x ts n (some h) M ∧ ∀ t < ts.len, ∀ A f, ToneOn x ((t : ℤ) - L) ((t : ℤ) + L) A f → ∀ k < n,
      let T := min (min (t : ℤ) ((x.len : ℤ) - 1 - t)) (L : ℤ)
      M.get k t ≤ ‖A‖ ^ 2 * ∑ τ ∈ Finset.Icc (-T) T, w ((L : ℤ) + τ).toNat ∧
      (1 ≤ T → A ≠ 0 → 0 < w (L + 1) →
        (M.get k t = ‖A‖ ^ 2 * ∑ τ ∈ Finset.Icc (-T) T, w ((L : ℤ) + τ).toNat ↔ ∃ m : ℤ, f = k / (2 * n) + m / 2)) := by
  obtain ⟨M, h1, -⟩ := C36_pwvd x ts n h L hh hL
  refine ⟨M, h1, fun t ht A f hf k hk => ?_⟩
  obtain ⟨X, Y, x1, y1, h2⟩ := C95_pwvd x (toneLike x A f) ts n h L hh hL
  obtain rfl := pwvd_unique h1 x1
  obtain ⟨-, h3, h4⟩ := C77_pwvd_chirp (toneLike x A f) A f 0 (toneLike_chirp x A f) ts n h w L hh hL hw hw0 Y y1 t ht k hk
  rw [h2 t ht hf.agree k hk] at h3 h4
  rw [zero_mul, add_zero] at h4
  exact ⟨h3, h4⟩

/-! ## Symbols -/

/-- A signal multiplied from sample to sample by the same rotation is a tone. -/
theorem toneOn_of_step {y : Vec ℂ} {lo hi : ℕ} (hlo : lo < y.len) (f : ℝ) (hs : ∀ i, lo ≤ i → i < hi → i + 1 < y.len → y.get (i + 1) = y.get i * expi (2 * Real.pi * f)) :
    ToneOn y lo hi (y.get lo * expi (-(2 * Real.pi * (f * lo)))) f := by
  have key : ∀ d : ℕ, lo + d < y.len → lo + d ≤ hi → y.get (lo + d) = y.get lo * expi (2 * Real.pi * (f * d)) := by
    intro d
    induction d with
    | zero =>
      intro _ _
      rw [show (2 * Real.pi * (f * ((0 : ℕ) : ℝ)) : ℝ) = 0 by push_cast; ring, expi_zero, mul_one]
      rfl
    | succ d ih =>
      intro h1 h2
      rw [← add_assoc, hs (lo + d) (by omega) (by omega) (by omega), ih (by omega) (by omega), mul_assoc, ← expi_add]
      congr 2
      push_cast
      ring
  intro i hi' h0 h1
  obtain ⟨d, rfl⟩ : ∃ d, i = lo + d := ⟨i - lo, by omega⟩
  rw [key d hi' (by omega), mul_assoc (y.get lo), ← expi_add]
  congr 2
  push_cast
  ring

/-- Where two positions of a symbol lie in one symbol, so do all between. -/
theorem div_between {b lo i hi : ℕ} (h : lo / b = hi / b) (h0 : lo ≤ i) (h1 : i ≤ hi) : i / b = hi / b := by
  have a1 := Nat.div_le_div_right (c := b) h0
  have a2 := Nat.div_le_div_right (c := b) h1
  omega

/-- Inside one symbol an FSK signal is a tone of unit modulus at the frequency of the law. -/
theorem fsk_tone {y : Vec ℂ} {law : Vec ℝ} {b : ℕ} (hblk : ∀ i < y.len, ∀ j < y.len, i / b = j / b → law.get i = law.get j) (hu : ∀ i < y.len, ‖y.get i‖ = 1)
    (hs : ∀ i, i + 1 < y.len → y.get (i + 1) = y.get i * expi (2 * Real.pi * law.get (i + 1))) {c L : ℕ} (h0 : L ≤ c) (h1 : c + L < y.len)
    (hb : (c - L) / b = (c + L) / b) : ∃ A : ℂ, ‖A‖ = 1 ∧ ToneOn y ((c : ℤ) - L) ((c : ℤ) + L) A (law.get c) := by
  refine ⟨y.get (c - L) * expi (-(2 * Real.pi * (law.get c * (c - L : ℕ)))), ?_, ?_⟩
  · rw [norm_mul, norm_expi, mul_one, hu _ (by omega)]
  · have := toneOn_of_step (y := y) (lo := c - L) (hi := c + L) (by omega) (law.get c) (fun i h2 h3 h4 => by
      rw [hs i h4, hblk (i + 1) h4 c (by omega) (by rw [div_between hb (by omega : c - L ≤ i + 1) (by omega), div_between hb (by omega : c - L ≤ c) (by omega)])])
    rw [show ((c - L : ℕ) : ℤ) = (c : ℤ) - L by omega, show ((c + L : ℕ) : ℤ) = (c : ℤ) + L by omega] at this
    exact this

/-- Frequency-shift keying: a spectrogram column whose window lies within one symbol has the same peak value for every symbol, and takes it exactly in the row of the
symbol's frequency. -/
theorem C127_fsk_spectrogram (n b M : ℕ) (draw : ℕ → ℝ) (hb : 1 ≤ b) (hM : 1 ≤ M) (hd : ∀ j, 0 ≤ draw j ∧ draw j < 1)
    (ts : Vec ℤ) (nf L : ℕ) (h : Vec ℂ) (w : ℕ → ℝ) (hh : h.len = 2 * L + 1 ∨ h.len = 2 * L + 2) (hn : 3 ≤ nf) (hL : 1 ≤ L) (hLn : (L : ℤ) ≤ roundEven ((nf : ℝ) / 2) - 1)
    (hw : ∀ i, h.get i = (w i : ℂ)) (hw0 : ∀ i, 0 < w i) :
    ∃ (y : Vec ℂ) (law : Vec ℝ) (S : Mat ℝ), anafsk n (some b) M draw = .ok (y, law) ∧ SpectroReturns y ts nf h S ∧
      ∀ m < ts.len, ∀ c : ℕ, ts.get m = (c : ℤ) + 1 → L ≤ c → c + L < y.len → (c - L) / b = (c + L) / b → ∀ k < nf,
        S.get k m ≤ (∑ i ∈ range (2 * L + 1), w i) ^ 2 / ∑ i ∈ range (2 * L + 1), w i ^ 2 ∧
        (S.get k m = (∑ i ∈ range (2 * L + 1), w i) ^ 2 / ∑ i ∈ range (2 * L + 1), w i ^ 2 ↔ law.get c = k / nf) := by
  obtain ⟨y, law, e, hlen, -, -, -, hblk, hval, hu, -, hs⟩ := C19_anafsk n b M draw hb hM hd
  obtain ⟨S, s1, s2⟩ := C127_spectrogram y ts nf L h w hh (by omega) hw hw0
  refine ⟨y, law, S, e, s1, fun m hm c hc h0 h1 h2 k hk => ?_⟩
  obtain ⟨A, hA, ht⟩ := fsk_tone hblk hu hs h0 h1 h2
  have hc1 : ts.get m - 1 = (c : ℤ) := by omega
  have key := s2 m hm A (law.get c) (by rw [hc1]; exact ht) k hk
  have hseg : segLags (min (roundEven ((nf : ℝ) / 2) - 1) L) y.len (ts.get m - 1) = Finset.Icc (-(L : ℤ)) L := by
    rw [hc1, min_eq_right hLn]
    unfold segLags
    refine Finset.filter_true_of_mem fun τ hτ => ?_
    rw [Finset.mem_Icc] at hτ
    omega
  have hsum : ∀ g : ℕ → ℝ, ∑ τ ∈ Finset.Icc (-(L : ℤ)) L, g ((L : ℤ) + τ).toNat = ∑ i ∈ range (2 * L + 1), g i := by
    intro g
    refine Finset.sum_bij (fun τ _ => ((L : ℤ) + τ).toNat) (fun τ hτ => ?_) (fun a ha a' ha' hq => ?_) (fun i hi => ?_) (fun _ _ => rfl)
    · rw [Finset.mem_Icc] at hτ; rw [Finset.mem_range]; omega
    · rw [Finset.mem_Icc] at ha ha'; omega
    · rw [Finset.mem_range] at hi
      exact ⟨(i : ℤ) - L, by rw [Finset.mem_Icc]; omega, by omega⟩
  dsimp only at key
  rw [hseg, hsum (fun i => w i ^ 2), hsum w, hA, one_pow, one_mul] at key
  have hpos : 0 < ∑ i ∈ range (2 * L + 1), w i ^ 2 := Finset.sum_pos (fun i _ => by have := hw0 i; positivity) ⟨0, by rw [Finset.mem_range]; omega⟩
  have hA0 : A ≠ 0 := by
    rw [← norm_ne_zero_iff, hA]; exact one_ne_zero
  obtain ⟨-, -, -, -, -, hl1, hl2⟩ := hval c (by omega)
  have hnR : (0 : ℝ) < nf := by exact_mod_cast (by omega : 0 < nf)
  have hk1 : (k : ℝ) / nf < 1 := by rw [div_lt_one hnR]; exact_mod_cast hk
  have hk0 : 0 ≤ (k : ℝ) / nf := by positivity
  refine ⟨by rw [le_div_iff₀ hpos]; exact key.1, ?_⟩
  rw [eq_div_iff hpos.ne', key.2 hA0 hL hn (by omega) (by omega) (by omega)]
  constructor
  · rintro ⟨q, hq⟩
    have q1 : (q : ℝ) < 1 := by linarith
    have q2 : (-1 : ℝ) < q := by linarith
    have q3 : q < 1 := by exact_mod_cast q1
    have q4 : -1 < q := by exact_mod_cast q2
    obtain rfl : q = 0 := by omega
    rw [hq, Int.cast_zero, add_zero]
  · intro hq
    exact ⟨0, by rw [hq, Int.cast_zero, add_zero]⟩

/-- Frequency-shift keying in the pseudo Wigner-Ville distribution: the same, the rows being frequencies up to 1/2. -/
theorem C127_fsk_pwvd {τ : Type} (n b M : ℕ) (draw : ℕ → ℝ) (hb : 1 ≤ b) (hM : 1 ≤ M) (hd : ∀ j, 0 ≤ draw j ∧ draw j < 1)
    (ts : Vec τ) (nf L : ℕ) (h : Vec ℂ) (w : ℕ → ℝ) (hh : h.len = 2 * L + 1) (hL : 1 ≤ L) (hLn : (L : ℤ) < roundEven ((nf : ℝ) / 2))
    (hw : ∀ i, h.get i = (w i : ℂ)) (hw0 : ∀ i, 0 ≤ w i) (hw1 : 0 < w (L + 1)) :
    ∃ (y : Vec ℂ) (law : Vec ℝ) (S : Mat ℝ), anafsk n (some b) M draw = .ok (y, law) ∧ PwvdReturns y ts nf (some h) S ∧
      ∀ c < ts.len, L ≤ c → c + L < y.len → (c - L) / b = (c + L) / b → ∀ k < nf,
        S.get k c ≤ ∑ i ∈ range (2 * L + 1), w i ∧ (S.get k c = ∑ i ∈ range (2 * L + 1), w i ↔ law.get c = k / (2 * nf)) := by
  obtain ⟨y, law, e, hlen, -, -, -, hblk, hval, hu, -, hs⟩ := C19_anafsk n b M draw hb hM hd
  obtain ⟨S, s1, s2⟩ := C127_pwvd y ts nf h w L hh hLn hw hw0
  refine ⟨y, law, S, e, s1, fun c hc h0 h1 h2 k hk => ?_⟩
  obtain ⟨A, hA, ht⟩ := fsk_tone hblk hu hs h0 h1 h2
  have key := s2 c hc A (law.get c) ht k hk
  have hT : min (min (c : ℤ) ((y.len : ℤ) - 1 - c)) (L : ℤ) = L := by omega
  have hsum : ∀ g : ℕ → ℝ, ∑ τ ∈ Finset.Icc (-(L : ℤ)) L, g ((L : ℤ) + τ).toNat = ∑ i ∈ range (2 * L + 1), g i := by
    intro g
    refine Finset.sum_bij (fun τ _ => ((L : ℤ) + τ).toNat) (fun τ hτ => ?_) (fun a ha a' ha' hq => ?_) (fun i hi => ?_) (fun _ _ => rfl)
    · rw [Finset.mem_Icc] at hτ; rw [Finset.mem_range]; omega
    · rw [Finset.mem_Icc] at ha ha'; omega
    · rw [Finset.mem_range] at hi
      exact ⟨(i : ℤ) - L, by rw [Finset.mem_Icc]; omega, by omega⟩
  dsimp only at key
  rw [hT, hsum w, hA, one_pow, one_mul] at key
  have hA0 : A ≠ 0 := by
    rw [← norm_ne_zero_iff, hA]; exact one_ne_zero
  obtain ⟨-, -, -, -, -, hl1, hl2⟩ := hval c (by omega)
  have hnR : (0 : ℝ) < nf := by exact_mod_cast (by omega : 0 < nf)
  have hk1 : (k : ℝ) / (2 * nf) < 1 / 2 := by
    rw [div_lt_div_iff₀ (by positivity) (by norm_num)]
    have : (k : ℝ) < nf := by exact_mod_cast hk
    linarith
  have hk0 : 0 ≤ (k : ℝ) / (2 * nf) := by positivity
  refine ⟨key.1, ?_⟩
  rw [key.2 (by exact_mod_cast hL) hA0 hw1]
  constructor
  · rintro ⟨q, hq⟩
    have q1 : (q : ℝ) < 1 := by linarith
    have q2 : (-1 : ℝ) < q := by linarith
    have q3 : q < 1 := by exact_mod_cast q1
    have q4 : -1 < q := by exact_mod_cast q2
    obtain rfl : q = 0 := by omega
    rw [hq, Int.cast_zero, zero_div, add_zero]
  · intro hq
    exact ⟨0, by rw [hq, Int.cast_zero, zero_div, add_zero]⟩

/-! ## Phase and amplitude keying -/

/-- Value of a spectrogram column that sees a tone: only the squared modulus of the amplitude and the frequency matter. -/
theorem toneOn_column (x : Vec ℂ) (ts : Vec ℤ) (n L : ℕ) (h : Vec ℂ) (hh : h.len = 2 * L + 1 ∨ h.len = 2 * L + 2) (hn : n ≠ 0) (hLn : (L : ℤ) ≤ roundEven ((n : ℝ) / 2) - 1)
    (hwo : WindowOk h n L x.len ts) (M : Mat ℝ) (hM : SpectroReturns x ts n h M) {m : ℕ} (hm : m < ts.len) {A : ℂ} {f : ℝ} (h0 : (L : ℤ) < ts.get m) (h1 : ts.get m + L ≤ x.len)
    (ht : ToneOn x (ts.get m - 1 - L) (ts.get m - 1 + L) A f) {k : ℕ} (hk : k < n) :
    M.get k m * ∑ τ ∈ Finset.Icc (-(L : ℤ)) L, ‖h.get ((L : ℤ) + τ).toNat‖ ^ 2
      = ‖A‖ ^ 2 * ‖∑ τ ∈ Finset.Icc (-(L : ℤ)) L, (starRingEnd ℂ) (h.get ((L : ℤ) + τ).toNat) * expi (2 * Real.pi * (τ * (f - k / n)))‖ ^ 2 := by
  obtain ⟨X, x1, -, -, x4⟩ := C31_closed_form x ts n L h hh hn hwo
  obtain rfl := spectro_det hM x1
  have hseg : segLags (min (roundEven ((n : ℝ) / 2) - 1) L) x.len (ts.get m - 1) = Finset.Icc (-(L : ℤ)) L := by
    rw [min_eq_right hLn]
    unfold segLags
    refine Finset.filter_true_of_mem fun τ hτ => ?_
    rw [Finset.mem_Icc] at hτ
    omega
  have e := (x4 k hk m hm).2
  unfold windowEnergy at e
  rw [hseg] at e
  rw [e, ← mul_pow]
  congr 1
  have h2 : ∀ τ ∈ Finset.Icc (-(L : ℤ)) L, zext x (ts.get m - 1 + τ) * (starRingEnd ℂ) (h.get ((L : ℤ) + τ).toNat) * expi (-(2 * Real.pi * (k * τ / n)))
      = (A * expi (2 * Real.pi * (f * (ts.get m - 1 : ℤ)))) * ((starRingEnd ℂ) (h.get ((L : ℤ) + τ).toNat) * expi (2 * Real.pi * (τ * (f - k / n)))) := by
    intro τ hτ
    rw [Finset.mem_Icc] at hτ
    have g0 : 0 ≤ ts.get m - 1 + τ := by omega
    rw [zext_of_mem g0 (by omega), ht _ (by omega) (by omega) (by omega)]
    have hc : (((ts.get m - 1 + τ).toNat : ℕ) : ℝ) = ((ts.get m - 1 : ℤ) : ℝ) + τ := by
      have : (((ts.get m - 1 + τ).toNat : ℤ) : ℝ) = ((ts.get m - 1 + τ : ℤ) : ℝ) := by rw [Int.toNat_of_nonneg g0]
      push_cast at this ⊢
      exact this
    rw [hc]
    have e1 : expi (2 * Real.pi * (f * (((ts.get m - 1 : ℤ) : ℝ) + τ))) * expi (-(2 * Real.pi * (k * τ / n)))
        = expi (2 * Real.pi * (f * (ts.get m - 1 : ℤ))) * expi (2 * Real.pi * (τ * (f - k / n))) := by
      rw [← expi_add, ← expi_add]
      congr 1
      ring
    calc _ = A * (starRingEnd ℂ) (h.get ((L : ℤ) + τ).toNat) * (expi (2 * Real.pi * (f * (((ts.get m - 1 : ℤ) : ℝ) + τ))) * expi (-(2 * Real.pi * (k * τ / n)))) := by ring
      _ = _ := by rw [e1]; ring
  rw [Finset.sum_congr rfl h2, ← Finset.mul_sum, norm_mul, norm_mul, norm_expi, mul_one]

/-- The samples of a column inside one symbol of a signal `c (i / b) e^{2πi f (i-1)}`. -/
theorem keyed_tone {y : Vec ℂ} {b : ℕ} {v : ℕ → ℂ} {f : ℝ} (hv : ∀ i < y.len, y.get i = v i * expi (2 * Real.pi * f * ((i : ℝ) - 1)))
    (hblk : ∀ i < y.len, ∀ j < y.len, i / b = j / b → v i = v j) {c L : ℕ} (h0 : L ≤ c) (h1 : c + L < y.len) (hb : (c - L) / b = (c + L) / b) :
    ToneOn y ((c : ℤ) - L) ((c : ℤ) + L) (v c * expi (-(2 * Real.pi * f))) f := by
  intro i hi g0 g1
  rw [hv i hi, hblk i hi c (by omega) (by rw [div_between hb (by omega : c - L ≤ i) (by omega), div_between hb (by omega : c - L ≤ c) (by omega)]), mul_assoc (v c), ← expi_add]
  congr 2
  ring

/-- Two columns inside symbols of a keyed carrier: proportional to the powers of the symbols. -/
theorem C127_keyed (y : Vec ℂ) (b : ℕ) (v : ℕ → ℂ) (f : ℝ) (hv : ∀ i < y.len, y.get i = v i * expi (2 * Real.pi * f * ((i : ℝ) - 1)))
    (hblk : ∀ i < y.len, ∀ j < y.len, i / b = j / b → v i = v j) (ts : Vec ℤ) (n L : ℕ) (h : Vec ℂ) (hh : h.len = 2 * L + 1 ∨ h.len = 2 * L + 2) (hn : n ≠ 0)
    (hLn : (L : ℤ) ≤ roundEven ((n : ℝ) / 2) - 1) (hwo : WindowOk h n L y.len ts) (hpos : ∑ τ ∈ Finset.Icc (-(L : ℤ)) L, ‖h.get ((L : ℤ) + τ).toNat‖ ^ 2 ≠ 0) :
    ∃ S, SpectroReturns y ts n h S ∧ ∀ m < ts.len, ∀ m' < ts.len, ∀ c c' : ℕ, ts.get m = (c : ℤ) + 1 → ts.get m' = (c' : ℤ) + 1 →
      L ≤ c → c + L < y.len → (c - L) / b = (c + L) / b → L ≤ c' → c' + L < y.len → (c' - L) / b = (c' + L) / b →
      ∀ k < n, S.get k m * ‖v c'‖ ^ 2 = S.get k m' * ‖v c‖ ^ 2 := by
  obtain ⟨S, s1, -⟩ := C31_closed_form y ts n L h hh hn hwo
  refine ⟨S, s1, fun m hm m' hm' c c' hc hc' a1 a2 a3 b1 b2 b3 k hk => ?_⟩
  have e1 : ts.get m - 1 = (c : ℤ) := by omega
  have e2 : ts.get m' - 1 = (c' : ℤ) := by omega
  have t1 := toneOn_column y ts n L h hh hn hLn hwo S s1 hm (by omega) (by omega) (by rw [e1]; exact keyed_tone hv hblk a1 a2 a3) hk
  have t2 := toneOn_column y ts n L h hh hn hLn hwo S s1 hm' (by omega) (by omega) (by rw [e2]; exact keyed_tone hv hblk b1 b2 b3) hk
  rw [norm_mul, norm_expi, mul_one] at t1 t2
  refine mul_right_cancel₀ hpos ?_
  calc S.get k m * ‖v c'‖ ^ 2 * _ = (S.get k m * ∑ τ ∈ Finset.Icc (-(L : ℤ)) L, ‖h.get ((L : ℤ) + τ).toNat‖ ^ 2) * ‖v c'‖ ^ 2 := by ring
    _ = (S.get k m' * ∑ τ ∈ Finset.Icc (-(L : ℤ)) L, ‖h.get ((L : ℤ) + τ).toNat‖ ^ 2) * ‖v c‖ ^ 2 := by rw [t1, t2]; ring
    _ = _ := by ring

/-- Columns inside symbols: those whose window `c - L … c + L` fits and does not meet a transition. -/
def InSymbol (N b L c : ℕ) : Prop := L ≤ c ∧ c + L < N ∧ (c - L) / b = (c + L) / b

/-- Phase keying (two and four phases) cannot be seen inside the symbols: all columns there are the same. -/
theorem C127_psk (n b : ℕ) (f : ℝ) (draw : ℕ → ℝ) (hb : 1 ≤ b) (h0 : 0 ≤ f) (h1 : f ≤ 1 / 2) (hd : ∀ j, 0 ≤ draw j ∧ draw j < 1)
    (ts : Vec ℤ) (nf L : ℕ) (h : Vec ℂ) (w : ℕ → ℝ) (hh : h.len = 2 * L + 1 ∨ h.len = 2 * L + 2) (hn : nf ≠ 0) (hLn : (L : ℤ) ≤ roundEven ((nf : ℝ) / 2) - 1)
    (hw : ∀ i, h.get i = (w i : ℂ)) (hw0 : ∀ i, 0 < w i) :
    (2 ≤ n → ∃ (y : Vec ℂ) (am : Vec ℝ) (S : Mat ℝ), anabpsk n (some b) f draw = .ok (y, am) ∧ SpectroReturns y ts nf h S ∧
      ∀ m < ts.len, ∀ m' < ts.len, ∀ c c' : ℕ, ts.get m = (c : ℤ) + 1 → ts.get m' = (c' : ℤ) + 1 → InSymbol n b L c → InSymbol n b L c' → ∀ k < nf, S.get k m = S.get k m') ∧
    (b ∣ n → ∃ (y : Vec ℂ) (pm : Vec ℝ) (S : Mat ℝ), anaqpsk n (some b) f draw = .ok (y, pm) ∧ SpectroReturns y ts nf h S ∧
      ∀ m < ts.len, ∀ m' < ts.len, ∀ c c' : ℕ, ts.get m = (c : ℤ) + 1 → ts.get m' = (c' : ℤ) + 1 → InSymbol n b L c → InSymbol n b L c' → ∀ k < nf, S.get k m = S.get k m') := by
  have hpos : ∑ τ ∈ Finset.Icc (-(L : ℤ)) L, ‖h.get ((L : ℤ) + τ).toNat‖ ^ 2 ≠ 0 := by
    refine (Finset.sum_pos (fun τ _ => ?_) ⟨0, by rw [Finset.mem_Icc]; omega⟩).ne'
    rw [hw, Complex.norm_real, Real.norm_of_nonneg (hw0 _).le]
    have := hw0 ((L : ℤ) + τ).toNat
    positivity
  constructor
  · intro h2
    obtain ⟨y, am, e, hy, -, hblk, ham, hv⟩ := C18_anabpsk n b f draw h2 hb h0 h1 hd
    obtain ⟨S, s1, s2⟩ := C127_keyed y b (fun i => (am.get i : ℂ)) f (fun i hi => (hv i (by omega)).1) (fun i hi j hj hij => by rw [hblk i (by omega) j (by omega) hij])
      ts nf L h hh hn hLn (windowOk_pos _ ts nf L h w hw hw0) hpos
    refine ⟨y, am, S, e, s1, fun m hm m' hm' c c' hc hc' i1 i2 k hk => ?_⟩
    have hpm : ∀ i < n, ‖(am.get i : ℂ)‖ = 1 := fun i hi => by
      rw [ham i hi]
      split_ifs <;> simp
    have := s2 m hm m' hm' c c' hc hc' i1.1 (by rw [hy]; exact i1.2.1) i1.2.2 i2.1 (by rw [hy]; exact i2.2.1) i2.2.2 k hk
    rw [hpm c (by have := i1.2.1; omega), hpm c' (by have := i2.2.1; omega), one_pow, mul_one, mul_one] at this
    exact this
  · intro hdiv
    obtain ⟨y, pm, e, hy, -, hblk, -, hv⟩ := C19_anaqpsk n b f draw hb hdiv h0 h1 hd
    obtain ⟨S, s1, s2⟩ := C127_keyed y b (fun i => expi (pm.get i)) f (fun i hi => by rw [(hv i (by omega)).1, add_comm, expi_add])
      (fun i hi j hj hij => by rw [hblk i (by omega) j (by omega) hij]) ts nf L h hh hn hLn (windowOk_pos _ ts nf L h w hw hw0) hpos
    refine ⟨y, pm, S, e, s1, fun m hm m' hm' c c' hc hc' i1 i2 k hk => ?_⟩
    have := s2 m hm m' hm' c c' hc hc' i1.1 (by rw [hy]; exact i1.2.1) i1.2.2 i2.1 (by rw [hy]; exact i2.2.1) i2.2.2 k hk
    rw [norm_expi, norm_expi, one_pow, mul_one, mul_one] at this
    exact this

/-- Amplitude keying: inside the symbols the columns are proportional, in the ratio of the squared amplitudes. -/
theorem C127_ask (n b : ℕ) (f : ℝ) (draw : ℕ → ℝ) (hn2 : 2 ≤ n) (hb : 1 ≤ b) (h0 : 0 ≤ f) (h1 : f ≤ 1 / 2) (hd : ∀ j, 0 ≤ draw j ∧ draw j < 1)
    (ts : Vec ℤ) (nf L : ℕ) (h : Vec ℂ) (w : ℕ → ℝ) (hh : h.len = 2 * L + 1 ∨ h.len = 2 * L + 2) (hn : nf ≠ 0) (hLn : (L : ℤ) ≤ roundEven ((nf : ℝ) / 2) - 1)
    (hw : ∀ i, h.get i = (w i : ℂ)) (hw0 : ∀ i, 0 < w i) :
    ∃ (y : Vec ℂ) (am : Vec ℝ) (S : Mat ℝ), anaask n (some b) f draw = .ok (y, am) ∧ SpectroReturns y ts nf h S ∧
      ∀ m < ts.len, ∀ m' < ts.len, ∀ c c' : ℕ, ts.get m = (c : ℤ) + 1 → ts.get m' = (c' : ℤ) + 1 → InSymbol n b L c → InSymbol n b L c' → ∀ k < nf,
        S.get k m * am.get c' ^ 2 = S.get k m' * am.get c ^ 2 := by
  have hpos : ∑ τ ∈ Finset.Icc (-(L : ℤ)) L, ‖h.get ((L : ℤ) + τ).toNat‖ ^ 2 ≠ 0 := by
    refine (Finset.sum_pos (fun τ _ => ?_) ⟨0, by rw [Finset.mem_Icc]; omega⟩).ne'
    rw [hw, Complex.norm_real, Real.norm_of_nonneg (hw0 _).le]
    have := hw0 ((L : ℤ) + τ).toNat
    positivity
  obtain ⟨y, am, e, hy, -, hblk, ham, hv⟩ := C18_anaask n b f draw hn2 hb h0 h1 hd
  obtain ⟨S, s1, s2⟩ := C127_keyed y b (fun i => (am.get i : ℂ)) f (fun i hi => (hv i (by omega)).1) (fun i hi j hj hij => by rw [hblk i (by omega) j (by omega) hij])
    ts nf L h hh hn hLn (windowOk_pos _ ts nf L h w hw hw0) hpos
  refine ⟨y, am, S, e, s1, fun m hm m' hm' c c' hc hc' i1 i2 k hk => ?_⟩
  have := s2 m hm m' hm' c c' hc hc' i1.1 (by rw [hy]; exact i1.2.1) i1.2.2 i2.1 (by rw [hy]; exact i2.2.1) i2.2.2 k hk
  rw [Complex.norm_real, Complex.norm_real, Real.norm_eq_abs, Real.norm_eq_abs, sq_abs, sq_abs] at this
  exact this

/-! ## A concrete case: two symbols of eight samples, two frequencies, windows of three samples, sixteen rows -/

/-- The spectrogram at sample 4 (column 0) and at sample 12 (column 1). -/
example : ∃ (y : Vec ℂ) (law : Vec ℝ) (S : Mat ℝ), anafsk 16 (some 8) 2 (fun j => if j = 0 then 1 / 4 else 3 / 4) = .ok (y, law) ∧
    SpectroReturns y ⟨2, fun m => if m = 0 then 5 else 13⟩ 16 ⟨3, fun _ => 1⟩ S ∧ law.get 4 = 3 / 16 ∧ law.get 12 = 5 / 16 ∧
    (∀ k < 16, S.get k 0 ≤ 3 ∧ (S.get k 0 = 3 ↔ k = 3)) ∧ ∀ k < 16, S.get k 1 ≤ 3 ∧ (S.get k 1 = 3 ↔ k = 5) := by
  have hd : ∀ j : ℕ, (0 : ℝ) ≤ (if j = 0 then 1 / 4 else 3 / 4) ∧ (if j = 0 then 1 / 4 else 3 / 4 : ℝ) < 1 := by
    intro j; split_ifs <;> norm_num
  obtain ⟨y, law, S, e, s1, s2⟩ := C127_fsk_spectrogram 16 8 2 (fun j => if j = 0 then 1 / 4 else 3 / 4) (by norm_num) (by norm_num) hd
    ⟨2, fun m => if m = 0 then 5 else 13⟩ 16 1 ⟨3, fun _ => 1⟩ (fun _ => 1) (Or.inl rfl) (by norm_num) le_rfl
    (by have h := roundEven_half 16; rw [h]; norm_num) (fun _ => by simp) (fun _ => one_pos)
  obtain ⟨y', law', e', hlen, -, -, -, -, hval, -⟩ := C19_anafsk 16 8 2 (fun j => if j = 0 then 1 / 4 else 3 / 4) (by norm_num) (by norm_num) hd
  have e'' := e'.symm.trans e
  cases e''
  have hlen' : y.len = 16 := by rw [hlen]
  have l1 : law.get 4 = 3 / 16 := by
    obtain ⟨j, hj, l, a, b, -⟩ := hval 4 (by omega)
    norm_num at a b
    have : j = 0 := by
      have : (j : ℝ) < 1 := by linarith
      have : j < 1 := by exact_mod_cast this
      omega
    rw [l, this]; norm_num
  have l2 : law.get 12 = 5 / 16 := by
    obtain ⟨j, hj, l, a, b, -⟩ := hval 12 (by omega)
    norm_num at a b
    have : j = 1 := by
      have : (0 : ℝ) < j := by linarith
      have : 0 < j := by exact_mod_cast this
      omega
    rw [l, this]; norm_num
  have hk : ∀ (k : ℕ) (a : ℕ), (a : ℝ) / 16 = (k : ℝ) / ((16 : ℕ) : ℝ) ↔ k = a := by
    intro k a
    push_cast
    constructor
    · intro h
      have : (k : ℝ) = a := by linarith
      exact_mod_cast this
    · rintro rfl; rfl
  refine ⟨y, law, S, e, s1, l1, l2, fun k hk' => ?_, fun k hk' => ?_⟩
  · have := s2 0 (by norm_num) 4 (by norm_num) (by norm_num) (by omega) (by norm_num) k hk'
    rw [l1] at this
    have hv : (∑ i ∈ range (2 * 1 + 1), (1 : ℝ)) ^ 2 / ∑ i ∈ range (2 * 1 + 1), (1 : ℝ) ^ 2 = 3 := by norm_num
    rw [hv] at this
    exact ⟨this.1, this.2.trans (by have := hk k 3; push_cast at this ⊢; exact this)⟩
  · have := s2 1 (by norm_num) 12 (by norm_num) (by norm_num) (by omega) (by norm_num) k hk'
    rw [l2] at this
    have hv : (∑ i ∈ range (2 * 1 + 1), (1 : ℝ)) ^ 2 / ∑ i ∈ range (2 * 1 + 1), (1 : ℝ) ^ 2 = 3 := by norm_num
    rw [hv] at this
    exact ⟨this.1, this.2.trans (by have := hk k 5; push_cast at this ⊢; exact this)⟩

end Tftb.Props
