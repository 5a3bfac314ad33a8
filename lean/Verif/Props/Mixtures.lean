import Verif.Props.AnalyticFreq
import Verif.Props.GenUtils

/-! # C137 — centres and spreads of sums of signals -/

namespace Tftb.Props

open Tftb Tftb.Spec Tftb.TF Tftb.GenUtils Finset

/-- Mean and squared spread of a sum of two weights. -/
theorem wmean_wvar_mix {n : ℕ} {p w v u : ℕ → ℝ} {E F : ℝ} (hu : ∀ i < n, u i = w i + v i) (hE : ∑ i ∈ range n, w i = E) (hF : ∑ i ∈ range n, v i = F)
    (hE0 : 0 < E) (hF0 : 0 < F) :
    wmean n p u = (E * wmean n p w + F * wmean n p v) / (E + F) ∧
    wvar n p u = (E * wvar n p w + F * wvar n p v) / (E + F) + E * F / (E + F) ^ 2 * (wmean n p w - wmean n p v) ^ 2 := by
  have hsum : ∀ g : ℕ → ℝ, ∑ i ∈ range n, g i * u i = ∑ i ∈ range n, g i * w i + ∑ i ∈ range n, g i * v i := by
    intro g
    rw [← Finset.sum_add_distrib]
    exact Finset.sum_congr rfl fun i hi => by rw [hu i (Finset.mem_range.1 hi)]; ring
  have hU : ∑ i ∈ range n, u i = E + F := by
    have := hsum fun _ => 1
    simp only [one_mul] at this
    rw [this, hE, hF]
  have hp : 0 < E + F := by positivity
  have m : wmean n p u = (E * wmean n p w + F * wmean n p v) / (E + F) := by
    unfold wmean
    rw [hsum, hU, hE, hF]
    field_simp
  refine ⟨m, ?_⟩
  rw [wvar_eq (w := u) (by rw [hU]; exact hp.ne'), wvar_eq (w := w) (by rw [hE]; exact hE0.ne'), wvar_eq (w := v) (by rw [hF]; exact hF0.ne'), m, hU, hE, hF,
    hsum fun i => p i ^ 2]
  field_simp
  ring

theorem wvar_nonneg {n : ℕ} {p w : ℕ → ℝ} (hw : ∀ i, 0 ≤ w i) : 0 ≤ wvar n p w :=
  div_nonneg (Finset.sum_nonneg fun i _ => mul_nonneg (sq_nonneg _) (hw i)) (Finset.sum_nonneg fun i _ => hw i)

/-- The squared spread as `loctime` and `locfreq` return it. -/
theorem spread_sq {n : ℕ} {p w : ℕ → ℝ} (hw : ∀ i, 0 ≤ w i) : (2 * Real.sqrt (Real.pi * wvar n p w)) ^ 2 = 4 * Real.pi * wvar n p w := by
  have := wvar_nonneg (n := n) (p := p) hw
  rw [mul_pow, Real.sq_sqrt (by have := Real.pi_pos; positivity)]
  ring

theorem energy_pos' {x : Vec ℂ} (h : energy x ≠ 0) : 0 < energy x := lt_of_le_of_ne (Finset.sum_nonneg fun _ _ => by positivity) h.symm

/-- **Signals one after the other.**  Two signals of energies `E` and `F` that are nowhere both different from zero: the centre of the sum is the mean of the two centres
weighted by the energies, and its squared duration the weighted mean of the two plus `4π E F / (E+F)²` times the squared distance of the centres. -/
theorem C137_time (x y z : Vec ℂ) (hy : y.len = x.len) (hz : z.len = x.len) (hsum : ∀ i < x.len, z.get i = x.get i + y.get i)
    (hdis : ∀ i < x.len, x.get i = 0 ∨ y.get i = 0) (hx0 : energy x ≠ 0) (hy0 : energy y ≠ 0) :
    ∃ a S b T c U : ℝ, loctime x = .ok (a, S) ∧ loctime y = .ok (b, T) ∧ loctime z = .ok (c, U) ∧ 0 ≤ U ∧
      c = (energy x * a + energy y * b) / (energy x + energy y) ∧
      U ^ 2 = (energy x * S ^ 2 + energy y * T ^ 2) / (energy x + energy y) + 4 * Real.pi * (energy x * energy y / (energy x + energy y) ^ 2) * (a - b) ^ 2 := by
  have hw : ∀ i < x.len, ‖z.get i‖ ^ 2 = ‖x.get i‖ ^ 2 + ‖y.get i‖ ^ 2 := by
    intro i hi
    rw [hsum i hi]
    rcases hdis i hi with h | h <;> rw [h] <;> simp
  have hEx := energy_pos' hx0
  have hEy := energy_pos' hy0
  have hEz : energy z = energy x + energy y := by
    unfold energy
    rw [hz, hy, ← Finset.sum_add_distrib]
    exact Finset.sum_congr rfl fun i hi => hw i (Finset.mem_range.1 hi)
  have lx := C44_loctime x hx0
  have ly := C44_loctime y hy0
  have lz := C44_loctime z (by rw [hEz]; positivity)
  rw [hy] at ly
  rw [hz] at lz
  obtain ⟨m1, m2⟩ := wmean_wvar_mix (p := fun i => (i : ℝ)) hw (E := energy x) (F := energy y) rfl (by unfold energy; rw [hy]) hEx hEy
  refine ⟨_, _, _, _, _, _, lx, ly, lz, by positivity, m1, ?_⟩
  rw [spread_sq fun _ => by positivity, spread_sq fun _ => by positivity, spread_sq fun _ => by positivity, m2]
  ring

/-- **Signals in different bands.**  The same for `locfreq` and two signals no bin of which holds energy of both. -/
theorem C137_freq (x y z : Vec ℂ) (hN : x.len % 4 ≠ 1) (hy : y.len = x.len) (hz : z.len = x.len) (hsum : ∀ i < x.len, z.get i = x.get i + y.get i)
    (hdis : ∀ k < x.len, dft x k = 0 ∨ dft y k = 0) (hx0 : energy x ≠ 0) (hy0 : energy y ≠ 0) :
    ∃ a S b T c U : ℝ, locfreq x = .ok (a, S) ∧ locfreq y = .ok (b, T) ∧ locfreq z = .ok (c, U) ∧ 0 ≤ U ∧
      c = (energy x * a + energy y * b) / (energy x + energy y) ∧
      U ^ 2 = (energy x * S ^ 2 + energy y * T ^ 2) / (energy x + energy y) + 4 * Real.pi * (energy x * energy y / (energy x + energy y) ^ 2) * (a - b) ^ 2 ∧
      energy z = energy x + energy y := by
  have hn : x.len ≠ 0 := by
    intro h; apply hx0; unfold energy; rw [h]; simp
  have hn' : (0 : ℝ) < x.len := by exact_mod_cast Nat.pos_of_ne_zero hn
  have hd : ∀ k : ℕ, dft z k = dft x k + dft y k := by
    intro k
    rw [dft_eq_dftC, dft_eq_dftC, dft_eq_dftC, hz, hy, ← dftC_add]
    exact dftC_congr (fun i hi => hsum i hi) _
  have hw : ∀ k < x.len, ‖dft z k‖ ^ 2 = ‖dft x k‖ ^ 2 + ‖dft y k‖ ^ 2 := by
    intro k hk
    rw [hd]
    rcases hdis k hk with h | h <;> rw [h] <;> simp
  have hEx := energy_pos' hx0
  have hEy := energy_pos' hy0
  obtain ⟨px, qx⟩ := energy_pos_dft hx0
  obtain ⟨py, qy⟩ := energy_pos_dft hy0
  rw [hy] at py qy
  have hEz : energy z = energy x + energy y := by
    have h := parseval (n := z.len) (by rw [hz]; exact hn) z.get
    simp only [← dft_eq_dftC] at h
    rw [hz, Finset.sum_congr rfl fun k hk => hw k (Finset.mem_range.1 hk), Finset.sum_add_distrib, px, py, ← mul_add] at h
    have := mul_left_cancel₀ hn'.ne' h
    rw [this]
    unfold energy
    rw [hz]
  have lx := C45_locfreq x hN hx0
  have ly := C45_locfreq y (by rw [hy]; exact hN) hy0
  have lz := C45_locfreq z (by rw [hz]; exact hN) (by rw [hEz]; positivity)
  rw [hy] at ly
  rw [hz] at lz
  obtain ⟨m1, m2⟩ := wmean_wvar_mix (p := binFreq x.len) hw px py (by positivity) (by positivity)
  refine ⟨_, _, _, _, _, _, lx, ly, lz, by positivity, ?_, ?_, hEz⟩
  · rw [m1]
    field_simp
  · rw [spread_sq fun _ => by positivity, spread_sq fun _ => by positivity, spread_sq fun _ => by positivity, m2]
    field_simp

/-- **sigmerge.**  Two signals mixed at a ratio of `r` dB, `ρ = 10^(r/10)`: nowhere both different from zero, or in different bands. -/
theorem C137_sigmerge (x y : Vec ℂ) (r : ℝ) (hy : y.len = x.len) (hx0 : energy x ≠ 0) (hy0 : energy y ≠ 0) (ρ : ℝ) (hρ : ρ = (10 : ℝ) ^ (r / 10)) :
    ∃ z, sigmerge x y r = .ok z ∧
      ((∀ i < x.len, x.get i = 0 ∨ y.get i = 0) → ∃ a S b T U : ℝ, loctime x = .ok (a, S) ∧ loctime y = .ok (b, T) ∧
        loctime z = .ok ((ρ * a + b) / (ρ + 1), U) ∧ 0 ≤ U ∧ U ^ 2 = (ρ * S ^ 2 + T ^ 2) / (ρ + 1) + 4 * Real.pi * (ρ / (ρ + 1) ^ 2) * (a - b) ^ 2) ∧
      (x.len % 4 ≠ 1 → (∀ k < x.len, dft x k = 0 ∨ dft y k = 0) → ∃ a S b T U : ℝ, locfreq x = .ok (a, S) ∧ locfreq y = .ok (b, T) ∧
        locfreq z = .ok ((ρ * a + b) / (ρ + 1), U) ∧ 0 ≤ U ∧ U ^ 2 = (ρ * S ^ 2 + T ^ 2) / (ρ + 1) + 4 * Real.pi * (ρ / (ρ + 1) ^ 2) * (a - b) ^ 2) := by
  obtain ⟨z, h, hz, hzl, h0, h1, hget, hen⟩ := C17_sigmerge x y r hy.symm hy0
  have hh := h1 hx0
  have hρ0 : 0 < ρ := by rw [hρ]; positivity
  rw [← hρ] at hen
  set y' := y.map (fun v => (h : ℂ) * v) with hy'
  have hhc : (h : ℂ) ≠ 0 := Complex.ofReal_ne_zero.2 hh.ne'
  have hyl : y'.len = x.len := hy
  have hy'0 : energy y' ≠ 0 := by
    intro hc
    rw [hc, mul_zero] at hen
    exact hx0 hen
  have hF := energy_pos' hy'0
  refine ⟨z, hz, fun hdis => ?_, fun hN hdis => ?_⟩
  · obtain ⟨a, S, b, T, c, U, e1, e2, e3, e4, e5, e6⟩ := C137_time x y' z hyl hzl hget (fun i hi => (hdis i hi).imp_right fun e => by
      show (h : ℂ) * y.get i = 0
      rw [e, mul_zero]) hx0 hy'0
    refine ⟨a, S, b, T, U, e1, by rw [← e2, hy', C44_scale y h hhc], ?_, e4, ?_⟩
    · rw [e3, e5, hen]
      congr 2
      field_simp
    · rw [e6, hen]
      field_simp
  · have hd : ∀ k : ℕ, dft y' k = (h : ℂ) * dft y k := by
      intro k
      rw [dft_eq_dftC, dft_eq_dftC, ← dftC_smul]
      rfl
    obtain ⟨a, S, b, T, c, U, e1, e2, e3, e4, e5, e6, _⟩ := C137_freq x y' z hN hyl hzl hget (fun k hk => (hdis k hk).imp_right fun e => by
      rw [hd, e, mul_zero]) hx0 hy'0
    refine ⟨a, S, b, T, U, e1, by rw [← e2, hy', C45_scale y h hhc (by rw [hy]; exact hN) hy0], ?_, e4, ?_⟩
    · rw [e3, e5, hen]
      congr 2
      field_simp
    · rw [e6, hen]
      field_simp

/-- Two impulses of different height, 10 dB apart: whatever the heights are, the centre lies at one eleventh of their distance. -/
example (u v : ℂ) (hu : u ≠ 0) (hv : v ≠ 0) : ∃ (z : Vec ℂ) (U : ℝ), sigmerge ⟨12, fun i => if i = 0 then u else 0⟩ ⟨12, fun i => if i = 11 then v else 0⟩ 10 = .ok z ∧
    loctime z = .ok (1, U) ∧ U ^ 2 = 40 * Real.pi := by
  set x : Vec ℂ := ⟨12, fun i => if i = 0 then u else 0⟩
  set y : Vec ℂ := ⟨12, fun i => if i = 11 then v else 0⟩
  have lx : loctime x = .ok (((0 : ℕ) : ℝ), 0) := C44_impulse x 0 (by norm_num [x]) (by simpa [x] using hu) fun i _ h => by simp [x, h]
  have ly : loctime y = .ok (((11 : ℕ) : ℝ), 0) := C44_impulse y 11 (by norm_num [y]) (by simpa [y] using hv) fun i _ h => by simp [y, h]
  have hx0 : energy x ≠ 0 := by
    intro h
    rw [C44_loctime_zero x h] at lx
    cases lx
  have hy0 : energy y ≠ 0 := by
    intro h
    rw [C44_loctime_zero y h] at ly
    cases ly
  obtain ⟨z, hz, ht, _⟩ := C137_sigmerge x y 10 rfl hx0 hy0 10 (by norm_num)
  obtain ⟨a, S, b, T, U, e1, e2, e3, _, e4⟩ := ht fun i _ => by
    by_cases h : i = 0
    · right; simp [y, h]
    · left; simp [x, h]
  rw [lx] at e1
  rw [ly] at e2
  injection e1 with e1
  injection e1 with e1 e1'
  injection e2 with e2
  injection e2 with e2 e2'
  subst e1 e1' e2 e2'
  refine ⟨z, U, hz, ?_, ?_⟩
  · rw [e3]
    norm_num
  · rw [e4]
    norm_num
    ring

/-- Two tones on different bins of 16 samples at 0 dB: the centre lies in the middle of their frequencies. -/
example : ∃ (z : Vec ℂ) (U : ℝ), sigmerge ⟨16, fun j => expi (2 * Real.pi * ((2 : ℕ) * j / (16 : ℕ)))⟩ ⟨16, fun j => expi (2 * Real.pi * ((4 : ℕ) * j / (16 : ℕ)))⟩ 0 = .ok z ∧
    locfreq z = .ok (3 / 16, U) := by
  set x : Vec ℂ := ⟨16, fun j => expi (2 * Real.pi * ((2 : ℕ) * j / (16 : ℕ)))⟩
  set y : Vec ℂ := ⟨16, fun j => expi (2 * Real.pi * ((4 : ℕ) * j / (16 : ℕ)))⟩
  have lx := C45_tone 16 2 1 one_ne_zero (by norm_num) (by norm_num)
  have ly := C45_tone 16 4 1 one_ne_zero (by norm_num) (by norm_num)
  simp only [one_mul] at lx ly
  have hE : ∀ g : ℕ → ℝ, energy (⟨16, fun j => expi (g j)⟩ : Vec ℂ) ≠ 0 := by
    intro g
    unfold energy
    simp only [norm_expi]
    norm_num
  have hbin : ∀ m : ℕ, m < 16 → ∀ k : ℕ, k < 16 → k ≠ m → dft (⟨16, fun j => expi (2 * Real.pi * (m * j / (16 : ℕ)))⟩ : Vec ℂ) k = 0 := by
    intro m hm k hk hne
    have hget : (⟨16, fun j => expi (2 * Real.pi * (m * j / (16 : ℕ)))⟩ : Vec ℂ).get = fun j : ℕ => 1 * rootPow 16 (-((j : ℤ) * m)) := by
      funext j
      show expi (2 * Real.pi * (m * j / (16 : ℕ))) = _
      rw [rootPow_eq_expi, one_mul]; congr 2; push_cast; ring
    rw [dft_eq_dftC, hget]
    exact (dftC_tone (by norm_num) 1 hm hk).trans (if_neg hne)
  obtain ⟨z, hz, _, hf⟩ := C137_sigmerge x y 0 rfl (hE _) (hE _) 1 (by norm_num)
  obtain ⟨a, S, b, T, U, e1, e2, e3, _, e4⟩ := hf (by norm_num [x]) fun k hk => by
    by_cases h : k = 2
    · right; exact hbin 4 (by norm_num) k hk (by omega)
    · left; exact hbin 2 (by norm_num) k hk h
  have e1' := lx.symm.trans e1
  have e2' := ly.symm.trans e2
  injection e1' with e1'
  injection e1' with e1'
  injection e2' with e2'
  injection e2' with e2'
  refine ⟨z, U, hz, ?_⟩
  rw [e3, ← e1', ← e2']
  norm_num [binFreq]

end Tftb.Props
