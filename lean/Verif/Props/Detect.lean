import Verif.Props.ProcUtils
import Verif.Props.GenUtils
import Verif.Props.Chirp

/-! # C131 — finding a tone in noise with `get_spectrum` -/

namespace Tftb.Props

open Tftb Tftb.Spec Tftb.ProcUtils Tftb.GenUtils Finset

/-- The tone of row `r` of `get_spectrum` for `n` samples: frequency `(r - n // 2) / n`, amplitude and phase `a`. -/
noncomputable def rowTone (n r : ℕ) (a : ℂ) : Vec ℂ := ⟨n, fun j => a * expi (2 * Real.pi * (((r : ℝ) - (n / 2 : ℕ)) / n) * j)⟩

theorem dtft_rowTone (n : ℕ) (hn : n ≠ 0) (r r' : ℕ) (hr : r < n) (hr' : r' < n) (a : ℂ) :
    dtft (rowTone n r a) (((r' : ℝ) - (n / 2 : ℕ)) / n) = if r' = r then a * n else 0 := by
  have hn' : (n : ℝ) ≠ 0 := Nat.cast_ne_zero.2 hn
  unfold dtft rowTone
  simp only
  have hterm : ∀ j ∈ range n, a * expi (2 * Real.pi * (((r : ℝ) - (n / 2 : ℕ)) / n) * j) * expi (-(2 * Real.pi * (((r' : ℝ) - (n / 2 : ℕ)) / n) * j))
      = a * rootPow n ((j : ℤ) * ((r' : ℤ) - r)) := by
    intro j _
    rw [mul_assoc a, ← expi_add, rootPow_eq_expi]
    congr 2
    push_cast
    field_simp
    ring
  rw [Finset.sum_congr rfl hterm, ← Finset.mul_sum, sum_rootPow' hn]
  by_cases h : r' = r
  · rw [if_pos h, if_pos (by rw [h]; simp)]
  · rw [if_neg h, if_neg, mul_zero]
    intro hd
    have := Int.eq_zero_of_abs_lt_dvd hd (by rw [abs_lt]; omega)
    omega

theorem dtft_sum (x y : Vec ℂ) (hl : y.len = x.len) (z : Vec ℂ) (hz : z.len = x.len) (hv : ∀ i < x.len, z.get i = x.get i + y.get i) (ν : ℝ) :
    dtft z ν = dtft x ν + dtft y ν := by
  unfold dtft
  rw [hz, hl, ← Finset.sum_add_distrib]
  exact Finset.sum_congr rfl fun i hi => by rw [hv i (Finset.mem_range.1 hi)]; ring

/-- **Detection.**  A tone of a spectral row disturbed by anything with less than half its energy: the spectrum is largest in the row of the tone, and nowhere
else. -/
theorem C131_detect (n r0 : ℕ) (hr0 : r0 < n) (a : ℂ) (e : Vec ℂ) (he : e.len = n) (hE : energy e < n * ‖a‖ ^ 2 / 2) (y : Vec ℂ) (hy : y.len = n)
    (hv : ∀ i < n, y.get i = (rowTone n r0 a).get i + e.get i) (s : Vec ℝ) (hs : getSpectrum y = .ok s) : ∀ r < n, r ≠ r0 → s.get r < s.get r0 := by
  intro r hr hne
  have hn : n ≠ 0 := by omega
  have hnp : (0 : ℝ) < n := by exact_mod_cast Nat.pos_of_ne_zero hn
  obtain ⟨s', e1, _, e3, _⟩ := C48_spectrum y (by omega)
  rw [hs] at e1
  injection e1 with e1
  subst e1
  obtain ⟨w, f1, f2, f3, f4⟩ := C48_spectrum e (by omega)
  rw [hy] at e3
  rw [he] at f2 f3 f4
  have hsum := dtft_sum (rowTone n r0 a) e he y hy hv
  rw [e3 r hr, e3 r0 hr0, hsum, hsum, dtft_rowTone n hn r0 r hr0 hr, dtft_rowTone n hn r0 r0 hr0 hr0, if_neg hne, if_pos rfl, zero_add]
  set p := ‖dtft e (((r : ℝ) - (n / 2 : ℕ)) / n)‖ with hp
  set q := ‖dtft e (((r0 : ℝ) - (n / 2 : ℕ)) / n)‖ with hq
  have hpq : p ^ 2 + q ^ 2 ≤ n * energy e := by
    rw [← f4, hp, hq, ← f3 r hr, ← f3 r0 hr0]
    unfold Vec.sum
    rw [f2]
    have hsub : ({r, r0} : Finset ℕ) ⊆ range n := by
      intro i hi
      rw [Finset.mem_insert, Finset.mem_singleton] at hi
      rw [Finset.mem_range]; omega
    rw [← Finset.sum_pair hne]
    refine Finset.sum_le_sum_of_subset_of_nonneg hsub fun i hi _ => ?_
    rw [f3 i (Finset.mem_range.1 hi)]
    positivity
  have hb : (p + q) ^ 2 < (n * ‖a‖) ^ 2 := by
    calc (p + q) ^ 2 ≤ 2 * (p ^ 2 + q ^ 2) := by nlinarith [sq_nonneg (p - q)]
      _ ≤ 2 * (n * energy e) := by linarith
      _ < 2 * (n * (n * ‖a‖ ^ 2 / 2)) := by gcongr
      _ = _ := by ring
  have hlt : p + q < n * ‖a‖ := lt_of_pow_lt_pow_left₀ 2 (by positivity) hb
  have htri : n * ‖a‖ - q ≤ ‖a * n + dtft e (((r0 : ℝ) - (n / 2 : ℕ)) / n)‖ := by
    have := norm_sub_le (a * n + dtft e (((r0 : ℝ) - (n / 2 : ℕ)) / n)) (dtft e (((r0 : ℝ) - (n / 2 : ℕ)) / n))
    rw [add_sub_cancel_right, norm_mul, Complex.norm_natCast] at this
    linarith
  have hp0 : 0 ≤ p := norm_nonneg _
  gcongr
  linarith

theorem energy_rowTone (n r : ℕ) (a : ℂ) : energy (rowTone n r a) = n * ‖a‖ ^ 2 := by
  unfold energy rowTone
  simp only [norm_mul, norm_expi, mul_one]
  rw [Finset.sum_const, Finset.card_range, nsmul_eq_mul]

/-- **Signal-to-noise ratio.**  Mixed by `sigmerge` with any noise at more than `10 log₁₀ 2 ≈ 3.01` decibels, for every draw, the tone is found. -/
theorem C131_snr (n r0 : ℕ) (hr0 : r0 < n) (a : ℂ) (ha : a ≠ 0) (e : Vec ℂ) (he : e.len = n) (hE : energy e ≠ 0) (dB : ℝ) (hdB : 2 < (10 : ℝ) ^ (dB / 10)) :
    ∃ (y : Vec ℂ) (s : Vec ℝ), sigmerge (rowTone n r0 a) e dB = .ok y ∧ getSpectrum y = .ok s ∧ s.len = n ∧ ∀ r < n, r ≠ r0 → s.get r < s.get r0 := by
  obtain ⟨y, h, e1, e2, _, _, e5, e6⟩ := C17_sigmerge (rowTone n r0 a) e dB he.symm hE
  have hy : y.len = n := e2
  obtain ⟨s, f1, f2, _⟩ := C48_spectrum y (by omega)
  refine ⟨y, s, e1, f1, by rw [f2, hy], C131_detect n r0 hr0 a (e.map (fun z => (h : ℂ) * z)) he ?_ y hy (fun i hi => e5 i hi) s f1⟩
  rw [energy_rowTone] at e6
  have hnp : (0 : ℝ) < n := by exact_mod_cast (by omega : 0 < n)
  have hpos : 0 < (n : ℝ) * ‖a‖ ^ 2 := by have := norm_pos_iff.2 ha; positivity
  set F := energy (e.map (fun z => (h : ℂ) * z)) with hF
  by_contra hc
  have hc := not_lt.1 hc
  have : 0 < F := by linarith
  have h2 : 2 * F < (10 : ℝ) ^ (dB / 10) * F := by gcongr
  linarith

/-- The same in terms of the generator: a tone made by `fmconst` at the frequency of row `r0`, whatever its centre, under any noise. -/
theorem C131_fmconst (n r0 : ℕ) (hr0 : r0 < n) (t0 : Option ℝ) (x : Vec ℂ) (law : Vec ℝ) (hx : FM.fmconst n (((r0 : ℝ) - (n / 2 : ℕ)) / n) t0 = .ok (x, law))
    (e : Vec ℂ) (he : e.len = n) (hE : energy e ≠ 0) (dB : ℝ) (hdB : 2 < (10 : ℝ) ^ (dB / 10)) :
    ∃ (y : Vec ℂ) (s : Vec ℝ), sigmerge x e dB = .ok y ∧ getSpectrum y = .ok s ∧ s.len = n ∧ ∀ r < n, r ≠ r0 → s.get r < s.get r0 := by
  obtain ⟨_, h2, _, A, hA, hc⟩ := C77_fmconst_tone _ _ _ _ _ hx
  have hxl : x.len = n := by exact_mod_cast h2
  have hxv : ∀ i < n, x.get i = (rowTone n r0 A).get i := by
    intro i hi
    rw [hc i (by omega)]
    simp only [rowTone]
    congr 2
    ring
  have hEx : energy x = n * ‖A‖ ^ 2 := by
    rw [← energy_rowTone n r0 A]
    unfold energy
    rw [hxl]
    exact Finset.sum_congr rfl fun i hi => by rw [hxv i (Finset.mem_range.1 hi)]
  obtain ⟨y, h, e1, e2, _, _, e5, e6⟩ := C17_sigmerge x e dB (by omega) hE
  have hy : y.len = n := by omega
  obtain ⟨s, f1, f2, _⟩ := C48_spectrum y (by omega)
  refine ⟨y, s, e1, f1, by rw [f2, hy], C131_detect n r0 hr0 A (e.map (fun z => (h : ℂ) * z)) he ?_ y hy
    (fun i hi => by rw [← hxv i hi]; exact e5 i (by omega)) s f1⟩
  rw [hEx] at e6
  have hnp : (0 : ℝ) < n := by exact_mod_cast (by omega : 0 < n)
  have hpos : 0 < (n : ℝ) * ‖A‖ ^ 2 := by have := norm_pos_iff.2 hA; positivity
  set F := energy (e.map (fun z => (h : ℂ) * z)) with hF
  by_contra hc
  have hc := not_lt.1 hc
  have : 0 < F := by linarith
  have h2 : 2 * F < (10 : ℝ) ^ (dB / 10) * F := by gcongr
  linarith

/-- **The threshold is exact.**  With half the energy of the tone there is a disturbance that makes another row, any other row, as large. -/
theorem C131_sharp (n r0 r1 : ℕ) (hr0 : r0 < n) (hr1 : r1 < n) (hne : r1 ≠ r0) (a : ℂ) : ∃ (e y : Vec ℂ) (s : Vec ℝ), e.len = n ∧ y.len = n ∧
    energy e = n * ‖a‖ ^ 2 / 2 ∧ (∀ i < n, y.get i = (rowTone n r0 a).get i + e.get i) ∧ getSpectrum y = .ok s ∧ s.get r1 = s.get r0 := by
  have hn : n ≠ 0 := by omega
  have hnp : (0 : ℝ) < n := by exact_mod_cast Nat.pos_of_ne_zero hn
  let e : Vec ℂ := ⟨n, fun i => (rowTone n r0 (-a / 2)).get i + (rowTone n r1 (a / 2)).get i⟩
  let y : Vec ℂ := ⟨n, fun i => (rowTone n r0 a).get i + e.get i⟩
  obtain ⟨s, f1, f2, f3, _⟩ := C48_spectrum y hn
  obtain ⟨w, g1, g2, g3, g4⟩ := C48_spectrum e hn
  have hde : ∀ r < n, dtft e (((r : ℝ) - (n / 2 : ℕ)) / n) = (if r = r0 then -a / 2 * n else 0) + (if r = r1 then a / 2 * n else 0) := by
    intro r hr
    rw [dtft_sum (rowTone n r0 (-a / 2)) (rowTone n r1 (a / 2)) rfl e rfl (fun i _ => rfl), dtft_rowTone n hn r0 r hr0 hr, dtft_rowTone n hn r1 r hr1 hr]
  have hdy : ∀ r < n, dtft y (((r : ℝ) - (n / 2 : ℕ)) / n) = (if r = r0 then a * n else 0) + ((if r = r0 then -a / 2 * n else 0) + (if r = r1 then a / 2 * n else 0)) := by
    intro r hr
    rw [dtft_sum (rowTone n r0 a) e rfl y rfl (fun i _ => rfl), hde r hr, dtft_rowTone n hn r0 r hr0 hr]
  refine ⟨e, y, s, rfl, rfl, ?_, fun i _ => rfl, f1, ?_⟩
  · have hw : w.sum = 2 * (‖a‖ / 2 * n) ^ 2 := by
      unfold Vec.sum
      rw [g2]
      have hval : ∀ r ∈ range n, w.get r = (if r = r0 then (‖a‖ / 2 * n) ^ 2 else 0) + (if r = r1 then (‖a‖ / 2 * n) ^ 2 else 0) := by
        intro r hr
        have hr := Finset.mem_range.1 hr
        rw [g3 r hr]
        show ‖dtft e (((r : ℝ) - (n / 2 : ℕ)) / n)‖ ^ 2 = _
        rw [hde r hr]
        by_cases h0 : r = r0
        · rw [if_pos h0, if_neg (by omega), if_pos h0, if_neg (by omega), add_zero, add_zero, norm_mul, norm_div, norm_neg, Complex.norm_natCast]
          norm_num
        · by_cases h1 : r = r1
          · rw [if_neg h0, if_pos h1, if_neg h0, if_pos h1, zero_add, zero_add, norm_mul, norm_div, Complex.norm_natCast]
            norm_num
          · rw [if_neg h0, if_neg h1, if_neg h0, if_neg h1]
            simp
      show ∑ i ∈ range n, w.get i = _
      rw [Finset.sum_congr rfl hval, Finset.sum_add_distrib, Finset.sum_ite_eq' _ r0, Finset.sum_ite_eq' _ r1, if_pos (Finset.mem_range.2 hr0),
        if_pos (Finset.mem_range.2 hr1)]
      ring
    rw [hw] at g4
    have g4' : 2 * (‖a‖ / 2 * n) ^ 2 = n * energy e := g4
    have : (n : ℝ) * energy e = n * (n * ‖a‖ ^ 2 / 2) := by rw [← g4']; ring
    exact mul_left_cancel₀ hnp.ne' this
  · rw [f3 r1 hr1, f3 r0 hr0]
    show ‖dtft y (((r1 : ℝ) - (n / 2 : ℕ)) / n)‖ ^ 2 = ‖dtft y (((r0 : ℝ) - (n / 2 : ℕ)) / n)‖ ^ 2
    rw [hdy r1 hr1, hdy r0 hr0, if_neg hne, if_neg hne, if_pos rfl, if_pos rfl, if_pos rfl, if_neg (Ne.symm hne)]
    congr 2
    ring

/-- **Two tones of spectral rows.**  `sigmerge` at `dB` decibels: the row of the first holds `n²` times its power, the row of the second `10^(-dB/10)` of that,
and every other row nothing; so the larger one is the first exactly when `dB > 0`. -/
theorem C131_two_tones (n r0 r1 : ℕ) (hr0 : r0 < n) (hr1 : r1 < n) (hne : r1 ≠ r0) (a b : ℂ) (ha : a ≠ 0) (hb : b ≠ 0) (dB : ℝ) :
    ∃ (y : Vec ℂ) (s : Vec ℝ), sigmerge (rowTone n r0 a) (rowTone n r1 b) dB = .ok y ∧ getSpectrum y = .ok s ∧ s.len = n ∧
      s.get r0 = (n * ‖a‖) ^ 2 ∧ s.get r1 = (n * ‖a‖) ^ 2 * (10 : ℝ) ^ (-dB / 10) ∧ (∀ r < n, r ≠ r0 → r ≠ r1 → s.get r = 0) ∧
      (s.get r1 < s.get r0 ↔ 0 < dB) := by
  have hn : n ≠ 0 := by omega
  have hnp : (0 : ℝ) < n := by exact_mod_cast Nat.pos_of_ne_zero hn
  have hap := norm_pos_iff.2 ha
  have hbp := norm_pos_iff.2 hb
  have hEb : energy (rowTone n r1 b) ≠ 0 := by rw [energy_rowTone]; positivity
  obtain ⟨y, h, e1, e2, e3, _, e5, e6⟩ := C17_sigmerge (rowTone n r0 a) (rowTone n r1 b) dB rfl hEb
  have hy : y.len = n := e2
  obtain ⟨s, f1, f2, f3, _⟩ := C48_spectrum y (by omega)
  rw [hy] at f3
  have hd : ∀ r < n, dtft y (((r : ℝ) - (n / 2 : ℕ)) / n) = (if r = r0 then a * n else 0) + (if r = r1 then (h : ℂ) * b * n else 0) := by
    intro r hr
    rw [dtft_sum (rowTone n r0 a) (rowTone n r1 ((h : ℂ) * b)) rfl y hy (fun i hi => by rw [e5 i hi]; simp only [rowTone]; ring),
      dtft_rowTone n hn r0 r hr0 hr, dtft_rowTone n hn r1 r hr1 hr]
  have s0 : s.get r0 = (n * ‖a‖) ^ 2 := by
    rw [f3 r0 hr0, hd r0 hr0, if_pos rfl, if_neg (Ne.symm hne), add_zero, norm_mul, Complex.norm_natCast, mul_comm]
  have hpow : (10 : ℝ) ^ (-dB / 10) * (10 : ℝ) ^ (dB / 10) = 1 := by
    rw [← Real.rpow_add (by norm_num), show -dB / 10 + dB / 10 = 0 by ring, Real.rpow_zero]
  have hh : h ^ 2 * ‖b‖ ^ 2 = ‖a‖ ^ 2 * (10 : ℝ) ^ (-dB / 10) := by
    rw [energy_smul, energy_rowTone, energy_rowTone] at e6
    have h1 : ‖a‖ ^ 2 = (10 : ℝ) ^ (dB / 10) * (h ^ 2 * ‖b‖ ^ 2) := by
      refine mul_left_cancel₀ hnp.ne' ?_
      rw [e6]; ring
    rw [h1]
    calc h ^ 2 * ‖b‖ ^ 2 = ((10 : ℝ) ^ (-dB / 10) * (10 : ℝ) ^ (dB / 10)) * (h ^ 2 * ‖b‖ ^ 2) := by rw [hpow, one_mul]
      _ = _ := by ring
  have s1 : s.get r1 = (n * ‖a‖) ^ 2 * (10 : ℝ) ^ (-dB / 10) := by
    rw [f3 r1 hr1, hd r1 hr1, if_neg hne, if_pos rfl, zero_add, norm_mul, norm_mul, Complex.norm_natCast, Complex.norm_real, Real.norm_eq_abs, mul_pow, mul_pow,
      sq_abs, hh]
    ring
  refine ⟨y, s, e1, f1, by rw [f2, hy], s0, s1, fun r hr h0 h1 => ?_, ?_⟩
  · rw [f3 r hr, hd r hr, if_neg h0, if_neg h1]
    simp
  · rw [s0, s1, mul_lt_iff_lt_one_right (by positivity), Real.rpow_lt_one_iff_of_pos (by norm_num)]
    constructor
    · rintro (⟨_, h⟩ | ⟨h, _⟩)
      · linarith
      · norm_num at h
    · intro h
      exact .inl ⟨by norm_num, by linarith⟩

/-- 5 dB are enough, 16 samples of a tone at 1/8 (row 10). -/
example (e : Vec ℂ) (he : e.len = 16) (hE : energy e ≠ 0) : ∃ (y : Vec ℂ) (s : Vec ℝ), sigmerge (rowTone 16 10 1) e 5 = .ok y ∧ getSpectrum y = .ok s ∧ s.len = 16 ∧
    ∀ r < 16, r ≠ 10 → s.get r < s.get 10 := by
  refine C131_snr 16 10 (by norm_num) 1 one_ne_zero e he hE 5 ?_
  rw [show (5 / 10 : ℝ) = 1 / 2 by norm_num, ← Real.sqrt_eq_rpow]
  exact Real.lt_sqrt_of_sq_lt (by norm_num)

end Tftb.Props
