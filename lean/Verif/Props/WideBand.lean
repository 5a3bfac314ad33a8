import Verif.Lemmas.WideBand
import Verif.Props.Scalogram
import Verif.Props.AffineBand
import Verif.Props.Utils

/-! # C57: the wide-band ambiguity function -/

namespace Tftb.Props

open Finset Spec WideBand

theorem ratioCheck_ok {a b : ℝ} (h0 : 0 < a) (hb : 0 < b) (np : Bool) (N : ℕ) : ratioCheck np a b N = .ok () := by
  unfold ratioCheck
  rw [if_neg (fun h => hb.ne' h.2), if_neg (by rintro ⟨-, h | h⟩; exacts [h0.ne' h, absurd h (not_le.2 (div_pos hb h0))])]

theorem voiceCount_eq {a b : ℝ} (h0 : 0 < a) (hb : 0 < b) (h1 : a ≠ b) (np : Bool) (T : ℤ) (N? : Option ℕ) :
    voiceCount np T a b N? = (match N? with
      | some N => .ok N
      | none => do
        let p ← Utils.nextpow2 (⌈b * T * Real.log (b / a)⌉ - ⌈b * T * Real.log (b / a)⌉ % 2)
        .ok (2 ^ p.toNat)) := by
  have hs : a + b ≠ 0 := by positivity
  have hB : b - a ≠ 0 := sub_ne_zero.2 h1.symm
  have e1 : 1 - (b - a) / ((a + b) / 2) / 2 = 2 * a / (a + b) := by field_simp; ring
  have e2 : 1 + (b - a) / ((a + b) / 2) / 2 = 2 * b / (a + b) := by field_simp; ring
  have e3 : 2 * b / (a + b) / (2 * a / (a + b)) = b / a := by field_simp
  have e4 : (b - a) * (T : ℝ) * (1 + 2 / ((b - a) / ((a + b) / 2))) * Real.log (b / a) / 2 = b * T * Real.log (b / a) := by
    field_simp
    ring
  unfold voiceCount
  simp only
  rw [e1, e2, e3, e4, if_neg (by push Not; exact fun _ => ⟨hs, div_ne_zero hB (by positivity), by positivity⟩)]
  rcases N? with _ | N
  · exact if_neg (by push Not; exact ⟨hs, div_ne_zero hB (by positivity), by positivity, div_pos hb h0⟩)
  · rfl

/-- Index, in the array before the two halves are exchanged, of the row that normalises: the last one for an even number of voices, the
first one (no dilation) for an odd one. -/
def refRow (N : ℕ) : ℕ := if N % 2 = 0 then N - 1 else 0

theorem halfBins_lt {n : ℕ} (hn : 1 ≤ n) : halfBins n < n := by unfold halfBins; split <;> omega

theorem roundEven_halfBins (n : ℕ) : roundEven ((n : ℝ) / 2) = (halfBins n : ℤ) := by
  rw [roundEven_half]
  unfold halfBins
  split <;> omega

theorem wafAt_congr {z z' : Vec ℂ} (hl : z'.len = z.len) (h : ∀ t < z.len, z'.get t = z.get t) (m N : ℕ) (a b : ℝ) (r i : ℕ) :
    wafAt z' m N a b r i = wafAt z m N a b r i := by
  have hs : ∀ f, spectrumAt z' m f = spectrumAt z m f := fun f => by
    unfold spectrumAt
    rw [hl]
    exact Finset.sum_congr rfl (fun t ht => by rw [h t (mem_range.1 ht)])
  unfold wafAt
  simp only [hs]

/-- What `wide_band` does once the band is known. -/
noncomputable def afterBand (x z : Vec ℂ) (fmin fmax : ℝ) (np : Bool) (N? : Option ℕ) : Py (Mat ℂ × Vec ℤ × Vec ℝ) := do
  let N ← voiceCount np ((x.len : ℤ) - 1) fmin fmax N?
  let _ ← ratioCheck np fmin fmax N
  let waf ← transform z (halfBins x.len) fmin fmax N
  let scale ← Aff.logspace (fmin / fmax) (fmax / fmin) N
  let theta := scale.map Real.log
  let z2 ← hilbert (z.map Complex.re)
  let SP ← fft z2
  let indmin := 1 + roundEven (fmin * ((x.len : ℝ) - 2))
  let indmax := 1 + roundEven (fmax * ((x.len : ℝ) - 2))
  let spAna := SP.slice (indmin - 1) indmax
  let no2 : ℤ := ((N : ℤ) + (N : ℤ) % 2) / 2
  let ref ← waf.item (no2 - 1) ((halfBins x.len : ℤ) - 1)
  if ref = 0 then .error .nonFinite
  else .ok (waf.map (fun v => v * ((spAna.norm ^ 2 : ℝ) / ref / N)), (arange 0 x.len).map (fun j => j - (halfBins x.len : ℤ)), theta)

theorem wideBand_eq {x z : Vec ℂ} (hz : hilbert (realPart x) = .ok z) (a? b? : Option ℝ) (N? : Option ℕ) :
    wideBand x a? b? N? = (band z (halfBins x.len) a? b? >>= fun r => afterBand x z r.1 r.2.1 r.2.2 N?) := by
  unfold wideBand
  simp only
  rw [show x.map Complex.re = realPart x from rfl, hz, ok_bind, roundEven_halfBins]
  rfl

theorem wideBand_given {x z : Vec ℂ} (hz : hilbert (realPart x) = .ok z) (a b : ℝ) (N? : Option ℕ) :
    wideBand x (some a) (some b) N? = afterBand x z a b false N? := wideBand_eq hz _ _ _

theorem afterBand_entries (x : Vec ℂ) (hn : 2 ≤ x.len) (z z' : Vec ℂ) (hz : IsAnalytic (realPart x) z) (hz' : IsAnalytic (realPart x) z')
    (hh : hilbert (realPart x) = .ok z') (a b : ℝ) (h0 : 0 < a) (hb : 0 < b) (h2 : b ≤ 1) (N : ℕ) (hN : 2 ≤ N) (np : Bool)
    (hv : voiceCount np ((x.len : ℤ) - 1) a b (some N) = .ok N) :
    let m := halfBins x.len
    let ref := wafAt z m N a b (refRow N) (m - 1)
    let E := ∑ k ∈ Finset.Icc (bandBin' x.len a) (bandBin' x.len b), ‖dft z k‖ ^ 2
    (ref = 0 → afterBand x z' a b np (some N) = .error .nonFinite) ∧
    (ref ≠ 0 → ∃ (W : Mat ℂ) (τ : Vec ℤ) (θ : Vec ℝ), afterBand x z' a b np (some N) = .ok (W, τ, θ) ∧
      W.rows = N ∧ W.cols = x.len ∧
      τ.len = x.len ∧ (∀ i, τ.get i = (i : ℤ) - m) ∧
      θ.len = N ∧ (∀ r, θ.get r = (2 * r / ((N : ℝ) - 1) - 1) * Real.log (b / a)) ∧
      ∀ r < N, ∀ i < x.len, W.get r i = wafAt z m N a b ((r + (N + 1) / 2) % N) i * ((E : ℂ) / ref / N)) := by
  intro m ref E
  have hzl : z.len = x.len := hz.len
  have hml : m < x.len := halfBins_lt (by omega)
  have hm1 : 1 ≤ m := halfBins_pos hn
  obtain ⟨-, hu⟩ := isAnalytic_unique hz' hz
  have hzl' : z'.len = x.len := hz'.len
  have hz2 : hilbert (z'.map Complex.re) = .ok z' := by
    rw [← hh]
    exact hilbert_congr hz'.len (fun t ht => hz'.re t ht)
  have hdft : ∀ k, dft z' k = dft z k := fun k => dft_congr (by rw [hzl', hzl]) (fun t ht => hu t (by show t < x.len; omega)) k
  have hT2 : (0 : ℝ) ≤ (x.len : ℝ) - 2 := by have : (2 : ℝ) ≤ x.len := by exact_mod_cast hn
                                             linarith
  have hrn : ∀ c : ℝ, 0 ≤ c → 0 ≤ roundEven c := fun c hc => by
    have hb := (roundEven_bounds c).1
    by_contra hlt
    have h3 : roundEven c ≤ -1 := by omega
    have h4 : (roundEven c : ℝ) ≤ -1 := by exact_mod_cast h3
    linarith
  have hb0 : (bandBin' x.len a : ℤ) = roundEven (a * ((x.len : ℝ) - 2)) := Int.toNat_of_nonneg (hrn _ (mul_nonneg h0.le hT2))
  have hb1 : (bandBin' x.len b : ℤ) = roundEven (b * ((x.len : ℝ) - 2)) := Int.toNat_of_nonneg (hrn _ (mul_nonneg hb.le hT2))
  have hround : roundEven (b * ((x.len : ℝ) - 2)) ≤ (x.len : ℤ) - 2 := by
    have hb := (roundEven_bounds (b * ((x.len : ℝ) - 2))).2
    have : b * ((x.len : ℝ) - 2) ≤ (x.len : ℝ) - 2 := by nlinarith
    have h3 : ((roundEven (b * ((x.len : ℝ) - 2)) : ℤ) : ℝ) < (((x.len : ℤ) - 2 + 1 : ℤ) : ℝ) := by push_cast; linarith
    have h4 : roundEven (b * ((x.len : ℝ) - 2)) < (x.len : ℤ) - 2 + 1 := by exact_mod_cast h3
    omega
  obtain ⟨W, hW, hWr, hWc, hWg⟩ := transform_ok z' m h0 hb hN
  have hWg' : ∀ r < N, ∀ i < x.len, W.get r i = wafAt z m N a b ((r + (N + 1) / 2) % N) i := fun r hr i hi => by
    rw [hWg r hr i (by omega), wafAt_congr (by rw [hzl', hzl]) (fun t ht => hu t (by show t < x.len; omega))]
  have href : W.get ((N + 1) / 2 - 1) (m - 1) = ref := by
    rw [hWg' _ (by omega) _ (by omega)]
    congr 1
    unfold refRow
    split
    · rw [Nat.mod_eq_of_lt (by omega)]; omega
    · rw [show (N + 1) / 2 - 1 + (N + 1) / 2 = N by omega, Nat.mod_self]
  have hE : ((⟨z'.len, fun k => dftC z'.len z'.get k⟩ : Vec ℂ).slice ((1 : ℤ) + roundEven (a * ((x.len : ℝ) - 2)) - 1)
      (1 + roundEven (b * ((x.len : ℝ) - 2)))).norm ^ 2 = E := by
    rw [← hb0, ← hb1, show (1 : ℤ) + (bandBin' x.len a : ℤ) - 1 = (bandBin' x.len a : ℤ) by ring, add_comm (1 : ℤ),
      slice_norm_sq (by show _ ≤ z'.len; omega)]
    exact Finset.sum_congr rfl (fun k _ => by rw [← hdft, dft_eq_dftC])
  have hno : ((N : ℤ) + (N : ℤ) % 2) / 2 - 1 = (((N + 1) / 2 - 1 : ℕ) : ℤ) := by omega
  set θ : Vec ℝ := (⟨N, fun i => a / b * (b / a / (a / b)) ^ ((i : ℝ) / ((N : ℝ) - 1))⟩ : Vec ℝ).map Real.log with hθ
  have hmain : afterBand x z' a b np (some N) = if ref = 0 then .error .nonFinite else
      .ok (W.map (fun v => v * ((E : ℂ) / ref / N)), (arange 0 x.len).map (fun j => j - (m : ℤ)), θ) := by
    unfold afterBand
    simp only
    rw [hv, ok_bind, ratioCheck_ok h0 hb, ok_bind, hW, ok_bind, logspace_ok (div_pos h0 hb) (div_pos hb h0) hN, ok_bind, hz2, ok_bind, fft_ok (by omega), ok_bind, hE, hno,
      show ((halfBins x.len : ℤ) - 1) = ((m - 1 : ℕ) : ℤ) by rw [Nat.cast_sub hm1]; rfl,
      Mat.item_ok ⟨by omega, by omega⟩ ⟨by omega, by omega⟩, wrapIdx_natCast, wrapIdx_natCast, href, ok_bind]
  have hN1 : (0 : ℝ) < (N : ℝ) - 1 := by have : (2 : ℝ) ≤ N := by exact_mod_cast hN
                                         linarith
  refine ⟨fun h => by rw [hmain, if_pos h], fun h => ⟨W.map (fun v => v * ((E : ℂ) / ref / N)), (arange 0 x.len).map (fun j => j - (m : ℤ)), θ, by rw [hmain, if_neg h], hWr, hWc.trans hzl', ?_, ?_, rfl, fun r => ?_, ?_⟩⟩
  · show ((x.len : ℤ) - 0).toNat = x.len
    omega
  · intro i
    show 0 + (i : ℤ) - m = _
    ring
  · show Real.log (a / b * (b / a / (a / b)) ^ ((r : ℝ) / ((N : ℝ) - 1))) = _
    have hba : 0 < b / a := div_pos hb h0
    rw [show a / b = (b / a)⁻¹ by rw [inv_div], div_inv_eq_mul, Real.log_mul (by positivity) (by positivity), Real.log_rpow (by positivity),
      Real.log_mul (by positivity) (by positivity), Real.log_inv]
    field_simp
    ring
  · intro r hr i hi
    show W.get r i * _ = _
    rw [hWg' r hr i hi]

/-- **What `wide_band` computes**, for a given band and number of voices: shape, lag and dilation axes, and every entry.  Entry `(r, i)` is
`wafAt` at the row obtained by exchanging the halves, times a constant that makes the reference entry equal to `1/N` of the energy of
the analytic signal in the band; NaN if the reference entry vanishes. -/
theorem C57_entries (x : Vec ℂ) (hn : 2 ≤ x.len) (z : Vec ℂ) (hz : IsAnalytic (realPart x) z) (a b : ℝ) (h0 : 0 < a) (h1 : a < b) (h2 : b ≤ 1)
    (N : ℕ) (hN : 2 ≤ N) :
    let m := halfBins x.len
    let ref := wafAt z m N a b (refRow N) (m - 1)
    let E := ∑ k ∈ Finset.Icc (bandBin' x.len a) (bandBin' x.len b), ‖dft z k‖ ^ 2
    (ref = 0 → wideBand x (some a) (some b) (some N) = .error .nonFinite) ∧
    (ref ≠ 0 → ∃ (W : Mat ℂ) (τ : Vec ℤ) (θ : Vec ℝ), wideBand x (some a) (some b) (some N) = .ok (W, τ, θ) ∧
      W.rows = N ∧ W.cols = x.len ∧
      τ.len = x.len ∧ (∀ i, τ.get i = (i : ℤ) - m) ∧
      θ.len = N ∧ (∀ r, θ.get r = (2 * r / ((N : ℝ) - 1) - 1) * Real.log (b / a)) ∧
      ∀ r < N, ∀ i < x.len, W.get r i = wafAt z m N a b ((r + (N + 1) / 2) % N) i * ((E : ℂ) / ref / N)) := by
  obtain ⟨z', hh, hz', -⟩ := hilbert_analytic (x := realPart x) (by show x.len ≠ 0; omega)
  have hb : 0 < b := h0.trans h1
  simp only [wideBand_given hh]
  exact afterBand_entries x hn z z' hz hz' hh a b h0 hb h2 N hN false (voiceCount_eq h0 hb h1.ne _ _ _)

/-- The reference entry is `1/N` of the band energy.  It sits at lag `-1`, not `0`, and for an even number of voices (the default) at a
dilation different from 1. -/
theorem C57_reference (x : Vec ℂ) (hn : 2 ≤ x.len) (z : Vec ℂ) (hz : IsAnalytic (realPart x) z) (a b : ℝ) (h0 : 0 < a) (h1 : a < b) (h2 : b ≤ 1)
    (N : ℕ) (hN : 2 ≤ N) (W : Mat ℂ) (τ : Vec ℤ) (θ : Vec ℝ) (h : wideBand x (some a) (some b) (some N) = .ok (W, τ, θ)) :
    W.get ((N + 1) / 2 - 1) (halfBins x.len - 1) =
      ((∑ k ∈ Finset.Icc (bandBin' x.len a) (bandBin' x.len b), ‖dft z k‖ ^ 2 : ℝ) : ℂ) / N ∧
    τ.get (halfBins x.len - 1) = -1 ∧
    θ.get ((N + 1) / 2 - 1) = if N % 2 = 1 then 0 else -(Real.log (b / a) / ((N : ℝ) - 1)) := by
  obtain ⟨he, hok⟩ := C57_entries x hn z hz a b h0 h1 h2 N hN
  have hN0 : (N : ℂ) ≠ 0 := by exact_mod_cast (by omega : N ≠ 0)
  have hN1 : (N : ℝ) - 1 ≠ 0 := by have : (2 : ℝ) ≤ N := by exact_mod_cast hN
                                   linarith
  by_cases hr : wafAt z (halfBins x.len) N a b (refRow N) (halfBins x.len - 1) = 0
  · rw [he hr] at h; cases h
  · obtain ⟨W', τ', θ', h', -, -, -, hτ, -, hθ, hW⟩ := hok hr
    rw [h'] at h
    simp only [Except.ok.injEq, Prod.mk.injEq] at h
    obtain ⟨rfl, rfl, rfl⟩ := h
    have hm1 := halfBins_pos hn
    have hml := halfBins_lt (n := x.len) (by omega)
    refine ⟨?_, ?_, ?_⟩
    · rw [hW _ (by omega) _ (by omega)]
      have hrow : ((N + 1) / 2 - 1 + (N + 1) / 2) % N = refRow N := by
        unfold refRow
        split
        · rw [Nat.mod_eq_of_lt (by omega)]; omega
        · rw [show (N + 1) / 2 - 1 + (N + 1) / 2 = N by omega, Nat.mod_self]
      rw [hrow]
      field_simp
    · rw [hτ]; omega
    · rw [hθ]
      split
      · rename_i hodd
        obtain ⟨j, hj⟩ : ∃ j, N = 2 * j + 1 := ⟨N / 2, by omega⟩
        rw [show (N + 1) / 2 - 1 = j by omega]
        have : (N : ℝ) - 1 = 2 * j := by rw [hj]; push_cast; ring
        rw [this] at hN1 ⊢
        rw [div_self hN1, sub_self, zero_mul]
      · obtain ⟨j, hj⟩ : ∃ j, N = 2 * j + 2 := ⟨N / 2 - 1, by omega⟩
        rw [show (N + 1) / 2 - 1 = j by omega]
        have : (N : ℝ) - 1 = 2 * j + 1 := by rw [hj]; push_cast; ring
        rw [this] at hN1 ⊢
        field_simp
        ring

/-- Along the column of lag 0 the modulus is largest at row `N - ⌈N/2⌉`, which is dilation 1 for an odd number of voices and half a step away
from it for an even one. -/
theorem C57_lag_zero (x : Vec ℂ) (hn : 2 ≤ x.len) (a b : ℝ) (h0 : 0 < a) (h1 : a < b) (h2 : b ≤ 1)
    (N : ℕ) (hN : 2 ≤ N) (W : Mat ℂ) (τ : Vec ℤ) (θ : Vec ℝ) (h : wideBand x (some a) (some b) (some N) = .ok (W, τ, θ)) :
    τ.get (halfBins x.len) = 0 ∧ (∀ r < N, ‖W.get r (halfBins x.len)‖ ≤ ‖W.get (N - (N + 1) / 2) (halfBins x.len)‖) ∧
    θ.get (N - (N + 1) / 2) = if N % 2 = 1 then 0 else Real.log (b / a) / ((N : ℝ) - 1) := by
  obtain ⟨z, -, hz, -⟩ := hilbert_analytic (x := realPart x) (by show x.len ≠ 0; omega)
  obtain ⟨he, hok⟩ := C57_entries x hn z hz a b h0 h1 h2 N hN
  have hN0 : (N : ℂ) ≠ 0 := by exact_mod_cast (by omega : N ≠ 0)
  have hN1 : (N : ℝ) - 1 ≠ 0 := by have : (2 : ℝ) ≤ N := by exact_mod_cast hN
                                   linarith
  by_cases hr : wafAt z (halfBins x.len) N a b (refRow N) (halfBins x.len - 1) = 0
  · rw [he hr] at h; cases h
  · obtain ⟨W', τ', θ', h', -, -, -, hτ, -, hθ, hW⟩ := hok hr
    rw [h'] at h
    simp only [Except.ok.injEq, Prod.mk.injEq] at h
    obtain ⟨rfl, rfl, rfl⟩ := h
    have hm1 := halfBins_pos hn
    have hml := halfBins_lt (n := x.len) (by omega)
    refine ⟨?_, fun r hr => ?_, ?_⟩
    · rw [hτ]; omega
    · rw [hW r hr _ hml, hW _ (by omega) _ hml, norm_mul, norm_mul]
      refine mul_le_mul_of_nonneg_right ?_ (norm_nonneg _)
      rw [show (N - (N + 1) / 2 + (N + 1) / 2) % N = 0 by rw [Nat.sub_add_cancel (by omega), Nat.mod_self]]
      generalize (r + (N + 1) / 2) % N = s
      set M : ℕ → ℂ := mellinAt N a b (fun p => spectrumAt z (halfBins x.len) (geoFreq N a b p)) with hM
      have hw : ∀ s, wafAt z (halfBins x.len) N a b s (halfBins x.len) =
          (∑ k ∈ range N, ((‖M k‖ ^ 2 : ℝ) : ℂ) * expi (2 * Real.pi * k * s / N)) / N := fun s => by
        unfold wafAt
        congr 1
        refine Finset.sum_congr rfl (fun k _ => ?_)
        have h1 : (fun p => spectrumAt z (halfBins x.len) (geoFreq N a b p) *
            expi (-(2 * Real.pi * geoFreq N a b p * (((halfBins x.len : ℕ) : ℝ) - (halfBins x.len : ℕ))))) =
            fun p => spectrumAt z (halfBins x.len) (geoFreq N a b p) := by
          funext p
          rw [sub_self, mul_zero, neg_zero]
          simp [expi]
        rw [h1, ← hM, Complex.mul_conj, Complex.normSq_eq_norm_sq]
      rw [hw, hw, norm_div, norm_div]
      refine div_le_div_of_nonneg_right ?_ (norm_nonneg _)
      have hz0 : (∑ k ∈ range N, ((‖M k‖ ^ 2 : ℝ) : ℂ) * expi (2 * Real.pi * k * (0 : ℕ) / N)) = ((∑ k ∈ range N, ‖M k‖ ^ 2 : ℝ) : ℂ) := by
        rw [Complex.ofReal_sum]
        refine Finset.sum_congr rfl (fun k _ => ?_)
        simp [expi]
      rw [hz0, Complex.norm_real, Real.norm_of_nonneg (Finset.sum_nonneg (fun _ _ => by positivity))]
      refine (norm_sum_le _ _).trans (Finset.sum_le_sum (fun k _ => ?_))
      rw [norm_mul, Complex.norm_real, Real.norm_of_nonneg (by positivity)]
      unfold expi
      rw [Complex.norm_exp_ofReal_mul_I, mul_one]
    · rw [hθ]
      split
      · obtain ⟨j, hj⟩ : ∃ j, N = 2 * j + 1 := ⟨N / 2, by omega⟩
        rw [show N - (N + 1) / 2 = j by omega]
        have : (N : ℝ) - 1 = 2 * j := by rw [hj]; push_cast; ring
        rw [this] at hN1 ⊢
        rw [div_self hN1, sub_self, zero_mul]
      · obtain ⟨j, hj⟩ : ∃ j, N = 2 * j + 2 := ⟨N / 2 - 1, by omega⟩
        rw [show N - (N + 1) / 2 = j + 1 by omega]
        have : (N : ℝ) - 1 = 2 * j + 1 := by rw [hj]; push_cast; ring
        rw [this] at hN1 ⊢
        push_cast
        field_simp
        ring

/-- Only the real part of the samples matters. -/
theorem C57_real_part (x y : Vec ℂ) (hl : x.len = y.len) (h : ∀ t < y.len, (x.get t).re = (y.get t).re) (a? b? : Option ℝ) (N? : Option ℕ) :
    wideBand x a? b? N? = wideBand y a? b? N? := by
  unfold wideBand
  rw [hilbert_congr (v := x.map Complex.re) (w := y.map Complex.re) hl h, hl]

theorem spectrumAt_smul {z z' : Vec ℂ} {c : ℂ} (hl : z'.len = z.len) (h : ∀ t < z.len, z'.get t = c * z.get t) (m : ℕ) (f : ℝ) :
    spectrumAt z' m f = c * spectrumAt z m f := by
  unfold spectrumAt
  rw [hl, Finset.mul_sum]
  exact Finset.sum_congr rfl (fun t ht => by rw [h t (mem_range.1 ht)]; ring)

theorem mellinAt_smul (N : ℕ) (a b : ℝ) (c : ℂ) (G : ℕ → ℂ) (k : ℕ) : mellinAt N a b (fun p => c * G p) k = c * mellinAt N a b G k := by
  unfold mellinAt
  rw [← mul_div_assoc, Finset.mul_sum]
  congr 1
  exact Finset.sum_congr rfl (fun p _ => by ring)

theorem wafAt_smul {z z' : Vec ℂ} {c : ℝ} (hl : z'.len = z.len) (h : ∀ t < z.len, z'.get t = c * z.get t) (m N : ℕ) (a b : ℝ) (r i : ℕ) :
    wafAt z' m N a b r i = (c : ℂ) ^ 2 * wafAt z m N a b r i := by
  unfold wafAt
  simp only [spectrumAt_smul hl h, mul_assoc (c : ℂ), mellinAt_smul]
  rw [← mul_div_assoc, Finset.mul_sum]
  congr 1
  refine Finset.sum_congr rfl (fun k _ => ?_)
  rw [map_mul, Complex.conj_ofReal]
  ring

/-- Multiplying the real part of the signal by `c ≠ 0` multiplies the result by `c²` and leaves the axes unchanged. -/
theorem C57_scaling (x y : Vec ℂ) (hn : 2 ≤ x.len) (a b : ℝ) (h0 : 0 < a) (h1 : a < b) (h2 : b ≤ 1) (N : ℕ) (hN : 2 ≤ N) (c : ℝ) (hc : c ≠ 0)
    (hl : y.len = x.len) (hy : ∀ t < x.len, (y.get t).re = c * (x.get t).re)
    (W : Mat ℂ) (τ : Vec ℤ) (θ : Vec ℝ) (h : wideBand x (some a) (some b) (some N) = .ok (W, τ, θ)) :
    ∃ (W' : Mat ℂ) (τ' : Vec ℤ) (θ' : Vec ℝ), wideBand y (some a) (some b) (some N) = .ok (W', τ', θ') ∧
      ∀ r < N, ∀ i < x.len, W'.get r i = (c : ℂ) ^ 2 * W.get r i ∧ τ'.get i = τ.get i ∧ θ'.get r = θ.get r := by
  obtain ⟨z, -, hz, -⟩ := hilbert_analytic (x := realPart x) (by show x.len ≠ 0; omega)
  have hz2 := smul_isAnalytic (s' := realPart y) hz c hl hy
  set z' : Vec ℂ := ⟨z.len, fun t => (c : ℂ) * z.get t⟩ with hz'
  obtain ⟨he, hok⟩ := C57_entries x hn z hz a b h0 h1 h2 N hN
  obtain ⟨-, hok'⟩ := C57_entries y (by omega) z' hz2 a b h0 h1 h2 N hN
  have hc' : (c : ℂ) ≠ 0 := by exact_mod_cast hc
  have hw := fun r i => wafAt_smul (z := z) (z' := z') (c := c) rfl (fun _ _ => rfl) (halfBins x.len) N a b r i
  by_cases hr : wafAt z (halfBins x.len) N a b (refRow N) (halfBins x.len - 1) = 0
  · rw [he hr] at h; cases h
  · obtain ⟨W1, τ1, θ1, h', -, -, -, hτ, -, hθ, hW⟩ := hok hr
    rw [h'] at h
    simp only [Except.ok.injEq, Prod.mk.injEq] at h
    obtain ⟨rfl, rfl, rfl⟩ := h
    rw [hl] at hok'
    obtain ⟨W2, τ2, θ2, h2', -, -, -, hτ2, -, hθ2, hW2⟩ := hok' (by rw [hw]; exact mul_ne_zero (pow_ne_zero 2 hc') hr)
    refine ⟨W2, τ2, θ2, h2', fun r hr' i hi => ⟨?_, by rw [hτ, hτ2], by rw [hθ, hθ2]⟩⟩
    have hE : (∑ k ∈ Finset.Icc (bandBin' x.len a) (bandBin' x.len b), ‖dft z' k‖ ^ 2) =
        c ^ 2 * ∑ k ∈ Finset.Icc (bandBin' x.len a) (bandBin' x.len b), ‖dft z k‖ ^ 2 := by
      rw [Finset.mul_sum]
      refine Finset.sum_congr rfl (fun k _ => ?_)
      have : dft z' k = (c : ℂ) * dft z k := by
        rw [dft_eq_dftC, dft_eq_dftC]
        exact dftC_smul _ _ _ _
      rw [this, norm_mul, mul_pow, Complex.norm_real, Real.norm_eq_abs, sq_abs]
    rw [hW2 r hr' i hi, hW r hr' i hi, hw, hw, hE]
    push_cast
    field_simp

/-- **Default number of voices**: the least power of two not below the even part of `⌈fmax (n - 1) ln(fmax / fmin)⌉`; when that even part is
zero (one sample, or a narrow band) the call raises `ValueError`. -/
theorem C57_voices (x : Vec ℂ) (hn : 1 ≤ x.len) (a b : ℝ) (h0 : 0 < a) (h1 : a < b) :
    let nq := ⌈b * ((x.len : ℝ) - 1) * Real.log (b / a)⌉
    (nq < 2 → wideBand x (some a) (some b) none = .error .valueError) ∧
    (2 ≤ nq → ∃ p : ℕ, 1 ≤ p ∧ nq - nq % 2 ≤ 2 ^ p ∧ (∀ j : ℕ, nq - nq % 2 ≤ 2 ^ j → p ≤ j) ∧
      wideBand x (some a) (some b) none = wideBand x (some a) (some b) (some (2 ^ p))) := by
  intro nq
  have hlog : 0 < Real.log (b / a) := Real.log_pos (by rw [lt_div_iff₀ h0]; linarith)
  have hn1 : (0 : ℝ) ≤ (x.len : ℝ) - 1 := by have : (1 : ℝ) ≤ x.len := by exact_mod_cast hn
                                             linarith
  have hnq0 : 0 ≤ nq := Int.ceil_nonneg (mul_nonneg (mul_nonneg (h0.trans h1).le hn1) hlog.le)
  obtain ⟨z, hz, -, -⟩ := hilbert_analytic (x := realPart x) (by show x.len ≠ 0; omega)
  have hv := fun N? => voiceCount_eq h0 (h0.trans h1) h1.ne false ((x.len : ℤ) - 1) N?
  have hnq : ⌈b * (((x.len : ℤ) - 1 : ℤ) : ℝ) * Real.log (b / a)⌉ = nq := by push_cast; rfl
  simp only [hnq] at hv
  refine ⟨fun h => ?_, fun h => ?_⟩
  · have e : nq - nq % 2 = 0 := by omega
    unfold wideBand
    simp only
    rw [show x.map Complex.re = realPart x from rfl, hz, ok_bind]
    unfold band
    simp only [ok_bind]
    rw [hv none, e]
    rfl
  · obtain ⟨p, hp, hle, hmin⟩ := C04_nextpow2_least (nq - nq % 2) (by omega)
    refine ⟨p, ?_, hle, hmin, ?_⟩
    · by_contra hp0
      have : p = 0 := by omega
      rw [this] at hle
      norm_num at hle
      omega
    · unfold wideBand
      simp only
      rw [show x.map Complex.re = realPart x from rfl, hz, ok_bind]
      unfold band
      simp only [ok_bind]
      rw [hv none, hv (some (2 ^ p)), hp]
      rfl

/-- A single voice raises `ZeroDivisionError`. -/
theorem C57_one_voice (x : Vec ℂ) (hn : 1 ≤ x.len) (a b : ℝ) (h0 : 0 < a) (h1 : a < b) :
    wideBand x (some a) (some b) (some 1) = .error .zeroDivisionError := by
  obtain ⟨z, hz, -, -⟩ := hilbert_analytic (x := realPart x) (by show x.len ≠ 0; omega)
  unfold wideBand
  simp only
  rw [show x.map Complex.re = realPart x from rfl, hz, ok_bind]
  unfold band
  simp only [ok_bind]
  rw [voiceCount_eq h0 (h0.trans h1) h1.ne]
  simp only [ok_bind]
  rw [ratioCheck_ok h0 (h0.trans h1), ok_bind]
  unfold transform
  simp only
  rw [if_pos trivial]
  rfl

/-- Two-dimensional signals are accepted only as a single row or column. -/
theorem C57_two_dim (M : Mat ℂ) (a? b? : Option ℝ) (N? : Option ℕ) :
    (M.rows ≠ 1 → M.cols ≠ 1 → wideBandAny (.two M) a? b? N? = .error .valueError) ∧
    (M.rows = 1 → wideBandAny (.two M) a? b? N? = wideBandAny (.one (M.row 0)) a? b? N?) ∧
    (M.cols = 1 → wideBandAny (.two M) a? b? N? = wideBandAny (.one (M.col 0)) a? b? N?) := by
  refine ⟨fun h1 h2 => if_neg (by push Not; exact ⟨h1, h2⟩), fun h => ?_, fun h => ?_⟩
  · refine (if_pos (Or.inl h)).trans (C57_real_part _ _ (by show M.rows * M.cols = M.cols; rw [h, one_mul]) (fun t ht => ?_) _ _ _)
    have ht' : t < M.cols := ht
    show (M.get (t / M.cols) (t % M.cols)).re = (M.get 0 t).re
    rw [Nat.div_eq_of_lt ht', Nat.mod_eq_of_lt ht']
  · refine (if_pos (Or.inr h)).trans (C57_real_part _ _ (by show M.rows * M.cols = M.rows; rw [h, mul_one]) (fun t ht => ?_) _ _ _)
    show (M.get (t / M.cols) (t % M.cols)).re = (M.get t 0).re
    rw [h, Nat.div_one, Nat.mod_one]

/-! ## The default band -/

/-- Sample of the analytic signal that stands at place `k` after `fftshift`. -/
def shifted (n k : ℕ) : ℕ := (k + (n - n / 2)) % n

/-- Place `k` is strong: among the first `halfBins n` places of the shifted analytic signal no sample has a hundred times its power. -/
def StrongPlace (z : Vec ℂ) (k : ℕ) : Prop :=
  k < halfBins z.len ∧ ∀ j < halfBins z.len, ‖z.get (shifted z.len j)‖ ^ 2 < 100 * ‖z.get (shifted z.len k)‖ ^ 2

theorem band_prefix' (z : Vec ℂ) (hn : 2 ≤ z.len) (a? b? : Option ℝ) (hnone : a? = none ∨ b? = none) :
    ∃ mx : ℝ, (∀ k, (k < halfBins z.len ∧ mx / 100 < ‖z.get (shifted z.len k)‖ ^ 2) ↔ StrongPlace z k) ∧
      band z (halfBins z.len) a? b? = (do
        let idx := Vec.positions (halfBins z.len) (fun i => mx / 100 < ‖z.get (shifted z.len i)‖ ^ 2)
        let indmin ← Aff.listMin idx
        let indmax ← Aff.listMax idx
        let lo ← match a? with
          | some a => (.ok a : Py ℝ)
          | none => do
            let v ← ((linspace 0 0.5 (halfBins z.len + 1)).slice 0 (halfBins z.len)).item indmin
            .ok (max 0.01 (0.05 * (truncInt (v / 0.05) : ℝ)))
        let hi ← match b? with
          | some b => (.ok b : Py ℝ)
          | none => do
            let v ← ((linspace 0 0.5 (halfBins z.len + 1)).slice 0 (halfBins z.len)).item indmax
            .ok (0.05 * (⌈v / 0.05⌉ : ℝ))
        .ok (lo, hi, b?.isNone || (a?.isNone && decide (0.01 < lo)))) := by
  have hh : halfBins z.len ≤ z.len := (halfBins_lt (by omega)).le
  have hh1 : 1 ≤ halfBins z.len := halfBins_pos hn
  set P : ℕ → ℝ := fun k => ‖z.get (shifted z.len k)‖ ^ 2 with hP
  have hsp : ((fftshift z).slice 0 (halfBins z.len : ℕ)).map (fun v => ‖v‖ ^ 2) = ⟨halfBins z.len, P⟩ := by
    rw [slice_zero_nat (v := fftshift z) (by exact hh)]
    rfl
  obtain ⟨mx, hmx, hle, i0, hi0, e0⟩ := Vec.amax_spec (v := ⟨halfBins z.len, P⟩) (by show halfBins z.len ≠ 0; omega)
  refine ⟨mx, fun k => ?_, ?_⟩
  · unfold StrongPlace
    refine and_congr_right (fun _ => ⟨fun h j hj => ?_, fun h => ?_⟩)
    · have := hle j hj
      simp only [hP] at this
      linarith
    · have := h i0 hi0
      simp only [hP] at e0
      rw [← e0]
      linarith
  · rcases a? with _ | a <;> rcases b? with _ | b
    · unfold band
      simp only
      rw [hsp, hmx]
      rfl
    · unfold band
      simp only
      rw [hsp, hmx]
      rfl
    · unfold band
      simp only
      rw [hsp, hmx]
      rfl
    · simp at hnone

theorem slice_item {h k : ℕ} (hk : k < h) : ((linspace 0 0.5 (h + 1)).slice 0 (h : ℕ)).item (k : ℤ) = .ok ((k : ℝ) / (2 * h)) := by
  rw [slice_zero_nat (v := linspace 0 0.5 (h + 1)) (by show h ≤ h + 1; omega), Vec.item_ok (by omega) (by show (k : ℤ) < (h : ℤ); omega)]
  have := linspace_half_item hk
  rw [Vec.item_ok (by omega) (by show (k : ℤ) < ((h + 1 : ℕ) : ℤ); omega)] at this
  exact this

theorem band_value (x : Vec ℂ) (hn : 2 ≤ x.len) (z z' : Vec ℂ) (hz : IsAnalytic (realPart x) z) (hz' : IsAnalytic (realPart x) z') (a? b? : Option ℝ)
    (hnone : a? = none ∨ b? = none) :
    (∀ lo hi, StrongPlace z lo → StrongPlace z hi → (∀ k, StrongPlace z k → lo ≤ k ∧ k ≤ hi) →
      band z' (halfBins x.len) a? b? = .ok (a?.getD (max (1 / 100) ((⌊10 * (lo : ℝ) / halfBins x.len⌋ : ℝ) / 20)),
        b?.getD ((⌈10 * (hi : ℝ) / halfBins x.len⌉ : ℝ) / 20),
        b?.isNone || (a?.isNone && decide (1 / 100 < a?.getD (max (1 / 100) ((⌊10 * (lo : ℝ) / halfBins x.len⌋ : ℝ) / 20)))))) ∧
    ((∀ k, ¬ StrongPlace z k) → band z' (halfBins x.len) a? b? = .error .valueError) := by
  obtain ⟨hl, hu⟩ := isAnalytic_unique hz' hz
  have hzl' : z'.len = x.len := hz'.len
  have hsh : ∀ k, shifted x.len k < x.len := fun k => Nat.mod_lt _ (by omega)
  have hS : ∀ k, StrongPlace z' k ↔ StrongPlace z k := fun k => by
    unfold StrongPlace
    rw [← hl, hzl']
    simp only [fun k => hu (shifted x.len k) (hsh k)]
  obtain ⟨mx, hmx, e⟩ := band_prefix' z' (by omega) a? b? hnone
  rw [hzl'] at hmx e
  have hpos : (0 : ℝ) < halfBins x.len := by exact_mod_cast halfBins_pos hn
  refine ⟨fun lo hi hlo hhi hb => ?_, fun hno => ?_⟩
  · rw [e]
    simp only
    have h1 : Aff.listMin (Vec.positions (halfBins x.len) (fun i => mx / 100 < ‖z'.get (shifted x.len i)‖ ^ 2)) = .ok lo :=
      listMin_ok (mem_positions.2 ((hmx lo).2 ((hS lo).2 hlo))) (fun k hk => (hb k ((hS k).1 ((hmx k).1 (mem_positions.1 hk)))).1)
    have h2 : Aff.listMax (Vec.positions (halfBins x.len) (fun i => mx / 100 < ‖z'.get (shifted x.len i)‖ ^ 2)) = .ok hi :=
      listMax_ok (mem_positions.2 ((hmx hi).2 ((hS hi).2 hhi))) (fun k hk => (hb k ((hS k).1 ((hmx k).1 (mem_positions.1 hk)))).2)
    have hl1 : lo < halfBins x.len := by have := hlo.1; rwa [← hl, hzl'] at this
    have hl2 : hi < halfBins x.len := by have := hhi.1; rwa [← hl, hzl'] at this
    rw [h1, h2]
    simp only [ok_bind]
    rw [slice_item hl1, slice_item hl2]
    have e1 : max 0.01 (0.05 * (truncInt ((lo : ℝ) / (2 * halfBins x.len) / 0.05) : ℝ)) = max (1 / 100) ((⌊10 * (lo : ℝ) / halfBins x.len⌋ : ℝ) / 20) := by
      rw [edge_eq]
      unfold truncInt
      rw [if_pos (by positivity)]
      congr 1 <;> ring
    have e2 : 0.05 * (⌈(hi : ℝ) / (2 * halfBins x.len) / 0.05⌉ : ℝ) = (⌈10 * (hi : ℝ) / halfBins x.len⌉ : ℝ) / 20 := by
      rw [edge_eq]; ring
    have e3 : (0.01 : ℝ) = 1 / 100 := by norm_num
    simp only [ok_bind]
    rw [e1, e2, e3]
    rcases a? with _ | a <;> rcases b? with _ | b <;> rfl
  · rw [e]
    have hnil : Vec.positions (halfBins x.len) (fun i => mx / 100 < ‖z'.get (shifted x.len i)‖ ^ 2) = [] :=
      List.eq_nil_iff_forall_not_mem.2 (fun k hk => hno k ((hS k).1 ((hmx k).1 (mem_positions.1 hk))))
    simp only
    rw [hnil]
    rfl

/-- **The default band is read off the wrong axis**: the first and last strong *samples* of the (shifted) analytic signal are taken for the
first and last strong frequencies.  (For edges that are not positive or coincide see `C57_bad_band` and `C57_default_bad`.) -/
theorem C57_band (x : Vec ℂ) (hn : 2 ≤ x.len) (z : Vec ℂ) (hz : IsAnalytic (realPart x) z) (a? b? : Option ℝ) (hnone : a? = none ∨ b? = none) (N? : Option ℕ) :
    (∀ lo hi, StrongPlace z lo → StrongPlace z hi → (∀ k, StrongPlace z k → lo ≤ k ∧ k ≤ hi) →
      let a := a?.getD (max (1 / 100) ((⌊10 * (lo : ℝ) / halfBins x.len⌋ : ℝ) / 20))
      let b := b?.getD ((⌈10 * (hi : ℝ) / halfBins x.len⌉ : ℝ) / 20)
      0 < a → 0 < b → a ≠ b → wideBand x a? b? N? = wideBand x (some a) (some b) N?) ∧
    ((∀ k, ¬ StrongPlace z k) → wideBand x a? b? N? = .error .valueError) := by
  obtain ⟨z', hh, hz', -⟩ := hilbert_analytic (x := realPart x) (by show x.len ≠ 0; omega)
  obtain ⟨h1, h2⟩ := band_value x hn z z' hz hz' a? b? hnone
  refine ⟨fun lo hi hlo hhi hb => ?_, fun hno => ?_⟩
  · intro a b ha hb' hab
    rw [wideBand_eq hh, h1 lo hi hlo hhi hb, ok_bind, wideBand_given hh]
    show afterBand x z' a b _ N? = afterBand x z' a b false N?
    unfold afterBand
    rw [voiceCount_eq ha hb' hab, voiceCount_eq ha hb' hab]
    simp only [ratioCheck_ok ha hb']
  · rw [wideBand_eq hh, h2 hno]
    rfl

/-- The number of voices of a band without a positive ratio, or of a single frequency. -/
theorem voiceCount_bad {a b : ℝ} (h : a = 0 ∨ b = 0 ∨ a = b ∨ b / a < 0) (np : Bool) (T : ℤ) (N? : Option ℕ) :
    voiceCount np T a b N? = if np = false ∧ (a + b = 0 ∨ a = b ∨ a = 0) then .error .zeroDivisionError
      else match N? with
        | some N => .ok N
        | none => .error .valueError := by
  have hiff : (a + b = 0 ∨ (b - a) / ((a + b) / 2) = 0 ∨ 1 - (b - a) / ((a + b) / 2) / 2 = 0) ↔ (a + b = 0 ∨ a = b ∨ a = 0) := by
    by_cases hs : a + b = 0
    · simp [hs]
    · have e1 : 1 - (b - a) / ((a + b) / 2) / 2 = 2 * a / (a + b) := by field_simp; ring
      rw [e1]
      simp only [div_eq_zero_iff, sub_eq_zero, mul_eq_zero]
      constructor
      · rintro (h | (h | h | h) | (h | h) | h)
        · exact Or.inl h
        · exact Or.inr (Or.inl h.symm)
        · exact Or.inl h
        · norm_num at h
        · norm_num at h
        · exact Or.inr (Or.inr h)
        · exact Or.inl h
      · rintro (h | h | h)
        · exact Or.inl h
        · exact Or.inr (Or.inl (Or.inl h.symm))
        · exact Or.inr (Or.inr (Or.inl (Or.inr h)))
  unfold voiceCount
  simp only
  by_cases h0 : np = false ∧ (a + b = 0 ∨ a = b ∨ a = 0)
  · rw [if_pos h0, if_pos ⟨h0.1, hiff.2 h0.2⟩]
  · rw [if_neg h0, if_neg (fun h => h0 ⟨h.1, hiff.1 h.2⟩)]
    rcases N? with _ | N
    · simp only
      rw [if_pos]
      by_cases h1 : a + b = 0 ∨ a = b ∨ a = 0
      · rcases hiff.2 h1 with h | h | h
        · exact Or.inl h
        · exact Or.inr (Or.inl h)
        · exact Or.inr (Or.inr (Or.inl h))
      · push Not at h1
        obtain ⟨hs, hab, ha⟩ := h1
        have e1 : 1 - (b - a) / ((a + b) / 2) / 2 = 2 * a / (a + b) := by field_simp; ring
        have e2 : 1 + (b - a) / ((a + b) / 2) / 2 = 2 * b / (a + b) := by field_simp; ring
        have e3 : 2 * b / (a + b) / (2 * a / (a + b)) = b / a := by field_simp
        refine Or.inr (Or.inr (Or.inr ?_))
        rw [e1, e2, e3]
        rcases h with h | h | h | h
        · exact absurd h ha
        · rw [h, zero_div]
        · exact absurd h hab
        · exact h.le
    · rfl

theorem transform_few (z : Vec ℂ) (m : ℤ) (a b : ℝ) :
    transform z m a b 1 = .error .zeroDivisionError ∧ transform z m a b 0 = .error .valueError := by
  constructor
  · unfold transform
    simp only
    rw [if_pos trivial]
  · unfold transform
    simp only
    rw [if_neg (by norm_num)]
    rfl

/-- **Bad bands.**  Equal or opposite edges and `fmin = 0` raise `ZeroDivisionError`.  With another band without a positive ratio the default number of voices
raises `ValueError`; given a number of voices, `fmax = 0` raises `ZeroDivisionError`, and edges of opposite signs give NaN log-dilations (no voice raises
`ValueError`, one voice `ZeroDivisionError`). -/
theorem C57_bad_band (x : Vec ℂ) (hn : 1 ≤ x.len) (a b : ℝ) :
    (a + b = 0 ∨ a = b ∨ a = 0 → ∀ N?, wideBand x (some a) (some b) N? = .error .zeroDivisionError) ∧
    (a + b ≠ 0 → a ≠ 0 → b = 0 → wideBand x (some a) (some b) none = .error .valueError ∧
      ∀ N, wideBand x (some a) (some b) (some N) = .error .zeroDivisionError) ∧
    (a + b ≠ 0 → b * a < 0 → wideBand x (some a) (some b) none = .error .valueError ∧
      wideBand x (some a) (some b) (some 0) = .error .valueError ∧ wideBand x (some a) (some b) (some 1) = .error .zeroDivisionError ∧
      ∀ N, 2 ≤ N → wideBand x (some a) (some b) (some N) = .error .nonFinite) := by
  obtain ⟨z, hh, -, -⟩ := hilbert_analytic (x := realPart x) (by show x.len ≠ 0; omega)
  refine ⟨fun h N? => ?_, fun hs ha hb => ?_, fun hs hba => ?_⟩
  · rw [wideBand_given hh]
    unfold afterBand
    by_cases hr : a = 0 ∨ b = 0 ∨ a = b ∨ b / a < 0
    · rw [voiceCount_bad hr, if_pos ⟨rfl, h⟩]; rfl
    · exfalso
      push Not at hr
      rcases h with h | h | h
      · have : b = -a := by linarith
        rw [this, neg_div, div_self hr.1] at hr
        linarith [hr.2.2.2]
      · exact hr.2.2.1 h
      · exact hr.1 h
  · have hab : a ≠ b := fun h => ha (h.trans hb)
    have hv : ∀ N? : Option ℕ, voiceCount false ((x.len : ℤ) - 1) a b N? = (match N? with
        | some N => .ok N
        | none => .error .valueError) := fun N? => (voiceCount_bad (a := a) (b := b) (Or.inr (Or.inl hb)) false ((x.len : ℤ) - 1) N?).trans (if_neg (show ¬ (false = false ∧ (a + b = 0 ∨ a = b ∨ a = 0)) by push Not; exact fun _ => ⟨hs, hab, ha⟩))
    refine ⟨?_, fun N => ?_⟩
    · rw [wideBand_given hh]
      unfold afterBand
      rw [hv none]; rfl
    · rw [wideBand_given hh]
      unfold afterBand
      rw [hv (some N), ok_bind]
      unfold ratioCheck
      rw [if_pos ⟨rfl, hb⟩]; rfl
  · have ha : a ≠ 0 := fun h => by rw [h, mul_zero] at hba; exact lt_irrefl _ hba
    have hb : b ≠ 0 := fun h => by rw [h, zero_mul] at hba; exact lt_irrefl _ hba
    have hab : a ≠ b := fun h => by rw [h] at hba; exact absurd hba (not_lt.2 (mul_self_nonneg b))
    have hr : b / a < 0 := by
      rcases mul_neg_iff.1 hba with h | h
      · exact div_neg_of_pos_of_neg h.1 h.2
      · exact div_neg_of_neg_of_pos h.1 h.2
    have hv : ∀ N? : Option ℕ, voiceCount false ((x.len : ℤ) - 1) a b N? = (match N? with
        | some N => .ok N
        | none => .error .valueError) := fun N? => (voiceCount_bad (a := a) (b := b) (Or.inr (Or.inr (Or.inr hr))) false ((x.len : ℤ) - 1) N?).trans (if_neg (show ¬ (false = false ∧ (a + b = 0 ∨ a = b ∨ a = 0)) by push Not; exact fun _ => ⟨hs, hab, ha⟩))
    have hc : ∀ N < 2, ratioCheck false a b N = .ok () := fun N hN => by
      unfold ratioCheck
      rw [if_neg (fun h => hb h.2), if_neg (by omega)]
    refine ⟨?_, ?_, ?_, fun N hN => ?_⟩ <;> rw [wideBand_given hh] <;> unfold afterBand
    · rw [hv none]; rfl
    · rw [hv (some 0), ok_bind, hc 0 (by norm_num), ok_bind, (transform_few _ _ _ _).2]; rfl
    · rw [hv (some 1), ok_bind, hc 1 (by norm_num), ok_bind, (transform_few _ _ _ _).1]; rfl
    · rw [hv (some N), ok_bind]
      unfold ratioCheck
      rw [if_neg (fun h => hb h.2), if_pos ⟨hN, Or.inr hr.le⟩]; rfl

example : wideBand ⟨4, fun i => (i : ℂ)⟩ (some (1 / 4)) (some (1 / 4)) (some 8) = .error .zeroDivisionError :=
  (C57_bad_band ⟨4, fun i => (i : ℂ)⟩ (by norm_num) (1 / 4) (1 / 4)).1 (Or.inr (Or.inl rfl)) (some 8)

/-- **Default bands that are degenerate.**  When only the first place is strong, `fmax = 0`: `ValueError`, or NaN when the number of voices is given.  When
only one place is strong, on a multiple of the grid of the edges, the two edges coincide: `ValueError` again, but with a given number of voices the call goes
through, all its log-dilations zero (or NaN, if the reference value vanishes). -/
theorem C57_default_bad (x : Vec ℂ) (hn : 2 ≤ x.len) (z : Vec ℂ) (hz : IsAnalytic (realPart x) z) (k : ℕ) (hk : StrongPlace z k) (hu : ∀ j, StrongPlace z j → j = k) :
    (k = 0 → wideBand x none none none = .error .valueError ∧ ∀ N, 2 ≤ N → wideBand x none none (some N) = .error .nonFinite) ∧
    (0 < k → halfBins x.len ∣ 10 * k → wideBand x none none none = .error .valueError ∧
      ∀ N, 2 ≤ N → wideBand x none none (some N) = .error .nonFinite ∨
        ∃ (W : Mat ℂ) (τ : Vec ℤ) (θ : Vec ℝ), wideBand x none none (some N) = .ok (W, τ, θ) ∧ θ.len = N ∧ ∀ r < N, θ.get r = 0) := by
  obtain ⟨z', hh, hz', -⟩ := hilbert_analytic (x := realPart x) (by show x.len ≠ 0; omega)
  have hband := (band_value x hn z z' hz hz' none none (Or.inl rfl)).1 k k hk hk (fun j hj => by rw [hu j hj]; exact ⟨le_rfl, le_rfl⟩)
  simp only [Option.getD_none, Option.isNone_none, Bool.true_or] at hband
  have hpos : (0 : ℝ) < halfBins x.len := by exact_mod_cast halfBins_pos hn
  have hgo : ∀ N?, wideBand x none none N? = afterBand x z' (max (1 / 100) ((⌊10 * (k : ℝ) / halfBins x.len⌋ : ℝ) / 20))
      ((⌈10 * (k : ℝ) / halfBins x.len⌉ : ℝ) / 20) true N? := fun N? => by rw [wideBand_eq hh, hband]; rfl
  simp only [hgo]
  refine ⟨fun h0 => ?_, fun h0 hd => ?_⟩
  · have e1 : max (1 / 100 : ℝ) ((⌊10 * (k : ℝ) / halfBins x.len⌋ : ℝ) / 20) = 1 / 100 := by rw [h0]; norm_num
    have e2 : (⌈10 * (k : ℝ) / halfBins x.len⌉ : ℝ) / 20 = 0 := by rw [h0]; norm_num
    rw [e1, e2]
    have hv := fun N? => (voiceCount_bad (a := 1 / 100) (b := 0) (Or.inr (Or.inl rfl)) true ((x.len : ℤ) - 1) N?).trans (if_neg (by simp))
    refine ⟨?_, fun N hN => ?_⟩
    · unfold afterBand
      rw [hv none]; rfl
    · unfold afterBand
      rw [hv (some N), ok_bind]
      unfold ratioCheck
      rw [if_neg (by simp), if_pos ⟨hN, Or.inr (by norm_num)⟩]; rfl
  · obtain ⟨c, hc⟩ := hd
    have hc1 : 1 ≤ c := by
      rcases Nat.eq_zero_or_pos c with h | h
      · rw [h] at hc; omega
      · exact h
    have hq : 10 * (k : ℝ) / halfBins x.len = (c : ℝ) := by
      rw [div_eq_iff hpos.ne']
      have : ((10 * k : ℕ) : ℝ) = ((halfBins x.len * c : ℕ) : ℝ) := by rw [hc]
      push_cast at this
      linarith
    have hc1' : (1 : ℝ) ≤ c := by exact_mod_cast hc1
    have e1 : max (1 / 100 : ℝ) ((⌊10 * (k : ℝ) / halfBins x.len⌋ : ℝ) / 20) = (c : ℝ) / 20 := by
      rw [hq, Int.floor_natCast, Int.cast_natCast]
      exact max_eq_right (by linarith)
    have e2 : (⌈10 * (k : ℝ) / halfBins x.len⌉ : ℝ) / 20 = (c : ℝ) / 20 := by rw [hq, Int.ceil_natCast, Int.cast_natCast]
    rw [e1, e2]
    have hv := fun N? => (voiceCount_bad (a := (c : ℝ) / 20) (b := (c : ℝ) / 20) (Or.inr (Or.inr (Or.inl rfl))) true ((x.len : ℤ) - 1) N?).trans (if_neg (by simp))
    have hc10 : (c : ℝ) ≤ 10 := by
      rw [← hq, div_le_iff₀ hpos]
      have : (k : ℝ) ≤ halfBins x.len := by
        have h1 := hk.1
        rw [hz.len] at h1
        exact_mod_cast (show k ≤ halfBins x.len from h1.le)
      linarith
    refine ⟨?_, fun N hN => ?_⟩
    · unfold afterBand
      rw [hv none]; rfl
    · obtain ⟨h1, h2⟩ := afterBand_entries x hn z z' hz hz' hh ((c : ℝ) / 20) ((c : ℝ) / 20) (by positivity) (by positivity) (by linarith) N hN true (hv (some N))
      by_cases hr : wafAt z (halfBins x.len) N ((c : ℝ) / 20) ((c : ℝ) / 20) (refRow N) (halfBins x.len - 1) = 0
      · exact Or.inl (h1 hr)
      · obtain ⟨W, τ, θ, hW, -, -, -, -, hθl, hθ, -⟩ := h2 hr
        exact Or.inr ⟨W, τ, θ, hW, hθl, fun r _ => by rw [hθ, div_self (by positivity), Real.log_one, mul_zero]⟩

/-- Two samples: the default band never works. -/
theorem C57_two_samples (x : Vec ℂ) (hn : x.len = 2) : wideBand x none none none = .error .valueError := by
  obtain ⟨z, -, hz, -⟩ := hilbert_analytic (x := realPart x) (by show x.len ≠ 0; omega)
  have hz2 : z.len = 2 := hz.len.trans hn
  have hm : halfBins z.len = 1 := by rw [hz2]; rfl
  by_cases h : StrongPlace z 0
  · exact ((C57_default_bad x (by omega) z hz 0 h (fun j hj => by have := hj.1; omega)).1 rfl).1
  · exact (C57_band x (by omega) z hz none none (Or.inl rfl) none).2 (fun k hk => h (by
      have := hk.1
      obtain rfl : k = 0 := by omega
      exact hk))

/-- A silent real part: no default band, `ValueError`. -/
theorem C57_silent (x : Vec ℂ) (hn : 2 ≤ x.len) (hx : ∀ t < x.len, (x.get t).re = 0) (a? b? : Option ℝ) (hnone : a? = none ∨ b? = none) (N? : Option ℕ) :
    wideBand x a? b? N? = .error .valueError := by
  have hz : IsAnalytic (realPart x) ⟨x.len, fun _ => 0⟩ := zero_isAnalytic (s := realPart x) hx
  refine (C57_band x hn _ hz a? b? hnone N?).2 (fun k hk => ?_)
  have := hk.2 k hk.1
  norm_num at this

/-- **All tones get the same default band.**  A real tone at any bin strictly between 0 and the Nyquist frequency, of any amplitude and
phase, at least 22 samples: the default band is `[0.01, 0.5]`. -/
theorem C57_tone_band (x : Vec ℂ) (hn : 22 ≤ x.len) (k : ℕ) (hk : 0 < k) (hkn : 2 * k < x.len) (A φ : ℝ) (hA : A ≠ 0)
    (hx : ∀ t < x.len, (x.get t).re = A * Real.cos (2 * Real.pi * k * t / x.len + φ)) (N? : Option ℕ) :
    wideBand x none none N? = wideBand x (some (1 / 100)) (some (1 / 2)) N? := by
  have hn0 : (x.len : ℝ) ≠ 0 := by exact_mod_cast (by omega : x.len ≠ 0)
  set z : Vec ℂ := ⟨x.len, fun t => A * expi (2 * Real.pi * k * t / x.len + φ)⟩ with hzdef
  have hnorm : ∀ t, ‖z.get t‖ = |A| := fun t => by
    show ‖(A : ℂ) * expi _‖ = _
    rw [norm_mul, Complex.norm_real, Real.norm_eq_abs]
    unfold expi
    rw [Complex.norm_exp_ofReal_mul_I, mul_one]
  have hd : ∀ j < x.len, dft z j = if j = k then A * expi φ * (x.len : ℂ) else 0 := fun j hj => by
    rw [dft_eq_dftC, ← dftC_tone (by omega) (A * expi φ) (by omega : k < x.len) hj]
    congr 1
    funext t
    show (A : ℂ) * expi (2 * Real.pi * k * t / x.len + φ) = _
    unfold expi rootPow
    rw [mul_assoc (A : ℂ), ← Complex.exp_add]
    congr 2
    push_cast
    ring
  have hz : IsAnalytic (realPart x) z := by
    refine ⟨rfl, fun t ht => ?_, fun j hj hj2 => ?_, ?_, fun j hj => ?_⟩
    · show ((A : ℂ) * expi _).re = (x.get t).re
      rw [hx t ht, Complex.re_ofReal_mul]
      unfold expi
      rw [Complex.exp_ofReal_mul_I_re]
    · have hj2' : x.len < 2 * j := hj2
      rw [hd j hj, if_neg (by omega)]
    · rw [hd 0 (by omega), if_neg (by omega)]; rfl
    · have hj' : 2 * j = x.len := hj
      rw [hd j (by omega), if_neg (by omega)]; rfl
  have hsp : ∀ j, StrongPlace z j ↔ j < halfBins x.len := fun j => by
    unfold StrongPlace
    simp only [hnorm]
    refine ⟨fun h => h.1, fun h => ⟨h, fun i _ => ?_⟩⟩
    have : 0 < |A| ^ 2 := by positivity
    linarith
  have h11 : 11 ≤ halfBins x.len := by unfold halfBins; split <;> omega
  have e1 : max (1 / 100 : ℝ) ((⌊10 * ((0 : ℕ) : ℝ) / halfBins x.len⌋ : ℝ) / 20) = 1 / 100 := by norm_num
  have e2 : ⌈10 * ((halfBins x.len - 1 : ℕ) : ℝ) / halfBins x.len⌉ = 10 := by
    rw [Int.ceil_eq_iff, Nat.cast_sub (by omega)]
    have : (11 : ℝ) ≤ halfBins x.len := by exact_mod_cast h11
    constructor
    · rw [lt_div_iff₀ (by linarith)]; push_cast; linarith
    · rw [div_le_iff₀ (by linarith)]; push_cast; linarith
  have h := (C57_band x (by omega) z hz none none (Or.inl rfl) N?).1 0 (halfBins x.len - 1) ((hsp _).2 (by omega)) ((hsp _).2 (by omega))
    (fun j hj => ⟨by omega, by have := (hsp j).1 hj; omega⟩)
  simp only [Option.getD_none] at h
  rw [e1, e2] at h
  norm_num at h ⊢
  exact h

/-- The impulse `1, 0` in the band `[1/4, 3/4]` with two voices: the call returns, and the reference entry is one half. -/
example : ∃ W τ θ, wideBand ⟨2, fun t => if t = 0 then 1 else 0⟩ (some (1 / 4)) (some (3 / 4)) (some 2) = .ok (W, τ, θ) ∧ W.get 0 0 = 1 / 2 := by
  set x : Vec ℂ := ⟨2, fun t => if t = 0 then 1 else 0⟩ with hx
  have hz : IsAnalytic (realPart x) x := by
    refine ⟨rfl, fun t _ => rfl, fun k h1 h2 => ?_, ?_, fun k hk => ?_⟩
    · have h1' : k < 2 := h1
      have h2' : 2 < 2 * k := h2
      omega
    · rw [dft_eq_dftC]; simp [dftC, hx]
    · rw [dft_eq_dftC]; simp [dftC, hx]
  have hm : halfBins x.len = 1 := by show halfBins 2 = 1; norm_num [halfBins]
  have hg0 : geoFreq 2 (1 / 4) (3 / 4) 0 = 1 / 4 := by simp [geoFreq]
  have hg1 : geoFreq 2 (1 / 4) (3 / 4) 1 = 3 / 4 := by norm_num [geoFreq]
  have hs : ∀ f, spectrumAt x 1 f = expi (2 * Real.pi * f) := fun f => by
    simp [spectrumAt, hx]
  have e1 : expi (2 * Real.pi * (1 / 4)) = Complex.I := by
    unfold expi
    rw [show (((2 * Real.pi * (1 / 4) : ℝ) : ℂ)) * Complex.I = Real.pi / 2 * Complex.I by push_cast; ring, Complex.exp_pi_div_two_mul_I]
  have e3 : expi (2 * Real.pi * (3 / 4)) = -Complex.I := by
    have : expi (2 * Real.pi * (3 / 4)) = expi (2 * Real.pi * (1 / 4)) * expi Real.pi := by
      unfold expi; rw [← Complex.exp_add]; congr 1; push_cast; ring
    rw [this, e1]
    unfold expi
    rw [Complex.exp_pi_mul_I, mul_neg_one]
  have hM : ∀ G : ℕ → ℂ, mellinAt 2 (1 / 4) (3 / 4) G 0 = (G 0 - Real.sqrt 3 * G 1) / 4 ∧
      mellinAt 2 (1 / 4) (3 / 4) G 1 = (G 0 - Real.sqrt 3 * G 1 * Complex.I) / 4 := fun G => by
    have c0 : expi (2 * Real.pi * 1 * (0 - 2) / (2 * 2)) = -1 := by
      unfold expi
      rw [← Complex.exp_pi_mul_I, show (((2 * Real.pi * 1 * (0 - 2) / (2 * 2) : ℝ) : ℂ)) * Complex.I = -(Real.pi * Complex.I) by push_cast; ring, Complex.exp_neg,
        Complex.exp_pi_mul_I]
      norm_num
    have c1 : expi (2 * Real.pi * 1 * (1 - 2) / (2 * 2)) = -Complex.I := by
      unfold expi
      rw [show (((2 * Real.pi * 1 * (1 - 2) / (2 * 2) : ℝ) : ℂ)) * Complex.I = -(Real.pi / 2 * Complex.I) by push_cast; ring, Complex.exp_neg,
        Complex.exp_pi_div_two_mul_I, Complex.inv_I]
    have cz : expi 0 = 1 := by simp [expi]
    have s0 : Real.sqrt (1 / 4 / (1 / 4)) = 1 := by norm_num
    have s1 : Real.sqrt (3 / 4 / (1 / 4)) = Real.sqrt 3 := by norm_num
    unfold mellinAt
    rw [Finset.sum_range_succ, Finset.sum_range_one, Finset.sum_range_succ, Finset.sum_range_one, hg0, hg1, s0, s1]
    push_cast
    simp only [mul_zero, zero_mul, zero_div, c0, c1, cz]
    constructor <;> · norm_num; ring
  have href : wafAt x 1 2 (1 / 4) (3 / 4) 1 0 = -((Real.sqrt 3 / 16 : ℝ) : ℂ) := by
    have cz : expi 0 = 1 := by simp [expi]
    have c1 : expi (2 * Real.pi * 1 * 1 / 2) = -1 := by
      unfold expi
      rw [← Complex.exp_pi_mul_I]
      congr 1
      push_cast
      ring
    unfold wafAt
    rw [Finset.sum_range_succ, Finset.sum_range_one]
    simp only [(hM _).1, (hM _).2, hs, hg0, hg1, Nat.cast_zero, Nat.cast_one, Nat.cast_ofNat, mul_zero, zero_div, zero_sub, mul_neg, neg_neg, mul_one, e1, e3]
    simp only [mul_one] at c1
    rw [cz, c1]
    simp only [map_div₀, map_sub, map_mul, Complex.conj_I, Complex.conj_ofReal, map_neg]
    have c4 : (starRingEnd ℂ) 4 = 4 := Complex.conj_ofNat 4
    have hI : Complex.I ^ 2 = -1 := Complex.I_sq
    push_cast
    rw [c4]
    field_simp
    linear_combination (-16 * Complex.I ^ 3 * (Real.sqrt 3 : ℂ) ^ 2 - 32 * (Real.sqrt 3 : ℂ) * (Complex.I ^ 2 - 1)) * hI
  have h3 : wafAt x (halfBins x.len) 2 (1 / 4) (3 / 4) (refRow 2) (halfBins x.len - 1) ≠ 0 := by
    rw [hm]
    show wafAt x 1 2 (1 / 4) (3 / 4) 1 0 ≠ 0
    rw [href, neg_ne_zero]
    exact_mod_cast (by positivity : Real.sqrt 3 / 16 ≠ 0)
  obtain ⟨W, τ, θ, h, -⟩ := (C57_entries x le_rfl x hz (1 / 4) (3 / 4) (by norm_num) (by norm_num) (by norm_num) 2 le_rfl).2 h3
  refine ⟨W, τ, θ, h, ?_⟩
  have := (C57_reference x le_rfl x hz (1 / 4) (3 / 4) (by norm_num) (by norm_num) (by norm_num) 2 le_rfl W τ θ h).1
  have hb : ∀ f, bandBin' 2 f = 0 := fun f => by unfold bandBin'; norm_num; exact (by simpa using (roundEven_natCast 0).le)
  have hl : x.len = 2 := rfl
  rw [hl, hb, hb] at this
  refine this.trans ?_
  have hd : dft x 0 = 1 := by rw [dft_eq_dftC]; simp [dftC, hx]
  simp [hd]

end Tftb.Props
