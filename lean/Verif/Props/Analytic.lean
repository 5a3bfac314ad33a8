import Verif.Lemmas.Analytic
import Verif.Lemmas.Renyi
import Verif.Lemmas.Hilbert

/-! # C18-C20: keyed signals, analytic impulse and step -/

namespace Tftb.Props

open Finset Spec Analytic FM ComplexConjugate

theorem amp_keyed {n b : ℕ} {f : ℝ} (hn : 2 ≤ n) (hb : 1 ≤ b) (h0 : 0 ≤ f) (h1 : f ≤ 1 / 2) (lev : ℕ → ℝ) :
    (do
      let am ← repeatPy ⟨(n + b - 1) / b, lev⟩ b
      let am := am.slice 0 (n : ℤ)
      let (fm, _) ← fmconst n f (some 1)
      let y ← Vec.bcast (fun (a : ℝ) (z : ℂ) => (a : ℂ) * z) am fm
      (.ok (y, am) : Py (Vec ℂ × Vec ℝ)))
    = .ok (⟨n, fun i => (lev (i / b) : ℂ) * expi (2 * Real.pi * f * ((i : ℝ) - 1))⟩, ⟨n, fun i => lev (i / b)⟩) := by
  have hfm := fmconst_ok n 1 f (by omega) (by rw [abs_of_nonneg h0]; exact h1)
  rw [Nat.cast_one] at hfm
  rw [repeatPy_ok, ok_bind]
  simp only
  rw [slice_zero_nat (by exact blocks_ge n b hb), hfm, ok_bind]
  simp only
  rw [Vec.bcast_ok (by rfl), ok_bind]

/-- `anaask`: `n` samples, amplitude `draw (i / b)` on block `i / b`, carrier of frequency `f0` with phase zero at sample 1; hence the
modulus of the signal is that of the amplitude law, which lies in `[0, 1)` when the draws do. -/
theorem C18_anaask (n b : ℕ) (f : ℝ) (draw : ℕ → ℝ) (hn : 2 ≤ n) (hb : 1 ≤ b) (h0 : 0 ≤ f) (h1 : f ≤ 1 / 2)
    (hd : ∀ j, 0 ≤ draw j ∧ draw j < 1) :
    ∃ (y : Vec ℂ) (am : Vec ℝ), anaask n (some b) f draw = .ok (y, am) ∧ y.len = n ∧ am.len = n ∧
      (∀ i < n, ∀ j < n, i / b = j / b → am.get i = am.get j) ∧
      (∀ i < n, am.get i = draw (i / b) ∧ 0 ≤ am.get i ∧ am.get i < 1) ∧
      (∀ i < n, y.get i = (am.get i : ℂ) * expi (2 * Real.pi * f * ((i : ℝ) - 1)) ∧ ‖y.get i‖ = am.get i) := by
  refine ⟨⟨n, fun i => (draw (i / b) : ℂ) * expi (2 * Real.pi * f * ((i : ℝ) - 1))⟩, ⟨n, fun i => draw (i / b)⟩, ?_, rfl, rfl,
    fun i _ j _ h => by simp only [h], fun i _ => ⟨rfl, hd _⟩, fun i _ => ⟨rfl, ?_⟩⟩
  · unfold anaask
    simp only [Option.getD_some]
    rw [if_neg (by norm_num; constructor <;> linarith), draws_ok n b hb, ok_bind]
    exact amp_keyed hn hb h0 h1 draw
  · simp only
    rw [norm_mul, norm_expi, mul_one, Complex.norm_real, Real.norm_eq_abs, abs_of_nonneg (hd _).1]

theorem round_unit {u : ℝ} (h0 : 0 ≤ u) (h1 : u < 1) : roundEven u = if 1 / 2 < u then 1 else 0 := by
  have hf : ⌊u⌋ = 0 := Int.floor_eq_iff.2 ⟨by simpa using h0, by simpa using h1⟩
  unfold roundEven
  rw [hf]
  simp only [Int.cast_zero, sub_zero, zero_add]
  split_ifs <;> first | rfl | (exfalso; linarith) | (exfalso; simp_all)

/-- `anabpsk`: `n` samples, amplitude `+1` or `-1` (`+1` exactly when the draw exceeds one half), constant on blocks; the modulus of the
signal is one and its square is the squared carrier, whatever was drawn. -/
theorem C18_anabpsk (n b : ℕ) (f : ℝ) (draw : ℕ → ℝ) (hn : 2 ≤ n) (hb : 1 ≤ b) (h0 : 0 ≤ f) (h1 : f ≤ 1 / 2)
    (hd : ∀ j, 0 ≤ draw j ∧ draw j < 1) :
    ∃ (y : Vec ℂ) (am : Vec ℝ), anabpsk n (some b) f draw = .ok (y, am) ∧ y.len = n ∧ am.len = n ∧
      (∀ i < n, ∀ j < n, i / b = j / b → am.get i = am.get j) ∧
      (∀ i < n, am.get i = if 1 / 2 < draw (i / b) then 1 else -1) ∧
      (∀ i < n, y.get i = (am.get i : ℂ) * expi (2 * Real.pi * f * ((i : ℝ) - 1)) ∧ ‖y.get i‖ = 1 ∧
        y.get i ^ 2 = expi (4 * Real.pi * f * ((i : ℝ) - 1))) := by
  set lev : ℕ → ℝ := fun j => 2.0 * (roundEven (draw j) : ℝ) - 1 with hlev
  have hl : ∀ j, lev j = if 1 / 2 < draw j then 1 else -1 := fun j => by
    rw [hlev]
    simp only
    rw [round_unit (hd j).1 (hd j).2]
    split_ifs <;> norm_num
  refine ⟨⟨n, fun i => (lev (i / b) : ℂ) * expi (2 * Real.pi * f * ((i : ℝ) - 1))⟩, ⟨n, fun i => lev (i / b)⟩, ?_, rfl, rfl,
    fun i _ j _ h => by simp only [h], fun i _ => hl _, fun i _ => ⟨rfl, ?_, ?_⟩⟩
  · unfold anabpsk
    simp only [Option.getD_some]
    rw [if_neg (by norm_num; constructor <;> linarith), draws_ok n b hb, ok_bind]
    exact amp_keyed hn hb h0 h1 lev
  · simp only
    rw [norm_mul, norm_expi, mul_one, Complex.norm_real, Real.norm_eq_abs, hl]
    split_ifs <;> norm_num
  · simp only
    have hsq : ((lev (i / b) : ℝ) : ℂ) ^ 2 = 1 := by
      rw [hl]
      split_ifs <;> norm_num
    rw [mul_pow, hsq, one_mul, sq, ← expi_add]
    congr 1
    ring

/-- Both raise `TypeError` for a carrier outside `[0, 1/2]`, `ZeroDivisionError` for empty blocks (in particular for the default block
length of one sample), and `IndexError` for a single sample. -/
theorem C18_raises (f : ℝ) (draw : ℕ → ℝ) :
    (∀ n nc, f < 0 ∨ 1 / 2 < f → anaask n nc f draw = .error .typeError ∧ anabpsk n nc f draw = .error .typeError) ∧
    (0 ≤ f → f ≤ 1 / 2 → anaask 1 none f draw = .error .zeroDivisionError ∧ anabpsk 1 none f draw = .error .zeroDivisionError ∧
      ∀ b : ℕ, 1 ≤ b → anaask 1 (some b) f draw = .error .indexError ∧ anabpsk 1 (some b) f draw = .error .indexError) := by
  refine ⟨fun n nc h => ?_, fun h0 h1 => ⟨?_, ?_, fun b hb => ?_⟩⟩
  · have h' : f < 0 ∨ f > 0.5 := by norm_num; exact h
    unfold anaask anabpsk
    simp only [if_pos h', and_self]
  · have hr : roundEven (((1 : ℤ) : ℝ) / 2.0) = 0 := by
      have := roundEven_half 1
      norm_num at this ⊢
      exact this
    unfold anaask
    simp only [Option.getD_none, hr]
    rw [if_neg (by norm_num; constructor <;> linarith)]
    rfl
  · have hr : roundEven (((1 : ℤ) : ℝ) / 5.0) = 0 := by
      rw [round_unit (by norm_num) (by norm_num), if_neg (by norm_num)]
    unfold anabpsk
    simp only [Option.getD_none, hr]
    rw [if_neg (by norm_num; constructor <;> linarith)]
    rfl
  · have hfm : fmconst (1 : ℤ) f (some 1) = .error .indexError := by
      unfold fmconst
      simp only [AM.defaultT0]
      rw [if_neg (by norm_num), if_neg (by rw [abs_of_nonneg h0]; norm_num; linarith), Vec.item_error]
      · rfl
      · have : truncInt 1 = 1 := by simpa using truncInt_natCast 1
        rw [this]; rfl
    have hd := draws_ok 1 b hb draw
    rw [Nat.cast_one] at hd
    unfold anaask anabpsk
    simp only [Option.getD_some]
    rw [if_neg (by norm_num; constructor <;> linarith), if_neg (by norm_num; constructor <;> linarith), hd, ok_bind, ok_bind,
      repeatPy_ok, ok_bind, Vec.map, repeatPy_ok, ok_bind, hfm]
    exact ⟨rfl, rfl⟩

/-- A negative block length raises `ValueError`, from the random generator or, when no block is drawn, from the product with the carrier. -/
theorem C18_negative (n nc : ℤ) (f : ℝ) (draw : ℕ → ℝ) (hn : 2 ≤ n) (hc : nc < 0) (h0 : 0 ≤ f) (h1 : f ≤ 1 / 2) :
    anaask n (some nc) f draw = .error .valueError ∧ anabpsk n (some nc) f draw = .error .valueError := by
  have hf : ¬ (f < 0 ∨ f > 0.5) := by norm_num; constructor <;> linarith
  obtain ⟨fm, law, hfm, hlen⟩ : ∃ fm law, fmconst n f (some 1) = .ok (fm, law) ∧ (fm.len : ℤ) = n := by
    obtain ⟨k, rfl⟩ := Int.eq_ofNat_of_zero_le (by omega : 0 ≤ n)
    have hfm := fmconst_ok k 1 f (by omega) (by rw [abs_of_nonneg h0]; exact h1)
    rw [Nat.cast_one] at hfm
    exact ⟨_, _, hfm, rfl⟩
  unfold anaask anabpsk
  simp only [Option.getD_some]
  rw [if_neg hf, if_neg hf, draws_neg n nc (by omega) hc]
  by_cases h : n < -nc
  · rw [if_pos h, ok_bind, ok_bind]
    simp only [Vec.map]
    rw [repeatPy_empty _ _ hc, repeatPy_empty _ _ hc, ok_bind, ok_bind, hfm, ok_bind]
    dsimp only
    have hz : ∀ g : ℕ → ℝ, ((⟨0, g⟩ : Vec ℝ).slice 0 n).len = 0 := fun g => by
      simp only [Vec.slice, Vec.clampIdx]
      split_ifs <;> omega
    rw [Vec.bcast_error _ (by rw [hz]; omega), ok_bind]
    dsimp only
    rw [Vec.bcast_error _ (by rw [hz]; omega)]
    exact ⟨rfl, rfl⟩
  · rw [if_neg h]
    exact ⟨rfl, rfl⟩

/-- `anafsk`: one of `M` frequencies, all strictly between 1/8 and 3/8, on each block of `b` samples, each chosen by one `M`-th of the range of the draw; unit modulus;
the phase advances by the frequency of the current sample, from zero before the first.  The number of samples is that of the whole blocks: `n` exactly when `b` divides `n`. -/
theorem C19_anafsk (n b M : ℕ) (draw : ℕ → ℝ) (hb : 1 ≤ b) (hM : 1 ≤ M) (hd : ∀ j, 0 ≤ draw j ∧ draw j < 1) :
    ∃ (y : Vec ℂ) (law : Vec ℝ), anafsk n (some b) M draw = .ok (y, law) ∧
      y.len = (n + b - 1) / b * b ∧ law.len = y.len ∧ n ≤ y.len ∧ (y.len = n ↔ b ∣ n) ∧
      (∀ i < y.len, ∀ j < y.len, i / b = j / b → law.get i = law.get j) ∧
      (∀ i < y.len, ∃ j < M, law.get i = 1 / 4 + (2 * (j : ℝ) + 1 - M) / (8 * M) ∧ (j : ℝ) / M ≤ draw (i / b) ∧ draw (i / b) < (j + 1 : ℝ) / M ∧
        1 / 8 < law.get i ∧ law.get i < 3 / 8) ∧
      (∀ i < y.len, ‖y.get i‖ = 1) ∧ y.get 0 = expi (2 * Real.pi * law.get 0) ∧
      (∀ i, i + 1 < y.len → y.get (i + 1) = y.get i * expi (2 * Real.pi * law.get (i + 1))) := by
  set fr : ℕ → ℝ := fun j => 0.25 + 0.25 * ((⌊((M : ℤ) : ℝ) * draw j⌋ : ℝ) / ((M : ℤ) : ℝ) - (((M : ℤ) : ℝ) - 1) / (2 * ((M : ℤ) : ℝ))) with hfr
  have hok : anafsk n (some b) M draw = .ok (⟨(n + b - 1) / b * b, fun i => Complex.exp (Complex.I * 2 * Real.pi *
      ((∑ j ∈ range (i + 1), fr (j / b) : ℝ) : ℂ))⟩, ⟨(n + b - 1) / b * b, fun i => fr (i / b)⟩) := by
    unfold anafsk
    simp only [Option.getD_some]
    rw [draws_ok n b hb, ok_bind, if_neg (by omega), Vec.map, repeatPy_ok, ok_bind]
    rfl
  have hexp : ∀ s : ℝ, Complex.exp (Complex.I * 2 * Real.pi * (s : ℂ)) = expi (2 * Real.pi * s) := fun s => by
    unfold expi
    congr 1
    push_cast
    ring
  refine ⟨_, _, hok, rfl, rfl, blocks_ge n b hb, blocks_eq_iff n b hb, fun i _ j _ h => by simp only [h], fun i _ => ?_, fun i _ => ?_, ?_,
    fun i _ => ?_⟩
  · obtain ⟨h0, h1⟩ := hd (i / b)
    have hM' : (0 : ℝ) < M := by exact_mod_cast hM
    have hf0 : 0 ≤ ⌊((M : ℤ) : ℝ) * draw (i / b)⌋ := Int.floor_nonneg.2 (by positivity)
    have hf1 : ⌊((M : ℤ) : ℝ) * draw (i / b)⌋ < M := by
      rw [Int.floor_lt]
      push_cast
      nlinarith
    obtain ⟨j, hj⟩ := Int.eq_ofNat_of_zero_le hf0
    have hjM : j < M := by rw [hj] at hf1; exact_mod_cast hf1
    have hjM' : (j : ℝ) + 1 ≤ M := by exact_mod_cast hjM
    have hval : fr (i / b) = 1 / 4 + (2 * (j : ℝ) + 1 - M) / (8 * M) := by
      rw [hfr]
      simp only
      rw [hj]
      push_cast
      field_simp
      ring
    have hfl := Int.floor_le (((M : ℤ) : ℝ) * draw (i / b))
    have hlt := Int.lt_floor_add_one (((M : ℤ) : ℝ) * draw (i / b))
    rw [hj] at hfl hlt
    push_cast at hfl hlt
    refine ⟨j, hjM, hval, by rw [div_le_iff₀ hM']; linarith, by rw [lt_div_iff₀ hM']; linarith, ?_⟩
    simp only
    rw [hval]
    have hj0 : (0 : ℝ) ≤ j := Nat.cast_nonneg _
    constructor
    · have : -(1 / 8 : ℝ) < (2 * (j : ℝ) + 1 - M) / (8 * M) := by rw [lt_div_iff₀ (by positivity)]; linarith
      linarith
    · have : (2 * (j : ℝ) + 1 - M) / (8 * M) < 1 / 8 := by rw [div_lt_iff₀ (by positivity)]; linarith
      linarith
  · simp only
    rw [hexp, norm_expi]
  · simp only
    rw [hexp, zero_add, Finset.sum_range_one]
  · simp only
    rw [hexp, hexp, Finset.sum_range_succ, mul_add, expi_add]

/-- `anaqpsk`: when the block length divides the length, `n` samples of modulus one whose phase is that of the carrier plus a multiple
of a quarter turn in `{0, 1, 2, 3}`, constant on blocks; the fourth power of the signal is that of the carrier, whatever was drawn. -/
theorem C19_anaqpsk (n b : ℕ) (f : ℝ) (draw : ℕ → ℝ) (hb : 1 ≤ b) (hdiv : b ∣ n) (h0 : 0 ≤ f) (h1 : f ≤ 1 / 2)
    (hd : ∀ j, 0 ≤ draw j ∧ draw j < 1) :
    ∃ (y : Vec ℂ) (pm : Vec ℝ), anaqpsk n (some b) f draw = .ok (y, pm) ∧ y.len = n ∧ pm.len = n ∧
      (∀ i < n, ∀ j < n, i / b = j / b → pm.get i = pm.get j) ∧
      (∀ i < n, ∃ q : ℕ, q < 4 ∧ pm.get i = q * (Real.pi / 2) ∧ (q : ℝ) / 4 ≤ draw (i / b) ∧ draw (i / b) < (q + 1 : ℝ) / 4) ∧
      (∀ i < n, y.get i = expi (2 * Real.pi * f * ((i : ℝ) - 1) + pm.get i) ∧
        y.get i ^ 4 = expi (8 * Real.pi * f * ((i : ℝ) - 1))) := by
  set lev : ℕ → ℝ := fun j => if (⌊4 * draw j⌋ : ℝ) = 4 then 3 else (⌊4 * draw j⌋ : ℝ) with hlev
  have hfl : ∀ j, ∃ q : ℕ, q < 4 ∧ lev j = q ∧ (q : ℝ) / 4 ≤ draw j ∧ draw j < (q + 1 : ℝ) / 4 := fun j => by
    obtain ⟨h0, h1⟩ := hd j
    have hf0 : 0 ≤ ⌊4 * draw j⌋ := Int.floor_nonneg.2 (by linarith)
    have hf1 : ⌊4 * draw j⌋ < 4 := by rw [Int.floor_lt]; push_cast; linarith
    obtain ⟨q, hq⟩ := Int.eq_ofNat_of_zero_le hf0
    have hq4 : q < 4 := by omega
    have hle := Int.floor_le (4 * draw j)
    have hlt := Int.lt_floor_add_one (4 * draw j)
    rw [hq] at hle hlt
    push_cast at hle hlt
    refine ⟨q, hq4, ?_, by linarith, by linarith⟩
    rw [hlev]
    simp only
    rw [hq]
    rw [if_neg (by push_cast; exact_mod_cast hq4.ne)]
    push_cast; rfl
  have hlen := (blocks_eq_iff n b hb).2 hdiv
  have hok : anaqpsk n (some b) f draw = .ok (⟨n, fun i => Complex.exp (Complex.I * ((2 * Real.pi * f * (((0 + (i : ℤ) : ℤ) : ℝ) - 1)
      + Real.pi * lev (i / b) / 2 : ℝ) : ℂ))⟩, ⟨n, fun i => Real.pi * lev (i / b) / 2⟩) := by
    unfold anaqpsk
    simp only [Option.getD_some]
    rw [if_neg (by norm_num; constructor <;> linarith), draws_ok n b hb, ok_bind]
    simp only [Vec.map]
    rw [repeatPy_ok, ok_bind]
    simp only [hlen]
    have e : ((n : ℤ) - 0).toNat = n := by omega
    rw [Vec.bcast_ok (by simp only [arange]; exact e), ok_bind]
    simp only [arange, e]
    rfl
  refine ⟨_, _, hok, rfl, rfl, fun i _ j _ h => by simp only [h], fun i _ => ?_, fun i _ => ?_⟩
  · obtain ⟨q, hq, e, h2, h3⟩ := hfl (i / b)
    refine ⟨q, hq, ?_, h2, h3⟩
    simp only
    rw [e]; ring
  · have hy : Complex.exp (Complex.I * ((2 * Real.pi * f * (((0 + (i : ℤ) : ℤ) : ℝ) - 1) + Real.pi * lev (i / b) / 2 : ℝ) : ℂ))
        = expi (2 * Real.pi * f * ((i : ℝ) - 1) + Real.pi * lev (i / b) / 2) := by
      unfold expi
      congr 1
      push_cast
      ring
    refine ⟨hy, ?_⟩
    simp only
    obtain ⟨q, hq, e, -, -⟩ := hfl (i / b)
    have e4 : ∀ a : ℝ, expi a ^ 4 = expi (((4 : ℕ) : ℝ) * a) := fun a => by
      unfold expi
      rw [← Complex.exp_nat_mul]
      congr 1
      push_cast
      ring
    rw [hy, e4, e]
    have : ((4 : ℕ) : ℝ) * (2 * Real.pi * f * ((i : ℝ) - 1) + Real.pi * q / 2) = 8 * Real.pi * f * ((i : ℝ) - 1) + 2 * Real.pi * (q : ℤ) := by
      push_cast; ring
    rw [this, expi_add]
    have : expi (2 * Real.pi * ((q : ℤ) : ℝ)) = 1 := by
      unfold expi
      rw [Complex.exp_eq_one_iff]
      exact ⟨q, by push_cast; ring⟩
    rw [this, mul_one]

/-- `anaqpsk` raises `ValueError` whenever the block length does not divide the length (except for a single sample). -/
theorem C19_anaqpsk_raises (n b : ℕ) (f : ℝ) (draw : ℕ → ℝ) (hb : 1 ≤ b) (hdiv : ¬ b ∣ n) (hn : n ≠ 1) (h0 : 0 ≤ f) (h1 : f ≤ 1 / 2) :
    anaqpsk n (some b) f draw = .error .valueError := by
  have hlen : (n + b - 1) / b * b ≠ n := fun h => hdiv ((blocks_eq_iff n b hb).1 h)
  have hge := blocks_ge n b hb
  unfold anaqpsk
  simp only [Option.getD_some]
  rw [if_neg (by norm_num; constructor <;> linarith), draws_ok n b hb, ok_bind]
  simp only [Vec.map]
  rw [repeatPy_ok, ok_bind]
  have e : ((n : ℤ) - 0).toNat = n := by omega
  rw [Vec.bcast_error]
  · rfl
  · simp only [arange, e]
    have : n ≠ 0 := fun h0 => hdiv (h0 ▸ dvd_zero b)
    omega

/-- Negative block lengths: `anafsk` returns empty arrays when the block length exceeds the number of points in absolute value; everything else raises `ValueError`. -/
theorem C19_negative (n nc M : ℤ) (f : ℝ) (draw : ℕ → ℝ) (hc : nc < 0) (hM : M ≠ 0) (h0 : 0 ≤ f) (h1 : f ≤ 1 / 2) :
    (1 ≤ n → n < -nc → ∃ y law, anafsk n (some nc) M draw = .ok (y, law) ∧ y.len = 0 ∧ law.len = 0) ∧
    (-nc ≤ n → anafsk n (some nc) M draw = .error .valueError) ∧
    (2 ≤ n → anaqpsk n (some nc) f draw = .error .valueError) := by
  have hf : ¬ (f < 0 ∨ f > 0.5) := by norm_num; constructor <;> linarith
  refine ⟨fun hn h => ?_, fun h => ?_, fun hn => ?_⟩
  · unfold anafsk
    simp only [Option.getD_some]
    rw [draws_neg n nc hn hc, if_pos h, ok_bind, if_neg hM]
    simp only [Vec.map]
    rw [repeatPy_empty _ _ hc, ok_bind]
    exact ⟨_, _, rfl, rfl, rfl⟩
  · unfold anafsk
    simp only [Option.getD_some]
    rw [draws_neg n nc (by omega) hc, if_neg (by omega)]
    rfl
  · unfold anaqpsk
    simp only [Option.getD_some]
    rw [if_neg hf, draws_neg n nc (by omega) hc]
    by_cases h : n < -nc
    · rw [if_pos h, ok_bind]
      simp only [Vec.map]
      rw [repeatPy_empty _ _ hc, ok_bind, Vec.bcast_error]
      · rfl
      · show ¬ ((n - 0).toNat = 0 ∨ (n - 0).toNat = 1 ∨ (0 : ℕ) = 1)
        omega
    · rw [if_neg h]
      rfl

/-- Both lengths negative: `ValueError`. -/
theorem C19_both_negative (n nc M : ℤ) (f : ℝ) (draw : ℕ → ℝ) (hn : n < 0) (hc : nc < 0) (hM : M ≠ 0) (h0 : 0 ≤ f) (h1 : f ≤ 1 / 2) :
    anaask n (some nc) f draw = .error .valueError ∧ anabpsk n (some nc) f draw = .error .valueError ∧
    anafsk n (some nc) M draw = .error .valueError ∧ anaqpsk n (some nc) f draw = .error .valueError := by
  have hf : ¬ (f < 0 ∨ f > 0.5) := by norm_num; constructor <;> linarith
  obtain ⟨m, hm⟩ := draws_neg_neg n nc hn hc draw
  refine ⟨?_, ?_, ?_, ?_⟩
  · unfold anaask
    simp only [Option.getD_some]
    rw [if_neg hf, hm, ok_bind, repeatPy_neg _ _ _ hc]
    rfl
  · unfold anabpsk
    simp only [Option.getD_some]
    rw [if_neg hf, hm, ok_bind, Vec.map, repeatPy_neg _ _ _ hc]
    rfl
  · unfold anafsk
    simp only [Option.getD_some]
    rw [hm, ok_bind, if_neg hM, Vec.map, repeatPy_neg _ _ _ hc]
    rfl
  · unfold anaqpsk
    simp only [Option.getD_some]
    rw [if_neg hf, hm, ok_bind]
    simp only [Vec.map]
    rw [repeatPy_neg _ _ _ hc]
    rfl

example (draw : ℕ → ℝ) : anafsk (-10) (some (-5)) 4 draw = .error .valueError :=
  (C19_both_negative (-10) (-5) 4 0 draw (by norm_num) (by norm_num) (by norm_num) le_rfl (by norm_num)).2.2.1

example (draw : ℕ → ℝ) : anaask 20 (some (-30)) (1 / 4) draw = .error .valueError ∧ anaqpsk 20 (some (-5)) (1 / 4) draw = .error .valueError ∧
    ∃ y law, anafsk 20 (some (-30)) 4 draw = .ok (y, law) ∧ y.len = 0 := by
  obtain ⟨y, law, h, hy, -⟩ := (C19_negative 20 (-30) 4 (1 / 4) draw (by norm_num) (by norm_num) (by norm_num) (by norm_num)).1 (by norm_num) (by norm_num)
  exact ⟨(C18_negative 20 (-30) (1 / 4) draw (by norm_num) (by norm_num) (by norm_num) (by norm_num)).1,
    (C19_negative 20 (-5) 4 (1 / 4) draw (by norm_num) (by norm_num) (by norm_num) (by norm_num)).2.2 (by norm_num), y, law, h, hy⟩

/-- The default call on 128 samples: `anafsk` returns 130 samples, `anaqpsk` raises. -/
theorem C19_defaults (draw : ℕ → ℝ) :
    (∃ y law, anafsk 128 none 4 draw = .ok (y, law) ∧ y.len = 130) ∧ anaqpsk 128 none (1 / 4) draw = .error .valueError := by
  have hr : roundEven (((128 : ℤ) : ℝ) / 5.0) = 26 := by
    have hf : ⌊((128 : ℤ) : ℝ) / 5.0⌋ = 25 := by rw [Int.floor_eq_iff]; norm_num
    unfold roundEven
    rw [hf]
    norm_num
  constructor
  · have hd := draws_ok 128 26 (by norm_num) draw
    unfold anafsk
    simp only [Option.getD_none, hr]
    have hd' : draws 128 26 draw = .ok ⟨5, draw⟩ := by simpa using hd
    rw [hd', ok_bind, if_neg (by norm_num)]
    refine ⟨_, _, rfl, rfl⟩
  · have := C19_anaqpsk_raises 128 26 (1 / 4) draw (by norm_num) (by norm_num) (by norm_num) (by norm_num) (by norm_num)
    unfold anaqpsk at this ⊢
    simp only [Option.getD_none, hr]
    simpa using this

/-! ## Concrete cases -/

example (draw : ℕ → ℝ) (hd : ∀ j, 0 ≤ draw j ∧ draw j < 1) : ∃ y am, anaask 64 (some 8) (1 / 4) draw = .ok (y, am) ∧
    am.get 17 = draw 2 := by
  obtain ⟨y, am, h, -, -, -, h1, -⟩ := C18_anaask 64 8 (1 / 4) draw (by norm_num) (by norm_num) (by norm_num) (by norm_num) hd
  exact ⟨y, am, h, (h1 17 (by norm_num)).1⟩

example : ∃ y am, anabpsk 64 (some 8) (1 / 4) (fun j => if j = 2 then 3 / 4 else 1 / 4) = .ok (y, am) ∧ am.get 17 = 1 ∧ am.get 5 = -1 := by
  obtain ⟨y, am, h, -, -, -, h1, -⟩ := C18_anabpsk 64 8 (1 / 4) (fun j => if j = 2 then 3 / 4 else 1 / 4) (by norm_num) (by norm_num)
    (by norm_num) (by norm_num) (fun j => by split_ifs <;> norm_num)
  refine ⟨y, am, h, ?_, ?_⟩
  · rw [h1 17 (by norm_num)]; norm_num
  · rw [h1 5 (by norm_num)]; norm_num

example : anaqpsk 64 (some 5) (1 / 4) (fun _ => 0) = .error .valueError :=
  C19_anaqpsk_raises 64 5 (1 / 4) _ (by norm_num) (by norm_num) (by norm_num) (by norm_num) (by norm_num)

example : ∃ y pm, anaqpsk 64 (some 8) (1 / 4) (fun _ => 2 / 3) = .ok (y, pm) ∧ pm.get 11 = Real.pi := by
  obtain ⟨y, pm, h, -, -, -, h1, -⟩ := C19_anaqpsk 64 8 (1 / 4) (fun _ => 2 / 3) (by norm_num) (by norm_num) (by norm_num)
    (by norm_num) (fun j => by norm_num)
  obtain ⟨q, hq, e, h2, h3⟩ := h1 11 (by norm_num)
  refine ⟨y, pm, h, ?_⟩
  have hq2 : q = 2 := by
    have h4 : (q : ℝ) < 3 := by linarith
    have h5 : (1 : ℝ) < q := by linarith
    have h4' : q < 3 := by exact_mod_cast h4
    have h5' : 1 < q := by exact_mod_cast h5
    omega
  rw [e, hq2]
  push_cast
  ring

example : ∃ y law, anafsk 20 (some 8) 2 (fun _ => 1 / 3) = .ok (y, law) ∧ y.len = 24 := by
  obtain ⟨y, law, h, h1, -⟩ := C19_anafsk 20 8 2 (fun _ => 1 / 3) (by norm_num) (by norm_num) (fun j => by norm_num)
  exact ⟨y, law, h, h1⟩

/-! ## C20: analytic impulse and step -/

/-- `anapulse` is the analytic signal of the unit impulse at `ti`. -/
theorem C20_anapulse (n : ℕ) (ti : ℝ) (hn : 1 ≤ n) :
    ∃ z, anapulse n (some ti) = .ok z ∧ IsAnalytic ⟨n, fun t => if (t : ℝ) = ti then 1 else 0⟩ z := by
  obtain ⟨z, hz, ha, -⟩ := hilbert_analytic (x := ⟨n, fun t => if (t : ℝ) = ti then 1 else 0⟩) (by simp only; omega)
  refine ⟨z, ?_, ha⟩
  unfold anapulse
  rw [← hz]
  simp only [arange, Vec.map, Option.getD_some]
  congr 2
  funext t
  simp

/-- `anastep` is the analytic signal of the unit step that is one strictly after `ti`. -/
theorem C20_anastep (n : ℕ) (ti : ℝ) (hn : 1 ≤ n) :
    ∃ z, anastep n (some ti) = .ok z ∧ IsAnalytic ⟨n, fun t => if ti < (t : ℝ) then 1 else 0⟩ z := by
  obtain ⟨z, hz, ha, -⟩ := hilbert_analytic (x := ⟨n, fun t => if ti < (t : ℝ) then 1 else 0⟩) (by simp only; omega)
  refine ⟨z, ?_, ha⟩
  unfold anastep
  rw [← hz]
  simp only [arange, Vec.map, Option.getD_some]
  congr 2
  funext t
  simp

/-- The instant defaults to the middle of the signal (rounded to even). -/
theorem C20_default (n : ℕ) : anapulse n none = anapulse n (some (roundEven ((n : ℝ) / 2))) ∧
    anastep n none = anastep n (some (roundEven ((n : ℝ) / 2))) := ⟨by unfold anapulse; simp, by unfold anastep; simp⟩

/-- Being the analytic signal of a real signal determines every sample. -/
theorem C20_unique (x : Vec ℝ) (z w : Vec ℂ) (hz : IsAnalytic x z) (hw : IsAnalytic x w) : z.len = w.len ∧ ∀ t < x.len, z.get t = w.get t :=
  isAnalytic_unique hz hw

/-- Without samples both raise `ValueError`. -/
theorem C20_empty (n : ℤ) (ti : Option ℝ) (hn : n ≤ 0) : anapulse n ti = .error .valueError ∧ anastep n ti = .error .valueError := by
  constructor
  · exact hilbert_empty (by simp [arange, Vec.map]; omega)
  · exact hilbert_empty (by simp [arange, Vec.map]; omega)

/-- An impulse at an instant that is not a sample vanishes identically; at a sample it is one there in the real part. -/
example : ∃ z, anapulse 8 (some 3) = .ok z ∧ (z.get 3).re = 1 ∧ (z.get 4).re = 0 ∧ dft z 5 = 0 := by
  obtain ⟨z, hz, h⟩ := C20_anapulse 8 3 (by norm_num)
  refine ⟨z, hz, ?_, ?_, h.neg 5 (by norm_num) (by norm_num)⟩
  · rw [h.re 3 (by norm_num)]; norm_num
  · rw [h.re 4 (by norm_num)]; norm_num

example : ∃ z, anastep 8 none = .ok z ∧ (z.get 4).re = 0 ∧ (z.get 5).re = 1 := by
  have hr : roundEven ((8 : ℕ) / 2 : ℝ) = 4 := by
    have := roundEven_half 8
    simpa using this
  obtain ⟨z, hz, h⟩ := C20_anastep 8 4 (by norm_num)
  refine ⟨z, ?_, ?_, ?_⟩
  · have := (C20_default 8).2
    rw [hr] at this
    rw [← hz]
    exact_mod_cast this
  · rw [h.re 4 (by norm_num)]; norm_num
  · rw [h.re 5 (by norm_num)]; norm_num

/-! ## C64: Lipschitz singularity -/

/-- For a positive strength the real part of `anasing` is `M - |t - t0| ^ h`, with `M` such that it is non-negative and reaches zero: it is the
larger the nearer `t` is to the singularity. -/
theorem C64_positive (n : ℕ) (t0 h : ℝ) (hn : 1 ≤ n) (hh : 0 < h) :
    ∃ (z : Vec ℂ) (M : ℝ), anasing n (some t0) h = .ok z ∧ IsAnalytic ⟨n, fun t => M - |(t : ℝ) - t0| ^ h⟩ z ∧
      (∀ t < n, 0 ≤ (z.get t).re) ∧ (∃ t < n, (z.get t).re = 0) ∧
      (∀ s < n, ∀ t < n, |(s : ℝ) - t0| ≤ |(t : ℝ) - t0| → (z.get t).re ≤ (z.get s).re) := by
  obtain ⟨M, hM, hle, i, hi, hie⟩ := Vec.amax_spec (v := ⟨n, fun t => |(t : ℝ) - t0| ^ h⟩) (by simp only; omega)
  simp only at hle hi hie
  obtain ⟨z, hz, ha, -⟩ := hilbert_analytic (x := ⟨n, fun t => M - |(t : ℝ) - t0| ^ h⟩) (by simp only; omega)
  have hre := ha.re
  simp only at hre
  refine ⟨z, M, ?_, ha, fun t ht => ?_, ⟨i, hi, ?_⟩, fun s hs t ht hst => ?_⟩
  · unfold anasing
    simp only [Option.getD_some]
    rw [if_neg (by linarith)]
    have e : (arange 0 (n : ℤ)).map (fun t : ℤ => |(t : ℝ) - t0| ^ h) = ⟨n, fun t => |(t : ℝ) - t0| ^ h⟩ := by
      simp only [arange, Vec.map]
      congr 1
      funext t; simp
    rw [e, hM, ok_bind]
    exact hz
  · rw [hre t ht]; linarith [hle t ht]
  · rw [hre i hi, hie, sub_self]
  · rw [hre t ht, hre s hs]
    linarith [Real.rpow_le_rpow (abs_nonneg ((s : ℝ) - t0)) hst hh.le]

theorem trunc_half (n : ℕ) : truncInt ((n : ℝ) / 2) = ((n / 2 : ℕ) : ℤ) := by
  unfold truncInt
  rw [if_pos (by positivity), Int.floor_eq_iff]
  have h1 : 2 * (n / 2) ≤ n := by omega
  have h2 : n < 2 * (n / 2) + 2 := by omega
  have h1' : (2 : ℝ) * ((n / 2 : ℕ) : ℝ) ≤ n := by exact_mod_cast h1
  have h2' : (n : ℝ) < (2 : ℝ) * ((n / 2 : ℕ) : ℝ) + 2 := by exact_mod_cast h2
  rw [Int.cast_natCast]
  constructor <;> linarith

theorem trunc_half_pred (n : ℕ) (hn : 4 ≤ n) : truncInt ((n : ℝ) / 2 - 1) = ((n / 2 - 1 : ℕ) : ℤ) := by
  have hn' : (4 : ℝ) ≤ n := by exact_mod_cast hn
  unfold truncInt
  rw [if_pos (by linarith), Int.floor_sub_one]
  have := trunc_half n
  unfold truncInt at this
  rw [if_pos (by positivity)] at this
  rw [this]
  omega

/-- Frequency of the `k`-th non-zero bin filled by `anasing`. -/
noncomputable def singFreq (n k : ℕ) : ℝ := 1 / n + ((k : ℝ) - 1) * ((1 / 2 - 2 / n) / ((n / 2 : ℕ) - 2 : ℝ))

/-- For a strength that is not positive (`n ≥ 4`): the real part has minimum zero and its maximum exceeds its mean by one; the bins `k` of
positive frequency hold `ν_k ^ (-1-h)` at phase `-2 π ν_k (t0 - 1)` up to a common positive factor, where `ν_k = k / n` when `n` is even (and a
slightly stretched grid when `n` is odd). -/
theorem C64_nonpositive (n : ℕ) (t0 h : ℝ) (hn : 4 ≤ n) (hh : h ≤ 0) :
    ∃ (z : Vec ℂ) (x : Vec ℝ) (c : ℝ), anasing n (some t0) h = .ok z ∧ x.len = n ∧ IsAnalytic x z ∧ 0 < c ∧
      (∀ t < n, 0 ≤ x.get t) ∧ (∃ t < n, x.get t = 0) ∧
      (∀ t < n, x.get t ≤ (∑ s ∈ range n, x.get s) / n + 1) ∧ (∃ t < n, x.get t = (∑ s ∈ range n, x.get s) / n + 1) ∧
      ∀ k, 1 ≤ k → k < n / 2 →
        dft z k = ((c * singFreq n k ^ (-1 - h) : ℝ) : ℂ) * expi (-(2 * Real.pi * singFreq n k * (t0 - 1))) := by
  have hn0 : n ≠ 0 := by omega
  have hnR : (0 : ℝ) < n := by exact_mod_cast Nat.pos_of_ne_zero hn0
  have hn4 : (4 : ℝ) ≤ n := by exact_mod_cast hn
  set q := n / 2 with hq
  have hq2 : 2 ≤ q := by omega
  have hqR : ((q - 1 : ℕ) : ℝ) = (q : ℝ) - 1 := by push_cast [Nat.cast_sub (show 1 ≤ q by omega)]; ring
  set W : ℝ → ℂ := fun v => ((v ^ (-1 - h) : ℝ) : ℂ) * Complex.exp (-Complex.I * 2 * Real.pi * v * (t0 - 1)) with hW
  set Y : ℕ → ℂ := fun k => if k < q then (if k = 0 then 0 else
    W ((linspace (1.0 / (n : ℝ)) (0.5 - 1.0 / (n : ℝ)) (q - 1)).get (if q - 1 = 1 then 0 else k - 1))) else 0 with hY
  have hYk : ∀ k, 1 ≤ k → k < q → Y k = W (singFreq n k) := by
    intro k h1 h2
    rw [hY]
    simp only
    rw [if_pos h2, if_neg (by omega)]
    congr 1
    unfold linspace singFreq
    simp only
    by_cases h3 : q - 1 = 1
    · rw [if_pos h3]
      have : k = 1 := by omega
      subst this
      norm_num
    · rw [if_neg h3, if_neg h3, hqR, ← hq]
      push_cast [Nat.cast_sub h1]
      norm_num
      left
      congr 1 <;> ring
  have hfreq : ∀ k, 1 ≤ k → k < q → 0 < singFreq n k := by
    intro k h1 h2
    have h3 : (1 : ℝ) ≤ k := by exact_mod_cast h1
    have h4 : (2 : ℝ) ≤ q := by exact_mod_cast hq2
    have h5 : (0 : ℝ) ≤ 1 / 2 - 2 / n := by
      have : (2 : ℝ) / n ≤ 1 / 2 := by rw [div_le_iff₀ hnR]; linarith
      linarith
    have h6 : (0 : ℝ) < 1 / n := by positivity
    have h7 : 0 ≤ (1 / 2 - 2 / (n : ℝ)) / ((q : ℝ) - 2) := div_nonneg h5 (by linarith)
    unfold singFreq
    rw [← hq]
    nlinarith [mul_nonneg (show (0 : ℝ) ≤ k - 1 by linarith) h7]
  set x : ℕ → ℝ := fun t => (idftC n Y t).re with hx
  have hxdft : ∀ k, 0 < k → k < n → dftC n (fun t => (x t : ℂ)) k = (Y k + conj (Y ((n - k) % n))) / 2 := by
    intro k _ hk
    have e : dftC n (fun t => (x t : ℂ)) k = dftC n (fun t => (1 / 2 : ℂ) * (idftC n Y t + conj (idftC n Y t))) k := by
      apply dftC_congr
      intro t _
      rw [Complex.add_conj]
      push_cast
      ring
    have e2 : dftC n (fun t => conj (idftC n Y t)) k = conj (Y ((n - k) % n)) := by
      have := conj_dftC n (fun t => idftC n Y t) (-(k : ℤ))
      rw [neg_neg] at this
      rw [← this, dftC_neg hn0 _ hk, dftC_idftC hn0 Y (Nat.mod_lt _ (by omega))]
    rw [e, dftC_smul, dftC_add, dftC_idftC hn0 Y hk, e2]
    ring
  have hxk : ∀ k, 1 ≤ k → k < q → dftC n (fun t => (x t : ℂ)) k = Y k / 2 := by
    intro k h1 h2
    rw [hxdft k (by omega) (by omega), Nat.mod_eq_of_lt (by omega)]
    have : Y (n - k) = 0 := by
      rw [hY]; simp only; rw [if_neg (by omega)]
    rw [this, map_zero, add_zero]
  have hsum : ∑ t ∈ range n, x t = 0 := by
    have h1 := dftC_idftC hn0 Y (k := 0) (by omega)
    have hY0 : Y 0 = 0 := by rw [hY]; simp
    rw [hY0] at h1
    unfold dftC at h1
    have h2 := congrArg Complex.re h1
    simpa [Complex.re_sum] using h2
  obtain ⟨mx, hmx, hle, i, hi, hie⟩ := Vec.amax_spec (v := ⟨n, x⟩) (by exact hn0)
  simp only at hle hi hie
  have hpos : 0 < mx := by
    by_contra hneg
    push Not at hneg
    have hall : ∀ t ∈ range n, x t = 0 := by
      have := (Finset.sum_eq_zero_iff_of_nonpos (s := range n) (f := x)
        (fun t ht => (hle t (Finset.mem_range.1 ht)).trans hneg)).1 hsum
      exact this
    have h1 := hxk 1 le_rfl (by omega)
    have h2 : dftC n (fun t => (x t : ℂ)) ((1 : ℕ) : ℤ) = 0 := by
      rw [dftC_congr (y := fun _ => 0) (fun t ht => by rw [hall t (Finset.mem_range.2 ht), Complex.ofReal_zero])]
      unfold dftC; simp
    rw [h2, hYk 1 le_rfl (by omega)] at h1
    have h3 : W (singFreq n 1) ≠ 0 := by
      rw [hW]
      refine mul_ne_zero ?_ (Complex.exp_ne_zero _)
      rw [Complex.ofReal_ne_zero]
      exact (Real.rpow_pos_of_pos (hfreq 1 le_rfl (by omega)) _).ne'
    exact h3 (by simpa using h1.symm)
  obtain ⟨mn, hmn, hge, j, hj, hje⟩ := Vec.amin_spec (v := ⟨n, fun t => x t / mx⟩) (by exact hn0)
  simp only at hge hj hje
  obtain ⟨z, hz, ha, hs⟩ := hilbert_analytic (x := ⟨n, fun t => x t / mx - mn⟩) (by exact hn0)
  simp only at hs
  have hmean : (∑ s ∈ range n, (x s / mx - mn)) / n = -mn := by
    rw [Finset.sum_sub_distrib, ← Finset.sum_div, hsum, zero_div, Finset.sum_const, Finset.card_range, nsmul_eq_mul]
    field_simp
    ring
  refine ⟨z, ⟨n, fun t => x t / mx - mn⟩, 1 / mx, ?_, rfl, ha, by positivity, fun t ht => ?_, ⟨j, hj, ?_⟩, fun t ht => ?_, ⟨i, hi, ?_⟩,
    fun k h1 h2 => ?_⟩
  · unfold anasing
    simp only [Option.getD_some, Int.cast_natCast]
    have e1 : (0.5 - 1.0 / (n : ℝ)) / (1.0 / (n : ℝ)) = (n : ℝ) / 2 - 1 := by
      field_simp
      norm_num
      ring
    have e2 : (n : ℝ) / 2.0 = (n : ℝ) / 2 := by norm_num
    rw [if_pos hh, if_neg (by omega), e1, e2, trunc_half, trunc_half_pred n hn, if_neg (by
      push Not
      exact ⟨Int.natCast_nonneg _, Int.natCast_nonneg _⟩)]
    simp only [Int.toNat_natCast, ← hq]
    have el : ∀ a b m, (linspace a b m).len = m := fun _ _ _ => rfl
    rw [if_neg (by simp only [Vec.map, el]; tauto)]
    simp only [Vec.map, el]
    unfold ifftPad
    rw [if_neg (by omega)]
    simp only [Int.toNat_natCast]
    rw [ifft_ok (by exact hn0), ok_bind]
    simp only
    have hfold : (⟨n, fun t => (idftC n Y t).re⟩ : Vec ℝ).amax = .ok mx := hmx
    rw [show (fun t : ℕ => (idftC n (fun i => if i < q then (if i = 0 then 0 else (((linspace (1.0 / (n : ℝ)) (0.5 - 1.0 / (n : ℝ)) (q - 1)).get
      (if q - 1 = 1 then 0 else i - 1) ^ (-1 - h) : ℝ) : ℂ) * Complex.exp (-Complex.I * 2 * Real.pi *
      (((linspace (1.0 / (n : ℝ)) (0.5 - 1.0 / (n : ℝ)) (q - 1)).get (if q - 1 = 1 then 0 else i - 1) : ℝ) : ℂ) * (t0 - 1))) else 0) t).re) = x from rfl,
      hmx, ok_bind, if_neg hpos.ne', hmn, ok_bind]
    exact hz
  · simp only; linarith [hge t ht]
  · simp only; rw [hje, sub_self]
  · simp only
    rw [hmean]
    have : x t / mx ≤ 1 := by rw [div_le_one hpos]; exact hle t ht
    linarith
  · simp only
    rw [hmean, hie, div_self hpos.ne']
    ring
  · rw [hs k (by omega) (by omega), dft_eq_dftC]
    simp only
    have e : dftC n (fun t => ((x t / mx - mn : ℝ) : ℂ)) k = dftC n (fun t => (1 / (mx : ℂ)) * (x t : ℂ)) k + dftC n (fun _ => -(mn : ℂ)) k := by
      rw [← dftC_add]
      apply dftC_congr
      intro t _
      push_cast
      ring
    rw [e, dftC_smul, dftC_const (by omega) (by omega), add_zero, hxk k h1 h2, hYk k h1 h2, hW]
    simp only
    have e3 : Complex.exp (-Complex.I * 2 * Real.pi * (singFreq n k : ℂ) * ((t0 : ℂ) - 1)) = expi (-(2 * Real.pi * singFreq n k * (t0 - 1))) := by
      unfold expi
      congr 1
      push_cast
      ring
    rw [e3]
    push_cast
    ring

/-- On an even number of samples the bins are filled at their own frequencies. -/
theorem C64_even (m k : ℕ) (hm : 2 ≤ m) (h1 : 1 ≤ k) (hk : k < m) : singFreq (2 * m) k = (k : ℝ) / (2 * m : ℕ) := by
  unfold singFreq
  have e : 2 * m / 2 = m := by omega
  rw [e]
  have hm' : (2 : ℝ) ≤ m := by exact_mod_cast hm
  rcases eq_or_lt_of_le hm with h | h
  · subst h
    have : k = 1 := by omega
    subst this
    norm_num
  · have h' : (2 : ℝ) < m := by exact_mod_cast h
    have h3 : (m : ℝ) - 2 ≠ 0 := by linarith
    have h4 : (m : ℝ) ≠ 0 := by linarith
    push_cast
    field_simp
    ring

/-- With fewer than four samples the result of a non-positive strength is undefined (0/0), and without samples nothing is returned. -/
theorem C64_short (t0 : Option ℝ) (h : ℝ) (hh : h ≤ 0) :
    anasing 0 t0 h = .error .zeroDivisionError ∧ ∀ n : ℕ, 1 ≤ n → n ≤ 3 → anasing n t0 h = .error .nonFinite := by
  constructor
  · unfold anasing
    simp only
    rw [if_pos hh, if_pos True.intro]
  · intro n h1 h3
    have hn0 : n ≠ 0 := by omega
    have hnR : (0 : ℝ) < n := by exact_mod_cast h1
    have e1 : (0.5 - 1.0 / (n : ℝ)) / (1.0 / (n : ℝ)) = (n : ℝ) / 2 - 1 := by
      field_simp
      norm_num
      ring
    have e2 : (n : ℝ) / 2.0 = (n : ℝ) / 2 := by norm_num
    have e3 : truncInt ((n : ℝ) / 2 - 1) = 0 := by
      unfold truncInt
      have h1' : (1 : ℝ) ≤ n := by exact_mod_cast h1
      have h3' : (n : ℝ) ≤ 3 := by exact_mod_cast h3
      split_ifs with h0
      · rw [Int.floor_eq_iff]; push_cast; constructor <;> linarith
      · rw [Int.ceil_eq_iff]; push_cast; constructor <;> linarith
    unfold anasing
    simp only [Int.cast_natCast]
    rw [if_pos hh, if_neg (by omega), e1, e2, e3, trunc_half, if_neg (by
      push Not
      exact ⟨le_rfl, Int.natCast_nonneg _⟩)]
    simp only [Int.toNat_natCast, Int.toNat_zero]
    have el : ∀ a b m, (linspace a b m).len = m := fun _ _ _ => rfl
    rw [if_neg (by simp only [Vec.map, el]; omega)]
    simp only [Vec.map, el]
    unfold ifftPad
    rw [if_neg (by omega)]
    simp only [Int.toNat_natCast]
    rw [ifft_ok (by exact hn0), ok_bind]
    simp only
    have hz : ∀ t : ℕ, idftC n (fun i => if i < n / 2 then (if i = 0 then 0 else
        (((linspace (1.0 / (n : ℝ)) (0.5 - 1.0 / (n : ℝ)) 0).get (if (0 : ℕ) = 1 then 0 else i - 1) ^ (-1 - h) : ℝ) : ℂ) *
        Complex.exp (-Complex.I * 2 * Real.pi * (((linspace (1.0 / (n : ℝ)) (0.5 - 1.0 / (n : ℝ)) 0).get (if (0 : ℕ) = 1 then 0 else i - 1) : ℝ) : ℂ)
        * ((t0.getD ((n : ℝ) / 2) : ℝ) - 1))) else 0) t = 0 := fun t => by
      unfold idftC
      rw [Finset.sum_eq_zero, zero_div]
      intro i _
      by_cases hi : i < n / 2
      · have : i = 0 := by omega
        subst this
        simp
      · simp only [if_neg hi, zero_mul]
    simp only [hz, Complex.zero_re]
    obtain ⟨mx, hmx, -, i, -, hie⟩ := Vec.amax_spec (v := ⟨n, fun _ => 0⟩) (by exact hn0)
    rw [hmx, ok_bind]
    simp only at hie
    rw [if_pos hie.symm]

example : ∃ z, anasing 9 (some 3) (1 / 2) = .ok z ∧ (z.get 4).re ≤ (z.get 3).re := by
  obtain ⟨z, M, hz, -, -, -, h⟩ := C64_positive 9 3 (1 / 2) (by norm_num) (by norm_num)
  exact ⟨z, hz, h 3 (by norm_num) 4 (by norm_num) (by norm_num)⟩

example : ∃ (z : Vec ℂ) (c : ℝ), anasing 8 (some 5) (-1) = .ok z ∧ 0 < c ∧ dft z 3 = (c : ℂ) * expi (-(2 * Real.pi * (3 / 8) * 4)) := by
  obtain ⟨z, x, c, hz, -, -, hc, -, -, -, -, h⟩ := C64_nonpositive 8 5 (-1) (by norm_num) (by norm_num)
  refine ⟨z, c, hz, hc, ?_⟩
  rw [h 3 (by norm_num) (by norm_num), C64_even 4 3 (by norm_num) (by norm_num) (by norm_num)]
  norm_num

end Tftb.Props
