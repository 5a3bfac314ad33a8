import Verif.Props.InstFreq
import Verif.Props.Analytic

/-! # Demodulating keyed signals with `inst_freq` (C112) -/

namespace Tftb.Props

open Tftb Tftb.Spec Tftb.TF Tftb.Analytic Finset

/-- `inst_freq` from the phases (in turns) of the samples: half the advance over two samples, modulo one half. -/
theorem instFreq_wrap (n : ℕ) (a φ : ℕ → ℝ) (ha : ∀ i < n, 0 < a i) (x : Vec ℂ) (hx : x.len = n)
    (hxv : ∀ i < n, x.get i = (a i : ℂ) * expi (2 * Real.pi * φ i)) :
    ∃ (f : Vec ℝ) (t : Vec ℤ), instFreq x none = .ok (f, t) ∧ f.len = n - 2 ∧ t.len = n - 2 ∧
      ∀ j < n - 2, t.get j = (j : ℤ) + 2 ∧ ∀ (g : ℝ) (m : ℤ), 0 < g → g ≤ 1 / 2 → (φ (j + 2) - φ j) / 2 = g + m / 2 → f.get j = g := by
  have hl : (arange 2 (x.len : ℤ)).len = n - 2 := by rw [arange_len, hx]; omega
  have h1 : ∀ j < (arange 2 (x.len : ℤ)).len, 0 ≤ (arange 2 (x.len : ℤ)).get j ∧
      (arange 2 (x.len : ℤ)).get j < x.len := by
    intro j hj; have := arange_get_lt hj; omega
  have h2 : ∀ j < ((arange 2 (x.len : ℤ)).map (fun i : ℤ => i - 2)).len,
      0 ≤ ((arange 2 (x.len : ℤ)).map (fun i : ℤ => i - 2)).get j ∧
      ((arange 2 (x.len : ℤ)).map (fun i : ℤ => i - 2)).get j < x.len := by
    intro j hj; have := arange_get_lt (show j < (arange 2 (x.len : ℤ)).len from hj)
    rw [Vec.map_get]; omega
  simp only [instFreq, Option.getD_none]
  rw [Vec.take_ok h1, ok_bind, Vec.take_ok h2, ok_bind]
  simp only [Vec.bcast, Vec.map_len, if_true, ok_bind]
  refine ⟨_, _, rfl, hl, hl, fun j hj => ⟨?_, fun g m g0 g1 hg => ?_⟩⟩
  · rw [arange_get]; ring
  · simp only [Vec.map_get, arange_get]
    have e1 : wrapIdx x.len (2 + (j : ℤ)) = j + 2 := by
      rw [wrapIdx_of_nonneg (by omega)]; omega
    have e2 : wrapIdx x.len (2 + (j : ℤ) - 2) = j := by
      rw [wrapIdx_of_nonneg (by omega)]; omega
    have e3 : expi (2 * Real.pi * φ (j + 2)) = expi (2 * Real.pi * (φ (j + 2) - m)) := expi_eq_of_sub _ _ m (by ring)
    have e4 : (φ (j + 2) - m - φ j) / 2 = g := by linarith
    rw [e1, e2, hxv (j + 2) (by omega), hxv j (by omega), e3]
    refine (instFreq_value _ _ _ _ (ha _ (by omega)) (ha _ (by omega)) (by rw [e4]; exact g0) (by rw [e4]; exact g1)).trans e4

/-- **Amplitude keying.**  Unless a level is zero, the estimate is the carrier frequency at every instant, jumps included; a carrier at 0 is reported as 1/2. -/
theorem C112_ask (n b : ℕ) (f : ℝ) (draw : ℕ → ℝ) (hn : 2 ≤ n) (hb : 1 ≤ b) (h0 : 0 ≤ f) (h1 : f ≤ 1 / 2) (hd : ∀ j, 0 < draw j ∧ draw j < 1) :
    ∃ (y : Vec ℂ) (am g : Vec ℝ) (t : Vec ℤ), anaask n (some b) f draw = .ok (y, am) ∧ instFreq y none = .ok (g, t) ∧ g.len = n - 2 ∧
      ∀ j < n - 2, g.get j = if f = 0 then 1 / 2 else f := by
  obtain ⟨y, am, h, hy, -, -, ham, hv⟩ := C18_anaask n b f draw hn hb h0 h1 (fun j => ⟨(hd j).1.le, (hd j).2⟩)
  obtain ⟨g, t, k1, k2, -, k4⟩ := instFreq_wrap n (fun i => draw (i / b)) (fun i => f * ((i : ℝ) - 1)) (fun i _ => (hd _).1) y hy (fun i hi => by
    rw [(hv i hi).1, (ham i hi).1, mul_assoc (2 * Real.pi)])
  refine ⟨y, am, g, t, h, k1, k2, fun j hj => ?_⟩
  by_cases hf : f = 0
  · rw [if_pos hf]
    refine (k4 j hj).2 _ (-1) (by norm_num) le_rfl ?_
    rw [hf]
    norm_num
  · rw [if_neg hf]
    refine (k4 j hj).2 f 0 (lt_of_le_of_ne h0 (Ne.symm hf)) h1 ?_
    push_cast
    ring

/-- **Binary phase keying.**  For a carrier in `(0, 1/2]` the estimate is the carrier frequency where the two samples used have the same sign of the amplitude law, and is
off by a quarter where they have not: the changes of sign can be read from it. -/
theorem C112_bpsk (n b : ℕ) (f : ℝ) (draw : ℕ → ℝ) (hn : 2 ≤ n) (hb : 1 ≤ b) (h0 : 0 < f) (h1 : f ≤ 1 / 2) (hd : ∀ j, 0 ≤ draw j ∧ draw j < 1) :
    ∃ (y : Vec ℂ) (am g : Vec ℝ) (t : Vec ℤ), anabpsk n (some b) f draw = .ok (y, am) ∧ instFreq y none = .ok (g, t) ∧ g.len = n - 2 ∧
      ∀ j < n - 2, (am.get (j + 2) = am.get j → g.get j = f) ∧
        (am.get (j + 2) ≠ am.get j → g.get j = if f ≤ 1 / 4 then f + 1 / 4 else f - 1 / 4) ∧ (g.get j = f ↔ am.get (j + 2) = am.get j) := by
  obtain ⟨y, am, h, hy, -, -, ham, hv⟩ := C18_anabpsk n b f draw hn hb h0.le h1 hd
  have hpm : ∀ i < n, am.get i = 1 ∨ am.get i = -1 := fun i hi => by
    rw [ham i hi]
    split_ifs
    · exact Or.inl rfl
    · exact Or.inr rfl
  obtain ⟨g, t, k1, k2, -, k4⟩ := instFreq_wrap n (fun _ => 1) (fun i => f * ((i : ℝ) - 1) + (1 - am.get i) / 4) (fun i _ => one_pos) y hy (fun i hi => by
    rw [(hv i hi).1]
    rcases hpm i hi with e | e
    · rw [e]
      norm_num
      ring_nf
    · rw [e, show 2 * Real.pi * (f * ((i : ℝ) - 1) + (1 - (-1)) / 4) = 2 * Real.pi * f * ((i : ℝ) - 1) + Real.pi by ring, expi_add]
      have : expi Real.pi = -1 := by unfold expi; rw [Complex.exp_pi_mul_I]
      rw [this]
      push_cast
      ring)
  refine ⟨y, am, g, t, h, k1, k2, fun j hj => ?_⟩
  have hsame : am.get (j + 2) = am.get j → g.get j = f := fun he => by
    refine (k4 j hj).2 f 0 h0 h1 ?_
    rw [he]
    push_cast
    ring
  have hdiff : am.get (j + 2) ≠ am.get j → g.get j = if f ≤ 1 / 4 then f + 1 / 4 else f - 1 / 4 := fun he => by
    have hcase : (am.get (j + 2) = 1 ∧ am.get j = -1) ∨ (am.get (j + 2) = -1 ∧ am.get j = 1) := by
      rcases hpm (j + 2) (by omega) with e | e <;> rcases hpm j (by omega) with e' | e'
      · exact absurd (e.trans e'.symm) he
      · exact Or.inl ⟨e, e'⟩
      · exact Or.inr ⟨e, e'⟩
      · exact absurd (e.trans e'.symm) he
    split_ifs with hq
    · rcases hcase with ⟨e, e'⟩ | ⟨e, e'⟩
      · exact (k4 j hj).2 _ (-1) (by linarith) (by linarith) (by rw [e, e']; push_cast; ring)
      · exact (k4 j hj).2 _ 0 (by linarith) (by linarith) (by rw [e, e']; push_cast; ring)
    · push Not at hq
      rcases hcase with ⟨e, e'⟩ | ⟨e, e'⟩
      · exact (k4 j hj).2 _ 0 (by linarith) (by linarith) (by rw [e, e']; push_cast; ring)
      · exact (k4 j hj).2 _ 1 (by linarith) (by linarith) (by rw [e, e']; push_cast; ring)
  refine ⟨hsame, hdiff, fun he => ?_, hsame⟩
  by_contra hne
  rw [hdiff hne] at he
  split_ifs at he <;> linarith

/-- **Quaternary phase keying.**  The estimate is the carrier frequency plus one eighth for every quarter turn between the two samples used, modulo one half: two
instants have the same estimate exactly when the phases jumped by the same angle modulo a full turn. -/
theorem C112_qpsk (n b : ℕ) (f : ℝ) (draw : ℕ → ℝ) (hb : 1 ≤ b) (hdiv : b ∣ n) (h0 : 0 ≤ f) (h1 : f ≤ 1 / 2) (hd : ∀ j, 0 ≤ draw j ∧ draw j < 1) :
    ∃ (y : Vec ℂ) (pm g : Vec ℝ) (t : Vec ℤ), anaqpsk n (some b) f draw = .ok (y, pm) ∧ instFreq y none = .ok (g, t) ∧ g.len = n - 2 ∧
      (∀ j < n - 2, 0 < g.get j ∧ g.get j ≤ 1 / 2 ∧ ∃ m : ℤ, f + (pm.get (j + 2) - pm.get j) / (4 * Real.pi) = g.get j + m / 2) ∧
      ∀ i < n - 2, ∀ j < n - 2, (g.get i = g.get j ↔ ∃ m : ℤ, pm.get (i + 2) - pm.get i = pm.get (j + 2) - pm.get j + 2 * Real.pi * m) := by
  have hpi := Real.pi_pos
  obtain ⟨y, pm, h, hy, -, -, -, hv⟩ := C19_anaqpsk n b f draw hb hdiv h0 h1 hd
  obtain ⟨g, t, k1, k2, -, k4⟩ := instFreq_wrap n (fun _ => 1) (fun i => f * ((i : ℝ) - 1) + pm.get i / (2 * Real.pi)) (fun i _ => one_pos) y hy (fun i hi => by
    rw [(hv i hi).1, Complex.ofReal_one, one_mul]
    congr 1
    field_simp)
  have hval : ∀ j < n - 2, 0 < g.get j ∧ g.get j ≤ 1 / 2 ∧ ∃ m : ℤ, f + (pm.get (j + 2) - pm.get j) / (4 * Real.pi) = g.get j + m / 2 := by
    intro j hj
    set v := f + (pm.get (j + 2) - pm.get j) / (4 * Real.pi) with hvv
    obtain ⟨m, hm1, hm2⟩ : ∃ m : ℤ, 0 < v - m / 2 ∧ v - m / 2 ≤ 1 / 2 := by
      refine ⟨⌈2 * v⌉ - 1, ?_, ?_⟩
      · have := Int.ceil_lt_add_one (2 * v)
        push_cast
        linarith
      · have := Int.le_ceil (2 * v)
        push_cast
        linarith
    have hg := (k4 j hj).2 (v - m / 2) m hm1 hm2 (by
      rw [hvv]
      push_cast
      field_simp
      ring)
    rw [hg]
    exact ⟨hm1, hm2, m, by ring⟩
  refine ⟨y, pm, g, t, h, k1, k2, hval, fun i hi j hj => ?_⟩
  obtain ⟨i0, i1, mi, ei⟩ := hval i hi
  obtain ⟨j0, j1, mj, ej⟩ := hval j hj
  have hd1 : pm.get (i + 2) - pm.get i = 4 * Real.pi * (g.get i + mi / 2 - f) := by rw [← ei]; field_simp; ring
  have hd2 : pm.get (j + 2) - pm.get j = 4 * Real.pi * (g.get j + mj / 2 - f) := by rw [← ej]; field_simp; ring
  rw [hd1, hd2]
  constructor
  · intro he
    refine ⟨mi - mj, ?_⟩
    rw [he]
    push_cast
    ring
  · rintro ⟨m, hm⟩
    have h3 : g.get i - g.get j = ((m + mj - mi : ℤ) : ℝ) / 2 := by
      have : 4 * Real.pi * (g.get i - g.get j) = 4 * Real.pi * (((m + mj - mi : ℤ) : ℝ) / 2) := by
        push_cast
        linarith
      exact mul_left_cancel₀ (by positivity) this
    have a1 : ((m + mj - mi : ℤ) : ℝ) < ((1 : ℤ) : ℝ) := by push_cast at h3 ⊢; linarith
    have a2 : ((-1 : ℤ) : ℝ) < ((m + mj - mi : ℤ) : ℝ) := by push_cast at h3 ⊢; linarith
    have b1 : m + mj - mi < 1 := by exact_mod_cast a1
    have b2 : -1 < m + mj - mi := by exact_mod_cast a2
    have b3 : m + mj - mi = 0 := by omega
    rw [b3] at h3
    push_cast at h3
    linarith

/-- **Frequency keying.**  The estimate is the mean of the frequencies of the last two samples; inside a block it is the frequency of the block, which tells in which `M`-th
of the unit interval the draw was. -/
theorem C112_fsk (n b M : ℕ) (draw : ℕ → ℝ) (hb : 1 ≤ b) (hM : 1 ≤ M) (hd : ∀ j, 0 ≤ draw j ∧ draw j < 1) :
    ∃ (y : Vec ℂ) (law g : Vec ℝ) (t : Vec ℤ), anafsk n (some b) M draw = .ok (y, law) ∧ instFreq y none = .ok (g, t) ∧ g.len = y.len - 2 ∧
      (∀ j < y.len - 2, g.get j = (law.get (j + 1) + law.get (j + 2)) / 2) ∧
      ∀ j < y.len - 2, (j + 1) / b = (j + 2) / b → ∃ q < M, g.get j = 1 / 4 + (2 * (q : ℝ) + 1 - M) / (8 * M) ∧
        (q : ℝ) / M ≤ draw ((j + 2) / b) ∧ draw ((j + 2) / b) < (q + 1 : ℝ) / M := by
  obtain ⟨y, law, h, -, hlen, -, -, hblk, hval, -, h0, hstep⟩ := C19_anafsk n b M draw hb hM hd
  have hph : ∀ i < y.len, y.get i = ((1 : ℝ) : ℂ) * expi (2 * Real.pi * ∑ k ∈ range (i + 1), law.get k) := by
    intro i
    induction i with
    | zero => intro _; rw [h0, zero_add, Finset.sum_range_one, Complex.ofReal_one, one_mul]
    | succ i ih =>
      intro hi
      rw [hstep i hi, ih (by omega), Finset.sum_range_succ _ (i + 1), mul_add, expi_add, mul_assoc]
  obtain ⟨g, t, k1, k2, -, k4⟩ := instFreq_wrap y.len (fun _ => 1) (fun i => ∑ k ∈ range (i + 1), law.get k) (fun _ _ => one_pos) y rfl hph
  have hmean : ∀ j < y.len - 2, g.get j = (law.get (j + 1) + law.get (j + 2)) / 2 := by
    intro j hj
    obtain ⟨_, _, _, _, _, a1, a2⟩ := hval (j + 1) (by omega)
    obtain ⟨_, _, _, _, _, b1, b2⟩ := hval (j + 2) (by omega)
    refine (k4 j hj).2 _ 0 (by linarith) (by linarith) ?_
    rw [Finset.sum_range_succ _ (j + 2), Finset.sum_range_succ _ (j + 1)]
    push_cast
    ring
  refine ⟨y, law, g, t, h, k1, k2, hmean, fun j hj he => ?_⟩
  obtain ⟨q, hq, e, d1, d2, -⟩ := hval (j + 2) (by omega)
  refine ⟨q, hq, ?_, d1, d2⟩
  rw [hmean j hj, hblk (j + 1) (by omega) (j + 2) (by omega) he, e]
  ring

example : ∃ y am g t, anaask 20 (some 5) (1 / 10) (fun j => 1 / (j + 2)) = .ok (y, am) ∧ instFreq y none = .ok (g, t) ∧ ∀ j < 18, g.get j = 1 / 10 := by
  obtain ⟨y, am, g, t, h, k, -, v⟩ := C112_ask 20 5 (1 / 10) (fun j => 1 / (j + 2)) (by norm_num) (by norm_num) (by norm_num) (by norm_num)
    (fun j => ⟨by positivity, by rw [div_lt_one (by positivity)]; linarith [(Nat.cast_nonneg j : (0 : ℝ) ≤ j)]⟩)
  exact ⟨y, am, g, t, by exact_mod_cast h, k, fun j hj => by rw [v j hj, if_neg (by norm_num)]⟩

/-- A block of -1 followed by a block of +1 on a carrier at 1/10: the estimate shows 1/10 inside the first block and 7/20 across the jump. -/
example : ∃ y am g t, anabpsk 10 (some 5) (1 / 10) (fun j => if j = 0 then 1 / 4 else 3 / 4) = .ok (y, am) ∧ instFreq y none = .ok (g, t) ∧
    g.get 0 = 1 / 10 ∧ g.get 3 = 7 / 20 := by
  have hd : ∀ j : ℕ, 0 ≤ (if j = 0 then (1 / 4 : ℝ) else 3 / 4) ∧ (if j = 0 then (1 / 4 : ℝ) else 3 / 4) < 1 := fun j => by split_ifs <;> norm_num
  obtain ⟨y, am, g, t, h, k, -, v⟩ := C112_bpsk 10 5 (1 / 10) (fun j => if j = 0 then 1 / 4 else 3 / 4) (by norm_num) (by norm_num) (by norm_num) (by norm_num) hd
  obtain ⟨y', am', h', -, -, -, ha, -⟩ := C18_anabpsk 10 5 (1 / 10) (fun j => if j = 0 then 1 / 4 else 3 / 4) (by norm_num) (by norm_num) (by norm_num) (by norm_num) hd
  rw [h] at h'
  simp only [Except.ok.injEq, Prod.mk.injEq] at h'
  obtain ⟨rfl, rfl⟩ := h'
  refine ⟨y, am, g, t, by exact_mod_cast h, k, (v 0 (by norm_num)).1 ?_, ((v 3 (by norm_num)).2.1 ?_).trans (by norm_num)⟩
  · rw [ha 2 (by norm_num), ha 0 (by norm_num)]
  · rw [ha 5 (by norm_num), ha 3 (by norm_num)]
    norm_num

/-- Phases 0 and `π` in two blocks: inside the blocks the estimates agree, across the jump they differ. -/
example : ∃ y pm g t, anaqpsk 10 (some 5) (1 / 10) (fun j => if j = 0 then 0 else 1 / 2) = .ok (y, pm) ∧ instFreq y none = .ok (g, t) ∧
    g.get 0 = g.get 6 ∧ g.get 0 ≠ g.get 3 := by
  have hd : ∀ j : ℕ, 0 ≤ (if j = 0 then (0 : ℝ) else 1 / 2) ∧ (if j = 0 then (0 : ℝ) else 1 / 2) < 1 := fun j => by split_ifs <;> norm_num
  obtain ⟨y, pm, g, t, h, k, -, -, v⟩ := C112_qpsk 10 5 (1 / 10) (fun j => if j = 0 then 0 else 1 / 2) (by norm_num) (by norm_num) (by norm_num) (by norm_num) hd
  obtain ⟨y', pm', h', -, -, hblk, ha, -⟩ := C19_anaqpsk 10 5 (1 / 10) (fun j => if j = 0 then 0 else 1 / 2) (by norm_num) (by norm_num) (by norm_num) (by norm_num) hd
  rw [h] at h'
  simp only [Except.ok.injEq, Prod.mk.injEq] at h'
  obtain ⟨rfl, rfl⟩ := h'
  have e0 : pm.get 2 - pm.get 0 = 0 := sub_eq_zero.2 (hblk 2 (by norm_num) 0 (by norm_num) (by norm_num))
  have e6 : pm.get 8 - pm.get 6 = 0 := sub_eq_zero.2 (hblk 8 (by norm_num) 6 (by norm_num) (by norm_num))
  have e3 : pm.get 5 - pm.get 3 = Real.pi := by
    obtain ⟨q, -, p1, p2, p3⟩ := ha 5 (by norm_num)
    obtain ⟨r, -, r1, r2, r3⟩ := ha 3 (by norm_num)
    norm_num at p2 p3 r2 r3
    have hq : q = 2 := by
      have a : (q : ℝ) < 3 := by linarith
      have b : (1 : ℝ) < q := by linarith
      have a' : q < 3 := by exact_mod_cast a
      have b' : 1 < q := by exact_mod_cast b
      omega
    have hr : r = 0 := by
      have a : (r : ℝ) < 1 := by linarith
      have a' : r < 1 := by exact_mod_cast a
      omega
    rw [p1, r1, hq, hr]
    push_cast
    ring
  refine ⟨y, pm, g, t, by exact_mod_cast h, k, (v 0 (by norm_num) 6 (by norm_num)).2 ⟨0, by norm_num [e0, e6]⟩, fun he => ?_⟩
  obtain ⟨m, hm⟩ := (v 0 (by norm_num) 3 (by norm_num)).1 he
  norm_num [e0, e3] at hm
  have h1 : Real.pi * (1 + 2 * (m : ℝ)) = Real.pi * 0 := by linarith
  have h2 : (1 : ℝ) + 2 * m = 0 := mul_left_cancel₀ Real.pi_pos.ne' h1
  have h3 : (1 : ℤ) + 2 * m = 0 := by exact_mod_cast h2
  omega

example : ∃ y law g t, anafsk 10 (some 5) 2 (fun _ => 1 / 3) = .ok (y, law) ∧ instFreq y none = .ok (g, t) ∧ g.get 0 = 3 / 16 := by
  obtain ⟨y, law, g, t, h, k, -, -, v⟩ := C112_fsk 10 5 2 (fun _ => 1 / 3) (by norm_num) (by norm_num) (fun _ => by norm_num)
  obtain ⟨y', law', h', hy, -⟩ := C19_anafsk 10 5 2 (fun _ => 1 / 3) (by norm_num) (by norm_num) (fun _ => by norm_num)
  rw [h] at h'
  simp only [Except.ok.injEq, Prod.mk.injEq] at h'
  obtain ⟨rfl, rfl⟩ := h'
  obtain ⟨q, hq, e, d1, d2⟩ := v 0 (by omega) (by norm_num)
  have hq0 : q = 0 := by
    rcases (by omega : q = 0 ∨ q = 1) with r | r
    · exact r
    · rw [r] at d1; norm_num at d1
  refine ⟨y, law, g, t, by exact_mod_cast h, k, ?_⟩
  rw [e, hq0]
  norm_num

end Tftb.Props
