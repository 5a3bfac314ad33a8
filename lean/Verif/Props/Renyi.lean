import Verif.Lemmas.Renyi

/-! # Properties C49, C50: Renyi information -/

namespace Tftb

open Finset Spec ProcUtils Post

/-! ## C49 -/

/-- Multiplying the distribution by a non-zero constant (a positive one for `alpha = 1`) changes nothing: value, exceptions and effect
on the caller's arrays are the same. -/
theorem C49_scale (M : Mat ℝ) (ts fr : Option (Vec ℝ)) (α c : ℝ) (hc : c ≠ 0) (h1 : α = 1 → 0 < c) :
    renyiInformation (M.map (c * ·)) ts fr α = renyiInformation M ts fr α := by
  have hrows : (M.map (c * ·)).rows = M.rows := rfl
  have hcols : (M.map (c * ·)).cols = M.cols := rfl
  have hget : ∀ r s, (M.map (c * ·)).get r s = c * M.get r s := fun _ _ => rfl
  have hg : (α = 1 ∧ (M.rows = 0 ∨ M.cols = 0 ∨ ∃ r < M.rows, ∃ s < M.cols, c * M.get r s < 0))
      ↔ (α = 1 ∧ (M.rows = 0 ∨ M.cols = 0 ∨ ∃ r < M.rows, ∃ s < M.cols, M.get r s < 0)) := by
    refine and_congr_right (fun ha => or_congr_right (or_congr_right ?_))
    have hneg : ∀ r s, c * M.get r s < 0 ↔ M.get r s < 0 := fun r s =>
      ⟨fun h => (pos_iff_neg_of_mul_neg h).1 (h1 ha), fun h => mul_neg_of_pos_of_neg (h1 ha) h⟩
    simp only [hneg]
  unfold renyiInformation
  simp only [hrows, hcols, hget, hg, integrate2d_smul]
  by_cases hh : α = 1 ∧ (M.rows = 0 ∨ M.cols = 0 ∨ ∃ r < M.rows, ∃ s < M.cols, M.get r s < 0)
  · rw [if_pos hh, if_pos hh]
  · rw [if_neg hh, if_neg hh]
    cases ht : renyiTimes M.cols ts with
    | error e => rw [error_bind, error_bind]
    | ok p =>
      obtain ⟨t, o⟩ := p
      rw [ok_bind, ok_bind]
      simp only
      generalize (fr.getD ((arange 0 M.rows).map (fun j : ℤ => (j : ℝ)))).sort = f'
      cases hi : integrate2d M (some t) (some f') with
      | error e => rw [error_bind, error_bind, error_bind]
      | ok i =>
        rw [ok_bind, ok_bind, ok_bind]
        by_cases h0 : i = 0 ∧ M.rows ≠ 0
        · rw [if_pos h0, if_pos ⟨by rw [h0.1, mul_zero], h0.2⟩]
        · have hne : ¬ (c * i = 0 ∧ M.rows ≠ 0) := by
            rintro ⟨h2, h3⟩
            exact h0 ⟨(mul_eq_zero.1 h2).resolve_left hc, h3⟩
          rw [if_neg h0, if_neg hne]
          have hm : (M.map (c * ·)).map (· / (c * i)) = M.map (· / i) := by
            unfold Mat.map
            simp only
            congr 1
            funext r s
            rw [mul_div_mul_left _ _ hc]
          rw [hm]

/-- For `alpha = 1` a distribution with a negative value is refused. -/
theorem C49_negative (M : Mat ℝ) (ts fr : Option (Vec ℝ)) (h : ∃ r < M.rows, ∃ c < M.cols, M.get r c < 0) :
    renyiInformation M ts fr 1 = .error .valueError := by
  unfold renyiInformation
  rw [if_pos ⟨rfl, Or.inr (Or.inr h)⟩]

theorem map_add_zero (t : Vec ℝ) : t.map (· + 0) = t := by
  unfold Vec.map; simp

theorem map_add_add (t : Vec ℝ) (a b : ℝ) : (t.map (· + a)).map (· + b) = t.map (· + (a + b)) := by
  unfold Vec.map; simp [add_assoc]

/-- The time axis used is the given one, possibly moved by one; whether it is refused only depends on its length. -/
theorem renyiTimes_cases (n : ℕ) (t : Vec ℝ) :
    (∀ a, renyiTimes n (some (t.map (· + a))) = .error .valueError) ∨
    (∀ a, ∃ s, renyiTimes n (some (t.map (· + a))) = .ok (t.map (· + (a + s)), some (t.map (· + (a + s))))) := by
  have hlen : ∀ a : ℝ, (t.map (· + a)).len = t.len := fun _ => rfl
  have hlen2 : ((arange 0 n).map (fun j : ℤ => (j : ℝ))).len = n := by rw [Vec.map_len, arange_len]; omega
  by_cases hl : t.len = n ∨ t.len = 1 ∨ n = 1
  · right
    intro a
    obtain ⟨v, hv⟩ := Vec.bcast_returns (fun a b : ℝ => |a - b| ≤ 1e-8 + 1e-5 * |b|) (a := t.map (· + a))
      (b := (arange 0 n).map (fun j : ℤ => (j : ℝ))) (by rw [hlen, hlen2]; exact hl)
    unfold renyiTimes
    simp only
    rw [hv, ok_bind]
    split_ifs
    · exact ⟨1, by rw [map_add_add]⟩
    · exact ⟨0, by rw [add_zero]⟩
  · left
    intro a
    unfold renyiTimes
    simp only
    rw [Vec.bcast_error _ (by rw [hlen, hlen2]; exact hl), error_bind]

/-- The value only depends on the time axis through the step `x[1] - x[0]`. -/
theorem renyiValue_shift (p : Mat ℝ) (t fr : Vec ℝ) (α a : ℝ) : renyiValue p (t.map (· + a)) fr α = renyiValue p t fr α := by
  unfold renyiValue
  simp only [integrate2d_shift]

open Classical in
/-- Translating the time axis does not change the value (nor the exception). -/
theorem C49_time_translation (M : Mat ℝ) (t : Vec ℝ) (fr : Option (Vec ℝ)) (α a : ℝ) :
    (Prod.fst <$> renyiInformation M (some (t.map (· + a))) fr α) = (Prod.fst <$> renyiInformation M (some t) fr α) := by
  have key : ∀ b, (Prod.fst <$> renyiInformation M (some (t.map (· + b))) fr α)
      = if α = 1 ∧ (M.rows = 0 ∨ M.cols = 0 ∨ ∃ r < M.rows, ∃ s < M.cols, M.get r s < 0) then .error .valueError else
        if (∀ a, renyiTimes M.cols (some (t.map (· + a))) = .error .valueError) then .error .valueError
        else integrate2d M (some t) (some (fr.getD ((arange 0 M.rows).map (fun j : ℤ => (j : ℝ)))).sort) >>= fun i =>
          if i = 0 ∧ M.rows ≠ 0 then .error .nonFinite
          else renyiValue (M.map (· / i)) t (fr.getD ((arange 0 M.rows).map (fun j : ℤ => (j : ℝ)))).sort α := by
    intro b
    unfold renyiInformation
    by_cases hg : α = 1 ∧ (M.rows = 0 ∨ M.cols = 0 ∨ ∃ r < M.rows, ∃ s < M.cols, M.get r s < 0)
    · rw [if_pos hg, if_pos hg]; rfl
    · rw [if_neg hg, if_neg hg]
      by_cases hE : ∀ a, renyiTimes M.cols (some (t.map (· + a))) = .error .valueError
      · rw [if_pos hE, hE b]; rfl
      · rw [if_neg hE]
        obtain ⟨s, hs⟩ := (renyiTimes_cases M.cols t).resolve_left hE b
        rw [hs, ok_bind]
        simp only [integrate2d_shift, renyiValue_shift]
        cases hi : integrate2d M (some t) (some (fr.getD ((arange 0 M.rows).map (fun j : ℤ => (j : ℝ)))).sort) with
        | error e => rfl
        | ok i =>
          simp only [ok_bind]
          split_ifs
          · rfl
          · cases hv : renyiValue (M.map (· / i)) t (fr.getD ((arange 0 M.rows).map (fun j : ℤ => (j : ℝ)))).sort α <;> rfl
  rw [key a]
  have := key 0
  rw [map_add_zero] at this
  rw [this]

/-- Closed form on a uniform time axis: `log2(∬ p^alpha + eps)/(1 - alpha)` with `p` the distribution divided by its integral, both
integrals by the trapezoidal rule with the frequencies in increasing order. -/
theorem C49_formula (M : Mat ℝ) (t f : Vec ℝ) (α : ℝ) (hα : α ≠ 1) (hn : 2 ≤ M.cols) (ht : t.len = M.cols) (hf : f.len = M.rows)
    (hr : M.rows ≠ 0) (d : ℝ) (hd : ∀ i, i + 1 < M.cols → t.get (i + 1) - t.get i = d) (v : ℝ) (o : Option (Vec ℝ) × Option (Vec ℝ))
    (h : renyiInformation M (some t) (some f) α = .ok (v, o)) :
    trapz2 M t.get f.sort.get ≠ 0 ∧
    v = Real.logb 2 (trapz2 (M.map (fun a => (a / trapz2 M t.get f.sort.get) ^ α)) t.get f.sort.get + eps) / (1 - α) := by
  have htr : ∀ (N : Mat ℝ) (s : ℝ), N.rows = M.rows → N.cols = M.cols →
      integrate2d N (some (t.map (· + s))) (some f.sort) = .ok (trapz2 N t.get f.sort.get) := by
    intro N s h1 h2
    rw [integrate2d_shift, integrate2d_eq N t f.sort (by omega) (by omega) (by rw [sort_len, hf, h1])]
    unfold trapz2
    congr 2
    funext j
    rw [trapz_uniform (by omega) (h2 ▸ hd), ← hd 0 (by omega)]
  unfold renyiInformation at h
  rw [if_neg (fun hh => hα hh.1)] at h
  rcases renyiTimes_cases M.cols t with hE | hE
  · have h0 := hE 0
    rw [map_add_zero] at h0
    rw [h0] at h
    cases h
  · obtain ⟨s, hs⟩ := hE 0
    rw [map_add_zero] at hs
    rw [hs, ok_bind] at h
    simp only [Option.getD_some] at h
    rw [htr M _ rfl rfl, ok_bind] at h
    by_cases h0 : trapz2 M t.get f.sort.get = 0
    · rw [if_pos ⟨h0, hr⟩] at h; cases h
    · rw [if_neg (fun hh => h0 hh.1)] at h
      refine ⟨h0, ?_⟩
      unfold renyiValue at h
      rw [if_neg hα] at h
      split_ifs at h with hbad
      · cases h
      · rw [htr ((M.map (· / trapz2 M t.get f.sort.get)).map (fun a => a ^ α)) _ rfl rfl, ok_bind] at h
        split_ifs at h with hneg
        · cases h
        · simp only [ok_bind] at h
          injection h with h
          exact (Prod.ext_iff.1 h).1.symm

open Classical in
/-- All cases on a uniform time axis: the normalised distribution `p` exists exactly when the integral is not zero; the information is NaN
or infinite when `p` has a negative entry at a fractional order, a zero entry at a negative order, or when `∬ p^alpha + eps` is not
positive; otherwise the closed form is returned. -/
theorem C49_cases (M : Mat ℝ) (t f : Vec ℝ) (α : ℝ) (hα : α ≠ 1) (hn : 2 ≤ M.cols) (ht : t.len = M.cols) (hf : f.len = M.rows)
    (hr : M.rows ≠ 0) (d : ℝ) (hd : ∀ i, i + 1 < M.cols → t.get (i + 1) - t.get i = d) :
    let I := trapz2 M t.get f.sort.get
    let J := trapz2 (M.map (fun a => (a / I) ^ α)) t.get f.sort.get + eps
    (Prod.fst <$> renyiInformation M (some t) (some f) α) =
      if I = 0 ∨ (∃ r < M.rows, ∃ c < M.cols, (M.get r c / I < 0 ∧ ¬ ∃ z : ℤ, α = z) ∨ (M.get r c = 0 ∧ α < 0)) ∨ J ≤ 0 then .error .nonFinite
      else .ok (Real.logb 2 J / (1 - α)) := by
  intro I J
  have htr : ∀ (N : Mat ℝ) (s : ℝ), N.rows = M.rows → N.cols = M.cols →
      integrate2d N (some (t.map (· + s))) (some f.sort) = .ok (trapz2 N t.get f.sort.get) := by
    intro N s h1 h2
    rw [integrate2d_shift, integrate2d_eq N t f.sort (by omega) (by omega) (by rw [sort_len, hf, h1])]
    unfold trapz2
    congr 2
    funext j
    rw [trapz_uniform (by omega) (h2 ▸ hd), ← hd 0 (by omega)]
  unfold renyiInformation
  rw [if_neg (fun hh => hα hh.1)]
  rcases renyiTimes_cases M.cols t with hE | hE
  · exfalso
    have h0 := hE 0
    rw [map_add_zero] at h0
    unfold renyiTimes at h0
    simp only at h0
    rw [Vec.bcast_ok (by simp [arange_len, ht]), ok_bind] at h0
    split_ifs at h0
  · obtain ⟨s, hs⟩ := hE 0
    rw [map_add_zero] at hs
    rw [hs, ok_bind]
    simp only [Option.getD_some]
    rw [htr M _ rfl rfl, ok_bind]
    change Prod.fst <$> (if I = 0 ∧ M.rows ≠ 0 then _ else _) = _
    by_cases h0 : I = 0
    · rw [if_pos ⟨h0, hr⟩, if_pos (Or.inl h0)]
      rfl
    · rw [if_neg (fun hh => h0 hh.1)]
      unfold renyiValue
      rw [if_neg hα]
      have hz : ∀ r c, M.get r c / I = 0 ↔ M.get r c = 0 := fun r c => by rw [div_eq_zero_iff]; simp [h0]
      by_cases hb : ∃ r < M.rows, ∃ c < M.cols, (M.get r c / I < 0 ∧ ¬ ∃ z : ℤ, α = z) ∨ (M.get r c = 0 ∧ α < 0)
      · rw [if_pos (Or.inr (Or.inl hb)), if_pos]
        · rfl
        · obtain ⟨r, h1, c, h2, h3⟩ := hb
          exact ⟨r, h1, c, h2, h3.imp id (fun h => ⟨(hz r c).2 h.1, h.2⟩)⟩
      · rw [if_neg (fun hh => hb ?_)]
        swap
        · obtain ⟨r, h1, c, h2, h3⟩ := hh
          exact ⟨r, h1, c, h2, h3.imp id (fun h => ⟨(hz r c).1 h.1, h.2⟩)⟩
        rw [htr ((M.map (· / trapz2 M t.get f.sort.get)).map (fun a => a ^ α)) _ rfl rfl, ok_bind]
        change Prod.fst <$> ((if J ≤ 0 then _ else _) >>= _) = _
        by_cases hJ : J ≤ 0
        · rw [if_pos hJ, if_pos (Or.inr (Or.inr hJ))]
          rfl
        · rw [if_neg hJ, if_neg (by rintro (h | h | h); exacts [h0 h, hb h, hJ h])]
          rfl

open Classical in
/-- Order one (Shannon), all cases for a non-negative distribution: `-∬ p log2(p + eps)` with `p` the distribution divided by its integral,
NaN or infinite when the integral vanishes or some `p + eps` is not positive (possible only with a decreasing time axis). -/
theorem C49_shannon (M : Mat ℝ) (t f : Vec ℝ) (hn : 2 ≤ M.cols) (ht : t.len = M.cols) (hf : f.len = M.rows) (hr : M.rows ≠ 0) (d : ℝ)
    (hd : ∀ i, i + 1 < M.cols → t.get (i + 1) - t.get i = d) (h0 : ∀ r < M.rows, ∀ c < M.cols, 0 ≤ M.get r c) :
    let I := trapz2 M t.get f.sort.get
    (Prod.fst <$> renyiInformation M (some t) (some f) 1) =
      if I = 0 ∨ ∃ r < M.rows, ∃ c < M.cols, M.get r c / I + eps ≤ 0 then .error .nonFinite
      else .ok (-trapz2 (M.map (fun a => a / I * Real.logb 2 (a / I + eps))) t.get f.sort.get) := by
  intro I
  have htr : ∀ (N : Mat ℝ) (s : ℝ), N.rows = M.rows → N.cols = M.cols →
      integrate2d N (some (t.map (· + s))) (some f.sort) = .ok (trapz2 N t.get f.sort.get) := by
    intro N s h1 h2
    rw [integrate2d_shift, integrate2d_eq N t f.sort (by omega) (by omega) (by rw [sort_len, hf, h1])]
    unfold trapz2
    congr 2
    funext j
    rw [trapz_uniform (by omega) (h2 ▸ hd), ← hd 0 (by omega)]
  unfold renyiInformation
  rw [if_neg (by
    rintro ⟨-, h | h | ⟨r, h1, c, h2, h3⟩⟩
    · exact hr h
    · omega
    · linarith [h0 r h1 c h2])]
  rcases renyiTimes_cases M.cols t with hE | hE
  · exfalso
    have h0 := hE 0
    rw [map_add_zero] at h0
    unfold renyiTimes at h0
    simp only at h0
    rw [Vec.bcast_ok (by simp [arange_len, ht]), ok_bind] at h0
    split_ifs at h0
  · obtain ⟨s, hs⟩ := hE 0
    rw [map_add_zero] at hs
    rw [hs, ok_bind]
    simp only [Option.getD_some]
    rw [htr M _ rfl rfl, ok_bind]
    change Prod.fst <$> (if I = 0 ∧ M.rows ≠ 0 then _ else _) = _
    by_cases hI : I = 0
    · rw [if_pos ⟨hI, hr⟩, if_pos (Or.inl hI)]
      rfl
    · rw [if_neg (fun hh => hI hh.1)]
      unfold renyiValue
      rw [if_pos rfl]
      by_cases hb : ∃ r < M.rows, ∃ c < M.cols, M.get r c / I + eps ≤ 0
      · rw [if_pos (Or.inr hb), if_pos]
        · rfl
        · exact hb
      · have hb' : ¬ ∃ r < (M.map (· / trapz2 M t.get f.sort.get)).rows, ∃ c < (M.map (· / trapz2 M t.get f.sort.get)).cols,
            (M.map (· / trapz2 M t.get f.sort.get)).get r c + eps ≤ 0 := hb
        rw [if_neg hb', if_neg (by rintro (h | h); exacts [hI h, hb h])]
        rw [htr ((M.map (· / trapz2 M t.get f.sort.get)).map (fun a => a * Real.logb 2 (a + eps))) _ rfl rfl, ok_bind]
        rfl

/-- With increasing axes a non-negative distribution of positive integral always has a Shannon information. -/
theorem C49_shannon_returns (M : Mat ℝ) (t f : Vec ℝ) (hn : 2 ≤ M.cols) (ht : t.len = M.cols) (hf : f.len = M.rows) (hr : M.rows ≠ 0) (d : ℝ)
    (hd : ∀ i, i + 1 < M.cols → t.get (i + 1) - t.get i = d) (h0 : ∀ r < M.rows, ∀ c < M.cols, 0 ≤ M.get r c)
    (hI : 0 < trapz2 M t.get f.sort.get) : ∃ v, (Prod.fst <$> renyiInformation M (some t) (some f) 1) = .ok v := by
  rw [C49_shannon M t f hn ht hf hr d hd h0, if_neg]
  · exact ⟨_, rfl⟩
  · rintro (h | ⟨r, h1, c, h2, h3⟩)
    · exact hI.ne' h
    · have h4 : 0 ≤ M.get r c / trapz2 M t.get f.sort.get := div_nonneg (h0 r h1 c h2) hI.le
      have : (0 : ℝ) < eps := by unfold eps; positivity
      linarith

/-! ## C50 -/

/-- The caller's frequency array is sorted in place (a sorted permutation of the former entries), whatever happens to the time array. -/
theorem C50_freq_sorted (M : Mat ℝ) (ts : Option (Vec ℝ)) (f : Vec ℝ) (α v : ℝ) (ts' : Option (Vec ℝ)) (fo : Option (Vec ℝ))
    (h : renyiInformation M ts (some f) α = .ok (v, ts', fo)) :
    ∃ f', fo = some f' ∧ f'.toList.Perm f.toList ∧ f'.toList.Pairwise (· ≤ ·) := by
  unfold renyiInformation at h
  split_ifs at h with hg
  obtain ⟨⟨t, o⟩, _, h⟩ := bind_eq_ok.1 h
  obtain ⟨i, _, h⟩ := bind_eq_ok.1 h
  split_ifs at h with h0
  obtain ⟨w, _, h⟩ := bind_eq_ok.1 h
  injection h with h
  injection h with _ h
  injection h with _ h
  exact ⟨f.sort, h.symm, sort_spec f⟩

/-- The rows of the distribution are not moved along: the order in which the frequencies are given is irrelevant to the result. -/
theorem C50_freq_order_irrelevant (M : Mat ℝ) (ts : Option (Vec ℝ)) (f g : Vec ℝ) (α : ℝ) (h : f.toList.Perm g.toList) :
    renyiInformation M ts (some f) α = renyiInformation M ts (some g) α := by
  unfold renyiInformation
  simp only [Option.getD_some, Option.map_some, sort_perm h]

/-- A time axis `0, …, n-1` is incremented in place; one that is not close to it is left alone. -/
theorem C50_times (M : Mat ℝ) (t : Vec ℝ) (f : Option (Vec ℝ)) (α v : ℝ) (tO fo : Option (Vec ℝ)) (ht : t.len = M.cols)
    (h : renyiInformation M (some t) f α = .ok (v, tO, fo)) :
    ((∀ i < M.cols, t.get i = i) → tO = some (t.map (· + 1))) ∧
    ((∃ i < M.cols, 1e-8 + 1e-5 * (i : ℝ) < |t.get i - i|) → tO = some t) := by
  unfold renyiInformation at h
  split_ifs at h with hg
  obtain ⟨⟨t', o⟩, h1, h⟩ := bind_eq_ok.1 h
  obtain ⟨i, _, h⟩ := bind_eq_ok.1 h
  split_ifs at h with h0
  obtain ⟨w, _, h⟩ := bind_eq_ok.1 h
  injection h with h
  injection h with _ h
  injection h with h _
  subst h
  unfold renyiTimes at h1
  simp only at h1
  rw [Vec.bcast_ok (by simp [arange_len, ht]), ok_bind] at h1
  simp only [Vec.map_get, arange_get, zero_add, Int.cast_natCast, Nat.abs_cast] at h1
  constructor
  · intro hall
    rw [if_pos] at h1
    · injection h1 with h1
      exact (Prod.ext_iff.1 h1).2.symm
    · intro i hi
      rw [hall i (by omega), sub_self, abs_zero]
      positivity
  · rintro ⟨i, hi, hb⟩
    rw [if_neg] at h1
    · injection h1 with h1
      exact (Prod.ext_iff.1 h1).2.symm
    · intro hall
      have := hall i (by omega)
      linarith

/-- A second call with the arrays left behind by the first returns the same value and changes nothing any more. -/
theorem C50_second_call (M : Mat ℝ) (t f : Vec ℝ) (α v : ℝ) (tO fo : Option (Vec ℝ))
    (h : renyiInformation M (some t) (some f) α = .ok (v, tO, fo)) :
    renyiInformation M tO fo α = .ok (v, tO, fo) := by
  unfold renyiInformation at h
  split_ifs at h with hg
  obtain ⟨⟨t', o⟩, h1, h⟩ := bind_eq_ok.1 h
  simp only [Option.getD_some] at h
  obtain ⟨i, h2, h⟩ := bind_eq_ok.1 h
  split_ifs at h with h0
  obtain ⟨w, h3, h⟩ := bind_eq_ok.1 h
  injection h with h
  injection h with hw h
  injection h with ho hf
  subst hw ho hf
  have hcols : M.cols ≠ 0 := by
    intro hc
    rw [integrate2d_rowRule, if_pos hc] at h2
    cases h2
  -- the second time axis is not changed any more
  have hfix : renyiTimes M.cols o = .ok (t', o) := by
    unfold renyiTimes at h1
    simp only at h1
    obtain ⟨cl, hcl, h1⟩ := bind_eq_ok.1 h1
    split_ifs at h1 with hall
    · injection h1 with h1
      injection h1 with h1 h1'
      subst h1 h1'
      unfold renyiTimes
      simp only
      have hcl2 : ∃ cl2, Vec.bcast (fun a b : ℝ => |a - b| ≤ 1e-8 + 1e-5 * |b|) (t.map (· + 1))
          ((arange 0 M.cols).map (fun j : ℤ => (j : ℝ))) = .ok cl2 ∧ cl2.len = cl.len ∧
          cl2.get 0 = (|t.get 0 + 1 - 0| ≤ 1e-8 + 1e-5 * |(0 : ℝ)|) := by
        unfold Vec.bcast at hcl ⊢
        simp only [Vec.map_len, Vec.map_get, arange_get, arange_len] at hcl ⊢
        split_ifs at hcl ⊢ <;> exact ⟨_, rfl, by injection hcl with hcl; rw [← hcl], by simp⟩
      have hcl0 : cl.get 0 = (|t.get 0 - 0| ≤ 1e-8 + 1e-5 * |(0 : ℝ)|) ∧ (0 < t.len → 0 < cl.len) := by
        unfold Vec.bcast at hcl
        simp only [Vec.map_len, Vec.map_get, arange_get, arange_len] at hcl
        split_ifs at hcl <;>
          exact ⟨by injection hcl with hcl; rw [← hcl]; simp, by injection hcl with hcl; rw [← hcl]; simp only; omega⟩
      have htl : 0 < t.len := by
        rw [integrate2d_rowRule, if_neg hcols] at h2
        obtain ⟨x1, hx1, _⟩ := bind_eq_ok.1 h2
        by_contra hcon
        rw [Vec.item_error (by simp only [Vec.map_len]; omega)] at hx1
        cases hx1
      obtain ⟨cl2, e1, e2, e3⟩ := hcl2
      rw [e1, ok_bind, if_neg]
      intro hall2
      have a1 := hall 0 (hcl0.2 htl)
      have a2 := hall2 0 (by rw [e2]; exact hcl0.2 htl)
      rw [hcl0.1] at a1
      rw [e3] at a2
      rw [abs_le] at a1 a2
      norm_num at a1 a2
      linarith
    · injection h1 with h1
      injection h1 with h1 h1'
      subst h1 h1'
      unfold renyiTimes
      simp only
      rw [hcl, ok_bind, if_neg hall]
  unfold renyiInformation
  rw [if_neg hg, hfix, ok_bind]
  simp only [Option.getD_some, Option.map_some, sort_sort]
  rw [h2, ok_bind, if_neg h0, h3, ok_bind]

/-- Concrete case: a constant 2×2 distribution, called with time axis `0, 1`: the caller's array becomes `1, 2`. -/
example : ∃ v, renyiInformation ⟨2, 2, fun _ _ => 1⟩ (some ⟨2, fun i => i⟩) none 2
    = .ok (v, some (Vec.map (· + 1) ⟨2, fun i => (i : ℝ)⟩), none) := by
  have hsort : ((arange 0 (2 : ℕ)).map (fun j : ℤ => (j : ℝ))).sort.len = 2 := by
    rw [sort_len]; rfl
  have hspec := sort_spec ((arange 0 (2 : ℕ)).map (fun j : ℤ => (j : ℝ)))
  set g := ((arange 0 (2 : ℕ)).map (fun j : ℤ => (j : ℝ))).sort with hg
  have hl1 : ((arange 0 (2 : ℕ)).map (fun j : ℤ => (j : ℝ))).toList = [0, 1] := by
    unfold Vec.toList
    simp [arange, List.range_succ]
  have hl2 : g.toList = [0, 1] := by
    rw [hl1] at hspec
    refine List.Perm.eq_of_pairwise (fun a b _ _ h1 h2 => le_antisymm h1 h2) hspec.2 ?_ hspec.1
    simp
  have hg01 : g.get 0 = 0 ∧ g.get 1 = 1 := by
    unfold Vec.toList at hl2
    rw [hsort] at hl2
    simpa [List.range_succ] using hl2
  have ht : renyiTimes 2 (some ⟨2, fun i => i⟩) = .ok (Vec.map (· + 1) ⟨2, fun i => (i : ℝ)⟩,
      some (Vec.map (· + 1) ⟨2, fun i => (i : ℝ)⟩)) := by
    unfold renyiTimes
    simp only
    rw [Vec.bcast_ok (by simp [arange_len]), ok_bind, if_pos]
    intro i _
    simp only [Vec.map_get, arange_get, zero_add, Int.cast_natCast, sub_self, abs_zero]
    positivity
  have hI : ∀ k : ℝ, integrate2d ⟨2, 2, fun _ _ => k⟩ (some (Vec.map (· + 1) ⟨2, fun i => (i : ℝ)⟩)) (some g) = .ok k := by
    intro k
    rw [integrate2d_eq _ _ _ (by norm_num) (by simp) hsort]
    unfold trapz
    simp only [Finset.sum_range_succ, Finset.sum_range_zero, Vec.map_get, hg01]
    norm_num [hg01]
    ring
  refine ⟨Real.logb 2 (1 + eps) / (1 - 2), ?_⟩
  unfold renyiInformation
  rw [if_neg (by norm_num)]
  simp only [Option.getD_none]
  rw [ht, ok_bind]
  simp only
  rw [← hg, hI, ok_bind, if_neg (by norm_num)]
  unfold renyiValue
  rw [if_neg (by norm_num), if_neg (by
    rintro ⟨r, _, c, _, h⟩
    simp only [Mat.map] at h
    rcases h with h | h <;> norm_num at h)]
  have hm : (Mat.map (fun a : ℝ => a ^ (2 : ℝ)) (Mat.map (· / 1) ⟨2, 2, fun _ _ => (1 : ℝ)⟩)) = ⟨2, 2, fun _ _ => 1⟩ := by
    unfold Mat.map; simp
  have he : (0 : ℝ) < eps := by unfold eps; positivity
  rw [hm, hI, ok_bind, if_neg (by linarith), ok_bind]
  rfl

end Tftb
