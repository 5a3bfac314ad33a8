import Verif.Model.Shapes
import Verif.Props.TimeFreq

/-! # Property C76: signals given as columns, rows or matrices -/

namespace Tftb.Props

open Tftb Tftb.TF Tftb.Spec Utils Finset

/-- The column matrix of a signal. -/
def asColumn {α : Type} (x : Vec α) : Mat α := ⟨x.len, 1, fun i _ => x.get i⟩

/-- The row matrix of a signal. -/
def asRow {α : Type} (x : Vec α) : Mat α := ⟨1, x.len, fun _ j => x.get j⟩

/-- Same length and same samples. -/
def SameSignal {α : Type} (x y : Vec α) : Prop := x.len = y.len ∧ ∀ i < x.len, x.get i = y.get i

theorem ravel_column {α : Type} (x : Vec α) : Aff.ravel (.two (asColumn x)) = x := by
  unfold Aff.ravel asColumn
  simp

theorem ravel_row {α : Type} (x : Vec α) : SameSignal (Aff.ravel (.two (asRow x))) x := by
  refine ⟨?_, fun i hi => ?_⟩
  · simp [Aff.ravel, asRow]
  · have : i < x.len := by simpa [Aff.ravel, asRow] using hi
    simp [Aff.ravel, asRow, Nat.mod_eq_of_lt this]

theorem flatten_column {α : Type} (x : Vec α) : flatten (.two (asColumn x)) = .ok x := by
  show (if (asColumn x).rows = 1 ∨ (asColumn x).cols = 1 then _ else _) = _
  rw [if_pos (show (asColumn x).rows = 1 ∨ (asColumn x).cols = 1 from Or.inr rfl), ravel_column]

theorem flatten_row {α : Type} (x : Vec α) : ∃ y, flatten (.two (asRow x)) = .ok y ∧ SameSignal y x := by
  refine ⟨Aff.ravel (.two (asRow x)), ?_, ravel_row x⟩
  unfold flatten
  exact if_pos (show (asRow x).rows = 1 ∨ (asRow x).cols = 1 from Or.inl rfl)

theorem flatten_matrix {α : Type} (M : Mat α) (h1 : M.rows ≠ 1) (h2 : M.cols ≠ 1) : flatten (.two M) = .error .typeError :=
  if_neg (by push Not; exact ⟨h1, h2⟩)

/-- The frequency-domain functions treat a column like the signal itself. -/
theorem C76_column (x : Vec ℂ) (t : Vec ℤ) (f : Option (Vec ℝ)) :
    locfreqAny (.two (asColumn x)) = locfreqAny (.one x) ∧
    instFreqAny (.two (asColumn x)) none = instFreqAny (.one x) none ∧
    instFreqAny (.two (asColumn x)) (some (.two (asColumn t))) = instFreqAny (.one x) (some (.one t)) ∧
    groupDelayAny (.two (asColumn x)) f = groupDelayAny (.one x) f := by
  refine ⟨?_, ?_, ?_, ?_⟩
  · unfold locfreqAny; rw [flatten_column]; rfl
  · unfold instFreqAny; rw [flatten_column]; rfl
  · unfold instFreqAny; simp only; rw [flatten_column, flatten_column]; rfl
  · unfold groupDelayAny; rw [flatten_column]; rfl

theorem fft_same {x y : Vec ℂ} (h : SameSignal y x) : fft y = fft x := by
  unfold fft
  rw [h.1]
  by_cases h0 : x.len = 0
  · rw [if_pos h0, if_pos h0]
  · rw [if_neg h0, if_neg h0]
    congr 2
    funext k
    exact Finset.sum_congr rfl fun j hj => by rw [h.2 j (h.1 ▸ Finset.mem_range.1 hj)]

theorem take_same {x y : Vec ℂ} (h : SameSignal y x) (t : Vec ℤ) :
    (∃ a b, y.take t = .ok a ∧ x.take t = .ok b ∧ SameSignal a b ∧ a.len = t.len) ∨ (y.take t = .error .indexError ∧ x.take t = .error .indexError) := by
  unfold Vec.take
  rw [h.1]
  by_cases ht : ∀ j < t.len, IdxOk x.len (t.get j)
  · rw [if_pos ht, if_pos ht]
    refine Or.inl ⟨_, _, rfl, rfl, ⟨rfl, fun i hi => ?_⟩, rfl⟩
    have hi' := ht i hi
    refine h.2 _ ?_
    rw [h.1]
    unfold IdxOk at hi'
    unfold wrapIdx
    split_ifs <;> omega
  · rw [if_neg ht, if_neg ht]
    exact Or.inr ⟨rfl, rfl⟩

/-- A row is treated like the signal itself too (same error, or same values at the same instants). -/
theorem C76_row (x : Vec ℂ) (t : Option (Vec ℤ)) (f : Option (Vec ℝ)) :
    locfreqAny (.two (asRow x)) = locfreqAny (.one x) ∧
    groupDelayAny (.two (asRow x)) f = groupDelayAny (.one x) f ∧
    ((∃ e, instFreqAny (.two (asRow x)) (t.map .one) = .error e ∧ instFreqAny (.one x) (t.map .one) = .error e) ∨
      ∃ u v s, instFreqAny (.two (asRow x)) (t.map .one) = .ok (u, s) ∧ instFreqAny (.one x) (t.map .one) = .ok (v, s) ∧ SameSignal u v) := by
  obtain ⟨y, hy, hs⟩ := flatten_row x
  have h1 : flatten (.one x) = .ok x := rfl
  refine ⟨?_, ?_, ?_⟩
  · unfold locfreqAny
    rw [hy, h1, ok_bind, ok_bind]
    unfold locfreq
    rw [fft_same hs, hs.1]
  · unfold groupDelayAny
    rw [hy, h1, ok_bind, ok_bind]
    cases f with
    | none =>
      simp only
      have hl : ∀ n : ℕ, (arange 1 ((n : ℤ) + 1)).len = n := fun n => by rw [arange_len]; simp
      unfold groupDelay
      rw [Vec.bcast_ok (by rw [hl]), Vec.bcast_ok (by rw [hl]), ok_bind, ok_bind, fft_same hs, hs.1]
      rw [fft_same (x := ⟨x.len, fun i => x.get i * (((arange 1 ((x.len : ℤ) + 1)).get i : ℤ) : ℂ)⟩) (y := ⟨x.len, fun i => y.get i *
        (((arange 1 ((x.len : ℤ) + 1)).get i : ℤ) : ℂ)⟩) ⟨rfl, fun i hi => by
          show y.get i * _ = x.get i * _
          rw [hs.2 i (hs.1 ▸ hi)]⟩]
    | some f =>
      simp only
      unfold groupDelayAt
      have e : ∀ g h : ℕ → ℂ, ∑ j ∈ range x.len, g j * (y.get j * h j) = ∑ j ∈ range x.len, g j * (x.get j * h j) := fun g h => by
        exact Finset.sum_congr rfl fun j hj => by rw [hs.2 j (hs.1 ▸ Finset.mem_range.1 hj)]
      have e' : ∀ g : ℕ → ℂ, ∑ j ∈ range x.len, g j * y.get j = ∑ j ∈ range x.len, g j * x.get j := fun g => by
        exact Finset.sum_congr rfl fun j hj => by rw [hs.2 j (hs.1 ▸ Finset.mem_range.1 hj)]
      simp only [hs.1, e' (fun j => _), e (fun j => _) (fun j => _)]
  · have key : ∀ t' : Option (Vec ℤ), (∃ e, instFreq y t' = .error e ∧ instFreq x t' = .error e) ∨
        ∃ u v s, instFreq y t' = .ok (u, s) ∧ instFreq x t' = .ok (v, s) ∧ SameSignal u v := by
      intro t'
      unfold instFreq
      rw [hs.1]
      dsimp only
      set s := t'.getD (arange 2 (x.len : ℤ))
      rcases take_same hs s with ⟨a, b, ha, hb, hab, hal⟩ | ⟨ha, hb⟩
      · rcases take_same hs (s.map (fun i => i - 2)) with ⟨c, d, hc, hd, hcd, hcl⟩ | ⟨hc, hd⟩
        · right
          have hl1 : a.len = c.len := by rw [hal, hcl, Vec.map_len]
          have hl2 : b.len = d.len := by rw [← hab.1, ← hcd.1, hl1]
          rw [ha, hb, ok_bind, ok_bind, hc, hd, ok_bind, ok_bind, Vec.bcast_ok hl1, Vec.bcast_ok hl2, ok_bind, ok_bind]
          refine ⟨_, _, _, rfl, rfl, hab.1, fun i hi => ?_⟩
          have hi' : i < a.len := hi
          simp only [Vec.map_get]
          rw [hab.2 i hi', hcd.2 i (by omega)]
        · left
          rw [ha, hb, ok_bind, ok_bind, hc, hd]
          exact ⟨_, rfl, rfl⟩
      · left
        rw [ha, hb]
        exact ⟨_, rfl, rfl⟩
    unfold instFreqAny
    rw [hy, h1, ok_bind, ok_bind]
    cases t with
    | none => exact key none
    | some t => exact key (some t)

/-- … and refuse a genuine matrix, as signal or as instants, before anything else. -/
theorem C76_matrix (M : Mat ℂ) (T : Mat ℤ) (x : Vec ℂ) (h1 : M.rows ≠ 1) (h2 : M.cols ≠ 1) (h3 : T.rows ≠ 1) (h4 : T.cols ≠ 1)
    (t : Option (Arr12 ℤ)) (f : Option (Vec ℝ)) :
    locfreqAny (.two M) = .error .typeError ∧ instFreqAny (.two M) t = .error .typeError ∧
    instFreqAny (.one x) (some (.two T)) = .error .typeError ∧ groupDelayAny (.two M) f = .error .typeError := by
  refine ⟨?_, ?_, ?_, ?_⟩
  · unfold locfreqAny; rw [flatten_matrix M h1 h2]; rfl
  · unfold instFreqAny; rw [flatten_matrix M h1 h2]; rfl
  · unfold instFreqAny; simp only; rw [flatten_matrix T h3 h4]; rfl
  · unfold groupDelayAny; rw [flatten_matrix M h1 h2]; rfl

/-- The energy of a matrix of samples. -/
noncomputable def matEnergy (M : Mat ℂ) : ℝ := ∑ i ∈ range M.rows, ∑ j ∈ range M.cols, ‖M.get i j‖ ^ 2

theorem sum_ravel (M : Mat ℝ) : (Aff.ravel (.two M)).sum = ∑ i ∈ range M.rows, ∑ j ∈ range M.cols, M.get i j := by
  show ∑ i ∈ range (M.rows * M.cols), M.get (i / M.cols) (i % M.cols) = _
  obtain ⟨R, C, g⟩ := M
  simp only
  induction R with
  | zero => simp
  | succ R ih =>
    rw [Finset.sum_range_succ, ← ih, Nat.succ_mul, Finset.sum_range_add]
    congr 1
    refine Finset.sum_congr rfl fun j hj => ?_
    have hj' := Finset.mem_range.1 hj
    rw [Nat.mul_comm, Nat.mul_add_div (by omega), Nat.div_eq_of_lt hj', Nat.mul_add_mod, Nat.mod_eq_of_lt hj', Nat.add_zero]

theorem matMean_eq (M : Mat ℝ) (h1 : M.rows ≠ 0) (h2 : M.cols ≠ 0) :
    matMean M = .ok ((∑ i ∈ range M.rows, ∑ j ∈ range M.cols, M.get i j) / (M.rows * M.cols)) := by
  unfold matMean Vec.mean
  rw [if_neg (show (Aff.ravel (.two M)).len ≠ 0 from Nat.mul_ne_zero h1 h2), sum_ravel]
  congr 2
  show (((M.rows * M.cols : ℕ)) : ℝ) = _
  push_cast
  rfl

theorem matEnergy_sides {M : Mat ℂ} (h : matEnergy M ≠ 0) : M.rows ≠ 0 ∧ M.cols ≠ 0 := by
  constructor <;> intro h0 <;> apply h <;> unfold matEnergy <;> rw [h0] <;> simp

theorem matMean_map {α : Type} (M : Mat α) (f : α → ℝ) (h1 : M.rows ≠ 0) (h2 : M.cols ≠ 0) :
    matMean (M.map f) = .ok ((∑ i ∈ range M.rows, ∑ j ∈ range M.cols, f (M.get i j)) / (M.rows * M.cols)) :=
  matMean_eq (M.map f) h1 h2

theorem bcastRow_shape {t : Vec ℝ} {S W : Mat ℝ} {g : ℝ → ℝ → ℝ} (h : bcastRow g t S = .ok W) (g' : ℝ → ℝ → ℝ) (S' : Mat ℝ)
    (hS : S'.cols = S.cols) : ∃ W', bcastRow g' t S' = .ok W' := by
  unfold bcastRow at h ⊢
  rw [hS]
  split_ifs at h ⊢ <;> exact ⟨_, rfl⟩

/-- `loctime` of a column does not look at the signal: it answers the middle of the time axis and the spread of a constant, although the
answer for the same samples in one dimension is the true centre (`C44_loctime`). -/
theorem C76_loctime_column (x : Vec ℂ) (hx : energy x ≠ 0) :
    loctimeAny (.two (asColumn x)) = .ok (((x.len : ℝ) - 1) / 2, 2 * Real.sqrt (Real.pi * (((x.len : ℝ) ^ 2 - 1) / 12))) := by
  have hn : x.len ≠ 0 := by
    intro h; apply hx; unfold energy; rw [h]; simp
  have hn' : (x.len : ℝ) ≠ 0 := Nat.cast_ne_zero.2 hn
  have hm : matMean ((asColumn x).map (fun z => ‖z ^ 2‖)) = .ok (energy x / x.len) := by
    rw [matMean_map _ _ hn one_ne_zero]
    simp [asColumn, energy]
  have hE : energy x / x.len ≠ 0 := div_ne_zero hx hn'
  have hl : ((arange 0 (((asColumn x).rows : ℕ) : ℤ)).map (fun t : ℤ => (t : ℝ))).len = x.len := by
    rw [Vec.map_len, arange_len]; simp [asColumn]
  have hget : ∀ j : ℕ, ((arange 0 (((asColumn x).rows : ℕ) : ℤ)).map (fun t : ℤ => (t : ℝ))).get j = (j : ℝ) := by
    intro j; rw [Vec.map_get, arange_get]; push_cast; ring
  -- both products have one entry per (sample, instant)
  have hb : ∀ g : ℝ → ℝ → ℝ, ∃ W : Mat ℝ, bcastRow g ((arange 0 (((asColumn x).rows : ℕ) : ℤ)).map (fun t : ℤ => (t : ℝ)))
      (((asColumn x).map (fun z => ‖z ^ 2‖)).map (fun a => a / (energy x / x.len))) = .ok W ∧ W.rows = x.len ∧ W.cols = x.len ∧
      ∀ i < x.len, ∀ j < x.len, W.get i j = g j (‖x.get i‖ ^ 2 / (energy x / x.len)) := by
    intro g
    unfold bcastRow
    rw [hl]
    by_cases h1 : x.len = 1
    · refine ⟨_, if_pos h1, rfl, h1.symm, fun i _ j _ => ?_⟩
      show g _ _ = _
      rw [hget]
      simp [Mat.map, asColumn]
    · refine ⟨_, (if_neg h1).trans (if_pos rfl), rfl, rfl, fun i _ j _ => ?_⟩
      show g _ _ = _
      rw [hget]
      simp [Mat.map, asColumn]
  have hnorm : ∑ i ∈ range x.len, ‖x.get i‖ ^ 2 / (energy x / x.len) = x.len := by
    rw [← Finset.sum_div]
    show energy x / _ = _
    field_simp
  have hsplit : ∀ (p : ℕ → ℝ), (∑ i ∈ range x.len, ∑ j ∈ range x.len, p j * (‖x.get i‖ ^ 2 / (energy x / x.len))) / (x.len * x.len)
      = (∑ j ∈ range x.len, p j) / x.len := by
    intro p
    simp only [← Finset.sum_mul]
    rw [← Finset.mul_sum, hnorm]
    field_simp
  have hs1 : ∑ j ∈ range x.len, (j : ℝ) = x.len * (x.len - 1) / 2 := by
    generalize x.len = n
    induction n with
    | zero => simp
    | succ n ih => rw [Finset.sum_range_succ, ih]; push_cast; ring
  have hs2 : ∑ j ∈ range x.len, ((j : ℝ) - ((x.len : ℝ) - 1) / 2) ^ 2 = x.len * ((x.len : ℝ) ^ 2 - 1) / 12 := by
    have : ∀ (n : ℕ) (c : ℝ), ∑ j ∈ range n, ((j : ℝ) - c) ^ 2 = (n - 1) * n * (2 * n - 1) / 6 - c * (n * (n - 1)) + n * c ^ 2 := by
      intro n c
      induction n with
      | zero => simp
      | succ n ih => rw [Finset.sum_range_succ, ih]; push_cast; ring
    rw [this]; ring
  obtain ⟨W, hW, hWr, hWc, hWg⟩ := hb (fun t a => t * a)
  have hmW : matMean W = .ok (((x.len : ℝ) - 1) / 2) := by
    rw [matMean_eq W (by omega) (by omega), hWr, hWc]
    rw [Finset.sum_congr rfl (fun i hi => Finset.sum_congr rfl (fun j hj => hWg i (Finset.mem_range.1 hi) j (Finset.mem_range.1 hj)))]
    rw [hsplit (fun j => (j : ℝ)), hs1]
    congr 1
    field_simp
  obtain ⟨V, hV, hVr, hVc, hVg⟩ := hb (fun t a => (t - ((x.len : ℝ) - 1) / 2) ^ 2 * a)
  have hmV : matMean V = .ok (((x.len : ℝ) ^ 2 - 1) / 12) := by
    rw [matMean_eq V (by omega) (by omega), hVr, hVc]
    rw [Finset.sum_congr rfl (fun i hi => Finset.sum_congr rfl (fun j hj => hVg i (Finset.mem_range.1 hi) j (Finset.mem_range.1 hj)))]
    rw [hsplit (fun j => ((j : ℝ) - ((x.len : ℝ) - 1) / 2) ^ 2), hs2]
    congr 1
    field_simp
  obtain ⟨W', hW'⟩ := bcastRow_shape hW (fun t a => t * a) ((asColumn x).map (fun z => ‖z ^ 2‖)) rfl
  unfold loctimeAny
  simp only
  rw [hW', ok_bind, hm, ok_bind, if_neg hE, hW, ok_bind, hmW, ok_bind, hV, ok_bind, hmV, ok_bind]

/-- `loctime` of a row answers centre 0 and spread 0. -/
theorem C76_loctime_row (x : Vec ℂ) (hx : energy x ≠ 0) : loctimeAny (.two (asRow x)) = .ok (0, 0) := by
  have hn : x.len ≠ 0 := by
    intro h; apply hx; unfold energy; rw [h]; simp
  have hn' : (x.len : ℝ) ≠ 0 := Nat.cast_ne_zero.2 hn
  have hm : matMean ((asRow x).map (fun z => ‖z ^ 2‖)) = .ok (energy x / x.len) := by
    rw [matMean_map _ _ one_ne_zero hn]
    simp [asRow, energy]
  have hE : energy x / x.len ≠ 0 := div_ne_zero hx hn'
  have hl : ((arange 0 (((asRow x).rows : ℕ) : ℤ)).map (fun t : ℤ => (t : ℝ))).len = 1 := by
    rw [Vec.map_len, arange_len]; simp [asRow]
  have hget : ((arange 0 (((asRow x).rows : ℕ) : ℤ)).map (fun t : ℤ => (t : ℝ))).get 0 = 0 := by
    rw [Vec.map_get, arange_get]; simp
  have hb : ∀ g : ℝ → ℝ → ℝ, (∀ a, g 0 a = 0) → ∃ W : Mat ℝ, bcastRow g ((arange 0 (((asRow x).rows : ℕ) : ℤ)).map (fun t : ℤ => (t : ℝ)))
      (((asRow x).map (fun z => ‖z ^ 2‖)).map (fun a => a / (energy x / x.len))) = .ok W ∧ W.rows = 1 ∧ W.cols = x.len ∧
      ∀ i < 1, ∀ j < x.len, W.get i j = 0 := by
    intro g hg
    unfold bcastRow
    rw [hl]
    by_cases h1 : 1 = x.len
    · refine ⟨_, if_pos h1, rfl, rfl, fun i _ j hj => ?_⟩
      have : j = 0 := by omega
      subst this
      show g _ _ = _
      rw [hget, hg]
    · refine ⟨_, (if_neg h1).trans ((if_neg (show ¬ x.len = 1 by omega)).trans (if_pos rfl)), rfl, rfl, fun i _ j hj => ?_⟩
      show g _ _ = _
      rw [hget, hg]
  have hz : ∀ W : Mat ℝ, W.rows = 1 → W.cols = x.len → (∀ i < 1, ∀ j < x.len, W.get i j = 0) → matMean W = .ok 0 := by
    intro W h1 h2 h3
    rw [matMean_eq W (by omega) (by omega), h1, h2]
    rw [Finset.sum_eq_zero (fun i hi => Finset.sum_eq_zero (fun j hj => h3 i (Finset.mem_range.1 hi) j (Finset.mem_range.1 hj)))]
    simp
  obtain ⟨W, hW, hWr, hWc, hWg⟩ := hb (fun t a => t * a) (fun a => zero_mul a)
  obtain ⟨V, hV, hVr, hVc, hVg⟩ := hb (fun t a => (t - 0) ^ 2 * a) (fun a => by ring)
  obtain ⟨W', hW'⟩ := bcastRow_shape hW (fun t a => t * a) ((asRow x).map (fun z => ‖z ^ 2‖)) rfl
  unfold loctimeAny
  simp only
  rw [hW', ok_bind, hm, ok_bind, if_neg hE, hW, ok_bind, hz W hWr hWc hWg, ok_bind, hV, ok_bind, hz V hVr hVc hVg, ok_bind]
  simp

/-- A square matrix is answered as if its rows were superposed signals: the centre is that of the column index. -/
theorem C76_loctime_square (M : Mat ℂ) (hs : M.rows = M.cols) (hM : matEnergy M ≠ 0) :
    ∃ tm T, loctimeAny (.two M) = .ok (tm, T) ∧
      tm = (∑ i ∈ range M.rows, ∑ j ∈ range M.cols, (j : ℝ) * ‖M.get i j‖ ^ 2) / matEnergy M ∧
      T = 2 * Real.sqrt (Real.pi * ((∑ i ∈ range M.rows, ∑ j ∈ range M.cols, ((j : ℝ) - tm) ^ 2 * ‖M.get i j‖ ^ 2) / matEnergy M)) := by
  obtain ⟨h1, h2⟩ := matEnergy_sides hM
  have h1' : (M.rows : ℝ) ≠ 0 := Nat.cast_ne_zero.2 h1
  have h2' : (M.cols : ℝ) ≠ 0 := Nat.cast_ne_zero.2 h2
  have hm : matMean (M.map (fun z => ‖z ^ 2‖)) = .ok (matEnergy M / (M.rows * M.cols)) := by
    rw [matMean_map _ _ h1 h2]
    simp [matEnergy]
  have hE : matEnergy M / (M.rows * M.cols) ≠ 0 := div_ne_zero hM (mul_ne_zero h1' h2')
  have hl : ((arange 0 ((M.rows : ℕ) : ℤ)).map (fun t : ℤ => (t : ℝ))).len = M.rows := by
    rw [Vec.map_len, arange_len]; simp
  have hget : ∀ j : ℕ, ((arange 0 ((M.rows : ℕ) : ℤ)).map (fun t : ℤ => (t : ℝ))).get j = (j : ℝ) := by
    intro j; rw [Vec.map_get, arange_get]; push_cast; ring
  have hb : ∀ p : ℝ → ℝ, ∃ W : Mat ℝ, bcastRow (fun t a => p t * a) ((arange 0 ((M.rows : ℕ) : ℤ)).map (fun t : ℤ => (t : ℝ)))
      ((M.map (fun z => ‖z ^ 2‖)).map (fun a => a / (matEnergy M / (M.rows * M.cols)))) = .ok W ∧
      matMean W = .ok ((∑ i ∈ range M.rows, ∑ j ∈ range M.cols, p j * ‖M.get i j‖ ^ 2) / matEnergy M) := by
    intro p
    unfold bcastRow
    rw [hl]
    refine ⟨_, if_pos hs, ?_⟩
    rw [matMean_eq _ h1 h2]
    have e : ∀ i j, p (((arange 0 ((M.rows : ℕ) : ℤ)).map (fun t : ℤ => (t : ℝ))).get j) *
        (((M.map (fun z => ‖z ^ 2‖)).map (fun a => a / (matEnergy M / (M.rows * M.cols)))).get i j) =
        p j * ‖M.get i j‖ ^ 2 * ((M.rows * M.cols) / matEnergy M) := by
      intro i j
      rw [hget]
      show p j * (‖M.get i j ^ 2‖ / _) = _
      rw [norm_pow]
      field_simp
    show Except.ok ((∑ i ∈ range M.rows, ∑ j ∈ range M.cols, _) / ((M.rows : ℝ) * M.cols)) = _
    simp only [e, ← Finset.sum_mul]
    congr 1
    field_simp
  obtain ⟨W, hW, hmW⟩ := hb (fun t => t)
  set tm := (∑ i ∈ range M.rows, ∑ j ∈ range M.cols, (j : ℝ) * ‖M.get i j‖ ^ 2) / matEnergy M with htm
  obtain ⟨V, hV, hmV⟩ := hb (fun t => (t - tm) ^ 2)
  refine ⟨tm, _, ?_, rfl, rfl⟩
  obtain ⟨W', hW'⟩ := bcastRow_shape hW (fun t a => t * a) (M.map (fun z => ‖z ^ 2‖)) rfl
  unfold loctimeAny
  simp only
  rw [hW', ok_bind, hm, ok_bind, if_neg hE, hW, ok_bind, hmW, ok_bind, hV, ok_bind, hmV, ok_bind]

/-- Any other matrix raises `ValueError` (not `TypeError`), silent or not. -/
theorem C76_loctime_matrix (M : Mat ℂ) (hs : M.rows ≠ M.cols) (h1 : M.rows ≠ 1) (h2 : M.cols ≠ 1) :
    loctimeAny (.two M) = .error .valueError := by
  have hl : ((arange 0 ((M.rows : ℕ) : ℤ)).map (fun t : ℤ => (t : ℝ))).len = M.rows := by
    rw [Vec.map_len, arange_len]; simp
  have : bcastRow (fun t a : ℝ => t * a) ((arange 0 ((M.rows : ℕ) : ℤ)).map (fun t : ℤ => (t : ℝ))) (M.map (fun z => ‖z ^ 2‖))
      = .error .valueError := by
    unfold bcastRow
    rw [hl, if_neg (by exact hs), if_neg (by exact h2), if_neg h1]
  unfold loctimeAny
  simp only
  rw [this]
  rfl

/-- A silent row, column or square matrix gives NaN. -/
theorem C76_loctime_silent (M : Mat ℂ) (hM : matEnergy M = 0) (hs : M.rows = M.cols ∨ M.rows = 1 ∨ M.cols = 1) :
    loctimeAny (.two M) = .error .nonFinite := by
  have hl : ((arange 0 ((M.rows : ℕ) : ℤ)).map (fun t : ℤ => (t : ℝ))).len = M.rows := by
    rw [Vec.map_len, arange_len]; simp
  obtain ⟨W, hW⟩ : ∃ W, bcastRow (fun t a : ℝ => t * a) ((arange 0 ((M.rows : ℕ) : ℤ)).map (fun t : ℤ => (t : ℝ))) (M.map (fun z => ‖z ^ 2‖))
      = .ok W := by
    unfold bcastRow
    rw [hl]
    show ∃ W, (if M.rows = M.cols then _ else if M.cols = 1 then _ else if M.rows = 1 then _ else _) = _
    split_ifs <;> first | exact ⟨_, rfl⟩ | omega
  unfold loctimeAny
  simp only
  rw [hW, ok_bind]
  by_cases h0 : M.rows = 0 ∨ M.cols = 0
  · have : matMean (M.map (fun z => ‖z ^ 2‖)) = .error .nonFinite := by
      unfold matMean Vec.mean
      exact if_pos (Nat.mul_eq_zero.2 h0)
    rw [this]
    rfl
  · rw [not_or] at h0
    have hm : matMean (M.map (fun z => ‖z ^ 2‖)) = .ok 0 := by
      rw [matMean_map _ _ h0.1 h0.2]
      simp only [norm_pow]
      unfold matEnergy at hM
      rw [hM, zero_div]
    rw [hm, ok_bind, if_pos rfl]

/-- A representation object built from a matrix analyses the concatenation of its rows; defaults are sized accordingly. -/
theorem C76_object (mkw : ℕ → Vec ℂ) (M : Mat ℂ) :
    (TFR.initDefaultAny mkw (.two M)).signal.len = M.rows * M.cols ∧ (TFR.initDefaultAny mkw (.two M)).nf = M.rows * M.cols ∧
    (TFR.initDefaultAny mkw (.two M)).ts.len = M.rows * M.cols ∧
    ∀ r < M.rows, ∀ c < M.cols, (TFR.initDefaultAny mkw (.two M)).signal.get (M.cols * r + c) = M.get r c := by
  refine ⟨rfl, rfl, ?_, fun r hr c hc => ?_⟩
  · show (arange 0 _).len = _
    rw [arange_len, sub_zero, Int.toNat_natCast]
    rfl
  · show M.get ((M.cols * r + c) / M.cols) ((M.cols * r + c) % M.cols) = _
    rw [Nat.mul_add_div (by omega), Nat.div_eq_of_lt hc, Nat.mul_add_mod, Nat.mod_eq_of_lt hc, Nat.add_zero]

/-- Four samples with all the energy in the last: the centre is 3, but 3/2 for the column and 0 for the row. -/
example : loctimeAny (.one ⟨4, fun i => if i = 3 then 1 else 0⟩) = .ok (3, 0) ∧
    (∃ T, loctimeAny (.two (asColumn ⟨4, fun i => if i = 3 then 1 else 0⟩)) = .ok (3 / 2, T)) ∧
    loctimeAny (.two (asRow ⟨4, fun i => if i = 3 then 1 else 0⟩)) = .ok (0, 0) := by
  have he : energy (⟨4, fun i => if i = 3 then 1 else 0⟩ : Vec ℂ) ≠ 0 := by
    simp [energy, Finset.sum_range_succ]
  refine ⟨?_, ?_, C76_loctime_row _ he⟩
  · have := C44_impulse ⟨4, fun i => if i = 3 then 1 else 0⟩ 3 (by norm_num) (by simp) (fun i _ h => if_neg h)
    have h := this
    norm_num at h
    exact h
  · have := C76_loctime_column _ he
    norm_num at this
    exact ⟨_, this⟩

end Tftb.Props
