import Verif.Props.Gabor
import Verif.Props.Utils

/-! # Every call of `gabor`: what it returns or raises (C59, continued) -/

namespace Tftb.Props

open Tftb Tftb.Spec Tftb.Gabor Tftb.Utils Finset ComplexConjugate

/-- `modulo(v, M).astype(int)` lies between 0 and `M`. -/
theorem moduloInt_total {v : Vec ℝ} {M : ℕ} (hM : M ≠ 0) (hv : v.len ≠ 0) :
    ∃ idx : Vec ℤ, moduloInt v M = .ok idx ∧ idx.len = v.len ∧ ∀ j < v.len, 0 ≤ idx.get j ∧ idx.get j ≤ M := by
  have hMr : (0 : ℝ) < M := by exact_mod_cast Nat.pos_of_ne_zero hM
  obtain ⟨y, h1, h2, h3⟩ := C03_modulo_real v M (Nat.pos_of_ne_zero hv) hMr
  refine ⟨y.map truncInt, by unfold moduloInt; rw [h1]; rfl, h2, fun j hj => ?_⟩
  obtain ⟨h4, h5, -⟩ := h3 j hj
  rw [Vec.map_get]
  unfold truncInt
  rw [if_pos h4.le]
  refine ⟨Int.floor_nonneg.2 h4.le, ?_⟩
  have : ⌊y.get j⌋ ≤ ⌊((M : ℤ) : ℝ)⌋ := Int.floor_le_floor (by exact_mod_cast h5)
  rwa [Int.floor_intCast] at this

theorem iadd_total {M P : Mat ℝ} (h : P.cols = M.cols ∨ P.cols = 1) : ∃ R : Mat ℝ, iadd M P = .ok R ∧ R.rows = M.rows ∧ R.cols = M.cols ∧
    (P.cols = 1 → (∀ r, ∀ c < M.cols, M.get r c = M.get r 0) → ∀ r, ∀ c < M.cols, R.get r c = R.get r 0) := by
  unfold iadd
  by_cases h4 : P.cols = M.cols
  · rw [if_pos h4]
    refine ⟨_, rfl, rfl, rfl, fun h5 _ r c hc => ?_⟩
    obtain rfl : c = 0 := by omega
    rfl
  · rw [if_neg h4, if_pos (h.resolve_left h4)]
    refine ⟨_, rfl, rfl, rfl, fun h5 h6 r c hc => ?_⟩
    show M.get r c + _ = M.get r 0 + _
    rw [h6 r c hc]

/-- One column of coefficients: computed when the dual window has enough samples, and raises when it has none. -/
theorem gaborCol_total {x : Vec ℂ} {gam : Vec ℝ} (hx : x.len ≠ 0) (m Q n : ℕ) (c : Vec ℂ) :
    (x.len ≤ gam.len → ∃ v, gaborCol x m Q gam n c = .ok v) ∧ (gam.len = 0 → gaborCol x m Q gam n c = .error .indexError) := by
  obtain ⟨idx, h1, h2, h3⟩ := moduloInt_total (v := ⟨x.len, fun j => (j : ℝ) + 1 - (n : ℝ) * m / Q⟩) (M := x.len) hx hx
  refine ⟨fun h => ?_, fun h => ?_⟩
  · unfold gaborCol
    rw [h1, ok_bind]
    unfold Vec.take
    rw [if_pos (by
      intro j hj
      have := h3 j (by rw [← h2]; exact hj)
      rw [Vec.map_get]
      exact ⟨by omega, by omega⟩), ok_bind, Vec.bcast_ok (by exact h2.symm), ok_bind, fft_ok (by exact hx)]
    exact ⟨_, rfl⟩
  · unfold gaborCol
    rw [h1, ok_bind]
    unfold Vec.take
    rw [if_neg]
    · rfl
    · intro h4
      have h5 := h4 0 (by rw [Vec.map_len, h2]; exact Nat.pos_of_ne_zero hx)
      unfold IdxOk at h5
      omega

/-- The loop accumulating the squared Zak transform always ends when the columns agree or there is only one. -/
theorem zakFold_total {m mb Q : ℕ} {Z : Mat ℂ} (hm : m ≠ 0) (hr : Z.rows = m) (hc : Z.cols = mb ∨ Z.cols = 1) (l : List ℕ) (M : Mat ℝ) (hM : M.rows = m)
    (hM' : M.cols = mb) : ∃ R : Mat ℝ, l.foldlM (zakStep m Q Z) M = .ok R ∧ R.rows = m ∧ R.cols = mb ∧
      (Z.cols = 1 → (∀ r, ∀ c < mb, M.get r c = M.get r 0) → ∀ r, ∀ c < mb, R.get r c = R.get r 0) := by
  induction l generalizing M with
  | nil => exact ⟨M, rfl, hM, hM', fun _ h => h⟩
  | cons a l ih =>
    obtain ⟨idx, h1, h2, h3⟩ := moduloInt_total (v := ⟨m, fun i => (i : ℝ) + 1 - (a : ℝ) * m / Q⟩) (M := m) hm hm
    have hstep : ∃ R : Mat ℝ, zakStep m Q Z M a = .ok R ∧ R.rows = m ∧ R.cols = mb ∧
        (Z.cols = 1 → (∀ r, ∀ c < mb, M.get r c = M.get r 0) → ∀ r, ∀ c < mb, R.get r c = R.get r 0) := by
      unfold zakStep
      rw [h1, ok_bind]
      unfold Mat.takeRows
      rw [if_pos (by
        intro j hj
        have := h3 j (by rw [← h2]; exact hj)
        rw [Vec.map_get, hr]
        exact ⟨by omega, by omega⟩), ok_bind]
      obtain ⟨R, r1, r2, r3, r4⟩ := iadd_total (M := M) (P := (⟨(Vec.map (fun i => i - 1) idx).len, Z.cols, fun r c =>
        Z.get (wrapIdx Z.rows ((Vec.map (fun i => i - 1) idx).get r)) c⟩ : Mat ℂ).map (fun z => ‖z‖ ^ 2)) (by rw [hM']; exact hc)
      exact ⟨R, r1, r2.trans hM, r3.trans hM', by rw [hM'] at r4; exact r4⟩
    obtain ⟨R, r1, r2, r3, r4⟩ := hstep
    rw [List.foldlM_cons, r1]
    obtain ⟨S, s1, s2, s3, s4⟩ := ih R r2 r3
    exact ⟨S, s1, s2, s3, fun h h' => s4 h (r4 h h')⟩

/-- Every call with explicit arguments: `m = Q·L / N` (integer division) is the number of frequencies, `s` the position of the window.
The conditions are tested in this order.  When the frequency step is a single sample (`m = L`), the returned "dual window" is constant on every block
of `L / N` samples, whatever the window. -/
theorem C59_every_call (x : Vec ℂ) (N Q : ℕ) (w : Vec ℝ) (m : ℕ) (hm : m = Q * x.len / N) (s : ℤ)
    (hs : s = roundEven (((x.len : ℝ) - (w.len - 1)) / 2) - roundEven ((2 * (x.len : ℝ) / N - 1 - w.len) / (2 * Q)) - 1) :
    if N = 0 ∨ Q * x.len < N then gabor x (some N) (some Q) (some w) = .error .zeroDivisionError
    else if w.len % 2 = 0 then gabor x (some N) (some Q) (some w) = .error .valueError
    else if s < -(x.len : ℤ) ∨ (x.len : ℤ) < s + w.len then gabor x (some N) (some Q) (some w) = .error .indexError
    else if ¬ m ∣ x.len ∨ (x.len / m ≠ x.len / N ∧ x.len / m ≠ 1) then gabor x (some N) (some Q) (some w) = .error .valueError
    else if x.len < N then gabor x (some N) (some Q) (some w) = .error .indexError
    else ∃ R, gabor x (some N) (some Q) (some w) = .ok R ∧ R.dgr.rows = m ∧ R.dgr.cols = N ∧ R.tfr = R.dgr.map (fun z => ‖z‖ ^ 2) ∧
      R.gam.len = m * (x.len / N) ∧
      (x.len / m = 1 → ∀ i < R.gam.len, ∀ j < R.gam.len, i / (x.len / N) = j / (x.len / N) → R.gam.get i = R.gam.get j) := by
  subst hm
  have hcore : gabor x (some N) (some Q) (some w) = gaborCore x N Q w := rfl
  split_ifs with c1 c2 c3 c4 c5
  · rw [hcore]
    unfold gaborCore
    by_cases hN : N = 0
    · rw [if_pos hN]
    · rw [if_neg hN]
      simp only
      rw [if_pos (Nat.div_eq_of_lt (c1.resolve_left hN))]
  · exact C59_even_window x N Q w (by omega) (by omega) c2
  · exact C59_window_outside x N Q w (by omega) (by omega) (by omega) s hs c3
  · exact C59_bad_lattice x N Q w (by omega) (by omega) (by omega) s hs (by omega) (by omega) c4
  all_goals
    have hN : 1 ≤ N := by omega
    have hmpos : 0 < Q * x.len / N := Nat.div_pos (by omega) hN
    have hdvd : Q * x.len / N ∣ x.len := by
      by_contra h
      exact c4 (Or.inl h)
    have hcols : x.len / (Q * x.len / N) = x.len / N ∨ x.len / (Q * x.len / N) = 1 := by
      by_contra h
      push Not at h
      exact c4 (Or.inr h)
    have hL : x.len ≠ 0 := by
      intro h
      rw [h] at hmpos
      simp at hmpos
    have hp := placeWindow_total (L := x.len) (N := N) (q := Q) (w := w) (by omega) hs (by omega) (by omega)
    generalize hmdef : Q * x.len / N = m at *
    have hnb : m * (x.len / m) = x.len := Nat.mul_div_cancel' hdvd
    set nb := x.len / m with hnbdef
    set mb := x.len / N with hmbdef
    have hz := zakOf_ok (m := m) (b := nb) (h := ⟨x.len, Vec.scatter (fun _ => 0) (fun j => wrapIdx x.len (s + j)) w.get w.len⟩) (by omega) hnb.symm
    set Z := Spec.zak m nb ((⟨x.len, Vec.scatter (fun _ => 0) (fun j => wrapIdx x.len (s + j)) w.get w.len⟩ : Vec ℝ).map Complex.ofReal) with hZ
    obtain ⟨M, f1, f2, f3, f4⟩ := zakFold_total (m := m) (mb := mb) (Q := Q) (Z := Z) (by omega) rfl hcols (List.range Q) (Mat.zeros m mb) rfl rfl
    obtain ⟨g, g1, g2⟩ := izak2_ok ⟨m, mb, fun k c => Z.get k (if nb = 1 then 0 else c) / (((M.map (fun a => if a < eps then 1 else a)).get k c : ℝ) : ℂ)⟩ (by show m ≠ 0; omega)
    have hdual : gaborDual x.len N Q m mb nb w = .ok ⟨m * mb, fun j => (g j).re / (x.len : ℝ)⟩ := by
      unfold gaborDual
      rw [if_neg (by omega), hp, ok_bind, hz, ok_bind, f1, ok_bind]
      show (izak2 _ >>= fun g => Except.ok (g.map (fun z => z.re / (x.len : ℝ)))) = _
      rw [g1]
      rfl
  · have hmb : mb = 0 := Nat.div_eq_of_lt c5
    obtain ⟨N', rfl⟩ : ∃ N', N = N' + 1 := ⟨N - 1, by omega⟩
    rw [hcore]
    unfold gaborCore
    rw [if_neg (by omega)]
    simp only [hmdef]
    rw [if_neg (by omega)]
    simp only [← hnbdef, ← hmbdef]
    rw [hdual, ok_bind]
    unfold Mat.forCols
    rw [List.range_succ_eq_map, List.foldlM_cons]
    unfold Mat.updCol
    rw [(gaborCol_total (gam := ⟨m * mb, fun j => (g j).re / (x.len : ℝ)⟩) hL m Q 0 _).2 (by show m * mb = 0; rw [hmb, mul_zero])]
    rfl
  · have hmb : 1 ≤ mb := Nat.div_pos (by omega) hN
    have hbig : x.len ≤ m * mb := by
      rcases hcols with h | h
      · rw [← h, hnb]
      · rw [h, mul_one] at hnb
        rw [hnb]
        exact Nat.le_mul_of_pos_right _ hmb
    have hcol : ∀ c : ℕ, ∃ v, gaborCol x m Q ⟨m * mb, fun j => (g j).re / (x.len : ℝ)⟩ c ((Mat.zeros x.len N).col c) = .ok v :=
      fun c => (gaborCol_total hL m Q c _).1 hbig
    choose G hG using hcol
    have hfor := Mat.forCols_ok (M := Mat.zeros (α := ℂ) x.len N) (T := N) (body := gaborCol x m Q ⟨m * mb, fun j => (g j).re / (x.len : ℝ)⟩) (le_refl _)
      (fun c _ => hG c)
    have hnb0 : 0 < nb := by
      rcases Nat.eq_zero_or_pos nb with h | h
      · rw [h, mul_zero] at hnb
        omega
      · exact h
    have hrows : (x.len + nb - 1) / nb = m := by
      have : x.len + nb - 1 = (nb - 1) + nb * m := by rw [mul_comm nb m]; omega
      rw [this, Nat.add_mul_div_left _ _ hnb0, Nat.div_eq_of_lt (by omega), zero_add]
    have hrun : ∃ R, gaborCore x N Q w = .ok R ∧ R.dgr.rows = m ∧ R.dgr.cols = N ∧ R.tfr = R.dgr.map (fun z => ‖z‖ ^ 2) ∧ R.gam.len = m * mb ∧
        (nb = 1 → ∀ i < R.gam.len, ∀ j < R.gam.len, i / mb = j / mb → R.gam.get i = R.gam.get j) := by
      unfold gaborCore
      rw [if_neg (by omega)]
      simp only [hmdef]
      rw [if_neg (by omega)]
      simp only [← hnbdef, ← hmbdef]
      rw [hdual, ok_bind, hfor, ok_bind, hrows, takeRows_ok (by intro j; simp only; omega) (by
        intro j hj
        show ((j * nb : ℕ) : ℤ) < (x.len : ℤ)
        have : j * nb < m * nb := Nat.mul_lt_mul_of_pos_right hj hnb0
        exact_mod_cast (by omega : j * nb < x.len)), ok_bind]
      refine ⟨_, rfl, rfl, rfl, rfl, rfl, fun hone i hi j hj hij => ?_⟩
      have hconst := f4 hone (fun _ _ _ => rfl)
      have hval : ∀ i < m * mb, g i = (Real.sqrt m : ℂ) * idftC m (fun k => Z.get k 0 / (((if M.get k 0 < eps then 1 else M.get k 0 : ℝ)) : ℂ)) ((i / mb : ℕ) : ℤ) := by
        intro i hi
        have hk := g2 (i % mb) (Nat.mod_lt _ hmb) (i / mb) ((Nat.div_lt_iff_lt_mul hmb).2 hi)
        rw [show i % mb + i / mb * mb = i from by rw [mul_comm]; exact Nat.mod_add_div i mb] at hk
        rw [hk]
        simp only [Mat.map, if_pos hone]
        congr 2
        funext k
        rw [hconst k _ (Nat.mod_lt _ hmb)]
      show (g i).re / _ = (g j).re / _
      rw [hval i hi, hval j hj, hij]
    exact hrun


/-- One sample, two coefficients, oversampling by two: the dual window is empty and the loop over the columns raises. -/
example (a : ℂ) : gabor ⟨1, fun _ => a⟩ (some 2) (some 2) (some ⟨1, fun _ => 1⟩) = .error .indexError := by
  have r1 : roundEven ((((1 : ℕ) : ℝ) - (((1 : ℕ) : ℝ) - 1)) / 2) = 0 := by
    rw [show (((1 : ℕ) : ℝ) - (((1 : ℕ) : ℝ) - 1)) / 2 = ((0 : ℤ) : ℝ) + 1 / 2 by norm_num, roundEven_half_odd, if_pos (by decide)]
  have r2 : roundEven ((2 * ((1 : ℕ) : ℝ) / ((2 : ℕ) : ℝ) - 1 - ((1 : ℕ) : ℝ)) / (2 * ((2 : ℕ) : ℝ))) = 0 := by
    have hb := roundEven_bounds ((2 * ((1 : ℕ) : ℝ) / ((2 : ℕ) : ℝ) - 1 - ((1 : ℕ) : ℝ)) / (2 * ((2 : ℕ) : ℝ)))
    generalize roundEven ((2 * ((1 : ℕ) : ℝ) / ((2 : ℕ) : ℝ) - 1 - ((1 : ℕ) : ℝ)) / (2 * ((2 : ℕ) : ℝ))) = A at *
    norm_num at hb
    have h1 : (-1 : ℝ) < A := by linarith [hb.1]
    have h2 : (A : ℝ) < 1 := by linarith [hb.2]
    have h1' : -1 < A := by exact_mod_cast h1
    have h2' : A < 1 := by exact_mod_cast h2
    omega
  have := C59_every_call ⟨1, fun _ => a⟩ 2 2 ⟨1, fun _ => 1⟩ 1 (by norm_num) (-1) (by
    show (-1 : ℤ) = roundEven ((((1 : ℕ) : ℝ) - (((1 : ℕ) : ℝ) - 1)) / 2)
      - roundEven ((2 * ((1 : ℕ) : ℝ) / ((2 : ℕ) : ℝ) - 1 - ((1 : ℕ) : ℝ)) / (2 * ((2 : ℕ) : ℝ))) - 1
    rw [r1, r2]
    norm_num)
  simpa using this

/-! ## Without arguments -/

theorem divider_two : divider ((2 : ℕ) : ℤ) = .ok (((2 : ℕ) : ℤ), ((1 : ℕ) : ℤ)) := by
  have h1 : ⌊Real.sqrt 2⌋ = 1 := by
    rw [Int.floor_eq_iff]
    constructor
    · push_cast; rw [Real.le_sqrt (by norm_num) (by norm_num)]; norm_num
    · push_cast; rw [Real.sqrt_lt' (by norm_num)]; norm_num
  have h2 : ⌈Real.sqrt 2⌉ = 2 := by
    rw [Int.ceil_eq_iff]
    constructor
    · push_cast; rw [Real.lt_sqrt (by norm_num)]; norm_num
    · push_cast; rw [Real.sqrt_le_iff]; norm_num
  have h3 : (1 : ℝ) < Real.sqrt 2 := by rw [Real.lt_sqrt (by norm_num)]; norm_num
  unfold divider
  rw [if_neg (by norm_num)]
  push_cast
  rw [if_neg (by rw [h1]; push_cast; linarith), h2]
  rfl

theorem divider_six : divider ((6 : ℕ) : ℤ) = .ok (((3 : ℕ) : ℤ), ((2 : ℕ) : ℤ)) := by
  have h1 : ⌊Real.sqrt 6⌋ = 2 := by
    rw [Int.floor_eq_iff]
    constructor
    · push_cast; rw [Real.le_sqrt (by norm_num) (by norm_num)]; norm_num
    · push_cast; rw [Real.sqrt_lt' (by norm_num)]; norm_num
  have h2 : ⌈Real.sqrt 6⌉ = 3 := by
    rw [Int.ceil_eq_iff]
    constructor
    · push_cast; rw [Real.lt_sqrt (by norm_num)]; norm_num
    · push_cast; rw [Real.sqrt_le_iff]; norm_num
  have h3 : (2 : ℝ) < Real.sqrt 6 := by rw [Real.lt_sqrt (by norm_num)]; norm_num
  unfold divider
  rw [if_neg (by norm_num)]
  push_cast
  rw [if_neg (by rw [h1]; push_cast; linarith), h2]
  rfl

/-- A call with the default window: it fits, and the lattice condition alone decides. -/
theorem default_ok {x : Vec ℂ} {N Q M P : ℕ} (hx : x.len = N * M) (hN1 : 1 ≤ N) (hM : 1 ≤ M) (hNM : N ≤ M + 1) (hQ : 1 ≤ Q) (hQN : N = 2 → Q = 2)
    (hQ2 : Q * M ∣ x.len) (hb : x.len / (Q * M) = M ∨ x.len / (Q * M) = 1)
    (hdN : divider (x.len : ℤ) = .ok ((N : ℤ), (M : ℤ))) (hdQ : divider (N : ℤ) = .ok ((Q : ℤ), (P : ℤ))) :
    ∃ R, gabor x none none none = .ok R ∧ R.dgr.rows = Q * M ∧ R.dgr.cols = N ∧ R.gam.len = Q * M * M := by
  have hm1 : Q * x.len / N = Q * M := by
    rw [hx, show Q * (N * M) = N * (Q * M) by ring, Nat.mul_div_cancel_left _ (by omega)]
  have hm2 : x.len / N = M := by rw [hx, Nat.mul_div_cancel_left _ (by omega)]
  have hL : N ≤ x.len := by rw [hx]; exact Nat.le_mul_of_pos_right _ (by omega)
  have hwl : (defaultWindow N).len ≤ N + 1 := by rw [defaultWindow_len]; split_ifs <;> omega
  have hwl0 : N ≤ (defaultWindow N).len := by rw [defaultWindow_len]; split_ifs <;> omega
  have hwl1 : N = 1 → (defaultWindow N).len = 1 := by rintro rfl; rfl
  have hwl2 : N = 2 → (defaultWindow N).len = 3 := by rintro rfl; rfl
  have hwo := defaultWindow_odd N
  have hall := C59_every_call x N Q (defaultWindow N) (Q * M) hm1.symm _ rfl
  obtain ⟨w, hw⟩ : ∃ w, w = (defaultWindow N).len := ⟨_, rfl⟩
  rw [← hw] at hwl hwl0 hwl1 hwl2 hwo hall
  have hLr : (x.len : ℝ) = N * M := by rw [hx]; push_cast; ring
  have hNr : (1 : ℝ) ≤ N := by exact_mod_cast hN1
  have hMr : (1 : ℝ) ≤ M := by exact_mod_cast hM
  have hlr : (N : ℝ) ≤ M + 1 := by exact_mod_cast hNM
  have hwr : (w : ℝ) ≤ N + 1 := by exact_mod_cast hwl
  have hwr0 : (N : ℝ) ≤ w := by exact_mod_cast hwl0
  have hQr : (1 : ℝ) ≤ Q := by exact_mod_cast hQ
  have hcases : N = 1 ∨ (N = 2 ∧ M = 1) ∨ (2 ≤ N ∧ 2 ≤ M) := by omega
  have hlo : -(x.len : ℤ) ≤ roundEven (((x.len : ℝ) - (w - 1)) / 2) - roundEven ((2 * (x.len : ℝ) / N - 1 - w) / (2 * Q)) - 1 := by
    have b1 := (roundEven_bounds (((x.len : ℝ) - (w - 1)) / 2)).1
    have b2 := (roundEven_bounds ((2 * (x.len : ℝ) / N - 1 - w) / (2 * Q))).2
    have e : 2 * (x.len : ℝ) / N = 2 * M := by rw [hLr]; field_simp
    rw [e] at b2 ⊢
    have h9 : (2 * (M : ℝ) - 1 - w) / (2 * Q) ≤ M - 1 := by
      rw [div_le_iff₀ (by positivity)]
      nlinarith
    generalize roundEven (((x.len : ℝ) - (w - 1)) / 2) = A at *
    generalize roundEven ((2 * (M : ℝ) - 1 - w) / (2 * Q)) = B at *
    have : -(x.len : ℝ) - 1 < A - B - 1 := by
      rw [hLr] at b1 ⊢
      rcases hcases with h | ⟨h, h'⟩ | ⟨h, h'⟩
      · have h11 := hwl1 h
        rw [h11, h] at b1
        rw [h]
        push_cast at *
        linarith
      · rw [hwl2 h, h, h'] at b1
        rw [h, h']
        rw [h'] at h9 b2
        push_cast at *
        linarith
      · have k1 : (2 : ℝ) ≤ N := by exact_mod_cast h
        have k2 : (2 : ℝ) ≤ M := by exact_mod_cast h'
        nlinarith
    have h10 : -(x.len : ℤ) - 1 < A - B - 1 := by exact_mod_cast this
    omega
  have hhi : roundEven (((x.len : ℝ) - (w - 1)) / 2) - roundEven ((2 * (x.len : ℝ) / N - 1 - w) / (2 * Q)) - 1 + (w : ℤ) ≤ x.len := by
    rcases hcases with h | ⟨h, h'⟩ | ⟨h, h'⟩
    · have b1 := (roundEven_bounds (((x.len : ℝ) - (w - 1)) / 2)).2
      have b2 := (roundEven_bounds ((2 * (x.len : ℝ) / N - 1 - w) / (2 * Q))).1
      have e : 2 * (x.len : ℝ) / N = 2 * M := by rw [hLr]; field_simp
      rw [e] at b2 ⊢
      have hw1 : (w : ℝ) = 1 := by exact_mod_cast hwl1 h
      have h9 : 0 ≤ (2 * (M : ℝ) - 1 - w) / (2 * Q) := div_nonneg (by linarith) (by positivity)
      generalize roundEven (((x.len : ℝ) - (w - 1)) / 2) = A at *
      generalize roundEven ((2 * (M : ℝ) - 1 - w) / (2 * Q)) = B at *
      have hNr1 : (N : ℝ) = 1 := by exact_mod_cast h
      have : (A : ℝ) - B - 1 + w < x.len + 1 := by
        have hLM : (x.len : ℝ) = M := by rw [hLr, hNr1, one_mul]
        rw [hLM] at b1 ⊢
        linarith
      have h10 : A - B - 1 + (w : ℤ) < x.len + 1 := by exact_mod_cast this
      omega
    · have hw3 := hwl2 h
      have hL2 : x.len = 2 := by rw [hx, h, h']
      rw [hL2, hw3, h, hQN h]
      have r1 : roundEven ((((2 : ℕ) : ℝ) - (((3 : ℕ) : ℝ) - 1)) / 2) = 0 := by
        rw [show ((((2 : ℕ) : ℝ) - (((3 : ℕ) : ℝ) - 1)) / 2) = ((0 : ℤ) : ℝ) by norm_num, roundEven_intCast]
      have r2 : roundEven ((2 * ((2 : ℕ) : ℝ) / ((2 : ℕ) : ℝ) - 1 - ((3 : ℕ) : ℝ)) / (2 * ((2 : ℕ) : ℝ))) = 0 := by
        rw [show ((2 * ((2 : ℕ) : ℝ) / ((2 : ℕ) : ℝ) - 1 - ((3 : ℕ) : ℝ)) / (2 * ((2 : ℕ) : ℝ))) = ((-1 : ℤ) : ℝ) + 1 / 2 by norm_num,
          roundEven_half_odd, if_neg (by decide)]
        norm_num
      rw [r1, r2]
      norm_num
    · have k1 : (2 : ℝ) ≤ N := by exact_mod_cast h
      have k2 : (2 : ℝ) ≤ M := by exact_mod_cast h'
      have b1 := (roundEven_bounds (((x.len : ℝ) - (w - 1)) / 2)).2
      have b2 := (roundEven_bounds ((2 * (x.len : ℝ) / N - 1 - w) / (2 * Q))).1
      have e : 2 * (x.len : ℝ) / N = 2 * M := by rw [hLr]; field_simp
      rw [e] at b2 ⊢
      have h9 : -(1 / 2 : ℝ) ≤ (2 * (M : ℝ) - 1 - w) / (2 * Q) := by
        rw [le_div_iff₀ (by positivity)]
        rcases (by omega : N = 2 ∨ 3 ≤ N) with h3 | h3
        · have : (w : ℝ) = 3 := by exact_mod_cast hwl2 h3
          rw [this]
          linarith
        · linarith
      generalize roundEven (((x.len : ℝ) - (w - 1)) / 2) = A at *
      generalize roundEven ((2 * (M : ℝ) - 1 - w) / (2 * Q)) = B at *
      have : (A : ℝ) - B - 1 + w < x.len + 1 := by nlinarith
      have h10 : A - B - 1 + (w : ℤ) < x.len + 1 := by exact_mod_cast this
      omega
  rw [if_neg (by
    push Not
    exact ⟨by omega, hL.trans (Nat.le_mul_of_pos_left _ (by omega))⟩), if_neg (by omega), if_neg (by
    push Not
    exact ⟨hlo, hhi⟩), if_neg (by
    push Not
    refine ⟨hQ2, fun h => ?_⟩
    rw [hm2] at h
    exact hb.resolve_left h), if_neg (by omega)] at hall
  obtain ⟨R, r1, r2, r3, -, r4, -⟩ := hall
  refine ⟨R, ?_, r2, r3, by rw [r4, hm2]⟩
  rw [gabor_default hdN hdQ]
  exact r1

open Classical in
/-- Called without arguments on a signal of at least one sample, `gabor` returns exactly when the number of samples is one, a prime, the
square of a prime, twice a prime other than three, or eight; for every other length it raises `ValueError`. -/
theorem C59_default_iff (x : Vec ℂ) (hx : 1 ≤ x.len) :
    if x.len = 1 ∨ x.len.Prime ∨ (∃ p, p.Prime ∧ x.len = p * p) ∨ (∃ p, p.Prime ∧ p ≠ 3 ∧ x.len = 2 * p) ∨ x.len = 8
    then ∃ R, gabor x none none none = .ok R
    else gabor x none none none = .error .valueError := by
  obtain ⟨a, h1, h2, h3, h4, h5⟩ := divider_spec hx
  obtain ⟨M, hM⟩ := h3
  have hMa : x.len / a = M := by rw [hM, Nat.mul_div_cancel_left _ (by omega)]
  rw [hMa] at h1
  have hM1 : 1 ≤ M := by
    rcases Nat.eq_zero_or_pos M with rfl | h
    · simp at hM; omega
    · exact h
  have hsq : Real.sqrt x.len * Real.sqrt x.len = x.len := Real.mul_self_sqrt (by positivity)
  have hs0 := Real.sqrt_nonneg (x.len : ℝ)
  have hdiv : ∀ c : ℕ, c ∣ x.len → c * c ≤ x.len → c ≤ a := by
    intro c hc hcc
    refine h5 c hc ?_
    rw [Real.le_sqrt (by positivity) (by positivity)]
    have : ((c * c : ℕ) : ℝ) ≤ x.len := by exact_mod_cast hcc
    push_cast at this
    linarith [this, sq (c : ℝ)]
  have hup : (a - 1) * (a - 1) < x.len := by
    rcases Nat.lt_or_ge 1 a with h | h
    · have : ((a - 1 : ℕ) : ℝ) < Real.sqrt x.len := by
        rw [Nat.cast_sub (by omega)]; push_cast; linarith
      have h6 : ((a - 1 : ℕ) : ℝ) * ((a - 1 : ℕ) : ℝ) < x.len := by
        rw [← hsq]
        exact mul_self_lt_mul_self (by positivity) this
      exact_mod_cast h6
    · have : a - 1 = 0 := by omega
      rw [this]; omega
  rcases Nat.lt_or_ge a 3 with ha | ha
  · have hret : ∃ R, gabor x none none none = .ok R := by
      rcases (by omega : a = 1 ∨ a = 2) with rfl | rfl
      · obtain ⟨R, r, -⟩ := default_ok (x := x) (N := 1) (M := M) (Q := 1) (P := 1) hM le_rfl hM1 (by omega) le_rfl (by omega)
          ⟨1, by rw [hM]; ring⟩ (Or.inr (by rw [hM]; exact Nat.div_self (by omega))) h1 (by
            have := divider_square (p := 1) le_rfl
            simpa using this)
        exact ⟨R, r⟩
      · obtain ⟨R, r, -⟩ := default_ok (x := x) (N := 2) (M := M) (Q := 2) (P := 1) hM (by omega) hM1 (by omega) (by omega) (fun _ => rfl)
          ⟨1, by rw [hM]; ring⟩ (Or.inr (by rw [hM]; exact Nat.div_self (by omega))) h1 divider_two
        exact ⟨R, r⟩
    rw [if_pos]
    · exact hret
    · rcases (by omega : a = 1 ∨ a = 2) with rfl | rfl
      · rcases (by omega : x.len = 1 ∨ 2 ≤ x.len) with h | h
        · exact Or.inl h
        · refine Or.inr (Or.inl ?_)
          rw [Nat.prime_def_le_sqrt]
          refine ⟨h, fun c hc hcs hcN => ?_⟩
          have := hdiv c hcN (Nat.le_sqrt.1 hcs)
          omega
      · have h6 : x.len ≠ 6 := by
          intro h6
          rw [h6, divider_six] at h1
          injection h1 with h1
          rw [Prod.mk.injEq] at h1
          omega
        rcases (by omega : M = 1 ∨ 2 ≤ M) with rfl | hM2
        · exact Or.inr (Or.inl (by rw [hM]; exact Nat.prime_two))
        · by_cases hp : M.Prime
          · exact Or.inr (Or.inr (Or.inr (Or.inl ⟨M, hp, by omega, hM⟩)))
          · refine Or.inr (Or.inr (Or.inr (Or.inr ?_)))
            obtain ⟨u, hu1, hu2, hu3⟩ : ∃ u, 2 ≤ u ∧ u ≤ Nat.sqrt M ∧ u ∣ M := by
              by_contra hno
              push Not at hno
              exact hp (Nat.prime_def_le_sqrt.2 ⟨hM2, hno⟩)
            obtain ⟨v, hv⟩ := hu3
            have huu : u * u ≤ M := Nat.le_sqrt.1 hu2
            have huv : u ≤ v := by
              rw [hv] at huu
              exact Nat.le_of_mul_le_mul_left huu (by omega)
            have hLv : x.len = 2 * u * v := by rw [hM, hv]; ring
            rcases Nat.lt_or_ge v (2 * u) with h | h
            · have := hdiv v ⟨2 * u, by rw [hLv]; ring⟩ (by rw [hLv]; exact Nat.mul_le_mul_right _ h.le)
              have : u = 2 := by omega
              have : v = 2 := by omega
              subst u; subst v
              omega
            · have := hdiv (2 * u) ⟨v, hLv⟩ (by rw [hLv]; exact Nat.mul_le_mul_left _ h)
              omega
  · by_cases hpp : a.Prime ∧ x.len = a * a
    · have hMa' : M = a := by
        have := hM.symm.trans hpp.2
        exact Nat.eq_of_mul_eq_mul_left (by omega) this
      subst hMa'
      rw [if_pos (Or.inr (Or.inr (Or.inl ⟨_, hpp⟩)))]
      obtain ⟨R, r, -⟩ := default_ok (x := x) (Q := 1) (P := M) hM (by omega) hM1 (by omega) le_rfl (by omega)
          ⟨M, by rw [hM]; ring⟩ (Or.inl (by rw [hM, one_mul]; exact Nat.mul_div_cancel _ (by omega))) h1 (divider_prime hpp.1 ha)
      exact ⟨R, r⟩
    · rw [if_neg]
      · exact C59_default_raises x a M hx h1 ha hpp
      · have haM : a ≤ M + 1 := by
          by_contra hlt
          push Not at hlt
          obtain ⟨d, rfl⟩ : ∃ d, a = M + 2 + d := ⟨a - (M + 2), by omega⟩
          rw [hM] at hup
          rw [show M + 2 + d - 1 = M + 1 + d by omega] at hup
          nlinarith
        have haL : a * 2 ≤ a * M := Nat.mul_le_mul_left _ (by omega)
        have hcmp : ∀ q : ℕ, q.Prime → q ∣ x.len → q ∣ a ∨ q ∣ M := fun q hq hd => (Nat.Prime.dvd_mul hq).1 (by rw [← hM]; exact hd)
        rintro (h | h | ⟨p, hp, h⟩ | ⟨p, hp, hp3, h⟩ | h)
        · omega
        · rcases (Nat.dvd_prime h).1 ⟨M, hM⟩ with e | e <;> omega
        · have hdv : a ∣ p ^ 2 := ⟨M, by rw [← hM, h]; ring⟩
          obtain ⟨k, hk, rfl⟩ := (Nat.dvd_prime_pow hp).1 hdv
          have hp2 := hp.two_le
          interval_cases k
          · rw [pow_zero] at ha
            omega
          · rw [pow_one] at *
            exact hpp ⟨hp, h⟩
          · have : p ^ 2 = x.len := by rw [h]; ring
            omega
        · have hp2 := hp.two_le
          have hpa : p ≤ 2 ∨ 5 ≤ p := by
            by_contra hh
            push Not at hh
            obtain rfl : p = 4 := by omega
            exact absurd hp (by decide)
          rcases hpa with h7 | h7
          · obtain rfl : p = 2 := by omega
            have : a * M = 4 := by omega
            have : a = 4 ∨ a = 3 := by
              have : a ≤ 4 := by omega
              omega
            rcases this with rfl | rfl <;> omega
          · have h8 := (Nat.dvd_mul.1 (⟨M, by rw [← h, hM]⟩ : a ∣ 2 * p))
            obtain ⟨y, z, hy, hz, hyz⟩ := h8
            rcases (Nat.dvd_prime Nat.prime_two).1 hy with rfl | rfl <;> rcases (Nat.dvd_prime hp).1 hz with rfl | rfl
            · omega
            · have : z = a := by omega
              subst this
              have : M = 2 := Nat.eq_of_mul_eq_mul_left (by omega : 0 < z) (by rw [← hM, h]; ring)
              omega
            · omega
            · omega
        · have : a * M = 8 := by omega
          have h9 : a ≤ 4 := by omega
          interval_cases a <;> omega

/-- Twelve samples have no default lattice; ten samples have one. -/
example (x : Vec ℂ) (hx : x.len = 12) : gabor x none none none = .error .valueError := by
  have := C59_default_iff x (by omega)
  rw [if_neg] at this
  · exact this
  · rw [hx]
    rintro (h | h | ⟨p, hp, h⟩ | ⟨p, hp, hp3, h⟩ | h)
    · omega
    · exact absurd h (by decide)
    · have : p < 4 := by nlinarith
      interval_cases p <;> omega
    · obtain rfl : p = 6 := by omega
      exact absurd hp (by decide)
    · omega

example (x : Vec ℂ) (hx : x.len = 10) : ∃ R, gabor x none none none = .ok R := by
  have := C59_default_iff x (by omega)
  rwa [if_pos (Or.inr (Or.inr (Or.inr (Or.inl ⟨5, by norm_num, by norm_num, by omega⟩))))] at this

end Tftb.Props
