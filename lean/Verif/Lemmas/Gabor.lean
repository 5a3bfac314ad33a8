import Verif.Model.Gabor
import Verif.Lemmas.Utils
import Verif.Lemmas.Post
import Verif.Lemmas.TimeFreq

/-! # Helper lemmas: Zak transform and biorthogonal window -/

namespace Tftb

open Finset Utils Gabor ComplexConjugate

/-- Reflecting a periodic summand. -/
theorem sum_reflect_periodic {M : Type} [AddCommMonoid M] {Q : ℕ} (hQ : Q ≠ 0) (F : ℤ → M) (hF : ∀ t, F (t % Q) = F t) (c : ℤ) :
    ∑ l ∈ range Q, F (c - l) = ∑ l ∈ range Q, F l := by
  have hQz : (0 : ℤ) < Q := by omega
  refine Finset.sum_nbij' (fun l => ((c - (l : ℤ)) % Q).toNat) (fun l => ((c - (l : ℤ)) % Q).toNat) ?_ ?_ ?_ ?_ ?_
  · intro l _
    have := Int.emod_nonneg (c - (l : ℤ)) hQz.ne'
    have := Int.emod_lt_of_pos (c - (l : ℤ)) hQz
    rw [Finset.mem_range]; omega
  · intro l _
    have := Int.emod_nonneg (c - (l : ℤ)) hQz.ne'
    have := Int.emod_lt_of_pos (c - (l : ℤ)) hQz
    rw [Finset.mem_range]; omega
  · intro l hl
    have h1 := Int.emod_nonneg (c - (l : ℤ)) hQz.ne'
    rw [Int.toNat_of_nonneg h1, Int.sub_emod_emod, sub_sub_cancel]
    rw [Int.emod_eq_of_lt (by omega) (by exact_mod_cast Finset.mem_range.1 hl), Int.toNat_natCast]
  · intro l hl
    have h1 := Int.emod_nonneg (c - (l : ℤ)) hQz.ne'
    rw [Int.toNat_of_nonneg h1, Int.sub_emod_emod, sub_sub_cancel]
    rw [Int.emod_eq_of_lt (by omega) (by exact_mod_cast Finset.mem_range.1 hl), Int.toNat_natCast]
  · intro l _
    rw [Int.toNat_of_nonneg (Int.emod_nonneg _ hQz.ne'), hF]

/-- Biorthogonality of the shifted sequences from the relation between their transforms. -/
theorem biorth {b Q : ℕ} (hb : b ≠ 0) (hQ : Q ≠ 0) (a g : ℕ → ℂ) (V : ℕ → ℝ) (K : ℂ)
    (hV : ∀ k, V k = ∑ l ∈ range Q, ‖dftC (Q * b) a ((k % b + l * b : ℕ) : ℤ)‖ ^ 2) (hV0 : ∀ k < b, V k ≠ 0)
    (hg : ∀ k < Q * b, dftC (Q * b) g (k : ℤ) = K * dftC (Q * b) a (k : ℤ) / (V k : ℂ)) (p : ℕ) :
    ∑ c ∈ range (Q * b), g ((c + p * Q) % (Q * b)) * conj (a c) = if b ∣ p then K * b / (Q * b : ℕ) else 0 := by
  have hm : Q * b ≠ 0 := Nat.mul_ne_zero hQ hb
  have hmC : ((Q * b : ℕ) : ℂ) ≠ 0 := Nat.cast_ne_zero.2 hm
  have hVb : ∀ r c, r < b → V (r + c * b) = V r := fun r c hr => by
    rw [hV, hV, Nat.add_mul_mod_self_right]
  have h1 := sum_dftC_mul_conj hm (fun c => g ((c + p * Q) % (Q * b))) a
  have h2 : ∑ k ∈ range (Q * b), dftC (Q * b) (fun c => g ((c + p * Q) % (Q * b))) (k : ℤ) * conj (dftC (Q * b) a (k : ℤ))
      = K * if b ∣ p then (b : ℂ) else 0 := by
    rw [sum_range_mul]
    have h3 : ∀ r ∈ range b, ∑ c ∈ range Q, dftC (Q * b) (fun c => g ((c + p * Q) % (Q * b))) ((r + c * b : ℕ) : ℤ)
        * conj (dftC (Q * b) a ((r + c * b : ℕ) : ℤ)) = K * rootPow b (-(p : ℤ) * r) := by
      intro r hr
      have hr' := Finset.mem_range.1 hr
      have h4 : ∀ c ∈ range Q, dftC (Q * b) (fun c => g ((c + p * Q) % (Q * b))) ((r + c * b : ℕ) : ℤ)
          * conj (dftC (Q * b) a ((r + c * b : ℕ) : ℤ))
          = K * rootPow b (-(p : ℤ) * r) / (V r : ℂ) * ((‖dftC (Q * b) a ((r + c * b : ℕ) : ℤ)‖ ^ 2 : ℝ) : ℂ) := by
        intro c hc
        have hc' := Finset.mem_range.1 hc
        have hlt : r + c * b < Q * b := by nlinarith
        rw [dftC_rotate hm, hg _ hlt, hVb r c hr', ← mul_conj_eq_norm_sq]
        have hroot : rootPow (Q * b) (-(((p * Q : ℕ) : ℤ) * ((r + c * b : ℕ) : ℤ))) = rootPow b (-(p : ℤ) * r) := by
          have e1 : rootPow (Q * b) (-(((p * Q : ℕ) : ℤ) * ((r + c * b : ℕ) : ℤ))) = rootPow (Q * b) (-(p : ℤ) * r * Q) := by
            apply rootPow_congr hm
            refine ⟨-(p * c), ?_⟩
            push_cast
            ring
          rw [e1]
          unfold rootPow
          congr 1
          have : (Q : ℂ) ≠ 0 := Nat.cast_ne_zero.2 hQ
          have : (b : ℂ) ≠ 0 := Nat.cast_ne_zero.2 hb
          push_cast
          field_simp
        rw [hroot]
        ring
      rw [Finset.sum_congr rfl h4, ← Finset.mul_sum, ← Complex.ofReal_sum]
      have h5 : ∑ c ∈ range Q, ‖dftC (Q * b) a ((r + c * b : ℕ) : ℤ)‖ ^ 2 = V r := by
        rw [hV, Nat.mod_eq_of_lt hr']
      rw [h5]
      have := Complex.ofReal_ne_zero.2 (hV0 r hr')
      field_simp
    rw [Finset.sum_congr rfl h3, ← Finset.mul_sum, sum_rootPow hb]
    congr 1
    simp only [dvd_neg, Int.natCast_dvd_natCast]
  rw [h2] at h1
  rw [eq_comm, ← mul_right_inj' hmC, ← h1]
  split_ifs
  · field_simp
  · simp

theorem pyMod_intCast_natCast (z : ℤ) {M : ℕ} (hM : M ≠ 0) : pyMod (z : ℝ) (M : ℝ) = ((z % (M : ℤ) : ℤ) : ℝ) := by
  have hM' : (0 : ℝ) < M := by exact_mod_cast Nat.pos_of_ne_zero hM
  have h : ⌊(z : ℝ) / (M : ℝ)⌋ = z / (M : ℤ) := by
    rw [Int.floor_eq_iff, le_div_iff₀ hM', div_lt_iff₀ hM']
    have h1 := Int.mul_ediv_add_emod z M
    have h2 := Int.emod_nonneg z (Int.natCast_ne_zero.2 hM)
    have h3 := Int.emod_lt_of_pos z (by omega : (0 : ℤ) < M)
    constructor
    · have : z / (M : ℤ) * M ≤ z := by nlinarith
      exact_mod_cast this
    · have : z < (z / (M : ℤ) + 1) * M := by nlinarith
      exact_mod_cast this
  unfold pyMod
  rw [h, Int.emod_def]
  push_cast
  ring

/-- `modulo` on integers: the representative in `1, …, M`. -/
theorem moduloInt_ok {v : Vec ℝ} {M : ℕ} (hM : M ≠ 0) (hv : v.len ≠ 0) (z : ℕ → ℤ) (hz : ∀ i, v.get i = (z i : ℝ)) :
    moduloInt v M = .ok ⟨v.len, fun i => (z i - 1) % (M : ℤ) + 1⟩ := by
  have hMr : (M : ℝ) ≠ 0 := Nat.cast_ne_zero.2 hM
  unfold moduloInt modulo
  simp only [if_pos (Nat.pos_of_ne_zero hv), if_neg hMr, ok_bind]
  refine congrArg Except.ok (congrArg (Vec.mk v.len) (funext fun i => ?_))
  simp only [Vec.map_get, hz, pyMod_intCast_natCast _ hM]
  have h2 := Int.emod_nonneg (z i) (Int.natCast_ne_zero.2 hM)
  have h3 := Int.emod_lt_of_pos (z i) (by omega : (0 : ℤ) < M)
  by_cases h : z i % (M : ℤ) = 0
  · rw [if_pos (by exact_mod_cast h)]
    have : ((M : ℕ) : ℝ) = ((M : ℤ) : ℝ) := by simp
    rw [this, truncInt_intCast]
    have h4 : (z i - 1) % (M : ℤ) = M - 1 := by
      rw [Int.sub_emod, h]
      rcases Nat.lt_or_ge 1 M with h5 | h5
      · rw [Int.emod_eq_of_lt (by omega) (by omega : (1 : ℤ) < M)]
        have : (0 - 1 : ℤ) = (M - 1) + M * (-1) := by ring
        rw [this, Int.add_mul_emod_self_left, Int.emod_eq_of_lt (by omega) (by omega)]
      · have : M = 1 := by omega
        subst this
        simp
    omega
  · rw [if_neg (by exact_mod_cast h), truncInt_intCast]
    have h4 : (z i - 1) % (M : ℤ) = z i % M - 1 := by
      have : z i - 1 = (z i % M - 1) + M * (z i / M) := by
        have := Int.mul_ediv_add_emod (z i) M
        omega
      rw [this, Int.add_mul_emod_self_left, Int.emod_eq_of_lt (by omega) (by omega)]
    omega

theorem roundEven_add_two_mul (x : ℝ) (k : ℤ) : roundEven (x + 2 * k) = roundEven x + 2 * k := by
  have h : (2 * (k : ℝ)) = ((2 * k : ℤ) : ℝ) := by push_cast; ring
  unfold roundEven
  rw [h, Int.floor_add_intCast]
  have e : x + ((2 * k : ℤ) : ℝ) - ((⌊x⌋ + 2 * k : ℤ) : ℝ) = x - ⌊x⌋ := by push_cast; ring
  rw [e]
  have e2 : Even (⌊x⌋ + 2 * k) ↔ Even ⌊x⌋ := by
    rw [Int.even_add]
    simp
  split_ifs <;> first | rfl | omega | (exfalso; tauto)

theorem takeRows_ok {α : Type} {M : Mat α} {idx : Vec ℤ} (h0 : ∀ j, 0 ≤ idx.get j) (h : ∀ j < idx.len, idx.get j < M.rows) :
    M.takeRows idx = .ok ⟨idx.len, M.cols, fun r c => M.get (idx.get r).toNat c⟩ := by
  unfold Mat.takeRows
  rw [if_pos (fun j hj => idxOk_of_lt (h0 j) (h j hj))]
  simp only [wrapIdx_of_nonneg (h0 _)]

theorem placeWindow_ok {L N q s : ℕ} {w : Vec ℝ} (hw : w.len % 2 = 1)
    (hs : (s : ℤ) = roundEven (((L : ℝ) - (w.len - 1)) / 2) - roundEven ((2 * (L : ℝ) / N - 1 - w.len) / (2 * q)) - 1) (hfit : s + w.len ≤ L) :
    ∃ g : ℕ → ℝ, placeWindow L N q w = .ok ⟨L, g⟩ ∧ ∀ j < L, (g j : ℂ) = (Spec.placed L s w).get j := by
  have hstop : roundEven (((L : ℝ) + w.len - 1) / 2) = roundEven (((L : ℝ) - (w.len - 1)) / 2) + (w.len - 1) := by
    have e : ((L : ℝ) + w.len - 1) / 2 = ((L : ℝ) - (w.len - 1)) / 2 + 2 * (((w.len - 1) / 2 : ℤ) : ℝ) := by
      have h1 : (w.len : ℤ) - 1 = 2 * (((w.len : ℤ) - 1) / 2) := by omega
      have h2 : (w.len : ℝ) - 1 = 2 * ((((w.len : ℤ) - 1) / 2 : ℤ) : ℝ) := by exact_mod_cast h1
      rw [← h2]
      ring
    rw [e, roundEven_add_two_mul]
    omega
  have hlen : (arange ((s : ℤ)) ((s : ℤ) + w.len)).len = w.len := by rw [arange_len]; omega
  have hput := Vec.put_ok (v := (⟨L, fun _ => 0⟩ : Vec ℝ)) (idx := arange ((s : ℤ)) ((s : ℤ) + w.len)) (vals := w)
    (by
      intro j hj
      rw [hlen] at hj
      rw [arange_get]
      show 0 ≤ (s : ℤ) + j ∧ (s : ℤ) + j < (L : ℤ)
      omega) hlen.symm
  have hok : placeWindow L N q w = .ok ⟨L, Vec.scatter (fun _ => 0) (fun j => wrapIdx L ((arange (s : ℤ) ((s : ℤ) + w.len)).get j)) w.get
      (arange (s : ℤ) ((s : ℤ) + w.len)).len⟩ := by
    unfold placeWindow
    simp only
    rw [hstop]
    have e1 : roundEven (((L : ℝ) - (w.len - 1)) / 2) - roundEven ((2 * (L : ℝ) / N - 1 - w.len) / (2 * q)) - 1 = (s : ℤ) := hs.symm
    have e2 : roundEven (((L : ℝ) - (w.len - 1)) / 2) + (w.len - 1) - roundEven ((2 * (L : ℝ) / N - 1 - w.len) / (2 * q)) = (s : ℤ) + w.len := by
      omega
    rw [e1, e2]
    exact hput
  refine ⟨_, hok, ?_⟩
  · intro j hj
    simp only [arange_get, hlen]
    have hpos : ∀ i : ℕ, wrapIdx L ((s : ℤ) + i) = s + i := fun i => by
      rw [wrapIdx_of_nonneg (by omega)]; omega
    simp only [hpos, Spec.placed]
    by_cases h : s ≤ j ∧ j < s + w.len
    · rw [if_pos h]
      have : j = (fun i => s + i) (j - s) := by simp only; omega
      conv_lhs => rw [this]
      rw [Vec.scatter_mem (pos := fun i => s + i) (by omega) (by intro a _ c _ h; omega)]
    · rw [if_neg h, Vec.scatter_not_mem (by intro i hi; omega)]
      simp

theorem zak_get_eq {n m : ℕ} (x : Vec ℂ) (k r : ℕ) :
    (Spec.zak n m x).get k r = dftC n (fun c => x.get (r + c * m)) (k : ℤ) / (Real.sqrt n : ℂ) := by
  simp only [Spec.zak, dftC]
  congr 1
  apply Finset.sum_congr rfl
  intro c _
  rw [rootPow_eq_expi]
  congr 3
  push_cast
  ring_nf

theorem zakOf_ok {m b : ℕ} {h : Vec ℝ} (hm : m ≠ 0) (hl : h.len = m * b) :
    zakOf m b h = .ok (Spec.zak m b (h.map Complex.ofReal)) := by
  unfold zakOf
  rw [if_neg (by rw [hl, mul_comm]; simp), fft0_ok (M := ⟨m, b, fun c r => (h.get (r + c * b) : ℂ)⟩) hm, ok_bind]
  refine congrArg Except.ok ?_
  have : (Spec.zak m b (h.map Complex.ofReal)) = ⟨m, b, fun k r => (Spec.zak m b (h.map Complex.ofReal)).get k r⟩ := rfl
  rw [this]
  simp only [zak_get_eq]
  rfl

theorem zakStep_ok {Q b : ℕ} (hb : b ≠ 0) (hQ : Q ≠ 0) {Z : Mat ℂ} (hr : Z.rows = Q * b) (hc : Z.cols = b) {M : Mat ℝ} (hM : M.cols = b) (l : ℕ) :
    zakStep (Q * b) Q Z M l = .ok ⟨M.rows, M.cols, fun k r => M.get k r + ‖Z.get (((k : ℤ) - l * b) % ((Q * b : ℕ) : ℤ)).toNat r‖ ^ 2⟩ := by
  have hm : Q * b ≠ 0 := Nat.mul_ne_zero hQ hb
  have hmz : (0 : ℤ) < ((Q * b : ℕ) : ℤ) := by omega
  have h1 := moduloInt_ok (v := ⟨Q * b, fun i => (i : ℝ) + 1 - (l : ℝ) * ((Q * b : ℕ) : ℝ) / Q⟩) hm hm (fun i => (i : ℤ) + 1 - l * b) (by
    intro i
    have : (Q : ℝ) ≠ 0 := Nat.cast_ne_zero.2 hQ
    push_cast
    field_simp)
  have h2 := takeRows_ok (M := Z) (idx := ⟨Q * b, fun i => ((i : ℤ) + 1 - l * b - 1) % ((Q * b : ℕ) : ℤ)⟩)
    (fun j => Int.emod_nonneg _ hmz.ne') (fun j _ => by rw [hr]; exact Int.emod_lt_of_pos _ hmz)
  unfold zakStep
  rw [h1, ok_bind]
  have e : (Vec.map (fun i => i - 1) (⟨Q * b, fun i => ((i : ℤ) + 1 - l * b - 1) % ((Q * b : ℕ) : ℤ) + 1⟩ : Vec ℤ))
      = ⟨Q * b, fun i => ((i : ℤ) + 1 - l * b - 1) % ((Q * b : ℕ) : ℤ)⟩ := by
    refine congrArg (Vec.mk (Q * b)) (funext fun i => ?_)
    simp
  rw [e, h2, ok_bind]
  unfold iadd
  rw [if_pos (by rw [hM]; exact hc)]
  refine congrArg Except.ok (congrArg (Mat.mk M.rows M.cols) (funext fun k => funext fun r => ?_))
  simp only [Mat.map]
  have : (k : ℤ) + 1 - l * b - 1 = k - l * b := by ring
  rw [this]

theorem rowSum_eq {Q b : ℕ} (hb : b ≠ 0) (hQ : Q ≠ 0) (f : ℕ → ℝ) (k : ℕ) :
    ∑ l ∈ range Q, f (((k : ℤ) - l * b) % ((Q * b : ℕ) : ℤ)).toNat = ∑ l ∈ range Q, f (k % b + l * b) := by
  have hQz : (0 : ℤ) < Q := by omega
  have hbz : (0 : ℤ) < b := by omega
  have h := sum_reflect_periodic hQ (fun t => f (k % b + (t % (Q : ℤ)).toNat * b)) (fun t => by rw [Int.emod_emod]) ((k / b : ℕ) : ℤ)
  have h0 : ∑ l ∈ range Q, f (k % b + l * b) = ∑ l ∈ range Q, f (k % b + (((l : ℤ)) % (Q : ℤ)).toNat * b) :=
    Finset.sum_congr rfl (fun l hl => by
      have := Finset.mem_range.1 hl
      rw [Int.emod_eq_of_lt (by omega) (by omega), Int.toNat_natCast])
  rw [h0, ← h]
  apply Finset.sum_congr rfl
  intro l _
  congr 1
  have h1 := Int.emod_nonneg (((k / b : ℕ) : ℤ) - l) hQz.ne'
  have h2 := Int.emod_lt_of_pos (((k / b : ℕ) : ℤ) - l) hQz
  have h3 := Int.mul_ediv_add_emod (((k / b : ℕ) : ℤ) - l) Q
  have h4 := Nat.mod_lt k (Nat.pos_of_ne_zero hb)
  have h5 := Nat.mod_add_div k b
  generalize (((k / b : ℕ) : ℤ) - l) % (Q : ℤ) = u at *
  generalize (((k / b : ℕ) : ℤ) - l) / (Q : ℤ) = v at *
  have h6 : (k : ℤ) - l * b = (((k % b : ℕ) : ℤ) + u * b) + ((Q * b : ℕ) : ℤ) * v := by
    have : (k : ℤ) = ((k % b : ℕ) : ℤ) + b * ((k / b : ℕ) : ℤ) := by exact_mod_cast h5.symm
    push_cast
    push_cast at this h3
    linear_combination this - (b : ℤ) * h3
  have hlt : ((k % b : ℕ) : ℤ) + u * b < ((Q * b : ℕ) : ℤ) := by
    push_cast
    have : ((k % b : ℕ) : ℤ) < b := by exact_mod_cast h4
    push_cast at this
    nlinarith
  rw [h6, Int.add_mul_emod_self_left, Int.emod_eq_of_lt (by positivity) hlt]
  have e : ((k % b : ℕ) : ℤ) + u * b = ((k % b + u.toNat * b : ℕ) : ℤ) := by
    push_cast
    rw [Int.toNat_of_nonneg h1]
  rw [e, Int.toNat_natCast]

theorem zakFold_ok {Q b : ℕ} (hb : b ≠ 0) (hQ : Q ≠ 0) (h : Vec ℂ) :
    ∃ M : Mat ℝ, (List.range Q).foldlM (zakStep (Q * b) Q (Spec.zak (Q * b) b h)) (Mat.zeros (Q * b) b) = .ok M ∧ M.rows = Q * b ∧ M.cols = b ∧
      ∀ k r, M.get k r = Spec.zakPower Q b h k r := by
  obtain ⟨M, h1, h2, h3, h4⟩ := foldlM_range_ok (f := zakStep (Q * b) Q (Spec.zak (Q * b) b h)) (N := Q) (s := Mat.zeros (Q * b) b)
    (fun i M => M.rows = Q * b ∧ M.cols = b ∧
      ∀ k r, M.get k r = ∑ l ∈ range i, ‖(Spec.zak (Q * b) b h).get (((k : ℤ) - l * b) % ((Q * b : ℕ) : ℤ)).toNat r‖ ^ 2)
    ⟨rfl, rfl, fun k r => by simp [Mat.zeros]⟩ (by
      rintro i hi M ⟨hr, hc, hv⟩
      refine ⟨_, zakStep_ok hb hQ rfl rfl hc i, hr, hc, fun k r => ?_⟩
      simp only
      rw [Finset.sum_range_succ, hv])
  refine ⟨M, h1, h2, h3, fun k r => ?_⟩
  rw [h4, rowSum_eq hb hQ (fun i => ‖(Spec.zak (Q * b) b h).get i r‖ ^ 2)]
  rfl

theorem zak_congr {n m : ℕ} {x y : Vec ℂ} (h : ∀ j < n * m, x.get j = y.get j) (k : ℕ) {r : ℕ} (hr : r < m) :
    (Spec.zak n m x).get k r = (Spec.zak n m y).get k r := by
  rw [zak_get_eq, zak_get_eq]
  congr 1
  apply dftC_congr
  intro c hc
  apply h
  calc r + c * m < m + c * m := by omega
    _ = (c + 1) * m := by ring
    _ ≤ n * m := Nat.mul_le_mul_right _ hc

/-- The transform of a real sequence at the opposite frequency. -/
theorem zak_neg {n m : ℕ} (hn : n ≠ 0) {x : Vec ℂ} (hx : ∀ j, conj (x.get j) = x.get j) {k k' : ℕ} (hk : (n : ℤ) ∣ (k : ℤ) + k') (r : ℕ) :
    (Spec.zak n m x).get k' r = conj ((Spec.zak n m x).get k r) := by
  rw [zak_get_eq, zak_get_eq, map_div₀, Complex.conj_ofReal, conj_dftC]
  simp only [hx]
  congr 1
  apply dftC_periodic hn
  have : (k' : ℤ) - -(k : ℤ) = k + k' := by ring
  rwa [this]

theorem zakPower_congr_mod {Q b : ℕ} (h : Vec ℂ) {k k' : ℕ} (hk : k % b = k' % b) (r : ℕ) :
    Spec.zakPower Q b h k r = Spec.zakPower Q b h k' r := by
  unfold Spec.zakPower
  rw [hk]

theorem zakPower_neg {Q b : ℕ} (hb : b ≠ 0) (hQ : Q ≠ 0) {h : Vec ℂ} (hh : ∀ j, conj (h.get j) = h.get j) {k k' : ℕ} (hk : Q * b ∣ k + k') (r : ℕ) :
    Spec.zakPower Q b h k' r = Spec.zakPower Q b h k r := by
  have hm : Q * b ≠ 0 := Nat.mul_ne_zero hQ hb
  have hmz : (0 : ℤ) < ((Q * b : ℕ) : ℤ) := by omega
  have hkz : ((Q * b : ℕ) : ℤ) ∣ (k : ℤ) + k' := by exact_mod_cast hk
  have e1 := rowSum_eq hb hQ (fun i => ‖(Spec.zak (Q * b) b h).get i r‖ ^ 2) k'
  have e2 := rowSum_eq hb hQ (fun i => ‖(Spec.zak (Q * b) b h).get i r‖ ^ 2) k
  unfold Spec.zakPower
  rw [← e1, ← e2]
  have h3 : ∀ l : ℕ, ‖(Spec.zak (Q * b) b h).get (((k' : ℤ) - l * b) % ((Q * b : ℕ) : ℤ)).toNat r‖ ^ 2
      = ‖(Spec.zak (Q * b) b h).get (((k : ℤ) + l * b) % ((Q * b : ℕ) : ℤ)).toNat r‖ ^ 2 := by
    intro l
    rw [zak_neg (k := (((k : ℤ) + l * b) % ((Q * b : ℕ) : ℤ)).toNat) hm hh, RCLike.norm_conj]
    rw [Int.toNat_of_nonneg (Int.emod_nonneg _ hmz.ne'), Int.toNat_of_nonneg (Int.emod_nonneg _ hmz.ne')]
    obtain ⟨u, hu⟩ := hkz
    rw [Int.emod_def, Int.emod_def]
    refine ⟨u - ((k : ℤ) + l * b) / ((Q * b : ℕ) : ℤ) - ((k' : ℤ) - l * b) / ((Q * b : ℕ) : ℤ), ?_⟩
    linear_combination hu
  rw [Finset.sum_congr rfl (fun l _ => h3 l)]
  have h4 := sum_reflect_periodic hQ (fun t => ‖(Spec.zak (Q * b) b h).get (((k : ℤ) + t * b) % ((Q * b : ℕ) : ℤ)).toNat r‖ ^ 2) (fun t => by
    have : (k : ℤ) + t * b = ((k : ℤ) + t % Q * b) + ((Q * b : ℕ) : ℤ) * (t / Q) := by
      have := Int.mul_ediv_add_emod t Q
      push_cast
      linear_combination -(b : ℤ) * this
    conv_rhs => rw [this]
    rw [Int.add_mul_emod_self_left]) 0
  rw [← h4]
  apply Finset.sum_congr rfl
  intro l _
  have : (k : ℤ) + (0 - l) * b = k - l * b := by ring
  simp only [this]

/-- Entry of the Zak transform of the biorthogonal window. -/
noncomputable def zakDual (Q b : ℕ) (h : Vec ℂ) (k r : ℕ) : ℂ :=
  (Spec.zak (Q * b) b h).get k r / (((if Spec.zakPower Q b h k r < eps then 1 else Spec.zakPower Q b h k r) : ℝ) : ℂ)

theorem idftC_congr' {n : ℕ} {X Y : ℕ → ℂ} (h : ∀ k < n, X k = Y k) (t : ℤ) : idftC n X t = idftC n Y t := by
  unfold idftC
  congr 1
  apply Finset.sum_congr rfl
  intro k hk
  rw [h k (Finset.mem_range.1 hk)]

/-- A vector is determined on a residue class by its Zak transform; the samples are real if the transform is Hermitian. -/
theorem conj_izak {n m : ℕ} (hn : n ≠ 0) {X : ℕ → ℕ → ℂ} {g : ℕ → ℂ}
    (hg : ∀ r < m, ∀ c < n, g (r + c * m) = (Real.sqrt n : ℂ) * idftC n (fun k => X k r) c)
    (hX : ∀ r < m, ∀ k < n, ∀ k' < n, n ∣ k + k' → X k' r = conj (X k r)) :
    ∀ j < n * m, conj (g j) = g j := by
  intro j hj
  have hm : 0 < m := Nat.pos_of_ne_zero (by rintro rfl; simp at hj)
  have hdm : j % m + j / m * m = j := by rw [mul_comm]; exact Nat.mod_add_div j m
  have hr := Nat.mod_lt j hm
  have hc : j / m < n := Nat.div_lt_of_lt_mul (by rw [mul_comm]; exact hj)
  have h1 := hg _ hr _ hc
  rw [hdm] at h1
  rw [h1, map_mul, Complex.conj_ofReal]
  congr 1
  have h2 : ∀ k < n, dftC n (fun t : ℕ => conj (idftC n (fun k => X k (j % m)) (t : ℤ))) (k : ℤ) = X k (j % m) := by
    intro k hk
    have h3 := conj_dftC n (fun t : ℕ => idftC n (fun k => X k (j % m)) (t : ℤ)) (-(k : ℤ))
    rw [neg_neg] at h3
    rw [← h3]
    have hk' : (n - k) % n < n := Nat.mod_lt _ (Nat.pos_of_ne_zero hn)
    have hdvd : n ∣ (n - k) % n + k := by
      rcases Nat.eq_zero_or_pos k with rfl | h
      · simp
      · rw [Nat.mod_eq_of_lt (by omega)]; exact ⟨1, by omega⟩
    rw [dftC_periodic hn _ (k := -(k : ℤ)) (l := (((n - k) % n : ℕ) : ℤ)) (by
      have : -(k : ℤ) - (((n - k) % n : ℕ) : ℤ) = -((((n - k) % n + k : ℕ)) : ℤ) := by push_cast; ring
      rw [this, dvd_neg]; exact_mod_cast hdvd)]
    rw [dftC_idftC hn _ hk', hX _ hr _ hk' _ hk hdvd]
  have h4 := idftC_dftC hn (fun t : ℕ => conj (idftC n (fun k => X k (j % m)) (t : ℤ))) hc
  rw [← h4]
  exact idftC_congr' h2 _

theorem zakDual_neg {Q b : ℕ} (hb : b ≠ 0) (hQ : Q ≠ 0) {h : Vec ℂ} (hh : ∀ j, conj (h.get j) = h.get j) {k k' : ℕ} (hk : Q * b ∣ k + k') (r : ℕ) :
    zakDual Q b h k' r = conj (zakDual Q b h k r) := by
  unfold zakDual
  rw [zakPower_neg hb hQ hh hk, zak_neg (k := k) (Nat.mul_ne_zero hQ hb) hh (by exact_mod_cast hk), map_div₀, Complex.conj_ofReal]

theorem zakPower_congr {Q b : ℕ} {x y : Vec ℂ} (h : ∀ j < Q * b * b, x.get j = y.get j) (k : ℕ) {r : ℕ} (hr : r < b) :
    Spec.zakPower Q b x k r = Spec.zakPower Q b y k r := by
  unfold Spec.zakPower
  apply Finset.sum_congr rfl
  intro l _
  rw [zak_congr h _ hr]

/-- The biorthogonal window computed by `gabor` on the lattice `n_coeff = Q b`, `Q b²` samples. -/
theorem gaborDual_ok {Q b s : ℕ} (hb : b ≠ 0) (hQ : Q ≠ 0) {w : Vec ℝ} (hw : w.len % 2 = 1)
    (hs : (s : ℤ) = roundEven ((((Q * b * b : ℕ) : ℝ) - (w.len - 1)) / 2) - roundEven ((2 * (b : ℝ) - 1 - w.len) / (2 * Q)) - 1)
    (hfit : s + w.len ≤ Q * b * b) :
    ∃ gam : Vec ℝ, gaborDual (Q * b * b) (Q * b) Q (Q * b) b b w = .ok gam ∧ gam.len = Q * b * b ∧
      ∀ k < Q * b, ∀ r < b, (Spec.zak (Q * b) b (gam.map Complex.ofReal)).get k r
        = zakDual Q b (Spec.placed (Q * b * b) s w) k r / ((Q * b * b : ℕ) : ℂ) := by
  have hm : Q * b ≠ 0 := Nat.mul_ne_zero hQ hb
  have hbr : (b : ℝ) ≠ 0 := Nat.cast_ne_zero.2 hb
  have hQr : (Q : ℝ) ≠ 0 := Nat.cast_ne_zero.2 hQ
  have hs' : (s : ℤ) = roundEven ((((Q * b * b : ℕ) : ℝ) - (w.len - 1)) / 2)
      - roundEven ((2 * ((Q * b * b : ℕ) : ℝ) / ((Q * b : ℕ) : ℝ) - 1 - w.len) / (2 * Q)) - 1 := by
    rw [hs]
    have : 2 * ((Q * b * b : ℕ) : ℝ) / ((Q * b : ℕ) : ℝ) = 2 * (b : ℝ) := by push_cast; field_simp
    rw [this]
  obtain ⟨g, h1, h2⟩ := placeWindow_ok hw hs' hfit
  set H := Spec.placed (Q * b * b) s w with hH
  set h : Vec ℂ := (⟨Q * b * b, g⟩ : Vec ℝ).map Complex.ofReal with hh
  have hgh : ∀ j < Q * b * b, h.get j = H.get j := fun j hj => h2 j hj
  have hreal : ∀ j, conj (h.get j) = h.get j := fun j => Complex.conj_ofReal _
  obtain ⟨M, h3, h4, h5, h6⟩ := zakFold_ok hb hQ h
  let X : ℕ → ℕ → ℂ := fun k c => (Spec.zak (Q * b) b h).get k (if b = 1 then 0 else c)
        / (((M.map (fun a => if a < eps then 1 else a)).get k c : ℝ) : ℂ)
  have hX : ∀ k, ∀ r < b, X k r = zakDual Q b h k r := by
    intro k r hr
    have : (if b = 1 then 0 else r) = r := by split_ifs <;> omega
    simp only [X, this, zakDual, Mat.map, h6]
  obtain ⟨z, h7, h8⟩ := izak2_ok ⟨Q * b, b, X⟩ hm
  have h8' : ∀ r < b, ∀ c < Q * b, z (r + c * b) = (Real.sqrt ((Q * b : ℕ) : ℝ) : ℂ) * idftC (Q * b) (fun k => zakDual Q b h k r) c := by
    intro r hr c hc
    rw [← idftC_congr' (X := fun k => X k r) (fun k _ => hX k r hr)]
    exact h8 r hr c hc
  have hzr := conj_izak hm h8' (fun r _ k _ k' _ hk => zakDual_neg hb hQ hreal hk r)
  have hok : gaborDual (Q * b * b) (Q * b) Q (Q * b) b b w = .ok ⟨Q * b * b, fun j => (z j).re / ((Q * b * b : ℕ) : ℝ)⟩ := by
    unfold gaborDual
    rw [if_neg (by omega), h1, ok_bind, zakOf_ok hm rfl, ok_bind, h3, ok_bind]
    show (izak2 ⟨Q * b, b, X⟩ >>= fun g => Except.ok (g.map (fun z => z.re / ((Q * b * b : ℕ) : ℝ)))) = _
    rw [h7]
    rfl
  refine ⟨_, hok, rfl, fun k hk r hr => ?_⟩
  have hLC : ((Q * b * b : ℕ) : ℂ) ≠ 0 := Nat.cast_ne_zero.2 (Nat.mul_ne_zero hm hb)
  have hsq : (Real.sqrt ((Q * b : ℕ) : ℝ) : ℂ) ≠ 0 := by
    rw [Ne, Complex.ofReal_eq_zero, Real.sqrt_eq_zero (by positivity)]
    exact_mod_cast hm
  rw [zak_get_eq]
  have h9 : ∀ c < Q * b, ((⟨Q * b * b, fun j => (z j).re / ((Q * b * b : ℕ) : ℝ)⟩ : Vec ℝ).map Complex.ofReal).get (r + c * b)
      = (Real.sqrt ((Q * b : ℕ) : ℝ) : ℂ) / ((Q * b * b : ℕ) : ℂ) * idftC (Q * b) (fun k => zakDual Q b h k r) c := by
    intro c hc
    have hlt : r + c * b < Q * b * b := by
      calc r + c * b < b + c * b := by omega
        _ = (c + 1) * b := by ring
        _ ≤ Q * b * b := Nat.mul_le_mul_right _ hc
    have hz := Complex.conj_eq_iff_re.1 (hzr _ hlt)
    show (((z (r + c * b)).re / ((Q * b * b : ℕ) : ℝ) : ℝ) : ℂ) = _
    rw [Complex.ofReal_div, hz, h8' r hr c hc, Complex.ofReal_natCast]
    ring
  rw [dftC_congr h9, dftC_smul, dftC_idftC hm _ hk]
  unfold zakDual
  rw [zak_congr hgh _ hr, zakPower_congr hgh _ hr]
  field_simp

theorem gaborCol_ok {Q b : ℕ} (hb : b ≠ 0) (hQ : Q ≠ 0) {x : Vec ℂ} (hx : x.len = Q * b * b) {gam : Vec ℝ} (hg : gam.len = Q * b * b)
    (n : ℕ) (c : Vec ℂ) :
    gaborCol x (Q * b) Q gam n c = .ok ⟨Q * b * b, fun k => dftC (Q * b * b)
      (fun j => x.get j * Spec.cyc (gam.map Complex.ofReal) ((j : ℤ) - ((Q * b * b / 2 : ℕ) : ℤ) - n * b)) k⟩ := by
  have hL : Q * b * b ≠ 0 := Nat.mul_ne_zero (Nat.mul_ne_zero hQ hb) hb
  set L := Q * b * b with hLdef
  have hLz : (0 : ℤ) < (L : ℤ) := by omega
  have h1 := moduloInt_ok (v := ⟨L, fun j => (j : ℝ) + 1 - (n : ℝ) * ((Q * b : ℕ) : ℝ) / Q⟩) (M := L) hL hL (fun j => (j : ℤ) + 1 - n * b) (by
    intro i
    have : (Q : ℝ) ≠ 0 := Nat.cast_ne_zero.2 hQ
    push_cast
    field_simp)
  unfold gaborCol
  rw [hx, h1, ok_bind]
  have e : (Vec.map (fun i => i - 1) (⟨L, fun i => ((i : ℤ) + 1 - n * b - 1) % (L : ℤ) + 1⟩ : Vec ℤ))
      = ⟨L, fun i => ((i : ℤ) + 1 - n * b - 1) % (L : ℤ)⟩ := by
    refine congrArg (Vec.mk L) (funext fun i => ?_)
    simp
  rw [e, Vec.take_ok (by
    intro j _
    rw [hg]
    exact ⟨Int.emod_nonneg _ hLz.ne', Int.emod_lt_of_pos _ hLz⟩), ok_bind, Vec.bcast_ok (by exact hx), ok_bind, fft_ok (by rw [← hx] at hL; exact hL)]
  refine congrArg Except.ok ?_
  simp only
  rw [hx]
  refine congrArg (Vec.mk L) (funext fun k => ?_)
  congr 1
  funext j
  congr 1
  simp only [fftshift, Spec.cyc, Vec.map_len, Vec.map_get, hg]
  congr 2
  rw [wrapIdx_of_nonneg (Int.emod_nonneg _ hLz.ne')]
  congr 1
  have : (((j + (L - L / 2)) % L : ℕ) : ℤ) = ((j : ℤ) + (L - ((L / 2 : ℕ) : ℤ))) % L := by
    have : L / 2 ≤ L := Nat.div_le_self _ _
    push_cast [Nat.cast_sub this]
    rfl
  rw [this]
  have e2 : ∀ a : ℤ, (a % (L : ℤ) + 1 - n * b - 1) % (L : ℤ) = (a - n * b) % L := by
    intro a
    have : a % (L : ℤ) + 1 - n * b - 1 = a % (L : ℤ) - n * b := by ring
    rw [this, Int.emod_sub_emod]
  rw [e2]
  have : (j : ℤ) + (L - ((L / 2 : ℕ) : ℤ)) - n * b = ((j : ℤ) - ((L / 2 : ℕ) : ℤ) - n * b) + L * 1 := by ring
  rw [this, Int.add_mul_emod_self_left]

/-- `gabor` on the lattice `n_coeff = Q b`, `Q b²` samples. -/
theorem gabor_ok {Q b : ℕ} (hb : b ≠ 0) (hQ : Q ≠ 0) {x : Vec ℂ} (hx : x.len = Q * b * b) {w gam : Vec ℝ}
    (hd : gaborDual (Q * b * b) (Q * b) Q (Q * b) b b w = .ok gam) (hg : gam.len = Q * b * b) :
    ∃ R, gabor x (some (Q * b)) (some Q) (some w) = .ok R ∧ R.gam = gam ∧ R.dgr.rows = Q * b ∧ R.dgr.cols = Q * b ∧
      R.tfr = R.dgr.map (fun z => ‖z‖ ^ 2) ∧ ∀ r < Q * b, ∀ n < Q * b, R.dgr.get r n = dftC (Q * b * b)
      (fun j => x.get j * Spec.cyc (gam.map Complex.ofReal) ((j : ℤ) - ((Q * b * b / 2 : ℕ) : ℤ) - n * b)) ((r * b : ℕ) : ℤ) := by
  have hm : Q * b ≠ 0 := Nat.mul_ne_zero hQ hb
  have hL : Q * b * b ≠ 0 := Nat.mul_ne_zero hm hb
  have hm1 : Q * x.len / (Q * b) = Q * b := by
    rw [hx, show Q * (Q * b * b) = (Q * b) * (Q * b) by ring, Nat.mul_div_cancel_left _ (Nat.pos_of_ne_zero hm)]
  have hm2 : x.len / (Q * b) = b := by
    rw [hx, Nat.mul_div_cancel_left _ (Nat.pos_of_ne_zero hm)]
  have hcols := Mat.forCols_ok (M := Mat.zeros (α := ℂ) (Q * b * b) (Q * b)) (T := Q * b) (body := gaborCol x (Q * b) Q gam) (le_refl _)
    (fun c _ => gaborCol_ok hb hQ hx hg c _)
  have hrows : (Q * b * b + b - 1) / b = Q * b := by
    have : Q * b * b + b - 1 = (b - 1) + b * (Q * b) := by
      have : b * (Q * b) = Q * b * b := by ring
      omega
    rw [this, Nat.add_mul_div_left _ _ (Nat.pos_of_ne_zero hb), Nat.div_eq_of_lt (by omega), zero_add]
  have hok : gabor x (some (Q * b)) (some Q) (some w) = gaborCore x (Q * b) Q w := rfl
  let G : ℕ → ℕ → ℂ := fun k c => if c < Q * b then dftC (Q * b * b)
      (fun j => x.get j * Spec.cyc (gam.map Complex.ofReal) ((j : ℤ) - ((Q * b * b / 2 : ℕ) : ℤ) - c * b)) k else 0
  let D : Mat ℂ := ⟨Q * b, Q * b, fun r c => G (r * b) c⟩
  have hcore : gaborCore x (Q * b) Q w = .ok ⟨D.map (fun z => ‖z‖ ^ 2), D, gam⟩ := by
    unfold gaborCore
    rw [if_neg hm]
    simp only [hm1, hm2]
    rw [if_neg hm, hx, hd, ok_bind, hcols, ok_bind, hrows, takeRows_ok (by intro j; simp only; omega) (by
      intro j hj
      show ((j * b : ℕ) : ℤ) < ((Q * b * b : ℕ) : ℤ)
      have : j * b < Q * b * b := Nat.mul_lt_mul_of_pos_right hj (Nat.pos_of_ne_zero hb)
      exact_mod_cast this), ok_bind]
    rfl
  refine ⟨_, hok.trans hcore, rfl, rfl, rfl, rfl, fun r hr n hn => ?_⟩
  exact if_pos hn

theorem cyc_congr {x : Vec ℂ} {i j : ℤ} (h : (x.len : ℤ) ∣ i - j) : Spec.cyc x i = Spec.cyc x j := by
  unfold Spec.cyc
  rw [Int.emod_eq_emod_iff_emod_sub_eq_zero.2 (Int.emod_eq_zero_of_dvd h)]

/-- Biorthogonality of the window and its dual. -/
theorem wexlerRaz {Q b : ℕ} (hb : b ≠ 0) (hQ : Q ≠ 0) {h g : Vec ℂ} (hh : h.len = Q * b * b) (hg : g.len = Q * b * b)
    (hpow : ∀ k < b, ∀ r < b, Spec.zakPower Q b h k r ≠ 0)
    (hz : ∀ k < Q * b, ∀ r < b, (Spec.zak (Q * b) b g).get k r = (Spec.zak (Q * b) b h).get k r
      / ((Spec.zakPower Q b h k r : ℂ) * ((Q * b * b : ℕ) : ℂ))) (u t : ℤ) :
    ∑ n ∈ range (Q * b), Spec.cyc g (u + ((Q * b : ℕ) : ℤ) * t - n * b) * conj (Spec.cyc h (u - n * b))
      = if (b : ℤ) ∣ t then (b : ℂ) / ((Q * b * b : ℕ) : ℂ) else 0 := by
  have hm : Q * b ≠ 0 := Nat.mul_ne_zero hQ hb
  have hL : Q * b * b ≠ 0 := Nat.mul_ne_zero hm hb
  have hbz : (0 : ℤ) < b := by omega
  have hu0 := Int.emod_nonneg u hbz.ne'
  have hub := Int.emod_lt_of_pos u hbz
  have ht0 := Int.emod_nonneg t hbz.ne'
  obtain ⟨ρ, hρ⟩ := Int.eq_ofNat_of_zero_le hu0
  obtain ⟨p, hp⟩ := Int.eq_ofNat_of_zero_le ht0
  have hρb : ρ < b := by omega
  have hudiv := Int.mul_ediv_add_emod u b
  have htdiv := Int.mul_ediv_add_emod t b
  rw [hρ] at hudiv
  rw [hp] at htdiv
  have h1 := sum_reflect_periodic hm (fun l : ℤ => Spec.cyc g ((ρ : ℤ) + b * l + ((Q * b : ℕ) : ℤ) * t) * conj (Spec.cyc h ((ρ : ℤ) + b * l)))
    (fun l => by
      have e : l % ((Q * b : ℕ) : ℤ) = l - ((Q * b : ℕ) : ℤ) * (l / ((Q * b : ℕ) : ℤ)) := Int.emod_def _ _
      generalize l / ((Q * b : ℕ) : ℤ) = v at e
      rw [e]
      congr 1
      · apply cyc_congr
        rw [hg]
        exact ⟨-v, by push_cast; ring⟩
      · congr 1
        apply cyc_congr
        rw [hh]
        exact ⟨-v, by push_cast; ring⟩) (u / b)
  have h2 : ∑ n ∈ range (Q * b), Spec.cyc g (u + ((Q * b : ℕ) : ℤ) * t - n * b) * conj (Spec.cyc h (u - n * b))
      = ∑ n ∈ range (Q * b), Spec.cyc g ((ρ : ℤ) + b * (u / b - (n : ℤ)) + ((Q * b : ℕ) : ℤ) * t) * conj (Spec.cyc h ((ρ : ℤ) + b * (u / b - (n : ℤ)))) := by
    apply Finset.sum_congr rfl
    intro n _
    have e1 : u + ((Q * b : ℕ) : ℤ) * t - n * b = (ρ : ℤ) + b * (u / b - (n : ℤ)) + ((Q * b : ℕ) : ℤ) * t := by
      linear_combination -hudiv
    have e2 : u - n * b = (ρ : ℤ) + b * (u / b - (n : ℤ)) := by linear_combination -hudiv
    rw [e1, e2]
  rw [h2, h1]
  have hV : ∀ k, (Q * b : ℕ) * Spec.zakPower Q b h k ρ
      = ∑ l ∈ range Q, ‖dftC (Q * b) (fun c => h.get (ρ + c * b)) ((k % b + l * b : ℕ) : ℤ)‖ ^ 2 := by
    intro k
    unfold Spec.zakPower
    rw [Finset.mul_sum]
    apply Finset.sum_congr rfl
    intro l _
    rw [zak_get_eq, norm_div, div_pow, Complex.norm_real, Real.norm_of_nonneg (Real.sqrt_nonneg _), Real.sq_sqrt (by positivity)]
    have : ((Q * b : ℕ) : ℝ) ≠ 0 := Nat.cast_ne_zero.2 hm
    field_simp
  have hmr : ((Q * b : ℕ) : ℝ) ≠ 0 := Nat.cast_ne_zero.2 hm
  have hmC : ((Q * b : ℕ) : ℂ) ≠ 0 := Nat.cast_ne_zero.2 hm
  have hLC : ((Q * b * b : ℕ) : ℂ) ≠ 0 := Nat.cast_ne_zero.2 hL
  have hpow' : ∀ k, Spec.zakPower Q b h k ρ ≠ 0 := fun k => by
    rw [zakPower_congr_mod h (k' := k % b) (by simp) ρ]
    exact hpow _ (Nat.mod_lt _ (by omega)) _ hρb
  have h3 := biorth hb hQ (fun c => h.get (ρ + c * b)) (fun c => g.get (ρ + c * b)) (fun k => (Q * b : ℕ) * Spec.zakPower Q b h k ρ)
    (((Q * b : ℕ) : ℂ) / ((Q * b * b : ℕ) : ℂ)) hV (fun k _ => mul_ne_zero hmr (hpow' k)) (fun k hk => by
      have h4 := hz k hk ρ hρb
      rw [zak_get_eq, zak_get_eq] at h4
      have hsq : (Real.sqrt ((Q * b : ℕ) : ℝ) : ℂ) ≠ 0 := by
        rw [Ne, Complex.ofReal_eq_zero, Real.sqrt_eq_zero (by positivity)]
        exact_mod_cast hm
      have hPC : (Spec.zakPower Q b h k ρ : ℂ) ≠ 0 := Complex.ofReal_ne_zero.2 (hpow' k)
      rw [div_eq_iff hsq] at h4
      rw [h4]
      push_cast at hmC hLC hsq ⊢
      field_simp) p
  have h5 : ((b : ℤ) ∣ t) ↔ b ∣ p := by
    rw [← Int.natCast_dvd_natCast, ← htdiv, dvd_add_right (dvd_mul_right _ _)]
  have h6 : ∑ l ∈ range (Q * b), Spec.cyc g ((ρ : ℤ) + b * (l : ℤ) + ((Q * b : ℕ) : ℤ) * t) * conj (Spec.cyc h ((ρ : ℤ) + b * (l : ℤ)))
      = ∑ c ∈ range (Q * b), g.get (ρ + (c + p * Q) % (Q * b) * b) * conj (h.get (ρ + c * b)) := by
    apply Finset.sum_congr rfl
    intro l hl
    have hbound : ∀ c < Q * b, ρ + c * b < Q * b * b := by
      intro c hc
      calc ρ + c * b < b + c * b := by omega
        _ = (c + 1) * b := by ring
        _ ≤ Q * b * b := Nat.mul_le_mul_right _ hc
    congr 1
    · have e : Spec.cyc g ((ρ : ℤ) + b * (l : ℤ) + ((Q * b : ℕ) : ℤ) * t) = Spec.cyc g ((ρ + (l + p * Q) % (Q * b) * b : ℕ) : ℤ) := by
        apply cyc_congr
        rw [hg]
        have hdm := Nat.div_add_mod (l + p * Q) (Q * b)
        have hdm' : ((Q * b : ℕ) : ℤ) * ((l + p * Q) / (Q * b) : ℕ) + (((l + p * Q) % (Q * b) : ℕ) : ℤ) = (l : ℤ) + p * Q := by exact_mod_cast hdm
        generalize (l + p * Q) / (Q * b) = v at *
        generalize (l + p * Q) % (Q * b) = y at *
        refine ⟨t / b + v, ?_⟩
        push_cast at hdm' ⊢
        linear_combination (-(Q : ℤ) * b) * htdiv - (b : ℤ) * hdm'
      rw [e]
      unfold Spec.cyc
      rw [hg, Int.emod_eq_of_lt (by omega) (by exact_mod_cast hbound _ (Nat.mod_lt _ (by omega))), Int.toNat_natCast]
    · congr 1
      have e : (ρ : ℤ) + b * (l : ℤ) = ((ρ + l * b : ℕ) : ℤ) := by push_cast; ring
      rw [e]
      unfold Spec.cyc
      rw [hh, Int.emod_eq_of_lt (by omega) (by exact_mod_cast hbound _ (Finset.mem_range.1 hl)), Int.toNat_natCast]
  rw [h6, h3]
  simp only [h5]
  split_ifs
  · push_cast at hmC hLC ⊢
    field_simp
  · rfl

/-- First factor returned by `divider`: the largest divisor not above the square root rounded up. -/
theorem divider_spec {N : ℕ} (hN : 1 ≤ N) :
    ∃ a : ℕ, divider (N : ℤ) = .ok ((a : ℤ), ((N / a : ℕ) : ℤ)) ∧ 1 ≤ a ∧ a ∣ N ∧ (a : ℝ) < Real.sqrt N + 1 ∧
      ∀ c : ℕ, c ∣ N → (c : ℝ) ≤ Real.sqrt N → c ≤ a := by
  have hsq : Real.sqrt N * Real.sqrt N = N := Real.mul_self_sqrt (by positivity)
  have hs1 : 1 ≤ Real.sqrt N := by rw [Real.one_le_sqrt]; exact_mod_cast hN
  unfold divider
  rw [if_neg (by omega)]
  simp only [Int.cast_natCast]
  by_cases h : Real.sqrt N - ⌊Real.sqrt N⌋ = 0
  · rw [if_pos h]
    have e : Real.sqrt N = (⌊Real.sqrt N⌋ : ℝ) := by linarith
    obtain ⟨a, ha⟩ := Int.eq_ofNat_of_zero_le (Int.floor_nonneg.2 (by linarith : (0 : ℝ) ≤ Real.sqrt N))
    rw [ha] at e
    have e' : Real.sqrt N = (a : ℝ) := by rw [e]; simp
    have haa : a * a = N := by rw [e'] at hsq; exact_mod_cast hsq
    have ha1 : 1 ≤ a := by
      rcases Nat.eq_zero_or_pos a with h0 | h0
      · subst h0; omega
      · exact h0
    refine ⟨a, ?_, ha1, ⟨a, haa.symm⟩, by rw [e']; linarith, fun c _ hc => by rw [e'] at hc; exact_mod_cast hc⟩
    have : truncInt (Real.sqrt N) = a := by rw [e, truncInt_intCast]
    rw [this]
    have : N / a = a := by rw [← haa, Nat.mul_div_cancel _ ha1]
    rw [this]
  · rw [if_neg h]
    have hceil : 1 ≤ ⌈Real.sqrt N⌉.toNat := by
      have : 1 ≤ ⌈Real.sqrt N⌉ := Int.one_le_ceil_iff.2 (by linarith)
      omega
    obtain ⟨a, h1, h2, h3, h4, h5⟩ := dividerLoop_spec (N : ℤ) _ hceil
    obtain ⟨a', rfl⟩ := Int.eq_ofNat_of_zero_le (by omega : 0 ≤ a)
    have hc0 : 0 ≤ ⌈Real.sqrt N⌉ := Int.ceil_nonneg (by linarith)
    rw [Int.toNat_of_nonneg hc0] at h3
    refine ⟨a', by rw [h1]; rfl, by exact_mod_cast h2, by exact_mod_cast h4, ?_, fun c hc1 hc2 => ?_⟩
    · have h6 : ((a' : ℤ) : ℝ) ≤ (⌈Real.sqrt N⌉ : ℝ) := by exact_mod_cast h3
      have h7 := Int.ceil_lt_add_one (Real.sqrt N)
      have h8 : ((a' : ℤ) : ℝ) = (a' : ℝ) := by simp
      linarith
    · rcases Nat.eq_zero_or_pos c with h0 | h0
      · omega
      · have h9 : (c : ℤ) ≤ ⌈Real.sqrt N⌉ := by
          have := Int.le_ceil (Real.sqrt N)
          have : ((c : ℤ) : ℝ) ≤ (⌈Real.sqrt N⌉ : ℝ) := by push_cast; linarith
          exact_mod_cast this
        have := h5 c (by omega) (by rw [Int.toNat_of_nonneg hc0]; exact h9) (by exact_mod_cast hc1)
        exact_mod_cast this

theorem gabor_default {x : Vec ℂ} {N Q M P : ℕ} (hN : divider (x.len : ℤ) = .ok ((N : ℤ), (M : ℤ))) (hQ : divider (N : ℤ) = .ok ((Q : ℤ), (P : ℤ))) :
    gabor x none none none = gaborCore x N Q (defaultWindow N) := by
  unfold gabor
  simp only [hN, Except.map, ok_bind, Int.toNat_natCast, hQ]

theorem defaultWindow_len (N : ℕ) : (defaultWindow N).len = if N % 2 = 0 then N + 1 else N := rfl

theorem defaultWindow_odd (N : ℕ) : (defaultWindow N).len % 2 = 1 := by
  rw [defaultWindow_len]
  split_ifs <;> omega

theorem roundEven_bounds (x : ℝ) : x - 1 / 2 ≤ roundEven x ∧ (roundEven x : ℝ) ≤ x + 1 / 2 := by
  have := abs_le.1 (abs_sub_roundEven_le x)
  constructor <;> linarith

/-- The window is placed without an exception when its positions are admissible indices (possibly negative). -/
theorem placeWindow_total {L N q : ℕ} {w : Vec ℝ} {s : ℤ} (hw : w.len % 2 = 1)
    (hs : s = roundEven (((L : ℝ) - (w.len - 1)) / 2) - roundEven ((2 * (L : ℝ) / N - 1 - w.len) / (2 * q)) - 1)
    (h0 : -(L : ℤ) ≤ s) (hfit : s + w.len ≤ L) :
    placeWindow L N q w = .ok ⟨L, Vec.scatter (fun _ => 0) (fun j => wrapIdx L (s + j)) w.get w.len⟩ := by
  have hstop : roundEven (((L : ℝ) + w.len - 1) / 2) = roundEven (((L : ℝ) - (w.len - 1)) / 2) + (w.len - 1) := by
    have e : ((L : ℝ) + w.len - 1) / 2 = ((L : ℝ) - (w.len - 1)) / 2 + 2 * (((w.len - 1) / 2 : ℤ) : ℝ) := by
      have h1 : (w.len : ℤ) - 1 = 2 * (((w.len : ℤ) - 1) / 2) := by omega
      have h2 : (w.len : ℝ) - 1 = 2 * ((((w.len : ℤ) - 1) / 2 : ℤ) : ℝ) := by exact_mod_cast h1
      rw [← h2]
      ring
    rw [e, roundEven_add_two_mul]
    omega
  have hlen : (arange s (s + w.len)).len = w.len := by rw [arange_len]; omega
  unfold placeWindow
  simp only
  rw [hstop, ← hs]
  have e2 : roundEven (((L : ℝ) - (w.len - 1)) / 2) + (w.len - 1) - roundEven ((2 * (L : ℝ) / N - 1 - w.len) / (2 * q)) = s + w.len := by
    omega
  rw [e2]
  unfold Vec.put
  rw [if_neg (not_not.2 (fun j hj => ⟨by rw [hlen] at hj; rw [arange_get]; show -(L : ℤ) ≤ s + j; omega,
    by rw [hlen] at hj; rw [arange_get]; show s + j < (L : ℤ); omega⟩)), if_pos hlen.symm, hlen]
  rfl

/-- A window with a position outside the admissible indices raises `IndexError`. -/
theorem placeWindow_outside {L N q : ℕ} {w : Vec ℝ} {s : ℤ} (hw : w.len % 2 = 1)
    (hs : s = roundEven (((L : ℝ) - (w.len - 1)) / 2) - roundEven ((2 * (L : ℝ) / N - 1 - w.len) / (2 * q)) - 1)
    (hout : s < -(L : ℤ) ∨ (L : ℤ) < s + w.len) : placeWindow L N q w = .error .indexError := by
  have hstop : roundEven (((L : ℝ) + w.len - 1) / 2) = roundEven (((L : ℝ) - (w.len - 1)) / 2) + (w.len - 1) := by
    have e : ((L : ℝ) + w.len - 1) / 2 = ((L : ℝ) - (w.len - 1)) / 2 + 2 * (((w.len - 1) / 2 : ℤ) : ℝ) := by
      have h1 : (w.len : ℤ) - 1 = 2 * (((w.len : ℤ) - 1) / 2) := by omega
      have h2 : (w.len : ℝ) - 1 = 2 * ((((w.len : ℤ) - 1) / 2 : ℤ) : ℝ) := by exact_mod_cast h1
      rw [← h2]
      ring
    rw [e, roundEven_add_two_mul]
    omega
  have hlen : (arange s (s + w.len)).len = w.len := by rw [arange_len]; omega
  unfold placeWindow
  simp only
  rw [hstop, ← hs]
  have e2 : roundEven (((L : ℝ) - (w.len - 1)) / 2) + (w.len - 1) - roundEven ((2 * (L : ℝ) / N - 1 - w.len) / (2 * q)) = s + w.len := by
    omega
  rw [e2]
  unfold Vec.put
  rw [if_pos]
  intro h
  rw [hlen] at h
  rcases hout with h1 | h1
  · have h2 : -(L : ℤ) ≤ (arange s (s + w.len)).get 0 := (h 0 (by omega)).1
    rw [arange_get] at h2
    push_cast at h2
    omega
  · have h2 : (arange s (s + w.len)).get (w.len - 1) < (L : ℤ) := (h (w.len - 1) (by omega)).2
    rw [arange_get] at h2
    omega

/-- Number of columns that do not agree: the accumulation of the squared Zak transform raises. -/
theorem gaborDual_mismatch {L N Q m mb nb : ℕ} {w h : Vec ℝ} (hw : w.len % 2 = 1) (hp : placeWindow L N Q w = .ok h) (hl : h.len = m * nb)
    (hm : m ≠ 0) (hQ : Q ≠ 0) (h1 : nb ≠ mb) (h2 : nb ≠ 1) : gaborDual L N Q m mb nb w = .error .valueError := by
  have hmz : (0 : ℤ) < (m : ℤ) := by omega
  have h3 := moduloInt_ok (v := ⟨m, fun i => (i : ℝ) + 1 - ((0 : ℕ) : ℝ) * m / Q⟩) hm hm (fun i => (i : ℤ) + 1) (by intro i; push_cast; simp)
  have hstep : zakStep m Q (Spec.zak m nb (h.map Complex.ofReal)) (Mat.zeros m mb) 0 = .error .valueError := by
    unfold zakStep
    rw [h3, ok_bind]
    have e : (Vec.map (fun i => i - 1) (⟨m, fun i => ((i : ℤ) + 1 - 1) % (m : ℤ) + 1⟩ : Vec ℤ)) = ⟨m, fun i => ((i : ℤ) + 1 - 1) % (m : ℤ)⟩ := by
      refine congrArg (Vec.mk m) (funext fun i => ?_)
      simp
    rw [e, takeRows_ok (fun j => Int.emod_nonneg _ hmz.ne') (fun j _ => Int.emod_lt_of_pos _ hmz), ok_bind]
    unfold iadd
    rw [if_neg (by exact h1), if_neg (by exact h2)]
  unfold gaborDual
  rw [if_neg (by omega), hp, ok_bind, zakOf_ok hm hl, ok_bind]
  obtain ⟨Q', rfl⟩ := Nat.exists_eq_succ_of_ne_zero hQ
  rw [List.range_succ_eq_map, List.foldlM_cons, hstep]
  rfl

end Tftb
