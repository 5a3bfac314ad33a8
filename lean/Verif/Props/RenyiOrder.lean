import Verif.Props.RenyiCopies
import Mathlib.Analysis.Convex.SpecificFunctions.Basic

/-! # C105 Bounds of `renyi_information`, and how it depends on the order

For a non-negative distribution the Rényi information without the constant `eps` inside its logarithm is a non-increasing function of the
order, lies below `log2` of the area spanned by the axes and above minus `log2` of the largest density.  The theorems say what of this the
code keeps: everything up to an explicit amount, and some inequalities exactly.
-/

namespace Tftb.Props

open Tftb Tftb.Spec Tftb.Post Tftb.ProcUtils Finset

/-- A non-negative distribution of positive integral on increasing axes, the instants being uniformly spaced. -/
structure Density (M : Mat ℝ) (t f : Vec ℝ) : Prop where
  cols : 2 ≤ M.cols
  rows : M.rows ≠ 0
  tlen : t.len = M.cols
  flen : f.len = M.rows
  step : ∃ d, 0 < d ∧ ∀ i, i + 1 < M.cols → t.get (i + 1) - t.get i = d
  nonneg : ∀ r < M.rows, ∀ c < M.cols, 0 ≤ M.get r c
  pos : 0 < trapz2 M t.get f.sort.get

/-- The density: the distribution divided by its integral. -/
noncomputable def dens (M : Mat ℝ) (t f : Vec ℝ) (r c : ℕ) : ℝ := M.get r c / trapz2 M t.get f.sort.get

/-- Area spanned by the axes. -/
noncomputable def area (M : Mat ℝ) (t f : Vec ℝ) : ℝ := (t.get (M.cols - 1) - t.get 0) * (f.sort.get (M.rows - 1) - f.sort.get 0)

/-- Integral of the power `α` of the density. -/
noncomputable def powerIntegral (M : Mat ℝ) (t f : Vec ℝ) (α : ℝ) : ℝ :=
  trapz2 ⟨M.rows, M.cols, fun r c => dens M t f r c ^ α⟩ t.get f.sort.get

/-- The call returns `v`. -/
def InfoIs (M : Mat ℝ) (t f : Vec ℝ) (α v : ℝ) : Prop := (Prod.fst <$> renyiInformation M (some t) (some f) α) = .ok v

theorem sort_mono (f : Vec ℝ) : ∀ i, i + 1 < f.len → f.sort.get i ≤ f.sort.get (i + 1) := by
  intro i hi
  have h := (sort_spec f).2
  rw [List.pairwise_iff_getElem] at h
  have hl : f.sort.toList.length = f.len := by rw [← sort_len f]; simp [Vec.toList]
  have := h i (i + 1) (by omega) (by omega) (by omega)
  simpa [Vec.toList] using this

theorem trapz2_mono {m n : ℕ} {x y : ℕ → ℝ} (hx : ∀ i, i + 1 < n → x i ≤ x (i + 1)) (hy : ∀ i, i + 1 < m → y i ≤ y (i + 1))
    {F G : ℕ → ℕ → ℝ} (h : ∀ r < m, ∀ c < n, F r c ≤ G r c) : trapz2 ⟨m, n, F⟩ x y ≤ trapz2 ⟨m, n, G⟩ x y := by
  have e := trapz2_add ⟨m, n, fun r c => G r c - F r c⟩ ⟨m, n, F⟩ rfl rfl x y
  simp only [sub_add_cancel] at e
  have h0 : 0 ≤ trapz2 ⟨m, n, fun r c => G r c - F r c⟩ x y :=
    trapz_nonneg hy (fun r hr => trapz_nonneg hx (fun c hc => by simpa using h r hr c hc))
  linarith

theorem trapz2_comb (m n : ℕ) (x y : ℕ → ℝ) (a b : ℝ) (F G : ℕ → ℕ → ℝ) :
    trapz2 ⟨m, n, fun r c => a * F r c + b * G r c⟩ x y = a * trapz2 ⟨m, n, F⟩ x y + b * trapz2 ⟨m, n, G⟩ x y := by
  rw [← trapz2_smul ⟨m, n, F⟩, ← trapz2_smul ⟨m, n, G⟩, ← trapz2_add ⟨m, n, fun r c => a * F r c⟩ ⟨m, n, fun r c => b * G r c⟩ rfl rfl]

namespace Density

variable {M : Mat ℝ} {t f : Vec ℝ} (D : Density M t f)

include D

theorem tmono : ∀ i, i + 1 < M.cols → t.get i ≤ t.get (i + 1) := by
  obtain ⟨d, h0, hd⟩ := D.step
  intro i hi
  linarith [hd i hi]

theorem fmono : ∀ i, i + 1 < M.rows → f.sort.get i ≤ f.sort.get (i + 1) := by
  rw [← D.flen]; exact sort_mono f

theorem dens_nonneg {r c : ℕ} (hr : r < M.rows) (hc : c < M.cols) : 0 ≤ dens M t f r c := div_nonneg (D.nonneg r hr c hc) D.pos.le

theorem le {F G : ℕ → ℕ → ℝ} (h : ∀ r < M.rows, ∀ c < M.cols, F r c ≤ G r c) :
    trapz2 ⟨M.rows, M.cols, F⟩ t.get f.sort.get ≤ trapz2 ⟨M.rows, M.cols, G⟩ t.get f.sort.get := trapz2_mono D.tmono D.fmono h

theorem total : trapz2 ⟨M.rows, M.cols, dens M t f⟩ t.get f.sort.get = 1 := by
  have := trapz2_smul M (trapz2 M t.get f.sort.get)⁻¹ t.get f.sort.get
  rw [inv_mul_cancel₀ D.pos.ne'] at this
  rw [← this]
  congr 2
  funext r c
  unfold dens
  rw [div_eq_inv_mul]

theorem const (a : ℝ) : trapz2 ⟨M.rows, M.cols, fun _ _ => a⟩ t.get f.sort.get = a * area M t f :=
  trapz2_const _ _ (Nat.one_le_iff_ne_zero.2 D.rows) (by have := D.cols; omega) _ _ _

/-- Some density is positive, and the area is. -/
theorem exists_bound : ∃ m, 0 < m ∧ ∀ r < M.rows, ∀ c < M.cols, dens M t f r c ≤ m := by
  refine ⟨1 + ∑ r ∈ range M.rows, ∑ c ∈ range M.cols, dens M t f r c, ?_, fun r hr c hc => ?_⟩
  · have : 0 ≤ ∑ r ∈ range M.rows, ∑ c ∈ range M.cols, dens M t f r c :=
      Finset.sum_nonneg (fun r hr => Finset.sum_nonneg (fun c hc => D.dens_nonneg (Finset.mem_range.1 hr) (Finset.mem_range.1 hc)))
    linarith
  · have h1 : dens M t f r c ≤ ∑ c ∈ range M.cols, dens M t f r c :=
      Finset.single_le_sum (f := fun c => dens M t f r c) (fun c hc => D.dens_nonneg hr (Finset.mem_range.1 hc)) (Finset.mem_range.2 hc)
    have h2 : ∑ c ∈ range M.cols, dens M t f r c ≤ ∑ r ∈ range M.rows, ∑ c ∈ range M.cols, dens M t f r c :=
      Finset.single_le_sum (f := fun r => ∑ c ∈ range M.cols, dens M t f r c)
        (fun r hr => Finset.sum_nonneg (fun c hc => D.dens_nonneg (Finset.mem_range.1 hr) (Finset.mem_range.1 hc))) (Finset.mem_range.2 hr)
    linarith

theorem area_bound {m : ℝ} (h : ∀ r < M.rows, ∀ c < M.cols, dens M t f r c ≤ m) : 1 ≤ m * area M t f := by
  rw [← D.total, ← D.const]
  exact D.le h

theorem area_nonneg : 0 ≤ area M t f := by
  have h1 := D.const 1
  rw [one_mul] at h1
  rw [← h1]
  exact trapz_nonneg D.fmono (fun r _ => trapz_nonneg D.tmono (fun c _ => zero_le_one))

theorem area_pos : 0 < area M t f := by
  obtain ⟨m, hm, h⟩ := D.exists_bound
  have h1 := D.area_bound h
  have h2 := D.area_nonneg
  by_contra h3
  have : area M t f = 0 := le_antisymm (not_lt.1 h3) h2
  rw [this] at h1
  linarith

/-- Largest density times area is at least one. -/
theorem bound_pos {m : ℝ} (h : ∀ r < M.rows, ∀ c < M.cols, dens M t f r c ≤ m) : 0 < m := by
  have h1 := D.area_bound h
  by_contra h2
  have := mul_nonpos_of_nonpos_of_nonneg (not_lt.1 h2) D.area_nonneg
  linarith

/-- A power of a number in `[0, m]`. -/
theorem power_pos (α : ℝ) (hα : 0 < α) : 0 < powerIntegral M t f α := by
  obtain ⟨m, hm, h⟩ := D.exists_bound
  rcases le_total α 1 with h1 | h1
  · -- `p^α ≥ m^(α-1) p`
    have : m ^ (α - 1) * 1 ≤ powerIntegral M t f α := by
      have e := trapz2_smul ⟨M.rows, M.cols, dens M t f⟩ (m ^ (α - 1)) t.get f.sort.get
      rw [D.total] at e
      rw [← e]
      refine D.le (fun r hr c hc => ?_)
      show m ^ (α - 1) * dens M t f r c ≤ dens M t f r c ^ α
      rcases (D.dens_nonneg hr hc).eq_or_lt with h0 | h0
      · rw [← h0, Real.zero_rpow hα.ne', mul_zero]
      · have := Real.rpow_le_rpow_of_nonpos h0 (h r hr c hc) (by linarith : α - 1 ≤ 0)
        calc m ^ (α - 1) * dens M t f r c ≤ dens M t f r c ^ (α - 1) * dens M t f r c := by gcongr
          _ = dens M t f r c ^ α := by
            rw [← Real.rpow_add_one h0.ne']; congr 1; ring
    have := Real.rpow_pos_of_pos hm (α - 1)
    linarith
  · -- Bernoulli around the mean density `1/S`
    have hS := D.area_pos
    set S := area M t f with hSd
    have key : (1 / S) ^ α * S ≤ powerIntegral M t f α := by
      have e : trapz2 ⟨M.rows, M.cols, fun r c => ((1 / S) ^ α * (α * S)) * dens M t f r c + ((1 / S) ^ α * (1 - α)) * 1⟩ t.get f.sort.get
          = (1 / S) ^ α * S := by
        rw [trapz2_comb M.rows M.cols t.get f.sort.get _ _ (dens M t f) (fun _ _ => 1), D.total, D.const]
        rw [← hSd]; ring
      rw [← e]
      refine D.le (fun r hr c hc => ?_)
      have hp := D.dens_nonneg hr hc
      set p := dens M t f r c
      have hb := one_add_mul_self_le_rpow_one_add (by nlinarith [mul_nonneg hS.le hp] : -1 ≤ S * p - 1) h1
      rw [add_sub_cancel, Real.mul_rpow hS.le hp] at hb
      have hSα : 0 < (1 / S) ^ α := by positivity
      have h3 : (1 / S) ^ α * S ^ α = 1 := by
        rw [← Real.mul_rpow (by positivity) hS.le, one_div, inv_mul_cancel₀ hS.ne', Real.one_rpow]
      have h4 := mul_le_mul_of_nonneg_left hb hSα.le
      rw [← mul_assoc, h3, one_mul] at h4
      show _ ≤ p ^ α
      linarith
    have : 0 < (1 / S) ^ α * S := by positivity
    linarith

/-- Power means: if `δ - 1` is `r ≥ 1` times `γ - 1`. -/
theorem power_mean {γ δ r : ℝ} (hγ : 0 < γ) (hδ : 0 < δ) (hr : 1 ≤ r) (e : δ - 1 = r * (γ - 1)) :
    powerIntegral M t f γ ^ r ≤ powerIntegral M t f δ := by
  have hK := D.power_pos γ hγ
  set K := powerIntegral M t f γ with hKd
  have h1 : trapz2 ⟨M.rows, M.cols, fun i j => (K ^ r * (1 - r)) * dens M t f i j + (K ^ r * (r / K)) * (dens M t f i j ^ γ)⟩ t.get f.sort.get
      = K ^ r := by
    rw [trapz2_comb M.rows M.cols t.get f.sort.get _ _ (dens M t f) (fun i j => dens M t f i j ^ γ), D.total]
    change _ + _ * K = _
    field_simp
    ring
  rw [← h1]
  refine D.le (fun i hi j hj => ?_)
  have hp := D.dens_nonneg hi hj
  set p := dens M t f i j
  show _ ≤ p ^ δ
  rcases hp.eq_or_lt with h0 | h0
  · rw [← h0, Real.zero_rpow hγ.ne', Real.zero_rpow hδ.ne', mul_zero, mul_zero, add_zero]
  · have hz : 0 < p ^ (γ - 1) / K := by positivity
    have hb := one_add_mul_self_le_rpow_one_add (by linarith : -1 ≤ p ^ (γ - 1) / K - 1) hr
    rw [add_sub_cancel, Real.div_rpow (by positivity) hK.le, ← Real.rpow_mul h0.le] at hb
    have hKr : 0 < K ^ r := by positivity
    have h2 := mul_le_mul_of_nonneg_left hb (by positivity : 0 ≤ p * K ^ r)
    have h3 : p * K ^ r * (p ^ ((γ - 1) * r) / K ^ r) = p ^ δ := by
      rw [show p * K ^ r * (p ^ ((γ - 1) * r) / K ^ r) = p ^ ((γ - 1) * r) * p by field_simp, ← Real.rpow_add_one h0.ne']
      congr 1
      linarith
    have h4 : p ^ γ = p * p ^ (γ - 1) := by
      rw [mul_comm, ← Real.rpow_add_one h0.ne', sub_add_cancel]
    rw [h3] at h2
    rw [h4]
    refine le_trans (le_of_eq ?_) h2
    field_simp
    ring

end Density

/-- Entropy of the density in natural units, without `eps`. -/
noncomputable def entropy (M : Mat ℝ) (t f : Vec ℝ) : ℝ :=
  trapz2 ⟨M.rows, M.cols, fun r c => dens M t f r c * -Real.log (dens M t f r c)⟩ t.get f.sort.get

theorem eps_pos : (0 : ℝ) < eps := by unfold eps; positivity

namespace Density

variable {M : Mat ℝ} {t f : Vec ℝ} (D : Density M t f)

include D

/-- The entropy compared with any power. -/
theorem entropy_le {δ : ℝ} (hδ : 0 < δ) : (1 - δ) * entropy M t f ≤ Real.log (powerIntegral M t f δ) := by
  have hK := D.power_pos δ hδ
  set K := powerIntegral M t f δ with hKd
  have e1 : trapz2 ⟨M.rows, M.cols, fun i j => (1 - δ) * (dens M t f i j * -Real.log (dens M t f i j)) + (1 - Real.log K) * dens M t f i j⟩ t.get f.sort.get
      = (1 - δ) * entropy M t f + (1 - Real.log K) := by
    rw [trapz2_comb M.rows M.cols t.get f.sort.get _ _ (fun i j => dens M t f i j * -Real.log (dens M t f i j)) (dens M t f), D.total, mul_one]
    rfl
  have e2 : trapz2 ⟨M.rows, M.cols, fun i j => K⁻¹ * dens M t f i j ^ δ⟩ t.get f.sort.get = 1 := by
    rw [trapz2_smul ⟨M.rows, M.cols, fun i j => dens M t f i j ^ δ⟩ K⁻¹]
    exact inv_mul_cancel₀ hK.ne'
  have h := D.le (F := fun i j => (1 - δ) * (dens M t f i j * -Real.log (dens M t f i j)) + (1 - Real.log K) * dens M t f i j)
    (G := fun i j => K⁻¹ * dens M t f i j ^ δ) (fun i hi j hj => ?_)
  · rw [e1, e2] at h
    linarith
  · have hp := D.dens_nonneg hi hj
    set p := dens M t f i j
    rcases hp.eq_or_lt with h0 | h0
    · rw [← h0, Real.zero_rpow hδ.ne']; simp
    · have hb := Real.log_le_sub_one_of_pos (by positivity : 0 < p ^ (δ - 1) / K)
      rw [Real.log_div (by positivity) hK.ne', Real.log_rpow h0] at hb
      have h2 := mul_le_mul_of_nonneg_left hb h0.le
      have h4 : p ^ δ = p * p ^ (δ - 1) := by
        rw [mul_comm, ← Real.rpow_add_one h0.ne', sub_add_cancel]
      rw [h4]
      have : K⁻¹ * (p * p ^ (δ - 1)) = p * (p ^ (δ - 1) / K) := by field_simp
      rw [this]
      linarith

theorem entropy_le_area : entropy M t f ≤ Real.log (area M t f) := by
  have hS := D.area_pos
  set S := area M t f with hSd
  have e1 : trapz2 ⟨M.rows, M.cols, fun i j => (1 + Real.log S) * dens M t f i j + (1 / S) * (1 : ℝ)⟩ t.get f.sort.get = 2 + Real.log S := by
    rw [trapz2_comb M.rows M.cols t.get f.sort.get _ _ (dens M t f) (fun _ _ => 1), D.total, D.const, ← hSd, one_mul, one_div,
      inv_mul_cancel₀ hS.ne']
    ring
  have e2 : trapz2 ⟨M.rows, M.cols, fun i j => 1 * (dens M t f i j * -Real.log (dens M t f i j)) + 2 * dens M t f i j⟩ t.get f.sort.get
      = entropy M t f + 2 := by
    rw [trapz2_comb M.rows M.cols t.get f.sort.get _ _ (fun i j => dens M t f i j * -Real.log (dens M t f i j)) (dens M t f), D.total, mul_one, one_mul]
    rfl
  have h := D.le (F := fun i j => 1 * (dens M t f i j * -Real.log (dens M t f i j)) + 2 * dens M t f i j)
    (G := fun i j => (1 + Real.log S) * dens M t f i j + (1 / S) * (1 : ℝ)) (fun i hi j hj => ?_)
  · rw [e1, e2] at h
    linarith
  · have hp := D.dens_nonneg hi hj
    set p := dens M t f i j
    rcases hp.eq_or_lt with h0 | h0
    · rw [← h0]; simp; positivity
    · have hb := Real.log_le_sub_one_of_pos (by positivity : 0 < 1 / (p * S))
      rw [one_div, Real.log_inv, Real.log_mul h0.ne' hS.ne'] at hb
      have h2 := mul_le_mul_of_nonneg_left hb h0.le
      have : p * ((p * S)⁻¹ - 1) = 1 / S - p := by field_simp
      rw [this] at h2
      linarith

/-- What is returned: never an exception, never NaN. -/
theorem info (α : ℝ) (hα : 0 < α) (h1 : α ≠ 1) : InfoIs M t f α (Real.logb 2 (powerIntegral M t f α + eps) / (1 - α)) := by
  obtain ⟨d, h0, hd⟩ := D.step
  unfold InfoIs
  rw [C49_cases M t f α h1 D.cols D.tlen D.flen D.rows d hd]
  have hK := D.power_pos α hα
  have e : trapz2 (M.map (fun a => (a / trapz2 M t.get f.sort.get) ^ α)) t.get f.sort.get = powerIntegral M t f α := rfl
  rw [e, if_neg]
  rintro (h | ⟨r, hr, c, hc, ⟨h, -⟩ | ⟨-, h⟩⟩ | h)
  · exact D.pos.ne' h
  · exact absurd (D.dens_nonneg hr hc) (not_le.2 h)
  · linarith
  · linarith [eps_pos]

theorem info_one : InfoIs M t f 1
    (-trapz2 ⟨M.rows, M.cols, fun r c => dens M t f r c * Real.logb 2 (dens M t f r c + eps)⟩ t.get f.sort.get) := by
  obtain ⟨d, h0, hd⟩ := D.step
  unfold InfoIs
  rw [C49_shannon M t f D.cols D.tlen D.flen D.rows d hd D.nonneg, if_neg]
  · rfl
  · rintro (h | ⟨r, hr, c, hc, h⟩)
    · exact D.pos.ne' h
    · have := D.dens_nonneg hr hc
      unfold dens at this
      linarith [eps_pos]

theorem entropy_info_one : ∃ v, InfoIs M t f 1 v ∧ v * Real.log 2 ≤ entropy M t f ∧ entropy M t f ≤ v * Real.log 2 + eps * area M t f := by
  have hl2 : 0 < Real.log 2 := Real.log_pos (by norm_num)
  refine ⟨_, D.info_one, ?_, ?_⟩
  · have e : -trapz2 ⟨M.rows, M.cols, fun r c => dens M t f r c * Real.logb 2 (dens M t f r c + eps)⟩ t.get f.sort.get * Real.log 2
        = trapz2 ⟨M.rows, M.cols, fun r c => (-Real.log 2) * (dens M t f r c * Real.logb 2 (dens M t f r c + eps))⟩ t.get f.sort.get := by
      rw [trapz2_smul ⟨M.rows, M.cols, fun r c => dens M t f r c * Real.logb 2 (dens M t f r c + eps)⟩]
      ring
    rw [e]
    refine D.le (fun i hi j hj => ?_)
    have hp := D.dens_nonneg hi hj
    set p := dens M t f i j
    rcases hp.eq_or_lt with h0 | h0
    · rw [← h0]; simp
    · have := Real.log_le_log h0 (by linarith [eps_pos] : p ≤ p + eps)
      unfold Real.logb
      have h2 := mul_le_mul_of_nonneg_left this h0.le
      have : -Real.log 2 * (p * (Real.log (p + eps) / Real.log 2)) = -(p * Real.log (p + eps)) := by field_simp
      rw [this]
      linarith
  · have e : -trapz2 ⟨M.rows, M.cols, fun r c => dens M t f r c * Real.logb 2 (dens M t f r c + eps)⟩ t.get f.sort.get * Real.log 2 + eps * area M t f
        = trapz2 ⟨M.rows, M.cols, fun r c => (-Real.log 2) * (dens M t f r c * Real.logb 2 (dens M t f r c + eps)) + eps * 1⟩ t.get f.sort.get := by
      rw [trapz2_comb M.rows M.cols t.get f.sort.get _ _ (fun r c => dens M t f r c * Real.logb 2 (dens M t f r c + eps)) (fun _ _ => 1), D.const]
      ring
    rw [e]
    refine D.le (fun i hi j hj => ?_)
    have hp := D.dens_nonneg hi hj
    set p := dens M t f i j
    rcases hp.eq_or_lt with h0 | h0
    · rw [← h0]; simp; exact eps_pos.le
    · have hb := Real.log_le_sub_one_of_pos (by have := eps_pos; positivity : 0 < (p + eps) / p)
      rw [Real.log_div (by have := eps_pos; positivity) h0.ne'] at hb
      have h2 := mul_le_mul_of_nonneg_left hb h0.le
      have h3 : p * ((p + eps) / p - 1) = eps := by field_simp; ring
      rw [h3] at h2
      unfold Real.logb
      have : -Real.log 2 * (p * (Real.log (p + eps) / Real.log 2)) = -(p * Real.log (p + eps)) := by field_simp
      rw [this]
      linarith

end Density

theorem InfoIs.unique {M : Mat ℝ} {t f : Vec ℝ} {α v w : ℝ} (h1 : InfoIs M t f α v) (h2 : InfoIs M t f α w) : v = w := by
  unfold InfoIs at h1 h2
  rw [h1] at h2
  injection h2

theorem logb_add_eps {K : ℝ} (hK : 0 < K) : Real.logb 2 (K + eps) = Real.logb 2 K + Real.logb 2 (1 + eps / K) := by
  have := eps_pos
  rw [← Real.logb_mul hK.ne' (by positivity), mul_add, mul_one, mul_div_cancel₀ _ hK.ne']

theorem logb_le_add_eps {K : ℝ} (hK : 0 < K) : Real.logb 2 K ≤ Real.logb 2 (K + eps) :=
  Real.logb_le_logb_of_le (by norm_num) hK (by linarith [eps_pos])

/-! ## The theorems -/

/-- A density has an information of every positive order. -/
theorem C105_returns (M : Mat ℝ) (t f : Vec ℝ) (D : Density M t f) (α : ℝ) (hα : 0 < α) : ∃ v, InfoIs M t f α v := by
  by_cases h : α = 1
  · rw [h]; exact ⟨_, D.info_one⟩
  · exact ⟨_, D.info α hα h⟩

/-- Orders above one: the information does not increase with the order, up to `log2(1 + eps/∬p^α)/(α - 1)`. -/
theorem C105_order_above (M : Mat ℝ) (t f : Vec ℝ) (D : Density M t f) (α β v w : ℝ) (h1 : 1 < α) (h2 : α ≤ β)
    (hv : InfoIs M t f α v) (hw : InfoIs M t f β w) :
    w ≤ v + Real.logb 2 (1 + eps / powerIntegral M t f α) / (α - 1) := by
  have hα : 0 < α := by linarith
  have hβ : 0 < β := by linarith
  rw [hv.unique (D.info α hα h1.ne'), hw.unique (D.info β hβ (by linarith))]
  have hK := D.power_pos α hα
  have hL := D.power_pos β hβ
  have hm := D.power_mean (γ := α) (δ := β) (r := (β - 1) / (α - 1)) hα hβ (by rw [le_div_iff₀ (by linarith)]; linarith)
    (by rw [div_mul_cancel₀]; linarith)
  have hl := Real.logb_le_logb_of_le (by norm_num : (1 : ℝ) < 2) (by positivity) hm
  rw [Real.logb_rpow_eq_mul_logb_of_pos hK] at hl
  have h3 := logb_le_add_eps hL
  rw [logb_add_eps hK]
  set a := Real.logb 2 (powerIntegral M t f α)
  set e := Real.logb 2 (1 + eps / powerIntegral M t f α)
  set b := Real.logb 2 (powerIntegral M t f β)
  set b' := Real.logb 2 (powerIntegral M t f β + eps)
  have e1 : (a + e) / (1 - α) + e / (α - 1) = -(a / (α - 1)) := by
    rw [show 1 - α = -(α - 1) by ring, div_neg, add_div]; ring
  rw [e1, show 1 - β = -(β - 1) by ring, div_neg, neg_le_neg_iff, le_div_iff₀ (by linarith)]
  have : a / (α - 1) * (β - 1) = (β - 1) / (α - 1) * a := by ring
  linarith

/-- Orders below one: likewise, up to `log2(1 + eps/∬p^β)/(1 - β)`. -/
theorem C105_order_below (M : Mat ℝ) (t f : Vec ℝ) (D : Density M t f) (α β v w : ℝ) (h0 : 0 < α) (h2 : α ≤ β) (h1 : β < 1)
    (hv : InfoIs M t f α v) (hw : InfoIs M t f β w) :
    w ≤ v + Real.logb 2 (1 + eps / powerIntegral M t f β) / (1 - β) := by
  have hβ : 0 < β := by linarith
  rw [hv.unique (D.info α h0 (by linarith)), hw.unique (D.info β hβ h1.ne)]
  have hK := D.power_pos α h0
  have hL := D.power_pos β hβ
  have hm := D.power_mean (γ := β) (δ := α) (r := (1 - α) / (1 - β)) hβ h0 (by rw [le_div_iff₀ (by linarith)]; linarith)
    (by rw [show β - 1 = -(1 - β) by ring, mul_neg, div_mul_cancel₀ _ (by linarith)]; ring)
  have hl := Real.logb_le_logb_of_le (by norm_num : (1 : ℝ) < 2) (by positivity) hm
  rw [Real.logb_rpow_eq_mul_logb_of_pos hL] at hl
  have h3 := logb_le_add_eps hK
  rw [logb_add_eps hL]
  set a := Real.logb 2 (powerIntegral M t f α)
  set a' := Real.logb 2 (powerIntegral M t f α + eps)
  set e := Real.logb 2 (1 + eps / powerIntegral M t f β)
  set b := Real.logb 2 (powerIntegral M t f β)
  have : b / (1 - β) ≤ a' / (1 - α) := by
    rw [le_div_iff₀ (by linarith)]
    have : b / (1 - β) * (1 - α) = (1 - α) / (1 - β) * b := by ring
    linarith
  rw [add_div]
  linarith

/-- An order above one never gives more than an order below one: exactly. -/
theorem C105_order_across (M : Mat ℝ) (t f : Vec ℝ) (D : Density M t f) (α β v w : ℝ) (h0 : 0 < α) (h1 : α < 1) (h2 : 1 < β)
    (hv : InfoIs M t f α v) (hw : InfoIs M t f β w) : w ≤ v := by
  have hβ : 0 < β := by linarith
  rw [hv.unique (D.info α h0 h1.ne), hw.unique (D.info β hβ h2.ne')]
  have hK := D.power_pos α h0
  have hL := D.power_pos β hβ
  have a1 := D.entropy_le h0
  have b1 := D.entropy_le hβ
  have hl2 : 0 < Real.log 2 := Real.log_pos (by norm_num)
  have a2 : Real.log (powerIntegral M t f α) ≤ Real.log (powerIntegral M t f α + eps) := Real.log_le_log hK (by linarith [eps_pos])
  have b2 : Real.log (powerIntegral M t f β) ≤ Real.log (powerIntegral M t f β + eps) := Real.log_le_log hL (by linarith [eps_pos])
  unfold Real.logb
  have c1 : entropy M t f / Real.log 2 ≤ Real.log (powerIntegral M t f α + eps) / Real.log 2 / (1 - α) := by
    rw [le_div_iff₀ (by linarith), div_mul_eq_mul_div, div_le_div_iff_of_pos_right hl2]
    linarith
  have c2 : Real.log (powerIntegral M t f β + eps) / Real.log 2 / (1 - β) ≤ entropy M t f / Real.log 2 := by
    rw [div_le_iff_of_neg (by linarith), div_mul_eq_mul_div, div_le_div_iff_of_pos_right hl2]
    linarith
  exact c2.trans c1

/-- Order one (Shannon) lies between: below every order less than one exactly, above every order greater than one up to `eps` times
the area. -/
theorem C105_shannon (M : Mat ℝ) (t f : Vec ℝ) (D : Density M t f) (α v s : ℝ) (h0 : 0 < α) (hs : InfoIs M t f 1 s) (hv : InfoIs M t f α v) :
    (α < 1 → s ≤ v) ∧ (1 < α → v ≤ s + eps * area M t f / Real.log 2) := by
  obtain ⟨s', hs', s1, s2⟩ := D.entropy_info_one
  rw [hs'.unique hs] at s1 s2
  have hK := D.power_pos α h0
  have a1 := D.entropy_le h0
  have hl2 : 0 < Real.log 2 := Real.log_pos (by norm_num)
  have a2 : Real.log (powerIntegral M t f α) ≤ Real.log (powerIntegral M t f α + eps) := Real.log_le_log hK (by linarith [eps_pos])
  refine ⟨fun h1 => ?_, fun h1 => ?_⟩
  · rw [hv.unique (D.info α h0 h1.ne)]
    unfold Real.logb
    rw [le_div_iff₀ (by linarith), le_div_iff₀ hl2]
    have := mul_le_mul_of_nonneg_left s1 (by linarith : 0 ≤ 1 - α)
    linarith
  · rw [hv.unique (D.info α h0 h1.ne')]
    unfold Real.logb
    have : s + eps * area M t f / Real.log 2 = (s * Real.log 2 + eps * area M t f) / Real.log 2 := by field_simp
    rw [this, div_le_iff_of_neg (by linarith), div_mul_eq_mul_div, div_le_div_iff_of_pos_right hl2]
    have := mul_le_mul_of_nonpos_left s2 (by linarith : 1 - α ≤ 0)
    linarith

/-- Upper bound: `log2` of the area, exactly for orders from one on, up to `log2(1 + eps/∬p^α)/(1 - α)` below. -/
theorem C105_upper (M : Mat ℝ) (t f : Vec ℝ) (D : Density M t f) (α v : ℝ) (h0 : 0 < α) (hv : InfoIs M t f α v) :
    (1 ≤ α → v ≤ Real.logb 2 (area M t f)) ∧
    (α < 1 → v ≤ Real.logb 2 (area M t f) + Real.logb 2 (1 + eps / powerIntegral M t f α) / (1 - α)) := by
  have hS := D.area_pos
  have hl2 : 0 < Real.log 2 := Real.log_pos (by norm_num)
  have hK := D.power_pos α h0
  refine ⟨fun h1 => ?_, fun h1 => ?_⟩
  · have he := D.entropy_le_area
    rcases h1.eq_or_lt with h1 | h1
    · obtain ⟨s', hs', s1, -⟩ := D.entropy_info_one
      rw [← h1] at hv
      rw [hv.unique hs']
      unfold Real.logb
      rw [le_div_iff₀ hl2]
      linarith
    · rw [hv.unique (D.info α h0 h1.ne')]
      have a1 := D.entropy_le h0
      have a2 : Real.log (powerIntegral M t f α) ≤ Real.log (powerIntegral M t f α + eps) := Real.log_le_log hK (by linarith [eps_pos])
      unfold Real.logb
      rw [div_le_iff_of_neg (by linarith), div_mul_eq_mul_div, div_le_div_iff_of_pos_right hl2]
      have := mul_le_mul_of_nonpos_left he (by linarith : 1 - α ≤ 0)
      linarith
  · rw [hv.unique (D.info α h0 h1.ne), logb_add_eps hK, add_div]
    have key : powerIntegral M t f α ≤ area M t f ^ (1 - α) := by
      set S := area M t f with hSd
      have e : trapz2 ⟨M.rows, M.cols, fun r c => ((1 / S) ^ α * (α * S)) * dens M t f r c + ((1 / S) ^ α * (1 - α)) * 1⟩ t.get f.sort.get
          = S ^ (1 - α) := by
        rw [trapz2_comb M.rows M.cols t.get f.sort.get _ _ (dens M t f) (fun _ _ => 1), D.total, D.const, ← hSd, one_div, Real.inv_rpow hS.le,
          Real.rpow_sub hS, Real.rpow_one]
        field_simp
        ring
      rw [← e]
      refine D.le (fun r hr c hc => ?_)
      have hp := D.dens_nonneg hr hc
      set p := dens M t f r c
      have hb := rpow_one_add_le_one_add_mul_self (by nlinarith [mul_nonneg hS.le hp] : -1 ≤ S * p - 1) h0.le h1.le
      rw [add_sub_cancel, Real.mul_rpow hS.le hp] at hb
      have hSα : 0 < (1 / S) ^ α := by positivity
      have h3 : (1 / S) ^ α * S ^ α = 1 := by
        rw [← Real.mul_rpow (by positivity) hS.le, one_div, inv_mul_cancel₀ hS.ne', Real.one_rpow]
      have h4 := mul_le_mul_of_nonneg_left hb hSα.le
      rw [← mul_assoc, h3, one_mul] at h4
      show p ^ α ≤ _
      linarith
    have hl := Real.logb_le_logb_of_le (by norm_num : (1 : ℝ) < 2) hK key
    rw [Real.logb_rpow_eq_mul_logb_of_pos hS] at hl
    have : Real.logb 2 (powerIntegral M t f α) / (1 - α) ≤ Real.logb 2 (area M t f) := by
      rw [div_le_iff₀ (by linarith)]; linarith
    linarith

/-- Lower bound: if no density exceeds `m`, the information is at least `-log2 m` (exactly for orders below one, with `eps` added inside
the logarithm for the others). -/
theorem C105_lower (M : Mat ℝ) (t f : Vec ℝ) (D : Density M t f) (α v m : ℝ) (h0 : 0 < α) (hv : InfoIs M t f α v)
    (hm : ∀ r < M.rows, ∀ c < M.cols, dens M t f r c ≤ m) :
    (α < 1 → -Real.logb 2 m ≤ v) ∧ (α = 1 → -Real.logb 2 (m + eps) ≤ v) ∧
    (1 < α → -Real.logb 2 (m ^ (α - 1) + eps) / (α - 1) ≤ v) := by
  have hm0 := D.bound_pos hm
  have hK := D.power_pos α h0
  refine ⟨fun h1 => ?_, fun h1 => ?_, fun h1 => ?_⟩
  · rw [hv.unique (D.info α h0 h1.ne)]
    have key : m ^ (α - 1) ≤ powerIntegral M t f α := by
      have e := trapz2_smul ⟨M.rows, M.cols, dens M t f⟩ (m ^ (α - 1)) t.get f.sort.get
      rw [D.total, mul_one] at e
      rw [← e]
      refine D.le (fun r hr c hc => ?_)
      show m ^ (α - 1) * dens M t f r c ≤ dens M t f r c ^ α
      rcases (D.dens_nonneg hr hc).eq_or_lt with h2 | h2
      · rw [← h2, Real.zero_rpow h0.ne', mul_zero]
      · have := Real.rpow_le_rpow_of_nonpos h2 (hm r hr c hc) (by linarith : α - 1 ≤ 0)
        calc m ^ (α - 1) * dens M t f r c ≤ dens M t f r c ^ (α - 1) * dens M t f r c := by gcongr
          _ = dens M t f r c ^ α := by
            rw [← Real.rpow_add_one h2.ne']; congr 1; ring
    have hl := (Real.logb_le_logb_of_le (by norm_num : (1 : ℝ) < 2) (by positivity) key).trans (logb_le_add_eps hK)
    rw [Real.logb_rpow_eq_mul_logb_of_pos hm0] at hl
    rw [le_div_iff₀ (by linarith)]
    linarith
  · subst h1
    rw [hv.unique D.info_one, neg_le_neg_iff]
    have e := trapz2_smul ⟨M.rows, M.cols, dens M t f⟩ (Real.logb 2 (m + eps)) t.get f.sort.get
    rw [D.total, mul_one] at e
    rw [← e]
    refine D.le (fun r hr c hc => ?_)
    show dens M t f r c * _ ≤ Real.logb 2 (m + eps) * dens M t f r c
    have hp := D.dens_nonneg hr hc
    rw [mul_comm]
    have := Real.logb_le_logb_of_le (by norm_num : (1 : ℝ) < 2) (by linarith [eps_pos]) (by linarith [hm r hr c hc] : dens M t f r c + eps ≤ m + eps)
    exact mul_le_mul_of_nonneg_right this hp
  · rw [hv.unique (D.info α h0 h1.ne')]
    have key : powerIntegral M t f α ≤ m ^ (α - 1) := by
      have e := trapz2_smul ⟨M.rows, M.cols, dens M t f⟩ (m ^ (α - 1)) t.get f.sort.get
      rw [D.total, mul_one] at e
      rw [← e]
      refine D.le (fun r hr c hc => ?_)
      show dens M t f r c ^ α ≤ m ^ (α - 1) * dens M t f r c
      rcases (D.dens_nonneg hr hc).eq_or_lt with h2 | h2
      · rw [← h2, Real.zero_rpow h0.ne', mul_zero]
      · have := Real.rpow_le_rpow h2.le (hm r hr c hc) (by linarith : 0 ≤ α - 1)
        calc dens M t f r c ^ α = dens M t f r c ^ (α - 1) * dens M t f r c := by
              rw [← Real.rpow_add_one h2.ne']; congr 1; ring
          _ ≤ _ := by gcongr
    have hl := Real.logb_le_logb_of_le (by norm_num : (1 : ℝ) < 2) (by linarith [eps_pos]) (by linarith : powerIntegral M t f α + eps ≤ m ^ (α - 1) + eps)
    rw [show 1 - α = -(α - 1) by ring, div_neg, neg_div, neg_le_neg_iff, div_le_div_iff_of_pos_right (by linarith)]
    exact hl

/-- The constant in the logarithm does break monotonicity: a constant distribution over an area of 1/2 has more information of order
three than of order two. -/
theorem C105_not_monotone (m n : ℕ) (a : ℝ) (t f : Vec ℝ) (hm : 1 ≤ m) (hn : 2 ≤ n) (ht : t.len = n) (hf : f.len = m)
    (d : ℝ) (hd : ∀ i, i + 1 < n → t.get (i + 1) - t.get i = d) (ha : a ≠ 0)
    (hS : (t.get (n - 1) - t.get 0) * (f.sort.get (m - 1) - f.sort.get 0) = 1 / 2) :
    ∃ v w, InfoIs ⟨m, n, fun _ _ => a⟩ t f 2 v ∧ InfoIs ⟨m, n, fun _ _ => a⟩ t f 3 w ∧ v < w := by
  obtain ⟨v, hv, v1, -⟩ := C85_uniform m n a t f 2 (by norm_num) hm hn ht hf d hd ha (1 / 2) hS.symm (by norm_num)
  obtain ⟨w, hw, w1, -⟩ := C85_uniform m n a t f 3 (by norm_num) hm hn ht hf d hd ha (1 / 2) hS.symm (by norm_num)
  refine ⟨v, w, hv, hw, ?_⟩
  have he := eps_pos
  have e1 : ((1 : ℝ) / 2) ^ ((1 : ℝ) - 2) = 2 := by
    rw [show (1 : ℝ) - 2 = -1 by norm_num, Real.rpow_neg_one]; norm_num
  have e2 : ((1 : ℝ) / 2) ^ ((1 : ℝ) - 3) = 4 := by
    rw [show (1 : ℝ) - 3 = -(2 : ℕ) by norm_num, Real.rpow_neg (by norm_num), Real.rpow_natCast]; norm_num
  rw [v1, w1, e1, e2]
  have h : Real.logb 2 (4 + eps) < Real.logb 2 ((2 + eps) ^ 2) := Real.logb_lt_logb (by norm_num) (by linarith) (by nlinarith)
  rw [Real.logb_pow] at h
  push_cast at h
  norm_num
  linarith

/-! ## Concrete cases -/

/-- A distribution of two rows and three columns. -/
private def sample : Mat ℝ := ⟨2, 3, fun r c => (r : ℝ) + c⟩

private def axis (n : ℕ) : Vec ℝ := ⟨n, fun i => (i : ℝ)⟩

private theorem axis_sort : (axis 2).sort.get 0 = 0 ∧ (axis 2).sort.get 1 = 1 := by
  have hspec := sort_spec (axis 2)
  have hl1 : (axis 2).toList = [0, 1] := by
    unfold Vec.toList
    simp [axis, List.range_succ]
  rw [hl1] at hspec
  have hl2 : (axis 2).sort.toList = [0, 1] :=
    List.Perm.eq_of_pairwise (fun a b _ _ h1 h2 => le_antisymm h1 h2) hspec.2 (by simp) hspec.1
  unfold Vec.toList at hl2
  rw [sort_len] at hl2
  simpa [axis, List.range_succ] using hl2

private theorem sample_density : Density sample (axis 3) (axis 2) := by
  refine ⟨by norm_num [sample], by norm_num [sample], rfl, rfl, ⟨1, one_pos, fun i _ => by simp [axis]⟩, fun r _ c _ => by simp only [sample]; positivity, ?_⟩
  simp [trapz2, trapz, Finset.sum_range_succ, axis_sort.1, axis_sort.2, sample]
  norm_num [axis]

/-- Its information of order 3 is at most that of order 1/2, and at most one bit, the axes spanning an area of 2. -/
example : ∃ v w, InfoIs sample (axis 3) (axis 2) (1 / 2) v ∧ InfoIs sample (axis 3) (axis 2) 3 w ∧ w ≤ v ∧ w ≤ 1 := by
  obtain ⟨v, hv⟩ := C105_returns _ _ _ sample_density (1 / 2) (by norm_num)
  obtain ⟨w, hw⟩ := C105_returns _ _ _ sample_density 3 (by norm_num)
  refine ⟨v, w, hv, hw, C105_order_across _ _ _ sample_density _ _ v w (by norm_num) (by norm_num) (by norm_num) hv hw, ?_⟩
  have h := (C105_upper _ _ _ sample_density 3 w (by norm_num) hw).1 (by norm_num)
  have e : area sample (axis 3) (axis 2) = 2 := by
    simp [area, sample, axis_sort.1, axis_sort.2]
    simp [axis]
  rwa [e, Real.logb_self_eq_one (by norm_num)] at h

/-- The hypotheses of `C105_not_monotone`: two instants half a unit apart. -/
example : ∃ v w, InfoIs ⟨2, 2, fun _ _ => 1⟩ ⟨2, fun i => (i : ℝ) / 2⟩ (axis 2) 2 v ∧
    InfoIs ⟨2, 2, fun _ _ => 1⟩ ⟨2, fun i => (i : ℝ) / 2⟩ (axis 2) 3 w ∧ v < w :=
  C105_not_monotone 2 2 1 _ _ (by norm_num) (by norm_num) rfl rfl (1 / 2) (fun i _ => by push_cast; ring) one_ne_zero
    (by norm_num [axis_sort.1, axis_sort.2])

end Tftb.Props
