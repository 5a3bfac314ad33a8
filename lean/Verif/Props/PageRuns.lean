import Verif.Props.Cohen
import Verif.Props.Histories

/-! # Repeated runs of the Page representation (C40) -/

namespace Tftb.Props

open Tftb Tftb.Spec Tftb.Linear Tftb.Cohen Finset ComplexConjugate

/-- Stores covering a position forget its previous content. -/
theorem scatter_covered {α : Type} {g g' : ℕ → α} {pos : ℕ → ℕ} {val : ℕ → α} {L p : ℕ}
    (h : ∃ j < L, pos j = p) : Vec.scatter g pos val L p = Vec.scatter g' pos val L p := by
  induction L with
  | zero => obtain ⟨j, hj, _⟩ := h; omega
  | succ L ih =>
    rw [Vec.scatter_succ, Vec.scatter_succ]
    by_cases hp : p = pos L
    · subst hp; simp
    · rw [Function.update_of_ne hp, Function.update_of_ne hp]
      apply ih
      obtain ⟨j, hj, rfl⟩ := h
      refine ⟨j, ?_, rfl⟩
      by_contra hcon
      have : j = L := by omega
      subst this
      exact hp rfl

/-- Lags `a, …, a + n - 1` cover all `n` positions. -/
theorem lagPos_cover {n : ℕ} (hn : n ≠ 0) (a : ℤ) {p : ℕ} (hp : p < n) : ∃ j < n, lagPos n a j = p := by
  have hnz : (n : ℤ) ≠ 0 := by exact_mod_cast hn
  refine ⟨(((p : ℤ) - a) % n).toNat, ?_, ?_⟩
  · have h1 := Int.emod_nonneg ((p : ℤ) - a) hnz
    have h2 := Int.emod_lt_of_pos ((p : ℤ) - a) (show (0 : ℤ) < n by omega)
    omega
  · have h1 := Int.emod_nonneg ((p : ℤ) - a) hnz
    have h3 : ((lagPos n a (((p : ℤ) - a) % n).toNat : ℕ) : ℤ) = p := by
      rw [lagPos_cast hn, Int.toNat_of_nonneg h1, Int.add_emod_emod, add_sub_cancel]
      exact Int.emod_eq_of_lt (by omega) (by omega)
    exact_mod_cast h3

/-- The default Page column, whatever the column held before. -/
theorem pageCol_default (o : TFR ℤ) (x : Vec ℂ) (hx : x.len ≠ 0) (h1 : o.signal = x) (h2 : o.ts = arange 0 x.len)
    (h3 : o.nf = x.len) (c : ℕ) (hc : c < x.len) (v : Vec ℂ) (hv : v.len = x.len) :
    ∃ w : Vec ℂ, pageCol o c v = .ok w ∧ w.len = x.len ∧ ∀ r < x.len, w.get r =
      lagCol x.len ((c : ℤ) - x.len) ((c : ℤ) - 1) (fun t => x.get c * conj (zext x ((c : ℤ) - t - 1))) r := by
  obtain ⟨hl, hg⟩ := arange_default x.len
  have e2 : arange (-(min ((x.len : ℤ) - c) ((x.len : ℤ) - c))) (c : ℤ)
        = arange ((c : ℤ) - x.len) ((c : ℤ) - 1 + 1) := by rw [sub_add_cancel, min_self, neg_sub]
  obtain ⟨b, b1, b2, b3⟩ := take_range (x := x) ((c : ℤ) - x.len) ((c : ℤ) - 1) (fun t => (c : ℤ) - t - 1)
    (fun t h1 h2 => by omega)
  have hL : ((c : ℤ) - 1 + 1 - ((c : ℤ) - x.len)).toNat = x.len := by omega
  refine ⟨⟨x.len, Vec.scatter v.get (lagPos x.len ((c : ℤ) - x.len))
    (b.map (fun z => x.get c * conj z)).get ((c : ℤ) - 1 + 1 - ((c : ℤ) - x.len)).toNat⟩, ?_, rfl, ?_⟩
  · simp only [pageCol, h1, h2, h3]
    rw [ts_item (by rw [hl]; exact hc), ok_bind, hg, e2, Vec.item_ok (by omega) (by omega), ok_bind, b1, ok_bind,
      Int.toNat_natCast]
    exact put_lags hx _ _ hv b2
  · intro r hr
    show Vec.scatter _ _ _ _ r = lagCol _ _ _ _ r
    unfold lagCol
    rw [scatter_covered (g' := fun _ => (0 : ℂ))]
    · refine congrFun (Vec.scatter_congr rfl (fun _ _ => rfl) ?_) r
      intro j hj
      rw [Vec.map_get, b3 j hj]
    · rw [hL]; exact lagPos_cover hx _ hr

theorem lagCol_real {n : ℕ} {a b : ℤ} (v : ℤ → ℂ) (h : ∀ t, (v t).im = 0) (p : ℕ) :
    (((lagCol n a b v p).re : ℝ) : ℂ) = lagCol n a b v p := by
  have : lagCol n a b v p = lagCol n a b (fun t => (((v t).re : ℝ) : ℂ)) p := by
    refine congrFun (lagCol_congr ?_) p
    intro t _ _
    exact Complex.ext (by simp) (by simp [h t])
  rw [this]
  unfold lagCol
  generalize (b + 1 - a).toNat = L
  induction L with
  | zero => simp
  | succ L ih =>
    rw [Vec.scatter_succ]
    by_cases hp : p = lagPos n a L
    · subst hp; simp
    · rw [Function.update_of_ne hp]; exact ih

/-- What every run of the Page representation of a real signal leaves behind. -/
def PageState (x : Vec ℂ) (M : Mat ℝ) (o : TFR ℤ) : Prop :=
  o.signal = x ∧ o.ts = arange 0 x.len ∧ o.nf = x.len ∧ ∃ M', o.tfr = .real M' ∧ M'.Same M

theorem pageRun_state (x : Vec ℂ) (hx : x.len ≠ 0) (hreal : ∀ i < x.len, (x.get i).im = 0) (M : Mat ℝ)
    (hM : PageReturns x (arange 0 x.len) x.len M) (o : TFR ℤ) (ho : PageState x M o) :
    ∃ o', pageRun o = .ok o' ∧ PageState x M o' := by
  obtain ⟨h1, h2, h3, M', h4, h5⟩ := ho
  obtain ⟨hl, hg⟩ := arange_default x.len
  obtain ⟨M₀, m1, m2, m3, m4⟩ := (pageRun_spec makeWindow x (arange 0 x.len) x.len none hx).1
    (fun c hc => idxOk_of_lt (by rw [hg]; omega) (by rw [hg]; rw [hl] at hc; omega))
  obtain rfl := page_unique hM ⟨_, m1, rfl⟩
  rw [hl] at m3
  have hr : M'.rows = x.len := h5.1.trans m2
  have hc : M'.cols = x.len := h5.2.1.trans m3
  have hcol : ∀ c, ∃ w : Vec ℂ, c < x.len → pageCol o c ⟨x.len, fun r => (M'.get r c : ℂ)⟩ = .ok w ∧ w.len = x.len ∧
      ∀ r < x.len, w.get r = lagCol x.len ((c : ℤ) - x.len) ((c : ℤ) - 1)
        (fun t => x.get c * conj (zext x ((c : ℤ) - t - 1))) r := by
    intro c
    by_cases hcx : c < x.len
    · obtain ⟨w, hw⟩ := pageCol_default o x hx h1 h2 h3 c hcx ⟨x.len, fun r => (M'.get r c : ℂ)⟩ rfl
      exact ⟨w, fun _ => hw⟩
    · exact ⟨⟨0, fun _ => 0⟩, fun h => absurd h hcx⟩
  choose g hgc using hcol
  obtain ⟨S, hf, s1, s2, s3⟩ : ∃ S : Mat ℝ, (Store.real M').forCols x.len (pageCol o) = .ok (.real S) ∧
      S.rows = x.len ∧ S.cols = x.len ∧ ∀ r, ∀ c < x.len, S.get r c = ((g c).get r).re := by
    refine ⟨_, forCols_real hr hc (body := pageCol o) (fun c hc => (hgc c hc).1), rfl, rfl, ?_⟩
    intro r c hc
    simp only [if_pos hc]
  have hok : pageRun o = .ok { o with
      tfr := .real ⟨S.rows, S.cols, fun k c => (dftC S.rows (fun r => (S.get r c : ℂ)) k).re⟩ } := by
    unfold pageRun
    rw [h2, hl, h4, hf, ok_bind, fft0_ok (M := (Store.real S).asC) (show S.rows ≠ 0 by rw [s1]; exact hx), ok_bind]
    rfl
  refine ⟨_, hok, h1, h2, h3, _, rfl, by rw [m2]; exact s1, by rw [m3]; exact s2, ?_⟩
  intro k hk c hc'
  have hk : k < x.len := by rw [← s1]; exact hk
  have hc' : c < x.len := by rw [← s2]; exact hc'
  show (dftC S.rows _ k).re = _
  rw [s1, m4 k c (by rw [hl]; exact hc'), hg, min_self]
  congr 1
  apply dftC_congr
  intro r hrn
  rw [s3 r c hc', (hgc c hc').2.2 r hrn, wrapIdx_natCast]
  apply lagCol_real
  intro t
  have hz : (zext x ((c : ℤ) - t - 1)).im = 0 := by
    unfold zext
    split
    · exact hreal _ (by omega)
    · rfl
  rw [Complex.mul_im, Complex.conj_im, Complex.conj_re, hz, hreal c hc']
  ring

/-- The Page representation of a *real* signal with default parameters is repeatable: any number of further runs on the same object
gives the same matrix. -/
theorem C40_page_repeatable (x : Vec ℂ) (hx : x.len ≠ 0) (hreal : ∀ i < x.len, (x.get i).im = 0) :
    ∃ M : Mat ℝ, ∀ k : ℕ, ∃ (o : TFR ℤ) (M' : Mat ℝ),
      times pageRun (k + 1) (TFR.init makeWindow x (arange 0 x.len) x.len none) = .ok o ∧ o.tfr = .real M' ∧ M'.Same M := by
  obtain ⟨M, ⟨o₁, h1, h2⟩, _⟩ := C39_default x hx
  have hM : PageReturns x (arange 0 x.len) x.len M := ⟨o₁, h1, h2⟩
  have hst : PageState x M o₁ := by
    obtain ⟨hl, hg⟩ := arange_default x.len
    obtain ⟨M₀, m1, _⟩ := (pageRun_spec makeWindow x (arange 0 x.len) x.len none hx).1
      (fun c hc => idxOk_of_lt (by rw [hg]; omega) (by rw [hg]; rw [hl] at hc; omega))
    rw [m1] at h1
    injection h1 with h1
    subst h1
    injection h2 with h2
    subst h2
    exact ⟨rfl, rfl, rfl, M₀, rfl, rfl, rfl, fun _ _ _ _ => rfl⟩
  have key : ∀ k o, PageState x M o → ∃ o', times pageRun k o = .ok o' ∧ PageState x M o' := by
    intro k
    induction k with
    | zero => intro o ho; exact ⟨o, rfl, ho⟩
    | succ k ih =>
      intro o ho
      obtain ⟨o', e1, e2⟩ := pageRun_state x hx hreal M hM o ho
      obtain ⟨o'', e3, e4⟩ := ih o' e2
      exact ⟨o'', by unfold times; rw [e1, ok_bind]; exact e3, e4⟩
  refine ⟨M, fun k => ?_⟩
  obtain ⟨o', e1, _, _, _, M', e2, e3⟩ := key k o₁ hst
  exact ⟨o', M', by unfold times; rw [h1, ok_bind]; exact e1, e2, e3⟩

example : (⟨4, fun i => (i : ℂ)⟩ : Vec ℂ).len ≠ 0 ∧ ∀ i < 4, ((⟨4, fun i => (i : ℂ)⟩ : Vec ℂ).get i).im = 0 := by
  refine ⟨by norm_num, fun i _ => by simp⟩

end Tftb.Props
