import Mathlib.Analysis.SpecialFunctions.Complex.Circle
import Mathlib.Analysis.SpecialFunctions.Pow.Real
import Mathlib.Analysis.SpecialFunctions.Complex.Arg
import Mathlib.Algebra.Order.Floor.Ring
import Mathlib.Data.Int.Interval
import Mathlib.Algebra.Order.BigOperators.Group.Finset
import Mathlib.Data.List.Sort
import Mathlib.Tactic.Linarith
import Mathlib.Tactic.Ring
import Mathlib.Tactic.NormNum
import Mathlib.Tactic.Positivity
import Mathlib.Tactic.FieldSimp

/-!
# Python / NumPy runtime semantics used by the model

This file does not model any file of `/repo`; it models the part of the Python and NumPy runtime
that the code of `/repo` relies on.  Conventions (see `DESIGN.md`):

* `float64` ↦ `ℝ`, `complex128` ↦ `ℂ`, integers ↦ `ℤ`/`ℕ`;
* a raised exception is a value `PyErr`; `PyErr.nonFinite` is *not* an exception but the
  outcome "NumPy would go on with NaN or an infinity", which the real-number model cannot represent.
-/

namespace Tftb

/-- Outcomes other than a normal return. -/
inductive PyErr
  | indexError
  | valueError
  | typeError
  | zeroDivisionError
  | assertionError
  | attributeError
  | notImplementedError
  | unboundLocalError
  | keyError
  /-- Not an exception: a NaN or an infinity would be produced (outside the real-number model). -/
  | nonFinite
  deriving DecidableEq, Repr

/-- Result of a Python call. -/
abbrev Py (α : Type) := Except PyErr α

/-- One-dimensional NumPy array: a length and an accessor.  Only the values of `get` at positions
below `len` are meaningful; all indexing made by the modelled code goes through the checked
operations below. -/
@[ext] structure Vec (α : Type) where
  len : ℕ
  get : ℕ → α

/-- Two-dimensional NumPy array. -/
@[ext] structure Mat (α : Type) where
  rows : ℕ
  cols : ℕ
  get : ℕ → ℕ → α

variable {α β γ : Type}

/-- NumPy admits the index `i` for an axis of length `n` iff `-n ≤ i < n`. -/
def IdxOk (n : ℕ) (i : ℤ) : Prop := -(n : ℤ) ≤ i ∧ i < (n : ℤ)

instance (n : ℕ) (i : ℤ) : Decidable (IdxOk n i) := by unfold IdxOk; infer_instance

/-- Position addressed by an admissible index: negative indices count from the end. -/
def wrapIdx (n : ℕ) (i : ℤ) : ℕ := (if i < 0 then i + n else i).toNat

namespace Vec

/-- Equality of arrays (same shape, same entries). -/
def Same (u v : Vec α) : Prop := u.len = v.len ∧ ∀ i < u.len, u.get i = v.get i

/-- Array given by a literal list (used for concrete examples). -/
def ofList [Inhabited α] (l : List α) : Vec α := ⟨l.length, fun i => l.getD i default⟩

/-- Unary ufunc. -/
def map (f : α → β) (v : Vec α) : Vec β := ⟨v.len, fun i => f (v.get i)⟩

/-- Binary ufunc with NumPy broadcasting of one-dimensional arrays. -/
def bcast (f : α → β → γ) (a : Vec α) (b : Vec β) : Py (Vec γ) :=
  if a.len = b.len then .ok ⟨a.len, fun i => f (a.get i) (b.get i)⟩
  else if a.len = 1 then .ok ⟨b.len, fun i => f (a.get 0) (b.get i)⟩
  else if b.len = 1 then .ok ⟨a.len, fun i => f (a.get i) (b.get 0)⟩
  else .error .valueError

/-- `v[i]` with an integer `i`. -/
def item (v : Vec α) (i : ℤ) : Py α :=
  if IdxOk v.len i then .ok (v.get (wrapIdx v.len i)) else .error .indexError

/-- `v[idx]` with an integer index array. -/
def take (v : Vec α) (idx : Vec ℤ) : Py (Vec α) :=
  if ∀ j < idx.len, IdxOk v.len (idx.get j) then
    .ok ⟨idx.len, fun j => v.get (wrapIdx v.len (idx.get j))⟩
  else .error .indexError

/-- `v[idx]` with an index array of float dtype: NumPy refuses, whatever the values (`arrays used as indices must be of integer (or
boolean) type`). -/
def takeF (_v : Vec α) (_idx : Vec ℝ) : Py (Vec α) := .error .indexError

/-- `v[i]` with a float `i`: NumPy refuses, whatever the value. -/
def itemF (_v : Vec α) (_i : ℝ) : Py α := .error .indexError

/-- Sequential stores `g[pos j] = val j` for `j = 0, …, L-1`; a later store overwrites an earlier one. -/
def scatter (g : ℕ → α) (pos : ℕ → ℕ) (val : ℕ → α) (L : ℕ) : ℕ → α :=
  (List.range L).foldl (fun g j => Function.update g (pos j) (val j)) g

/-- `v[idx] = vals` with an integer index array (fancy assignment). -/
def put (v : Vec α) (idx : Vec ℤ) (vals : Vec α) : Py (Vec α) :=
  if ¬ ∀ j < idx.len, IdxOk v.len (idx.get j) then .error .indexError
  else if vals.len = idx.len then
    .ok ⟨v.len, scatter v.get (fun j => wrapIdx v.len (idx.get j)) vals.get idx.len⟩
  else if vals.len = 1 then
    .ok ⟨v.len, scatter v.get (fun j => wrapIdx v.len (idx.get j)) (fun _ => vals.get 0) idx.len⟩
  else .error .valueError

/-- `v[i] = a` with an integer `i`. -/
def setItem (v : Vec α) (i : ℤ) (a : α) : Py (Vec α) :=
  if IdxOk v.len i then .ok ⟨v.len, Function.update v.get (wrapIdx v.len i) a⟩
  else .error .indexError

/-- Python's clamping of a slice bound against a length. -/
def clampIdx (n : ℕ) (i : ℤ) : ℕ := min n (if i < 0 then i + n else i).toNat

/-- `v[a:b]`. -/
def slice (v : Vec α) (a b : ℤ) : Vec α :=
  ⟨clampIdx v.len b - clampIdx v.len a, fun i => v.get (clampIdx v.len a + i)⟩

/-- `np.hstack((u, v))`. -/
def append (u v : Vec α) : Vec α :=
  ⟨u.len + v.len, fun i => if i < u.len then u.get i else v.get (i - u.len)⟩

/-- `v[::-1]`. -/
def reverse (v : Vec α) : Vec α := ⟨v.len, fun i => v.get (v.len - 1 - i)⟩

/-- `np.repeat(v, k)` for an integer `k ≥ 0`. -/
def repeatEach (v : Vec α) (k : ℕ) : Vec α := ⟨v.len * k, fun i => v.get (i / k)⟩

/-- `np.sum`. -/
def sum [AddCommMonoid α] (v : Vec α) : α := ∑ i ∈ Finset.range v.len, v.get i

/-- `np.mean`; the mean of an empty array is NaN. -/
noncomputable def mean (v : Vec ℝ) : Py ℝ :=
  if v.len = 0 then .error .nonFinite else .ok (v.sum / v.len)

/-- `np.amax`; raises `ValueError` on an empty array. -/
noncomputable def amax (v : Vec ℝ) : Py ℝ :=
  if h : v.len = 0 then .error .valueError
  else .ok ((Finset.range v.len).sup' ⟨0, Finset.mem_range.2 (Nat.pos_of_ne_zero h)⟩ v.get)

/-- `np.amin`; raises `ValueError` on an empty array. -/
noncomputable def amin (v : Vec ℝ) : Py ℝ :=
  if h : v.len = 0 then .error .valueError
  else .ok ((Finset.range v.len).inf' ⟨0, Finset.mem_range.2 (Nat.pos_of_ne_zero h)⟩ v.get)

/-- `np.linalg.norm` of a complex vector. -/
noncomputable def norm (v : Vec ℂ) : ℝ := Real.sqrt (∑ i ∈ Finset.range v.len, ‖v.get i‖ ^ 2)

/-- `np.cumsum`. -/
def cumsum [AddCommMonoid α] (v : Vec α) : Vec α :=
  ⟨v.len, fun i => ∑ j ∈ Finset.range (i + 1), v.get j⟩

/-- `np.diff`. -/
def diff [Sub α] (v : Vec α) : Vec α := ⟨v.len - 1, fun i => v.get (i + 1) - v.get i⟩

/-- Entries of the array, as a list. -/
def toList (v : Vec α) : List α := (List.range v.len).map v.get

/-- Array of the entries of a list. -/
def ofEntries [Zero α] (l : List α) : Vec α := ⟨l.length, fun i => l.getD i 0⟩

open Classical in
/-- Result of the in-place `v.sort()` of a real array. -/
noncomputable def sort (v : Vec ℝ) : Vec ℝ := ofEntries (v.toList.insertionSort (· ≤ ·))

open Classical in
/-- Positions at which a boolean mask of length `n` is true, in increasing order (`np.arange(n)[mask]`). -/
noncomputable def positions (n : ℕ) (mask : ℕ → Prop) : List ℕ := (List.range n).filter (fun i => decide (mask i))

end Vec

/-- `np.arange(a, b)` with integer bounds. -/
def arange (a b : ℤ) : Vec ℤ := ⟨(b - a).toNat, fun i => a + i⟩

/-- `np.arange(a, b)` with float bounds: `ceil(b - a)` values `a, a+1, …`. -/
noncomputable def arangeF (a b : ℝ) : Vec ℝ := ⟨⌈b - a⌉.toNat, fun i => a + i⟩

/-- `range(a, b)`. -/
def pyRange (a b : ℤ) : List ℤ := (List.range (b - a).toNat).map (fun i : ℕ => a + (i : ℤ))

/-- `np.linspace(a, b, n)` for `n ≥ 0` (one point: `[a]`). -/
noncomputable def linspace (a b : ℝ) (n : ℕ) : Vec ℝ :=
  ⟨n, fun i => if n = 1 then a else a + i * ((b - a) / (n - 1))⟩

/-- Python's `round` / `np.round` to an integer: ties go to the even neighbour. -/
noncomputable def roundEven (x : ℝ) : ℤ :=
  if x - ⌊x⌋ < 1 / 2 then ⌊x⌋
  else if 1 / 2 < x - ⌊x⌋ then ⌊x⌋ + 1
  else if Even ⌊x⌋ then ⌊x⌋ else ⌊x⌋ + 1

/-- Python's `int(x)` on a float: truncation towards zero. -/
noncomputable def truncInt (x : ℝ) : ℤ := if 0 ≤ x then ⌊x⌋ else ⌈x⌉

namespace Mat

/-- `np.zeros((r, c))`. -/
def zeros [Zero α] (r c : ℕ) : Mat α := ⟨r, c, fun _ _ => 0⟩

/-- Column `M[:, c]` (as a fresh array). -/
def col (M : Mat α) (c : ℕ) : Vec α := ⟨M.rows, fun r => M.get r c⟩

/-- Row `M[r, :]`. -/
def row (M : Mat α) (r : ℕ) : Vec α := ⟨M.cols, fun c => M.get r c⟩

/-- In-place update of column `c` by a computation on that column; addresses the column with a
non-negative loop counter, `IndexError` if it does not exist. -/
def updCol (M : Mat α) (c : ℕ) (f : Vec α → Py (Vec α)) : Py (Mat α) :=
  if c < M.cols then
    match f (M.col c) with
    | .ok v => .ok ⟨M.rows, M.cols, fun r c' => if c' = c then v.get r else M.get r c'⟩
    | .error e => .error e
  else .error .indexError

/-- `for icol in range(T): <update column icol>`; stops at the first exception. -/
def forCols (M : Mat α) (T : ℕ) (body : ℕ → Vec α → Py (Vec α)) : Py (Mat α) :=
  (List.range T).foldlM (fun M c => M.updCol c (body c)) M

/-- `M[idx, :]` with an integer index array. -/
def takeRows (M : Mat α) (idx : Vec ℤ) : Py (Mat α) :=
  if ∀ j < idx.len, IdxOk M.rows (idx.get j) then
    .ok ⟨idx.len, M.cols, fun r c => M.get (wrapIdx M.rows (idx.get r)) c⟩
  else .error .indexError

/-- `M[:b, :]` with a float bound `b`: Python refuses (`slice indices must be integers`), whatever the value. -/
def topRowsF (_M : Mat α) (_b : ℝ) : Py (Mat α) := .error .typeError

/-- `M[i, j]` with integers. -/
def item (M : Mat α) (i j : ℤ) : Py α :=
  if IdxOk M.rows i ∧ IdxOk M.cols j then .ok (M.get (wrapIdx M.rows i) (wrapIdx M.cols j)) else .error .indexError

/-- `M[i, j] = a` with integers. -/
def setItem (M : Mat α) (i j : ℤ) (a : α) : Py (Mat α) :=
  if IdxOk M.rows i ∧ IdxOk M.cols j then
    .ok ⟨M.rows, M.cols, fun r c => if r = wrapIdx M.rows i ∧ c = wrapIdx M.cols j then a else M.get r c⟩
  else .error .indexError

/-- `M[i, j] += a` with integers. -/
def addItem [Add α] (M : Mat α) (i j : ℤ) (a : α) : Py (Mat α) := do
  let b ← M.item i j
  M.setItem i j (b + a)

/-- Element-wise map. -/
def map (f : α → β) (M : Mat α) : Mat β := ⟨M.rows, M.cols, fun r c => f (M.get r c)⟩

/-- Equality of matrices (same shape, same entries). -/
def Same (A B : Mat α) : Prop :=
  A.rows = B.rows ∧ A.cols = B.cols ∧ ∀ r < A.rows, ∀ c < A.cols, A.get r c = B.get r c

end Mat

/-! ## Discrete Fourier transform -/

/-- The `m`-th power of the DFT root of unity of order `n`: `exp(-2πi·m/n)`. -/
noncomputable def rootPow (n : ℕ) (m : ℤ) : ℂ :=
  Complex.exp (-(2 * Real.pi * Complex.I * (m : ℂ) / (n : ℂ)))

/-- `np.fft.fft`; an empty input raises `ValueError`. -/
noncomputable def fft (v : Vec ℂ) : Py (Vec ℂ) :=
  if v.len = 0 then .error .valueError
  else .ok ⟨v.len, fun k => ∑ j ∈ Finset.range v.len, v.get j * rootPow v.len ((j : ℤ) * (k : ℤ))⟩

/-- `np.fft.ifft`; an empty input raises `ValueError`. -/
noncomputable def ifft (v : Vec ℂ) : Py (Vec ℂ) :=
  if v.len = 0 then .error .valueError
  else .ok ⟨v.len, fun k =>
    (∑ j ∈ Finset.range v.len, v.get j * rootPow v.len (-((j : ℤ) * (k : ℤ)))) / (v.len : ℂ)⟩

/-- `np.fft.fft(M, axis=0)`. -/
noncomputable def Mat.fft0 (M : Mat ℂ) : Py (Mat ℂ) :=
  if M.rows = 0 then .error .valueError
  else .ok ⟨M.rows, M.cols, fun k c =>
    ∑ j ∈ Finset.range M.rows, M.get j c * rootPow M.rows ((j : ℤ) * (k : ℤ))⟩

/-- `np.fft.fftshift` of a vector: rotation to the right by `n // 2`. -/
def fftshift (v : Vec α) : Vec α := ⟨v.len, fun i => v.get ((i + (v.len - v.len / 2)) % v.len)⟩

/-- `scipy.signal.hilbert` of a real vector: the spectrum is multiplied by
`h = [1, 2, …, 2, (1 if n even), 0, …, 0]`; an empty input raises `ValueError`. -/
noncomputable def hilbertMask (n k : ℕ) : ℝ :=
  if k = 0 then 1
  else if 2 * k < n then 2
  else if 2 * k = n then 1
  else 0

/-- `scipy.signal.hilbert`. -/
noncomputable def hilbert (x : Vec ℝ) : Py (Vec ℂ) := do
  let X ← fft (x.map (fun a : ℝ => (a : ℂ)))
  ifft ⟨X.len, fun k => X.get k * (hilbertMask X.len k : ℂ)⟩

/-- `scipy.signal.windows.hamming(M)` (symmetric). -/
noncomputable def hamming (M : ℕ) : Vec ℝ :=
  ⟨M, fun k => if M = 1 then 1 else 0.54 - 0.46 * Real.cos (2 * Real.pi * k / (M - 1))⟩

/-- Machine epsilon `np.spacing(1)`. -/
noncomputable def eps : ℝ := 2 ^ (-52 : ℤ)

end Tftb
