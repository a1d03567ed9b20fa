import Mathlib.Algebra.BigOperators.Intervals
import Mathlib.Algebra.BigOperators.Ring.Finset
import Mathlib.Algebra.Field.Basic
import Mathlib.Data.Matrix.Mul
import Mathlib.Tactic.Ring
import Mathlib.Tactic.FieldSimp
import Mathlib.Tactic.Linarith

/-!
# Basic data types of the model

Run-time shaped arrays and Python exceptions. numpy arrays of dimension one and two are
`Vec` and `Mat`; their shapes are data, so that shape errors can be modelled.
`el` reads an entry; it is only meaningful in range (out of range it is `0`, and every
model definition that could read out of range in Python guards the access).
-/

namespace PyDyn

/-- Python exception classes raised by the modelled code (messages are not modelled).
`unmodelled` marks inputs on which the model makes no claim. -/
inductive PyErr
  | valueError | typeError | indexError | assertionError | notImplemented | nameError
  | unboundLocal | attributeError | ioError | userWarning | zeroDivision | linAlgError | unmodelled
  deriving DecidableEq, Repr

/-- Result of a Python call: a value or a raised exception. -/
abbrev Py (α : Type*) := Except PyErr α

/-- A sequence of two calls returns a value iff both return one. -/
lemma Py.bind_ok.{u} {α β : Type u} {x : Py α} {f : α → Py β} {b : β} :
    (x >>= f) = .ok b ↔ ∃ a, x = .ok a ∧ f a = .ok b := by
  cases x with
  | error e => simp [bind, Except.bind]
  | ok a => simp [bind, Except.bind]

lemma Py.pure_ok {α : Type*} {a b : α} : (pure a : Py α) = .ok b ↔ a = b := by
  simp [pure, Except.pure]

lemma Py.throw_ok {α : Type*} {e : PyErr} {b : α} : ¬ (throw e : Py α) = .ok b := by
  simp [throw, throwThe, MonadExceptOf.throw]

/-- One-dimensional numpy array. -/
@[ext] structure Vec (K : Type*) where
  /-- `len(v)` -/
  len : ℕ
  /-- entries -/
  get : Fin len → K

/-- Two-dimensional numpy array. -/
@[ext] structure Mat (K : Type*) where
  /-- `shape[0]` -/
  rows : ℕ
  /-- `shape[1]` -/
  cols : ℕ
  /-- entries -/
  get : Fin rows → Fin cols → K

namespace Vec
variable {K L : Type*}

/-- `v[i]` (only meaningful for `i < v.len`). -/
def el [Zero K] (v : Vec K) (i : ℕ) : K := if h : i < v.len then v.get ⟨i, h⟩ else 0

/-- The array of length `n` with entries `f 0, ..., f (n-1)`. -/
def ofFn (n : ℕ) (f : ℕ → K) : Vec K := ⟨n, fun i => f i⟩

/-- Array literal. -/
def ofList [Zero K] (l : List K) : Vec K := ofFn l.length (fun i => l.getD i 0)

@[simp] lemma len_ofFn (n : ℕ) (f : ℕ → K) : (ofFn n f).len = n := rfl

@[simp] lemma el_ofFn [Zero K] (n : ℕ) (f : ℕ → K) (i : ℕ) :
    (ofFn n f).el i = if i < n then f i else 0 := by
  unfold el ofFn; split <;> rfl

lemma el_ofFn_lt [Zero K] {n : ℕ} (f : ℕ → K) {i : ℕ} (h : i < n) :
    (ofFn n f).el i = f i := by simp [h]

lemma el_of_ge [Zero K] (v : Vec K) {i : ℕ} (h : v.len ≤ i) : v.el i = 0 := by
  unfold el; rw [dif_neg]; omega

/-- Extensionality in terms of `len` and `el`. -/
lemma ext_el [Zero K] {v w : Vec K} (hl : v.len = w.len)
    (h : ∀ i < v.len, v.el i = w.el i) : v = w := by
  obtain ⟨n, f⟩ := v
  obtain ⟨m, g⟩ := w
  simp only at hl h
  subst hl
  congr 1
  funext i
  have := h i i.2
  unfold el at this
  simpa using this

lemma ofFn_el [Zero K] (v : Vec K) : ofFn v.len v.el = v :=
  ext_el rfl (fun i hi => by simp at hi; simp [hi])

lemma ofFn_congr {n : ℕ} {f g : ℕ → K} (h : ∀ i < n, f i = g i) : ofFn n f = ofFn n g := by
  unfold ofFn; congr 1; funext i; exact h i i.2

/-- `np.zeros(n)` -/
def zeros [Zero K] (n : ℕ) : Vec K := ofFn n (fun _ => 0)

/-- `np.full(n, c)` -/
def full (n : ℕ) (c : K) : Vec K := ofFn n (fun _ => c)

/-- element-wise function -/
def map [Zero K] (f : K → L) (v : Vec K) : Vec L := ofFn v.len (fun i => f (v.el i))

/-- `np.r_[v, w]`, `np.hstack((v, w))` for one-dimensional arrays -/
def append [Zero K] (v w : Vec K) : Vec K :=
  ofFn (v.len + w.len) (fun i => if i < v.len then v.el i else w.el (i - v.len))

/-- `v[a:b]` for `a, b ≥ 0` (Python clips the bounds). -/
def slice [Zero K] (v : Vec K) (a b : ℕ) : Vec K :=
  ofFn (min b v.len - a) (fun i => v.el (a + i))

/-- `v[::-1]` -/
def reverse [Zero K] (v : Vec K) : Vec K := ofFn v.len (fun i => v.el (v.len - 1 - i))

/-- `np.roll(v, s)`: element `i` moves to index `(i + s) mod len`. -/
def roll [Zero K] (v : Vec K) (s : ℤ) : Vec K :=
  ofFn v.len (fun i => v.el (((i : ℤ) - s) % (v.len : ℤ)).toNat)

/-- element-wise sum of arrays of equal length -/
def add [Zero K] [Add K] (v w : Vec K) : Vec K := ofFn v.len (fun i => v.el i + w.el i)

/-- `c * v` -/
def smul [Zero K] [Mul K] (c : K) (v : Vec K) : Vec K := ofFn v.len (fun i => c * v.el i)

/-- `np.sum(v)` -/
def sum [AddCommMonoid K] (v : Vec K) : K := ∑ i ∈ Finset.range v.len, v.el i

section simps
variable [Zero K]
@[simp] lemma len_zeros (n : ℕ) : (zeros n : Vec K).len = n := rfl
@[simp] lemma el_zeros (n i : ℕ) : (zeros n : Vec K).el i = 0 := by simp [zeros]
omit [Zero K] in
@[simp] lemma len_full (n : ℕ) (c : K) : (full n c).len = n := rfl
lemma el_full {n i : ℕ} (h : i < n) (c : K) : (full n c).el i = c := by simp [full, h]
@[simp] lemma len_map [Zero L] (f : K → L) (v : Vec K) : (map f v).len = v.len := rfl
lemma el_map [Zero L] (f : K → L) (v : Vec K) {i : ℕ} (h : i < v.len) :
    (map f v).el i = f (v.el i) := by simp [map, h]
@[simp] lemma len_append (v w : Vec K) : (append v w).len = v.len + w.len := rfl
lemma el_append_left (v w : Vec K) {i : ℕ} (h : i < v.len) : (append v w).el i = v.el i := by
  have : i < v.len + w.len := by omega
  simp [append, h, this]
lemma el_append_right (v w : Vec K) {i : ℕ} (h : v.len ≤ i) :
    (append v w).el i = w.el (i - v.len) := by
  simp only [append, el_ofFn]
  split
  · rw [if_neg (by omega)]
  · rw [el_of_ge w (by omega)]
@[simp] lemma len_slice (v : Vec K) (a b : ℕ) : (slice v a b).len = min b v.len - a := rfl
lemma el_slice (v : Vec K) {a b i : ℕ} (h : a + i < b) : (slice v a b).el i = v.el (a + i) := by
  simp only [slice, el_ofFn]
  split
  · rfl
  · rw [el_of_ge v (by omega)]
@[simp] lemma len_reverse (v : Vec K) : (reverse v).len = v.len := rfl
lemma el_reverse (v : Vec K) {i : ℕ} (h : i < v.len) :
    (reverse v).el i = v.el (v.len - 1 - i) := by simp [reverse, h]
@[simp] lemma len_roll (v : Vec K) (s : ℤ) : (roll v s).len = v.len := rfl
lemma el_roll (v : Vec K) (s : ℤ) {i : ℕ} (h : i < v.len) :
    (roll v s).el i = v.el (((i : ℤ) - s) % (v.len : ℤ)).toNat := by simp [roll, h]
@[simp] lemma roll_zero (v : Vec K) : roll v 0 = v := by
  refine ext_el rfl (fun i hi => ?_)
  simp only [len_roll] at hi
  rw [el_roll v 0 hi]
  congr 1
  rw [sub_zero, Int.emod_eq_of_lt (by omega) (by omega)]
  simp
end simps

@[simp] lemma len_add [Zero K] [Add K] (v w : Vec K) : (add v w).len = v.len := rfl
lemma el_add [AddZeroClass K] (v w : Vec K) {i : ℕ} (h : i < v.len) :
    (add v w).el i = v.el i + w.el i := by simp [add, h]
@[simp] lemma len_smul [Zero K] [Mul K] (c : K) (v : Vec K) : (smul c v).len = v.len := rfl
@[simp] lemma el_smul [MulZeroClass K] (c : K) (v : Vec K) (i : ℕ) :
    (smul c v).el i = c * v.el i := by
  simp only [smul, el_ofFn]
  split
  · rfl
  · rw [el_of_ge v (by omega), mul_zero]

@[simp] lemma len_ofList [Zero K] (l : List K) : (ofList l).len = l.length := rfl
@[simp] lemma el_ofList [Zero K] (l : List K) (i : ℕ) : (ofList l).el i = l.getD i 0 := by
  simp only [ofList, el_ofFn]
  split
  · rfl
  · rw [List.getD_eq_getElem?_getD, List.getElem?_eq_none (by omega)]; rfl

end Vec

namespace Mat
variable {K L : Type*}

/-- `U[i, j]` (only meaningful in range). -/
def el [Zero K] (U : Mat K) (i j : ℕ) : K :=
  if h : i < U.rows ∧ j < U.cols then U.get ⟨i, h.1⟩ ⟨j, h.2⟩ else 0

/-- The `r × c` array with entries `f i j`. -/
def ofFn (r c : ℕ) (f : ℕ → ℕ → K) : Mat K := ⟨r, c, fun i j => f i j⟩

/-- Array literal (`c` columns). -/
def ofLists [Zero K] (c : ℕ) (l : List (List K)) : Mat K :=
  ofFn l.length c (fun i j => (l.getD i []).getD j 0)

@[simp] lemma rows_ofFn (r c : ℕ) (f : ℕ → ℕ → K) : (ofFn r c f).rows = r := rfl
@[simp] lemma cols_ofFn (r c : ℕ) (f : ℕ → ℕ → K) : (ofFn r c f).cols = c := rfl

@[simp] lemma el_ofFn [Zero K] (r c : ℕ) (f : ℕ → ℕ → K) (i j : ℕ) :
    (ofFn r c f).el i j = if i < r ∧ j < c then f i j else 0 := by
  unfold el ofFn; split <;> rfl

lemma el_ofFn_lt [Zero K] {r c : ℕ} (f : ℕ → ℕ → K) {i j : ℕ} (hi : i < r) (hj : j < c) :
    (ofFn r c f).el i j = f i j := by simp [hi, hj]

lemma el_of_not [Zero K] (U : Mat K) {i j : ℕ} (h : ¬ (i < U.rows ∧ j < U.cols)) :
    U.el i j = 0 := by
  unfold el; rw [dif_neg h]

lemma el_of_ge_left [Zero K] (U : Mat K) {i j : ℕ} (h : U.rows ≤ i) : U.el i j = 0 :=
  el_of_not U (by omega)

lemma el_of_ge_right [Zero K] (U : Mat K) {i j : ℕ} (h : U.cols ≤ j) : U.el i j = 0 :=
  el_of_not U (by omega)

lemma ext_el [Zero K] {U V : Mat K} (hr : U.rows = V.rows) (hc : U.cols = V.cols)
    (h : ∀ i < U.rows, ∀ j < U.cols, U.el i j = V.el i j) : U = V := by
  obtain ⟨r, c, f⟩ := U
  obtain ⟨r', c', g⟩ := V
  simp only at hr hc h
  subst hr hc
  congr 1
  funext i j
  have := h i i.2 j j.2
  unfold el at this
  simpa using this

lemma ofFn_el [Zero K] (U : Mat K) : ofFn U.rows U.cols U.el = U :=
  ext_el rfl rfl (fun i hi j hj => by simp at hi hj; simp [hi, hj])

lemma ofFn_congr {r c : ℕ} {f g : ℕ → ℕ → K} (h : ∀ i < r, ∀ j < c, f i j = g i j) :
    ofFn r c f = ofFn r c g := by
  unfold ofFn; congr 1; funext i j; exact h i i.2 j j.2

/-- `np.zeros((r, c))` -/
def zeros [Zero K] (r c : ℕ) : Mat K := ofFn r c (fun _ _ => 0)

/-- `np.diag(v)` of a one-dimensional array -/
def diag [Zero K] (v : Vec K) : Mat K :=
  ofFn v.len v.len (fun i j => if i = j then v.el i else 0)

/-- `np.diag(U)` of a two-dimensional array -/
def diagonal [Zero K] (U : Mat K) : Vec K := Vec.ofFn (min U.rows U.cols) (fun i => U.el i i)

/-- `U.T` -/
def transpose [Zero K] (U : Mat K) : Mat K := ofFn U.cols U.rows (fun i j => U.el j i)

/-- `np.outer(v, w)` -/
def outer [Zero K] [Mul K] (v w : Vec K) : Mat K :=
  ofFn v.len w.len (fun i j => v.el i * w.el j)

/-- `np.dot(A, B)` for matching inner dimensions -/
def mul [Mul K] [AddCommMonoid K] (A B : Mat K) : Mat K :=
  ofFn A.rows B.cols (fun i j => ∑ k ∈ Finset.range A.cols, A.el i k * B.el k j)

/-- element-wise sum (equal shapes) -/
def add [Zero K] [Add K] (A B : Mat K) : Mat K :=
  ofFn A.rows A.cols (fun i j => A.el i j + B.el i j)

/-- `c * A` -/
def smul [Zero K] [Mul K] (c : K) (A : Mat K) : Mat K :=
  ofFn A.rows A.cols (fun i j => c * A.el i j)

/-- `U[a:b, c:d]` for non-negative bounds -/
def slice [Zero K] (U : Mat K) (a b c d : ℕ) : Mat K :=
  ofFn (min b U.rows - a) (min d U.cols - c) (fun i j => U.el (a + i) (c + j))

/-- `np.vstack((np.hstack((A, B)), np.hstack((C, D))))` for matching shapes -/
def block [Zero K] (A B C D : Mat K) : Mat K :=
  ofFn (A.rows + C.rows) (A.cols + B.cols) (fun i j =>
    if i < A.rows then
      (if j < A.cols then A.el i j else B.el i (j - A.cols))
    else
      (if j < A.cols then C.el (i - A.rows) j else D.el (i - A.rows) (j - A.cols)))

/-- conversion to a Mathlib matrix of given shape -/
def toMatrix [Zero K] (U : Mat K) (n m : ℕ) : Matrix (Fin n) (Fin m) K :=
  Matrix.of (fun i j => U.el i j)

section simps
variable [Zero K]
@[simp] lemma rows_zeros (r c : ℕ) : (zeros r c : Mat K).rows = r := rfl
@[simp] lemma cols_zeros (r c : ℕ) : (zeros r c : Mat K).cols = c := rfl
@[simp] lemma el_zeros (r c i j : ℕ) : (zeros r c : Mat K).el i j = 0 := by simp [zeros]
@[simp] lemma rows_diag (v : Vec K) : (diag v).rows = v.len := rfl
@[simp] lemma cols_diag (v : Vec K) : (diag v).cols = v.len := rfl
lemma el_diag (v : Vec K) (i j : ℕ) : (diag v).el i j = if i = j then v.el i else 0 := by
  simp only [diag, el_ofFn]
  by_cases h : i = j
  · subst h
    by_cases h2 : i < v.len
    · simp [h2]
    · simp [h2, Vec.el_of_ge v (by omega : v.len ≤ i)]
  · simp [h]
@[simp] lemma len_diagonal (U : Mat K) : (diagonal U).len = min U.rows U.cols := rfl
lemma el_diagonal (U : Mat K) (i : ℕ) : (diagonal U).el i = U.el i i := by
  simp only [diagonal, Vec.el_ofFn]
  split
  · rfl
  · rw [el_of_not]; omega
@[simp] lemma rows_transpose (U : Mat K) : (transpose U).rows = U.cols := rfl
@[simp] lemma cols_transpose (U : Mat K) : (transpose U).cols = U.rows := rfl
@[simp] lemma el_transpose (U : Mat K) (i j : ℕ) : (transpose U).el i j = U.el j i := by
  simp only [transpose, el_ofFn]
  split
  · rfl
  · rw [el_of_not]; omega
@[simp] lemma rows_slice (U : Mat K) (a b c d : ℕ) :
    (slice U a b c d).rows = min b U.rows - a := rfl
@[simp] lemma cols_slice (U : Mat K) (a b c d : ℕ) :
    (slice U a b c d).cols = min d U.cols - c := rfl
lemma el_slice (U : Mat K) {a b c d i j : ℕ} (hi : a + i < b) (hj : c + j < d) :
    (slice U a b c d).el i j = U.el (a + i) (c + j) := by
  simp only [slice, el_ofFn]
  split
  · rfl
  · rw [el_of_not]; omega
@[simp] lemma rows_block (A B C D : Mat K) : (block A B C D).rows = A.rows + C.rows := rfl
@[simp] lemma cols_block (A B C D : Mat K) : (block A B C D).cols = A.cols + B.cols := rfl
end simps

@[simp] lemma rows_outer [Zero K] [Mul K] (v w : Vec K) : (outer v w).rows = v.len := rfl
@[simp] lemma cols_outer [Zero K] [Mul K] (v w : Vec K) : (outer v w).cols = w.len := rfl
@[simp] lemma el_outer [MulZeroClass K] (v w : Vec K) (i j : ℕ) :
    (outer v w).el i j = v.el i * w.el j := by
  simp only [outer, el_ofFn]
  split
  · rfl
  · by_cases h : i < v.len
    · rw [Vec.el_of_ge w (by omega), mul_zero]
    · rw [Vec.el_of_ge v (by omega), zero_mul]
@[simp] lemma rows_mul [Mul K] [AddCommMonoid K] (A B : Mat K) : (mul A B).rows = A.rows := rfl
@[simp] lemma cols_mul [Mul K] [AddCommMonoid K] (A B : Mat K) : (mul A B).cols = B.cols := rfl
lemma el_mul [NonUnitalNonAssocSemiring K] (A B : Mat K) (i j : ℕ) :
    (mul A B).el i j = ∑ k ∈ Finset.range A.cols, A.el i k * B.el k j := by
  simp only [mul, el_ofFn]
  split
  · rfl
  · symm
    apply Finset.sum_eq_zero
    intro k _
    by_cases h : i < A.rows
    · rw [el_of_ge_right B (by omega), mul_zero]
    · rw [el_of_ge_left A (by omega), zero_mul]
@[simp] lemma rows_add [Zero K] [Add K] (A B : Mat K) : (add A B).rows = A.rows := rfl
@[simp] lemma cols_add [Zero K] [Add K] (A B : Mat K) : (add A B).cols = A.cols := rfl
lemma el_add [AddZeroClass K] (A B : Mat K) (hr : A.rows = B.rows) (hc : A.cols = B.cols)
    (i j : ℕ) : (add A B).el i j = A.el i j + B.el i j := by
  simp only [add, el_ofFn]
  split
  · rfl
  · rw [el_of_not A (by omega), el_of_not B (by omega), add_zero]
lemma el_add_lt [AddZeroClass K] (A B : Mat K) {i j : ℕ} (hi : i < A.rows) (hj : j < A.cols) :
    (add A B).el i j = A.el i j + B.el i j := by simp [add, hi, hj]
@[simp] lemma rows_smul [Zero K] [Mul K] (c : K) (A : Mat K) : (smul c A).rows = A.rows := rfl
@[simp] lemma cols_smul [Zero K] [Mul K] (c : K) (A : Mat K) : (smul c A).cols = A.cols := rfl
@[simp] lemma el_smul [MulZeroClass K] (c : K) (A : Mat K) (i j : ℕ) :
    (smul c A).el i j = c * A.el i j := by
  simp only [smul, el_ofFn]
  split
  · rfl
  · rw [el_of_not A (by omega), mul_zero]

/-- Symmetric (square) matrix. -/
def IsSymm [Zero K] (U : Mat K) : Prop := U.rows = U.cols ∧ ∀ i j, U.el i j = U.el j i

/-- Positive semidefinite: square, symmetric, non-negative quadratic form. -/
def PSD [Semiring K] [LE K] (U : Mat K) : Prop :=
  U.IsSymm ∧ ∀ v : ℕ → K,
    0 ≤ ∑ i ∈ Finset.range U.rows, ∑ j ∈ Finset.range U.cols, v i * U.el i j * v j

end Mat

end PyDyn
