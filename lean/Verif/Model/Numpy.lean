import Verif.Base

/-!
# Library calls used by several modules

These definitions describe numpy/scipy functions, not code of /repo. They follow the
documented behaviour (section 3 of DESIGN.md).
-/

namespace PyDyn
namespace Np
variable {K : Type*}

/-- `scipy.linalg.toeplitz(c, r)`: first column `c`, first row `r` (`r[0]` is ignored). -/
def toeplitz [Zero K] (c r : Vec K) : Mat K :=
  Mat.ofFn c.len r.len (fun i j => if j ≤ i then c.el (i - j) else r.el (j - i))

/-- Kernel of `scipy.signal.convolve(.., mode="valid")` in one dimension for
`k.len ≤ x.len`. -/
def convValidCore1 [Mul K] [AddCommMonoid K] (k x : Vec K) : Vec K :=
  Vec.ofFn (x.len - k.len + 1)
    (fun i => ∑ a ∈ Finset.range k.len, k.el a * x.el (i + (k.len - 1) - a))

/-- `scipy.signal.convolve(x, y, mode="valid")` for one-dimensional arrays
(empty inputs are not modelled). -/
def convValid1 [Mul K] [AddCommMonoid K] (x y : Vec K) : Py (Vec K) :=
  if x.len = 0 ∨ y.len = 0 then throw .unmodelled
  else if y.len ≤ x.len then pure (convValidCore1 y x)
  else pure (convValidCore1 x y)

/-- Kernel of `scipy.signal.convolve(.., mode="valid")` in two dimensions for a kernel `k`
that is not larger than `x` in both dimensions. -/
def convValidCore2 [Mul K] [AddCommMonoid K] (k x : Mat K) : Mat K :=
  Mat.ofFn (x.rows - k.rows + 1) (x.cols - k.cols + 1)
    (fun i j => ∑ a ∈ Finset.range k.rows, ∑ b ∈ Finset.range k.cols,
      k.el a b * x.el (i + (k.rows - 1) - a) (j + (k.cols - 1) - b))

/-- `scipy.signal.convolve(x, y, mode="valid")` for two-dimensional arrays: one input must
be at least as large as the other in every dimension (empty inputs are not modelled). -/
def convValid2 [Mul K] [AddCommMonoid K] (x y : Mat K) : Py (Mat K) :=
  if x.rows = 0 ∨ x.cols = 0 ∨ y.rows = 0 ∨ y.cols = 0 then throw .unmodelled
  else if y.rows ≤ x.rows ∧ y.cols ≤ x.cols then pure (convValidCore2 y x)
  else if x.rows ≤ y.rows ∧ x.cols ≤ y.cols then pure (convValidCore2 x y)
  else throw .valueError

/-- `A += B` for one-dimensional arrays: `B` must broadcast to the shape of `A`. -/
def iadd1 [Zero K] [Add K] (A B : Vec K) : Py (Vec K) :=
  if B.len = A.len then pure (Vec.add A B)
  else if B.len = 1 then pure (Vec.ofFn A.len (fun i => A.el i + B.el 0))
  else throw .valueError

/-- `A += B` for two-dimensional arrays: `B` must broadcast to the shape of `A`. -/
def iadd2 [Zero K] [Add K] (A B : Mat K) : Py (Mat K) :=
  if (B.rows = A.rows ∨ B.rows = 1) ∧ (B.cols = A.cols ∨ B.cols = 1) then
    pure (Mat.ofFn A.rows A.cols (fun i j =>
      A.el i j + B.el (if B.rows = A.rows then i else 0) (if B.cols = A.cols then j else 0)))
  else throw .valueError

/-- One step of the direct form II transposed structure (`scipy.signal.lfilter`), for
coefficients normalised to `a[0] = 1`; the delay states are `z 0, z 1, ...`. -/
def dfStep [Ring K] (b a : ℕ → K) (z : ℕ → K) (x : K) : K × (ℕ → K) :=
  let y := z 0 + b 0 * x
  (y, fun i => z (i + 1) + b (i + 1) * x - a (i + 1) * y)

/-- Delay states before sample `n` is processed. -/
def dfState [Ring K] (b a : ℕ → K) (z : ℕ → K) (x : ℕ → K) : ℕ → (ℕ → K)
  | 0 => z
  | n + 1 => (dfStep b a (dfState b a z x n) (x n)).2

/-- Output sample `n`. -/
def dfOut [Ring K] (b a : ℕ → K) (z : ℕ → K) (x : ℕ → K) (n : ℕ) : K :=
  (dfStep b a (dfState b a z x n) (x n)).1

/-- `scipy.signal.lfilter(b, a, x, zi=zi)[0]`. Coefficients are divided by `a[0]`, which
must not be 0; `zi` must have length `max(len(a), len(b)) - 1`. Empty signals are not
modelled. -/
def lfilter [Field K] [DecidableEq K] (b a x zi : Vec K) : Py (Vec K) :=
  if b.len = 0 ∨ a.len = 0 then throw .valueError
  else if a.el 0 = 0 then throw .valueError
  else if zi.len ≠ max a.len b.len - 1 then throw .valueError
  else if x.len = 0 then throw .unmodelled
  else pure (Vec.ofFn x.len
    (dfOut (fun i => b.el i / a.el 0) (fun i => a.el i / a.el 0) zi.el x.el))

/-- `scipy.signal.lfilter(b, a, x)`: zero initial state. -/
def lfilter0 [Field K] [DecidableEq K] (b a x : Vec K) : Py (Vec K) :=
  lfilter b a x (Vec.zeros (max a.len b.len - 1))

/-- `scipy.signal.lfilter_zi(b, a)`. The companion matrix needs at least two coefficients
(ValueError otherwise). Stripping leading zeros of `a` is not modelled. -/
def lfilterZi [Field K] [DecidableEq K] (b a : Vec K) : Py (Vec K) :=
  if a.len = 0 ∨ a.el 0 = 0 then throw .unmodelled
  else if max a.len b.len < 2 then throw .valueError
  else
    let n := max a.len b.len
    let bn : ℕ → K := fun i => b.el i / a.el 0
    let an : ℕ → K := fun i => a.el i / a.el 0
    let z0 : K := (∑ i ∈ Finset.range (n - 1), (bn (i + 1) - an (i + 1) * bn 0)) /
      (1 + ∑ i ∈ Finset.range (n - 1), an (i + 1))
    pure (Vec.ofFn (n - 1) (fun k =>
      if k = 0 then z0
      else (1 + ∑ j ∈ Finset.range k, an (j + 1)) * z0
        - ∑ j ∈ Finset.range k, (bn (j + 1) - an (j + 1) * bn 0)))

/-- `np.roll(U, s, axis=(0, 1))` with the same shift on both axes. -/
def roll2 [Zero K] (U : Mat K) (s : ℤ) : Mat K :=
  Mat.ofFn U.rows U.cols (fun i j =>
    U.el (((i : ℤ) - s) % (U.rows : ℤ)).toNat (((j : ℤ) - s) % (U.cols : ℤ)).toNat)

/-- `np.roll(U, (s, s))` without `axis`: the array is flattened (row-major), rolled by
`s + s` and reshaped. -/
def rollFlat [Zero K] (U : Mat K) (s : ℤ) : Mat K :=
  Mat.ofFn U.rows U.cols (fun i j =>
    let f : ℕ := (((i * U.cols + j : ℕ) : ℤ) - (s + s)) % ((U.rows * U.cols : ℕ) : ℤ) |>.toNat
    U.el (f / U.cols) (f % U.cols))

/-- `np.pad(v, (l, r), mode="constant", constant_values=0)` -/
def padZero [Zero K] (v : Vec K) (l r : ℕ) : Vec K :=
  Vec.ofFn (l + v.len + r) (fun i => if l ≤ i then v.el (i - l) else 0)

/-- `np.pad(U, ((l, r), (l, r)), mode="constant", constant_values=0)` -/
def padZero2 [Zero K] (U : Mat K) (l r : ℕ) : Mat K :=
  Mat.ofFn (l + U.rows + r) (l + U.cols + r)
    (fun i j => if l ≤ i ∧ l ≤ j then U.el (i - l) (j - l) else 0)

end Np
end PyDyn
