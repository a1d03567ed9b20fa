import Verif.Base

/-!
# Specification of discrete convolution with boundary handling

Follows the documentation of `numpy.convolve` and `scipy.ndimage.convolve1d`.
-/

namespace PyDyn
namespace Spec
open Finset
variable {K : Type*}

/-- Which element of a record of length `n` stands at time `t`, if any:
`nearest` (a a a a | a b c d | d d d d), `reflect` (d c b a | a b c d | d c b a),
`mirror` (d c b | a b c d | c b a), the latter two repeated periodically; the numpy modes continue by
zeros. `IsContinuation` says the same by the symmetries of the continued signal. -/
def source (mode : String) (n : ℕ) (t : ℤ) : Option ℕ :=
  if 0 ≤ t ∧ t < n then some t.toNat
  else if mode = "nearest" then some (if t < 0 then 0 else n - 1)
  else if mode = "reflect" then
    some (min (t % (2 * n : ℤ)).toNat (2 * n - 1 - (t % (2 * n : ℤ)).toNat))
  else if mode = "mirror" then
    some (if n = 1 then 0
      else min (t % (2 * n - 2 : ℤ)).toNat (2 * n - 2 - (t % (2 * n - 2 : ℤ)).toNat))
  else none

/-- `e` continues the record `a` of length `n` to all times: by the values at the ends (`nearest`), such
that it is symmetric about the outer boundaries of the first and last element (`reflect`), or about the
first and last element themselves (`mirror`; for a single element: constant). -/
structure IsContinuation (mode : String) (n : ℕ) (a : ℕ → K) (e : ℤ → K) : Prop where
  inside : ∀ t : ℕ, t < n → e t = a t
  nearest : mode = "nearest" → (∀ t < 0, e t = a 0) ∧ ∀ t : ℤ, n ≤ t → e t = a (n - 1)
  reflect : mode = "reflect" → ∀ t, e (-1 - t) = e t ∧ e (2 * n - 1 - t) = e t
  mirror : mode = "mirror" → (n = 1 → ∀ t, e t = a 0) ∧ ∀ t, e (-t) = e t ∧ e (2 * n - 2 - t) = e t

/-- Value at time `t` of the signal `a` continued as `source` says. -/
def extended [Zero K] (src : ℤ → Option ℕ) (a : ℕ → K) (t : ℤ) : K :=
  match src t with
  | some p => a p
  | none => 0

/-- Covariance of the continued signal. -/
def extended2 [Zero K] (src : ℤ → Option ℕ) (C : ℕ → ℕ → K) (s t : ℤ) : K :=
  match src s, src t with
  | some p, some q => C p q
  | _, _ => 0

/-- Convolution at time `t` of the continued signal `a` with the `m` kernel values `b`. -/
def convAt [Semiring K] (src : ℤ → Option ℕ) (m : ℕ) (a b : ℕ → K) (t : ℤ) : K :=
  ∑ k ∈ range m, b k * extended src a (t - k)

/-- Length of the result for signals of lengths `n` and `m`. -/
def convLen (mode : String) (n m : ℕ) : ℕ :=
  if mode = "full" then n + m - 1
  else if mode = "valid" then max n m - min n m + 1
  else if mode = "same" then max n m
  else n

/-- Time of the first element of the result, time 0 being the first element of the full
convolution. -/
def convStart (mode : String) (n m : ℕ) : ℕ :=
  if mode = "full" then 0
  else if mode = "valid" then min n m - 1
  else if mode = "same" then (min n m - 1) / 2
  else m / 2

end Spec
end PyDyn
