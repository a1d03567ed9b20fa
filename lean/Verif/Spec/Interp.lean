import Verif.Base
import Mathlib.Data.Real.Basic

/-! # What interpolation should compute -/

namespace PyDyn
namespace InterpSpec

/-- `v` is the value at `x` of the polygon through the points `(t i, y i)`, `i < n`: on every
segment that contains `x` it lies on the chord. -/
def OnPolygon (n : ℕ) (t y : ℕ → ℝ) (x v : ℝ) : Prop :=
  ∀ i, i + 1 < n → t i ≤ x → x ≤ t (i + 1) →
    v = y i + (x - t i) / (t (i + 1) - t i) * (y (i + 1) - y i)

/-- `i` is the last of the nodes `t 0, ..., t (n-1)` that are at most `x`. -/
def IsPrevious (n : ℕ) (t : ℕ → ℝ) (x : ℝ) (i : ℕ) : Prop :=
  i < n ∧ t i ≤ x ∧ ∀ j < n, t j ≤ x → j ≤ i

/-- `i` is the first of the nodes that are at least `x`. -/
def IsNext (n : ℕ) (t : ℕ → ℝ) (x : ℝ) (i : ℕ) : Prop :=
  i < n ∧ x ≤ t i ∧ ∀ j < n, x ≤ t j → i ≤ j

/-- `i` is a node with minimal distance to `x`, the first one if there are two. -/
def IsNearest (n : ℕ) (t : ℕ → ℝ) (x : ℝ) (i : ℕ) : Prop :=
  i < n ∧ ∀ j < n, |x - t i| ≤ |x - t j| ∧ (|x - t i| = |x - t j| → i ≤ j)

end InterpSpec
end PyDyn
