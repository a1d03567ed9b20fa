import Mathlib.Data.Real.Basic
import Mathlib.Data.Matrix.Mul
import Mathlib.Algebra.BigOperators.Ring.Finset

/-! # Least squares -/

namespace PyDyn
namespace LSSpec
open scoped Matrix

/-- Sum of squares. -/
def sq {n : ℕ} (v : Fin n → ℝ) : ℝ := ∑ i, v i ^ 2

/-- `x` minimises `|A x - y|²`. -/
def IsLeast {m n : ℕ} (A : Matrix (Fin m) (Fin n) ℝ) (y : Fin m → ℝ) (x : Fin n → ℝ) : Prop :=
  ∀ x', sq (A *ᵥ x - y) ≤ sq (A *ᵥ x' - y)

/-- `x` is the shortest vector that minimises `|A x - y|²`. -/
def IsMinNorm {m n : ℕ} (A : Matrix (Fin m) (Fin n) ℝ) (y : Fin m → ℝ) (x : Fin n → ℝ) : Prop :=
  IsLeast A y x ∧ ∀ x', IsLeast A y x' → sq x ≤ sq x'

end LSSpec
end PyDyn
