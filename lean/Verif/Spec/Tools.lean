import Verif.Base
import Mathlib.Data.Real.Basic

/-! # What the routines of tools.py should compute -/

namespace PyDyn
namespace ToolsSpec
open Finset

/-- Index to which element `i` of an array of length `n` is moved by a circular shift by `s`. -/
def dest (n : ℕ) (s : ℤ) (i : ℕ) : ℕ := (((i : ℤ) + s) % n).toNat

/-- Every eigenvalue of the matrix is at least `t`. -/
def EigenvaluesGe (A : Mat ℝ) (t : ℝ) : Prop :=
  ∀ (l : ℝ) (v : ℕ → ℝ), (∃ i < A.rows, v i ≠ 0) →
    (∀ i < A.rows, ∑ j ∈ range A.cols, A.el i j * v j = l * v i) → t ≤ l

/-- `B` is the symmetric part of `A` plus `c` times the identity. -/
def IsSymPartPlus (A B : Mat ℝ) (c : ℝ) : Prop :=
  B.rows = A.rows ∧ B.cols = A.cols ∧ ∀ i < A.rows, ∀ j < A.cols,
    B.el i j = (A.el i j + A.el j i) / 2 + if i = j then c else 0

end ToolsSpec
end PyDyn
