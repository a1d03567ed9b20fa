import Verif.Base
import Mathlib.Data.Real.Basic

/-!
# Comparison of covariances

`NotLarger A B`: the covariance `B` exceeds `A` by a positive semidefinite matrix, that is every
linear combination has a variance under `B` that is at least its variance under `A`
(`notLarger_iff` in Lemmas/Monotone.lean).
-/

namespace PyDyn

/-- `A` and `B` have the same shape and `B - A` is positive semidefinite. -/
def NotLarger (A B : Mat ℝ) : Prop :=
  A.rows = B.rows ∧ A.cols = B.cols ∧
    (Mat.ofFn A.rows A.cols (fun i j => B.el i j - A.el i j)).PSD

/-- The symmetric part of a square array. -/
noncomputable def symPart (V : Mat ℝ) : Mat ℝ :=
  Mat.ofFn V.rows V.cols (fun i j => (V.el i j + V.el j i) / 2)

end PyDyn
