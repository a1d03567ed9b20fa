import Verif.Spec.DFT
import Mathlib.Analysis.SpecialFunctions.Pow.Real

/-! # What the noise generators should compute -/

namespace PyDyn
namespace NoiseSpec
open Finset

/-- arithmetic mean of `f 0, ..., f (n-1)` -/
noncomputable def sampleMean (n : ℕ) (f : ℕ → ℝ) : ℝ := (∑ i ∈ range n, f i) / n

/-- (population) standard deviation of `f 0, ..., f (n-1)` -/
noncomputable def sampleStd (n : ℕ) (f : ℕ → ℝ) : ℝ :=
  Real.sqrt ((∑ i ∈ range n, (f i - sampleMean n f) ^ 2) / n)

/-- The signal of length `N` whose DFT is that of `w` multiplied by `c k` at the frequencies `k`
and `-k`. -/
noncomputable def shaped (N : ℕ) (w : ℕ → ℝ) (c : ℕ → ℝ) (n : ℕ) : ℂ :=
  (∑ k ∈ range N, (c (min k (N - k)) : ℂ) * DFTSpec.dft N N w k
    * Complex.exp (2 * Real.pi * Complex.I * k * n / N)) / N

/-- `e` solves the ARMA equation with coefficients `phi 1, ..., phi p`, `theta 1, ..., theta q`
and noise `w` up to time `len`. -/
def IsARMA (p q : ℕ) (phi theta w e : ℕ → ℝ) (len : ℕ) : Prop :=
  ∀ n < len, e n = ∑ j ∈ Icc 1 (min p n), phi j * e (n - j)
    + ∑ j ∈ Icc 1 (min q n), theta j * w (n - j) + w n

end NoiseSpec
end PyDyn
