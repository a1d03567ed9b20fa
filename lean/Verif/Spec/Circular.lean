import Verif.Base
import Mathlib.Data.Real.Basic

/-! # Circular convolution

Written with plain sums and matrices, independently of the model. -/

namespace PyDyn
namespace DFTSpec
open Finset

/-- The matrix of circular convolution with `g 0, ..., g (N-1)`: entry `(n, m)` is
`g ((n - m) mod N)`. -/
def circulant (N : ℕ) (g : ℕ → ℝ) : Mat ℝ := Mat.ofFn N N (fun n m => g ((n + N - m) % N))

/-- Circular convolution of two signals of length `N`. -/
noncomputable def circConv (N : ℕ) (x g : ℕ → ℝ) (n : ℕ) : ℝ :=
  ∑ m ∈ range N, x m * g ((n + N - m) % N)

end DFTSpec
end PyDyn
