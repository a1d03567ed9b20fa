import Verif.Base
import Mathlib.Analysis.SpecialFunctions.Complex.Circle
import Mathlib.Analysis.SpecialFunctions.Trigonometric.Basic
import Mathlib.Analysis.Real.Sqrt
import Mathlib.Analysis.Calculus.Deriv.Basic
import Mathlib.Analysis.SpecialFunctions.Complex.Arg

/-! # What the frequency-domain routines should compute

Written with complex exponentials and Jacobian matrices, independently of the model. -/

namespace PyDyn
namespace DFTSpec
open Finset

/-- `k`-th value of the discrete Fourier transform of length `N` of `x 0, ..., x (len-1)`
(continued by zeros). -/
noncomputable def dft (N len : ℕ) (x : ℕ → ℝ) (k : ℕ) : ℂ :=
  ∑ n ∈ range len, (x n : ℂ) * Complex.exp (-(2 * Real.pi * Complex.I * k * n / N))

/-- Real parts of `f 0, ..., f (K-1)` followed by their imaginary parts. -/
def stacked (K : ℕ) (f : ℕ → ℂ) (a : ℕ) : ℝ := if a < K then (f a).re else (f (a - K)).im

/-- Bin `k` of a stacked vector of `2m` real numbers as complex number. -/
def bin (m : ℕ) (F : ℕ → ℝ) (k : ℕ) : ℂ := ⟨F k, F (m + k)⟩

/-- The real signal of even length `2h` with half spectrum `f 0, ..., f h`: the inverse DFT of
the spectrum continued to negative frequencies by complex conjugation (only the real parts of
`f 0` and `f h` enter). -/
noncomputable def idft (h : ℕ) (f : ℕ → ℂ) (n : ℕ) : ℝ :=
  ((f 0).re + (f h).re * (-1) ^ n
    + ∑ k ∈ Ico 1 h, 2 * (f k * Complex.exp (2 * Real.pi * Complex.I * k * n / (2 * h : ℕ))).re)
    / (2 * h : ℕ)

/-- `J U Jᵀ` -/
noncomputable def propagate (J U : Mat ℝ) : Mat ℝ := Mat.mul J (Mat.mul U (Mat.transpose J))

/-- Jacobian of a map acting on each of `m` bins separately, `(x_k, y_k) ↦ (f_k, g_k)`, for
vectors stacked as `(x, y)` and `(f, g)`; `fx k = ∂f_k/∂x_k` and so on. -/
def binwiseJacobian (m : ℕ) (fx fy gx gy : ℕ → ℝ) : Mat ℝ :=
  Mat.ofFn (2 * m) (2 * m) (fun i j =>
    if i < m then (if j = i then fx i else if j = m + i then fy i else 0)
    else (if j + m = i then gx (i - m) else if j = i then gy (i - m) else 0))

/-- `fx, fy, gx, gy` are the partial derivatives at `(x, y)` of the map `(x, y) ↦ (f, g)`. -/
structure IsJacobian (f g : ℝ → ℝ → ℝ) (x y fx fy gx gy : ℝ) : Prop where
  dfx : HasDerivAt (fun t => f t y) fx x
  dfy : HasDerivAt (fun t => f x t) fy y
  dgx : HasDerivAt (fun t => g t y) gx x
  dgy : HasDerivAt (fun t => g x t) gy y

end DFTSpec
end PyDyn
