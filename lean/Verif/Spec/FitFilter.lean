import Verif.Base
import Verif.Spec.LeastSquares
import Mathlib.Analysis.SpecialFunctions.Trigonometric.Basic

/-! # Specification of filter fits -/

namespace PyDyn
namespace FitSpec
open Finset

/-- Value of the polynomial with coefficients `c` in `e^{-jω}`. -/
noncomputable def poly (c : Vec ℝ) (om : ℝ) : ℂ :=
  ∑ n ∈ range c.len, (c.el n : ℂ) * Complex.exp (-(Complex.I * om * n))

/-- Angular frequency for the frequency `f` and the sampling frequency `Fs`. -/
noncomputable def angular (f Fs : ℝ) : ℝ := 2 * Real.pi * (f / Fs)

/-- The value `h` after a delay by `tau` samples. -/
noncomputable def delayed (h : ℂ) (om tau : ℝ) : ℂ := h * Complex.exp (-(Complex.I * (om * tau)))

/-- `b`, `a` are coefficients of an IIR filter of orders `Nb`, `Na` in normal form. -/
def IsFilter (Nb Na : ℕ) (b a : Vec ℝ) : Prop := b.len = Nb + 1 ∧ a.len = Na + 1 ∧ a.el 0 = 1

/-- Sum of the squared equation errors `h A - b`, the response `h k` at frequency `f k` being delayed. -/
noncomputable def eqError (M : ℕ) (h : ℕ → ℂ) (f : Vec ℝ) (Fs tau : ℝ) (b a : Vec ℝ) : ℝ :=
  ∑ k ∈ range M, ‖delayed (h k) (angular (f.el k) Fs) tau * poly a (angular (f.el k) Fs)
    - poly b (angular (f.el k) Fs)‖ ^ 2

/-- The filter `b`, `a` has exactly the delayed response. -/
def IsExact (M : ℕ) (h : ℕ → ℂ) (f : Vec ℝ) (Fs tau : ℝ) (b a : Vec ℝ) : Prop :=
  ∀ k < M, delayed (h k) (angular (f.el k) Fs) tau * poly a (angular (f.el k) Fs)
    = poly b (angular (f.el k) Fs)

end FitSpec
end PyDyn
