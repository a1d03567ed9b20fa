import Verif.Base
import Mathlib.Analysis.SpecialFunctions.ExpDeriv
import Mathlib.Analysis.SpecialFunctions.Complex.Circle
import Mathlib.Analysis.Calculus.Deriv.Basic

/-! # What the routines of filterstuff.py should compute -/

namespace PyDyn
namespace FSSpec
open Finset Topology Filter

/-- Frequency response `∑ p_n e^{-iωn}` of the FIR filter `p`. -/
noncomputable def resp (p : Vec ℝ) (ω : ℝ) : ℂ :=
  ∑ n ∈ range p.len, (p.el n : ℂ) * Complex.exp (-(Complex.I * ω * n))

/-- `g` is the group delay at `ω` of a system with frequency response `H`: near `ω`, `H` is
`r e^{iφ}` with differentiable real amplitude `r ≠ 0` and phase `φ`, and `g = -φ'(ω)`. -/
def HasGroupDelay (H : ℝ → ℂ) (ω g : ℝ) : Prop :=
  ∃ (r φ : ℝ → ℝ) (r' : ℝ), (∀ᶠ t in 𝓝 ω, H t = r t * Complex.exp (Complex.I * φ t))
    ∧ r ω ≠ 0 ∧ HasDerivAt r r' ω ∧ HasDerivAt φ (-g) ω

/-- Value at `z` of the polynomial with coefficients `a`, highest power first. -/
noncomputable def polyval (a : Vec ℂ) (z : ℂ) : ℂ :=
  ∑ i ∈ range a.len, a.el i * z ^ (a.len - 1 - i)

/-- `z` is a root of the polynomial with coefficients `a`. -/
def IsRoot (a : Vec ℂ) (z : ℂ) : Prop := polyval a z = 0

/-- Not all coefficients vanish. -/
def Nonzero (a : Vec ℂ) : Prop := ∃ i < a.len, a.el i ≠ 0

end FSSpec
end PyDyn
