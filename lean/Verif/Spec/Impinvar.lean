import Verif.Base
import Mathlib.Analysis.SpecialFunctions.Exp
import Mathlib.Analysis.Complex.Exponential

/-! # What impulse invariance should compute -/

namespace PyDyn
namespace IISpec
open Finset

/-- Impulse response at time `t` of the continuous system `∑ r_i / (s - p_i)`. -/
noncomputable def cont (r p : Vec ℂ) (t : ℝ) : ℂ := ∑ i ∈ range p.len, r.el i * Complex.exp (p.el i * t)

/-- Transfer function of the continuous system. -/
noncomputable def transfer (r p : Vec ℂ) (s : ℂ) : ℂ := ∑ i ∈ range p.len, r.el i / (s - p.el i)

/-- Poles and residues of a real system: with each pole its conjugate is a pole, with conjugate residue. -/
def Conjugate (r p : Vec ℂ) : Prop :=
  ∃ σ : ℕ → ℕ, ∀ i < p.len, σ i < p.len ∧ σ (σ i) = i ∧ p.el (σ i) = star (p.el i) ∧ r.el (σ i) = star (r.el i)

/-- `g` is the impulse response of the digital filter with numerator `b` and denominator `a`: the solution,
from rest, of the difference equation for the input `1, 0, 0, ...`. -/
def IsImpulseResponse (b a : Vec ℝ) (g : ℕ → ℝ) : Prop :=
  ∀ n, ∑ j ∈ range (n + 1), a.el (n - j) * g j = b.el n

end IISpec
end PyDyn
