import Mathlib.Data.Complex.Basic
import Verif.Base

/-! # Specification of a second-order system -/

namespace PyDyn
namespace SOSpec

/-- The frequency response of a second-order system with static gain `S`, damping `d` and resonance frequency
`f0` in normalised form. -/
noncomputable def resp (S d f0 f : ℝ) : ℂ :=
  S / (1 + 2 * Complex.I * d * (f / f0) - (f / f0) ^ 2)

end SOSpec
end PyDyn
