import Mathlib.Probability.HasLawExists
import Mathlib.Probability.Distributions.Gaussian.Real
import Mathlib.Probability.Moments.Covariance

/-! # There are uncorrelated random numbers of variance 1, so that the theorems on them are not empty -/

namespace PyDyn
open MeasureTheory ProbabilityTheory

/-- A sequence of independent standard normal numbers. -/
theorem exists_white : ∃ (Ω : Type) (_ : MeasurableSpace Ω) (μ : Measure Ω) (_ : IsProbabilityMeasure μ)
    (Z : ℕ → Ω → ℝ), (∀ i, MemLp (Z i) 2 μ) ∧ ∀ i j, cov[Z i, Z j; μ] = if i = j then 1 else 0 := by
  obtain ⟨Ω, m, μ, Z, hm, hl, hi, hp⟩ := exists_iid ℕ (gaussianReal 0 1)
  have hL : ∀ i, MemLp (Z i) 2 μ := by
    intro i
    have h := memLp_id_gaussianReal (μ := 0) (v := 1) 2
    rw [← (hl i).map_eq] at h
    exact (memLp_map_measure_iff (by fun_prop) (hm i).aemeasurable).mp h
  refine ⟨Ω, m, μ, hp, Z, hL, fun i j => ?_⟩
  split_ifs with h
  · subst h
    rw [covariance_self (hm i).aemeasurable, (hl i).variance_eq, variance_id_gaussianReal]
    rfl
  · exact (hi.indepFun h).covariance_eq_zero (hL i) (hL j)

/-- The same with mean 0. -/
theorem exists_white_centred : ∃ (Ω : Type) (_ : MeasurableSpace Ω) (μ : Measure Ω) (_ : IsProbabilityMeasure μ)
    (Z : ℕ → Ω → ℝ), (∀ i, MemLp (Z i) 2 μ) ∧ (∀ i, ∫ ω, Z i ω ∂μ = 0)
      ∧ ∀ i j, cov[Z i, Z j; μ] = if i = j then 1 else 0 := by
  obtain ⟨Ω, m, μ, hp, Z, hL, hc⟩ := exists_white
  have hint : ∀ i, Integrable (Z i) μ := fun i => (hL i).integrable (by norm_num)
  refine ⟨Ω, m, μ, hp, fun i ω => Z i ω - ∫ ω, Z i ω ∂μ, fun i => (hL i).sub (memLp_const _), fun i => ?_,
    fun i j => ?_⟩
  · rw [integral_sub (hint i) (integrable_const _)]
    simp
  · rw [← hc i j, covariance_sub_const_left (hint i), covariance_sub_const_right (hint j)]

end PyDyn
