import Mathlib.Probability.Moments.Covariance
import Mathlib.Probability.Independence.Integration

/-! Covariance of products of independent random variables. -/

namespace PyDyn
open MeasureTheory ProbabilityTheory
variable {Ω : Type*} [MeasurableSpace Ω] {μ : Measure Ω}

lemma memLp_mul_of_indep {A B : Ω → ℝ} (hA : MemLp A 2 μ)
    (hB : MemLp B 2 μ) (h : IndepFun A B μ) : MemLp (fun ω => A ω * B ω) 2 μ := by
  have hm : AEStronglyMeasurable (fun ω => A ω * B ω) μ := hA.1.mul hB.1
  rw [memLp_two_iff_integrable_sq hm]
  have h2 : IndepFun (fun ω => A ω ^ 2) (fun ω => B ω ^ 2) μ :=
    h.comp (φ := fun a : ℝ => a ^ 2) (ψ := fun a : ℝ => a ^ 2)
      (measurable_id.pow_const 2) (measurable_id.pow_const 2)
  have h3 := h2.integrable_mul (hA.integrable_sq) (hB.integrable_sq)
  refine h3.congr (Filter.Eventually.of_forall (fun ω => ?_))
  simp [mul_pow]

lemma integral_mul_eq_cov [IsProbabilityMeasure μ] {A C : Ω → ℝ} (hA : MemLp A 2 μ)
    (hC : MemLp C 2 μ) : ∫ ω, A ω * C ω ∂μ = cov[A, C; μ] + (∫ ω, A ω ∂μ) * ∫ ω, C ω ∂μ := by
  have := covariance_eq_sub hA hC
  simp only [Pi.mul_apply] at this
  rw [this]; ring

/-- Covariance of two products whose left factors are independent of the right factors. -/
lemma covariance_mul_mul [IsProbabilityMeasure μ] {A B C D : Ω → ℝ} (hA : MemLp A 2 μ)
    (hB : MemLp B 2 μ) (hC : MemLp C 2 μ) (hD : MemLp D 2 μ)
    (h : IndepFun (fun ω => (A ω, C ω)) (fun ω => (B ω, D ω)) μ) :
    cov[fun ω => A ω * B ω, fun ω => C ω * D ω; μ]
      = (∫ ω, A ω ∂μ) * (∫ ω, C ω ∂μ) * cov[B, D; μ]
        + (∫ ω, B ω ∂μ) * (∫ ω, D ω ∂μ) * cov[A, C; μ] + cov[B, D; μ] * cov[A, C; μ] := by
  have hAB : IndepFun A B μ := h.comp measurable_fst measurable_fst
  have hCD : IndepFun C D μ := h.comp measurable_snd measurable_snd
  have hmul : IndepFun (fun ω => A ω * C ω) (fun ω => B ω * D ω) μ :=
    h.comp (φ := fun p : ℝ × ℝ => p.1 * p.2) (ψ := fun p : ℝ × ℝ => p.1 * p.2)
      (measurable_fst.mul measurable_snd) (measurable_fst.mul measurable_snd)
  have e := covariance_eq_sub (memLp_mul_of_indep hA hB hAB) (memLp_mul_of_indep hC hD hCD)
  simp only [Pi.mul_apply] at e
  have e1 : ∫ ω, A ω * B ω * (C ω * D ω) ∂μ
      = (∫ ω, A ω * C ω ∂μ) * ∫ ω, B ω * D ω ∂μ := by
    rw [← hmul.integral_fun_mul_eq_mul_integral (hA.1.mul hC.1) (hB.1.mul hD.1)]
    congr 1; funext ω; ring
  have e2 := hAB.integral_fun_mul_eq_mul_integral hA.1 hB.1
  have e3 := hCD.integral_fun_mul_eq_mul_integral hC.1 hD.1
  rw [e, e1, e2, e3, integral_mul_eq_cov hA hC, integral_mul_eq_cov hB hD]
  ring

/-- Covariance of two sums of products. -/
lemma covariance_sum_mul [IsProbabilityMeasure μ] {ι κ : Type*} (s : Finset ι) (t : Finset κ)
    {A B : ι → Ω → ℝ} {C D : κ → Ω → ℝ} (hA : ∀ i ∈ s, MemLp (A i) 2 μ)
    (hB : ∀ i ∈ s, MemLp (B i) 2 μ) (hC : ∀ i ∈ t, MemLp (C i) 2 μ)
    (hD : ∀ i ∈ t, MemLp (D i) 2 μ)
    (h : ∀ i ∈ s, ∀ j ∈ t, IndepFun (fun ω => (A i ω, C j ω)) (fun ω => (B i ω, D j ω)) μ)
    (hAB : ∀ i ∈ s, IndepFun (A i) (B i) μ) (hCD : ∀ j ∈ t, IndepFun (C j) (D j) μ) :
    cov[fun ω => ∑ i ∈ s, A i ω * B i ω, fun ω => ∑ j ∈ t, C j ω * D j ω; μ]
      = ∑ i ∈ s, ∑ j ∈ t, ((∫ ω, A i ω ∂μ) * (∫ ω, C j ω ∂μ) * cov[B i, D j; μ]
        + (∫ ω, B i ω ∂μ) * (∫ ω, D j ω ∂μ) * cov[A i, C j; μ]
        + cov[B i, D j; μ] * cov[A i, C j; μ]) := by
  rw [covariance_fun_sum_fun_sum' (fun i hi => memLp_mul_of_indep (hA i hi) (hB i hi) (hAB i hi))
    (fun j hj => memLp_mul_of_indep (hC j hj) (hD j hj) (hCD j hj))]
  refine Finset.sum_congr rfl (fun i hi => Finset.sum_congr rfl (fun j hj => ?_))
  exact covariance_mul_mul (hA i hi) (hB i hi) (hC j hj) (hD j hj) (h i hi j hj)

end PyDyn
