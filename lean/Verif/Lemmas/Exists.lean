import Verif.Lemmas.CovProd
import Mathlib.Analysis.InnerProductSpace.Positive
import Mathlib.Probability.ProbabilityMassFunction.Integrals
import Mathlib.Probability.Distributions.Uniform

/-! Existence of random vectors with prescribed mean and covariance (used to show that the
hypotheses of the covariance theorems can be met). -/

namespace PyDyn
open MeasureTheory ProbabilityTheory Finset

/-- uniform distribution on `Fin m × Bool` -/
noncomputable def unif (m : ℕ) [NeZero m] : Measure (Fin m × Bool) :=
  (PMF.uniformOfFintype (Fin m × Bool)).toMeasure

instance (m : ℕ) [NeZero m] : IsProbabilityMeasure (unif m) := by unfold unif; infer_instance

lemma integral_unif (m : ℕ) [NeZero m] (f : Fin m × Bool → ℝ) :
    ∫ ω, f ω ∂(unif m) = (∑ ω, f ω) / (2 * m) := by
  unfold unif
  rw [PMF.integral_eq_sum]
  simp only [PMF.uniformOfFintype_apply, Fintype.card_prod, Fintype.card_fin, Fintype.card_bool,
    smul_eq_mul, ENNReal.toReal_inv, ENNReal.toReal_natCast]
  rw [← mul_sum, div_eq_inv_mul]
  push_cast
  ring

lemma memLp_unif (m : ℕ) [NeZero m] (f : Fin m × Bool → ℝ) : MemLp f 2 (unif m) :=
  MemLp.of_discrete

/-- For every mean and every positive semidefinite matrix there is a random vector on a
finite probability space with that mean and that covariance matrix. -/
theorem exists_random_vector {n : ℕ} (mean : Fin n → ℝ) (U : Matrix (Fin n) (Fin n) ℝ)
    (hU : U.PosSemidef) :
    ∃ (m : ℕ) (_ : NeZero m) (X : Fin n → Fin m × Bool → ℝ),
      (∀ i, ∫ ω, X i ω ∂(unif m) = mean i) ∧ ∀ i j, cov[X i, X j; unif m] = U i j := by
  obtain ⟨m, v, hv⟩ := Matrix.posSemidef_iff_eq_sum_vecMulVec.mp hU
  let m' := m + 1
  let B : Fin (m + 1) → Fin n → ℝ := fun r i => if h : (r : ℕ) < m then v ⟨r, h⟩ i else 0
  have hB : ∀ i j, ∑ r, B r i * B r j = U i j := by
    intro i j
    rw [Fin.sum_univ_castSucc, hv]
    simp [B, Matrix.sum_apply, Matrix.vecMulVec_apply]
  let c : ℝ := Real.sqrt (m + 1)
  have hc : c * c = m + 1 := Real.mul_self_sqrt (by positivity)
  have hpos : (0 : ℝ) < m + 1 := by positivity
  refine ⟨m + 1, inferInstance,
    fun i ω => mean i + (if ω.2 then 1 else -1) * (c * B ω.1 i), ?_, ?_⟩
  · intro i
    rw [integral_unif, Fintype.sum_prod_type]
    simp only [Fintype.univ_bool, mem_singleton, Bool.true_eq_false, not_false_eq_true,
      sum_insert, sum_singleton, if_true, Bool.false_eq_true, if_false]
    have : ∀ r : Fin (m + 1), mean i + 1 * (c * B r i) + (mean i + -1 * (c * B r i))
        = 2 * mean i := by intro r; ring
    rw [sum_congr rfl (fun r _ => this r)]
    simp only [sum_const, card_univ, Fintype.card_fin, nsmul_eq_mul]
    push_cast
    field_simp
  · intro i j
    have hmean : ∀ i, ∫ ω : Fin (m + 1) × Bool,
        mean i + (if ω.2 then 1 else -1) * (c * B ω.1 i) ∂(unif (m + 1)) = mean i := by
      intro i
      rw [integral_unif, Fintype.sum_prod_type]
      simp only [Fintype.univ_bool, mem_singleton, Bool.true_eq_false, not_false_eq_true,
        sum_insert, sum_singleton, if_true, Bool.false_eq_true, if_false]
      have : ∀ r : Fin (m + 1), mean i + 1 * (c * B r i) + (mean i + -1 * (c * B r i))
          = 2 * mean i := by intro r; ring
      rw [sum_congr rfl (fun r _ => this r)]
      simp only [sum_const, card_univ, Fintype.card_fin, nsmul_eq_mul]
      push_cast
      field_simp
    unfold covariance
    rw [hmean i, hmean j, integral_unif, Fintype.sum_prod_type]
    simp only [Fintype.univ_bool, mem_singleton, Bool.true_eq_false, not_false_eq_true,
      sum_insert, sum_singleton, if_true, Bool.false_eq_true, if_false, add_sub_cancel_left]
    have : ∀ r : Fin (m + 1), 1 * (c * B r i) * (1 * (c * B r j))
        + -1 * (c * B r i) * (-1 * (c * B r j)) = 2 * (m + 1) * (B r i * B r j) := by
      intro r
      rw [← hc]; ring
    rw [sum_congr rfl (fun r _ => this r), ← mul_sum, hB]
    push_cast
    field_simp

lemma cov_fst {A B : Type*} [MeasurableSpace A] [MeasurableSpace B] (μ : Measure A)
    (ν : Measure B) [IsProbabilityMeasure μ] [IsProbabilityMeasure ν] (f g : A → ℝ) :
    cov[fun ω => f ω.1, fun ω => g ω.1; μ.prod ν] = cov[f, g; μ] := by
  unfold covariance
  have e : ∀ h : A → ℝ, ∫ ω, h ω.1 ∂(μ.prod ν) = ∫ a, h a ∂μ := by
    intro h; rw [integral_fun_fst]; simp
  rw [e f, e g, e (fun a => (f a - ∫ a, f a ∂μ) * (g a - ∫ a, g a ∂μ))]

lemma cov_snd {A B : Type*} [MeasurableSpace A] [MeasurableSpace B] (μ : Measure A)
    (ν : Measure B) [IsProbabilityMeasure μ] [IsProbabilityMeasure ν] (f g : B → ℝ) :
    cov[fun ω => f ω.2, fun ω => g ω.2; μ.prod ν] = cov[f, g; ν] := by
  unfold covariance
  have e : ∀ h : B → ℝ, ∫ ω, h ω.2 ∂(μ.prod ν) = ∫ a, h a ∂ν := by
    intro h; rw [integral_fun_snd]; simp
  rw [e f, e g, e (fun a => (f a - ∫ a, f a ∂ν) * (g a - ∫ a, g a ∂ν))]

end PyDyn
