import Verif.Lemmas.CovProd
import Verif.Lemmas.Psd

/-! Covariance of linear combinations. -/

namespace PyDyn
open MeasureTheory ProbabilityTheory Finset

variable {Ω : Type*} [MeasurableSpace Ω] {μ : Measure Ω}

lemma memLp_lincomb {ι : Type*} (s : Finset ι) (a : ι → ℝ) {X : ι → Ω → ℝ}
    (hX : ∀ i ∈ s, MemLp (X i) 2 μ) : MemLp (fun ω => ∑ i ∈ s, a i * X i ω) 2 μ :=
  memLp_finsetSum s (fun i hi => (hX i hi).const_mul (a i))

lemma covariance_lincomb [IsFiniteMeasure μ] {ι κ : Type*} (s : Finset ι) (t : Finset κ)
    (a : ι → ℝ) (b : κ → ℝ) {X : ι → Ω → ℝ} {Y : κ → Ω → ℝ} (hX : ∀ i ∈ s, MemLp (X i) 2 μ)
    (hY : ∀ j ∈ t, MemLp (Y j) 2 μ) :
    cov[fun ω => ∑ i ∈ s, a i * X i ω, fun ω => ∑ j ∈ t, b j * Y j ω; μ]
      = ∑ i ∈ s, ∑ j ∈ t, a i * b j * cov[X i, Y j; μ] := by
  rw [covariance_fun_sum_fun_sum' (fun i hi => (hX i hi).const_mul (a i))
    (fun j hj => (hY j hj).const_mul (b j))]
  refine sum_congr rfl (fun i _ => sum_congr rfl (fun j _ => ?_))
  rw [covariance_const_mul_left, covariance_const_mul_right]
  ring

/-- Quadratic forms in the rows of a coefficient matrix are positive semidefinite. -/
lemma psd_of_lincomb {n k : ℕ} (U : Mat ℝ) (hU : U.PSD) (hr : U.rows = n)
    (c : ℕ → ℕ → ℝ) (V : Mat ℝ) (hVr : V.rows = k) (hVc : V.cols = k)
    (hV : ∀ a < k, ∀ b < k, V.el a b = ∑ i ∈ range n, ∑ j ∈ range n, c a i * c b j * U.el i j) :
    V.PSD := by
  have hc : U.cols = n := by rw [← hU.1.1, hr]
  refine ⟨⟨by rw [hVr, hVc], ?_⟩, ?_⟩
  · intro a b
    by_cases hab : a < k ∧ b < k
    · rw [hV a hab.1 b hab.2, hV b hab.2 a hab.1, sum_comm]
      refine sum_congr rfl (fun i _ => sum_congr rfl (fun j _ => ?_))
      rw [hU.1.2 j i]; ring
    · rw [Mat.el_of_not V (by rw [hVr, hVc]; omega), Mat.el_of_not V (by rw [hVr, hVc]; omega)]
  · intro v
    have h := hU.2 (fun i => ∑ a ∈ range k, v a * c a i)
    rw [hr, hc] at h
    rw [hVr, hVc]
    have e : ∑ a ∈ range k, ∑ b ∈ range k, v a * V.el a b * v b
        = ∑ a ∈ range k, ∑ b ∈ range k, ∑ i ∈ range n, ∑ j ∈ range n,
            v a * c a i * U.el i j * (v b * c b j) := by
      refine sum_congr rfl (fun a ha => sum_congr rfl (fun b hb => ?_))
      rw [hV a (mem_range.mp ha) b (mem_range.mp hb), mul_sum, sum_mul]
      refine sum_congr rfl (fun i _ => ?_)
      rw [mul_sum, sum_mul]
      refine sum_congr rfl (fun j _ => ?_)
      ring
    rw [e]
    refine h.trans_eq ?_
    simp_rw [sum_mul, mul_sum]
    rw [sum_congr rfl (fun i _ => sum_comm)]
    rw [sum_comm]
    refine sum_congr rfl (fun a _ => ?_)
    rw [sum_congr rfl (fun i _ => sum_comm)]
    rw [sum_comm]

end PyDyn
