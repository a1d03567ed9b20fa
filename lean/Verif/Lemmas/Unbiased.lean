import Verif.Lemmas.LinCov

/-! Sample mean and sample covariance of uncorrelated runs are unbiased. -/

namespace PyDyn
open MeasureTheory ProbabilityTheory Finset

variable {Ω : Type*} [MeasurableSpace Ω] {μ : Measure Ω} {ι : Type*}

lemma integral_sample_mean [IsProbabilityMeasure μ] (s : Finset ι) (hs : s.Nonempty) (X : ι → Ω → ℝ) (m : ℝ)
    (hX : ∀ k ∈ s, Integrable (X k) μ) (hm : ∀ k ∈ s, ∫ ω, X k ω ∂μ = m) :
    ∫ ω, (∑ k ∈ s, X k ω) / #s ∂μ = m := by
  have h0 : (#s : ℝ) ≠ 0 := by exact_mod_cast (card_pos.mpr hs).ne'
  rw [integral_div, integral_finset_sum _ hX, sum_congr rfl hm, sum_const, nsmul_eq_mul,
    mul_div_cancel_left₀ _ h0]

lemma scatter_eq (s : Finset ι) (hs : s.Nonempty) (f g : ι → ℝ) (m m' : ℝ) :
    ∑ k ∈ s, (f k - (∑ l ∈ s, f l) / #s) * (g k - (∑ l ∈ s, g l) / #s)
      = ∑ k ∈ s, (f k - m) * (g k - m') - (∑ k ∈ s, ∑ l ∈ s, (f k - m) * (g l - m')) / #s := by
  have h0 : (#s : ℝ) ≠ 0 := by exact_mod_cast (card_pos.mpr hs).ne'
  have e1 : ∀ (f : ι → ℝ) (m : ℝ), ∑ k ∈ s, (f k - m) = ∑ k ∈ s, f k - #s * m := by
    intro f m
    rw [sum_sub_distrib, sum_const, nsmul_eq_mul]
  have e2 : ∀ m m' : ℝ, ∑ k ∈ s, (f k - m) * (g k - m')
      = ∑ k ∈ s, f k * g k - m * ∑ k ∈ s, g k - m' * ∑ k ∈ s, f k + #s * (m * m') := by
    intro m m'
    rw [mul_sum, mul_sum, ← sum_sub_distrib, ← sum_sub_distrib, ← nsmul_eq_mul, ← sum_const, ← sum_add_distrib]
    exact sum_congr rfl (fun k _ => by ring)
  rw [← sum_mul_sum, e1, e1, e2, e2]
  field_simp
  ring

/-- The scatter of uncorrelated runs with common moments. -/
lemma integral_scatter [DecidableEq ι] [IsProbabilityMeasure μ] (s : Finset ι) (hne : s.Nonempty) (X Y : ι → Ω → ℝ) (m m' C : ℝ)
    (hX : ∀ k ∈ s, MemLp (X k) 2 μ) (hY : ∀ k ∈ s, MemLp (Y k) 2 μ) (hm : ∀ k ∈ s, ∫ ω, X k ω ∂μ = m)
    (hm' : ∀ k ∈ s, ∫ ω, Y k ω ∂μ = m')
    (hC : ∀ k ∈ s, ∀ l ∈ s, cov[X k, Y l; μ] = if k = l then C else 0) :
    Integrable (fun ω => ∑ k ∈ s, (X k ω - (∑ l ∈ s, X l ω) / #s) * (Y k ω - (∑ l ∈ s, Y l ω) / #s)) μ ∧
    ∫ ω, ∑ k ∈ s, (X k ω - (∑ l ∈ s, X l ω) / #s) * (Y k ω - (∑ l ∈ s, Y l ω) / #s) ∂μ = ((#s : ℝ) - 1) * C := by
  have h0 : (#s : ℝ) ≠ 0 := by exact_mod_cast (card_pos.mpr hne).ne'
  have hint : ∀ k ∈ s, ∀ l ∈ s, Integrable (fun ω => (X k ω - m) * (Y l ω - m')) μ := fun k hk l hl =>
    MemLp.integrable_mul ((hX k hk).sub (memLp_const m)) ((hY l hl).sub (memLp_const m'))
  have hcov : ∀ k ∈ s, ∀ l ∈ s, ∫ ω, (X k ω - m) * (Y l ω - m') ∂μ = if k = l then C else 0 := by
    intro k hk l hl
    rw [← hC k hk l hl, covariance, hm k hk, hm' l hl]
  simp only [scatter_eq s hne _ _ m m']
  have i1 := integrable_finset_sum s (fun k hk => hint k hk k hk)
  have i2 := (integrable_finset_sum s (fun k hk => integrable_finset_sum s (fun l hl => hint k hk l hl))).div_const (#s : ℝ)
  refine ⟨i1.sub i2, ?_⟩
  rw [integral_sub (integrable_finset_sum _ (fun k hk => hint k hk k hk))
    ((integrable_finset_sum _ (fun k hk => integrable_finset_sum _ (fun l hl => hint k hk l hl))).div_const _),
    integral_div, integral_finset_sum _ (fun k hk => hint k hk k hk),
    integral_finset_sum _ (fun k hk => integrable_finset_sum _ (fun l hl => hint k hk l hl)),
    sum_congr rfl (fun k hk => hcov k hk k hk),
    sum_congr rfl (fun k hk => (integral_finset_sum _ (fun l hl => hint k hk l hl)).trans
      (sum_congr rfl (fun l hl => hcov k hk l hl)))]
  simp only [if_true, sum_ite_eq, sum_const, nsmul_eq_mul]
  rw [sum_congr rfl (fun k hk => if_pos hk), sum_const, nsmul_eq_mul]
  field_simp

/-- The sample covariance of uncorrelated runs with common moments. -/
lemma integral_sample_cov [DecidableEq ι] [IsProbabilityMeasure μ] (s : Finset ι) (hs : 2 ≤ #s) (X Y : ι → Ω → ℝ)
    (m m' C : ℝ) (hX : ∀ k ∈ s, MemLp (X k) 2 μ) (hY : ∀ k ∈ s, MemLp (Y k) 2 μ) (hm : ∀ k ∈ s, ∫ ω, X k ω ∂μ = m)
    (hm' : ∀ k ∈ s, ∫ ω, Y k ω ∂μ = m')
    (hC : ∀ k ∈ s, ∀ l ∈ s, cov[X k, Y l; μ] = if k = l then C else 0) :
    ∫ ω, (∑ k ∈ s, (X k ω - (∑ l ∈ s, X l ω) / #s) * (Y k ω - (∑ l ∈ s, Y l ω) / #s)) / ((#s : ℝ) - 1) ∂μ = C := by
  have h1 : (#s : ℝ) - 1 ≠ 0 := by
    have : (2 : ℝ) ≤ #s := by exact_mod_cast hs
    linarith
  rw [integral_div, (integral_scatter s (card_pos.mp (by omega)) X Y m m' C hX hY hm hm' hC).2,
    mul_div_cancel_left₀ _ h1]

end PyDyn
