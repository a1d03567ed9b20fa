import Verif.Model.Psd
import Verif.Props.DFT7
import Verif.Lemmas.White

/-! # C101: power spectral density of noise -/

namespace PyDyn
namespace TS
open Finset Real MeasureTheory ProbabilityTheory

/-- weight of the bins of a one-sided spectrum -/
noncomputable def sided (N k : ℕ) : ℝ := if k = 0 ∨ 2 * k = N then 1 else 2

lemma periodogram_ok (x : Vec ℝ) (h0 : 1 ≤ x.len) (fs : ℝ) (hf : 0 < fs) :
    ∃ f P, periodogram x fs = .ok (f, P) ∧ f.len = x.len / 2 + 1 ∧ P.len = x.len / 2 + 1 ∧
      (∀ k ≤ x.len / 2, f.el k = k * fs / x.len) ∧
      ∀ k ≤ x.len / 2, P.el k = sided x.len k * (rfftRe (detrend x) k ^ 2 + rfftIm (detrend x) k ^ 2)
        / (fs * x.len) := by
  have hN : (x.len : ℝ) ≠ 0 := by exact_mod_cast (by omega : x.len ≠ 0)
  have hfr : ∀ k ≤ x.len / 2, (Vec.ofFn (x.len / 2 + 1) (fun k => (k : ℝ) / (x.len * (1 / fs)))).el k
      = k * fs / x.len := by
    intro k hk
    rw [Vec.el_ofFn_lt _ (by omega)]
    field_simp
  unfold periodogram
  simp only [bind, Except.bind, pure, Except.pure]
  rw [if_neg (by omega), if_neg hf.ne']
  by_cases hodd : x.len % 2 = 1
  · rw [if_pos hodd]
    refine ⟨_, _, rfl, rfl, rfl, hfr, fun k hk => ?_⟩
    rw [Vec.el_ofFn_lt _ (by rw [Vec.len_ofFn]; omega), Vec.el_ofFn_lt _ (by omega)]
    unfold sided
    by_cases h : k = 0
    · rw [if_neg (by omega), if_pos (Or.inl h)]; ring
    · rw [if_pos (by omega), if_neg (by omega)]; ring
  · rw [if_neg hodd]
    refine ⟨_, _, rfl, rfl, rfl, hfr, fun k hk => ?_⟩
    rw [Vec.el_ofFn_lt _ (by rw [Vec.len_ofFn]; omega), Vec.el_ofFn_lt _ (by omega), Vec.len_ofFn]
    unfold sided
    by_cases h : k = 0 ∨ 2 * k = x.len
    · rw [if_neg (by omega), if_pos h]; ring
    · rw [if_pos (by omega), if_neg h]; ring

lemma rfft_sq (x : Vec ℝ) (k : ℕ) : rfftRe x k ^ 2 + rfftIm x k ^ 2
    = ∑ i ∈ range x.len, ∑ j ∈ range x.len, (x.el i * x.el j) * cos (2 * π * k * ((i : ℤ) - j : ℤ) / x.len) := by
  unfold rfftRe rfftIm
  rw [neg_sq, pow_two, pow_two, sum_mul_sum, sum_mul_sum, ← sum_add_distrib]
  refine sum_congr rfl (fun i _ => ?_)
  rw [← sum_add_distrib]
  refine sum_congr rfl (fun j _ => ?_)
  have : 2 * π * k * (((i : ℤ) - j : ℤ) : ℝ) / x.len = 2 * π * k * i / x.len - 2 * π * k * j / x.len := by
    push_cast; ring
  rw [this, cos_sub]
  ring

lemma sum_cos_zero (N k : ℕ) (h1 : 1 ≤ k) (h2 : k < N) : ∑ n ∈ range N, cos (2 * π * k * n / N) = 0 := by
  rw [← DFT.sum_cos_full N (k : ℤ) (by omega) (by rw [abs_of_nonneg (by omega)]; omega)]
  refine sum_congr rfl (fun n _ => ?_)
  congr 1
  push_cast
  ring

lemma sum_sin_zero (N k : ℕ) (h1 : 1 ≤ k) (h2 : k < N) : ∑ n ∈ range N, sin (2 * π * k * n / N) = 0 := by
  have h := congrArg Complex.im (DFT.sum_exp_full N (k : ℤ) (by omega) (by rw [abs_of_nonneg (by omega)]; omega))
  rw [Complex.im_sum] at h
  simp only [Complex.zero_im] at h
  rw [← h]
  refine sum_congr rfl (fun n _ => ?_)
  have : (2 * π * Complex.I * ((k : ℤ) : ℂ) * n / N : ℂ) = ((2 * π * k * n / N : ℝ) : ℂ) * Complex.I := by
    push_cast; ring
  rw [this, Complex.exp_ofReal_mul_I_im]

lemma sum_detrend (x : Vec ℝ) (c : ℕ → ℝ) (hc : ∑ n ∈ range x.len, c n = 0) :
    ∑ n ∈ range (detrend x).len, (detrend x).el n * c n = ∑ n ∈ range x.len, x.el n * c n := by
  have e : (detrend x).len = x.len := rfl
  rw [e]
  have : ∀ n ∈ range x.len, (detrend x).el n * c n
      = x.el n * c n - (∑ i ∈ range x.len, x.el i) / x.len * c n := by
    intro n hn
    unfold detrend
    rw [Vec.el_ofFn_lt _ (mem_range.mp hn)]; ring
  rw [sum_congr rfl this, sum_sub_distrib, ← mul_sum, hc, mul_zero, sub_zero]

/-- **C101** The power spectral density returned by `calc_psd` belongs to the frequencies
`k Fs / N`, is non-negative, is 0 at frequency 0, and its sum times the frequency step is the mean
square deviation of the noise from its mean. -/
theorem C101_power (o : Obj) (x : Vec ℝ) (h0 : 1 ≤ x.len) (fs : ℝ) (hf : 0 < fs) :
    ∃ f P, o.calcPsd (some x) fs = .ok (f, P) ∧ f.len = x.len / 2 + 1 ∧ P.len = f.len ∧
      (∀ k ≤ x.len / 2, f.el k = k * (fs / x.len)) ∧ (∀ k ≤ x.len / 2, 0 ≤ P.el k) ∧ P.el 0 = 0 ∧
      (∑ k ∈ range (x.len / 2 + 1), P.el k) * (fs / x.len)
        = (∑ n ∈ range x.len, (x.el n - (∑ i ∈ range x.len, x.el i) / x.len) ^ 2) / x.len := by
  have hN : (x.len : ℝ) ≠ 0 := by exact_mod_cast (by omega : x.len ≠ 0)
  have hN' : (0 : ℝ) < x.len := by exact_mod_cast h0
  obtain ⟨f, P, e, h1, h2, h3, h4⟩ := periodogram_ok x h0 fs hf
  refine ⟨f, P, e, h1, by omega, fun k hk => by rw [h3 k hk]; ring, fun k hk => ?_, ?_, ?_⟩
  · rw [h4 k hk]
    unfold sided
    split <;> positivity
  · rw [h4 0 (by omega)]
    have r : rfftRe (detrend x) 0 = 0 := by
      unfold rfftRe
      simp only [Nat.cast_zero, mul_zero, zero_mul, zero_div, cos_zero, mul_one]
      have e : (detrend x).len = x.len := rfl
      rw [e]
      have : ∀ n ∈ range x.len, (detrend x).el n = x.el n - (∑ i ∈ range x.len, x.el i) / x.len := by
        intro n hn
        unfold detrend
        rw [Vec.el_ofFn_lt _ (mem_range.mp hn)]
      rw [sum_congr rfl this, sum_sub_distrib, sum_const, card_range, nsmul_eq_mul, mul_div_cancel₀ _ hN, sub_self]
    have i : rfftIm (detrend x) 0 = 0 := by
      unfold rfftIm
      simp
    rw [r, i]
    simp
  · have t : ∑ k ∈ range (x.len / 2 + 1), P.el k
        = (∑ k ∈ range (x.len / 2 + 1), (if k = 0 ∨ 2 * k = x.len then 1 else 2)
          * ∑ i ∈ range x.len, ∑ j ∈ range x.len, ((detrend x).el i * (detrend x).el j)
            * cos (2 * π * k * ((i : ℤ) - j : ℤ) / x.len)) / (fs * x.len) := by
      rw [sum_div]
      refine sum_congr rfl (fun k hk => ?_)
      rw [h4 k (by have := mem_range.mp hk; omega), rfft_sq]
      rfl
    rw [t, DFT.sum_quad x.len h0]
    have : ∀ n ∈ range x.len, (detrend x).el n * (detrend x).el n
        = (x.el n - (∑ i ∈ range x.len, x.el i) / x.len) ^ 2 := by
      intro n hn
      unfold detrend
      rw [Vec.el_ofFn_lt _ (mem_range.mp hn)]; ring
    rw [sum_congr rfl this]
    field_simp

/-- **C101** Without an argument the spectrum is that of the noise last generated by the object;
before that there is an AttributeError. -/
theorem C101_default (o : Obj) (fs : ℝ) :
    (∀ C x, o.state = some (C, x) → o.calcPsd none fs = o.calcPsd (some x) fs) ∧
    (o.state = none → o.calcPsd none fs = .error .attributeError) := by
  refine ⟨fun C x h => ?_, fun h => ?_⟩
  · simp only [Obj.calcPsd, h]
  · simp only [Obj.calcPsd, h]; rfl

lemma integral_sq {Ω : Type*} [MeasurableSpace Ω] (μ : Measure Ω) [IsProbabilityMeasure μ] (N : ℕ) (s m : ℝ)
    (X : ℕ → Ω → ℝ) (hL : ∀ i < N, MemLp (X i) 2 μ) (hm : ∀ i < N, ∫ ω, X i ω ∂μ = m)
    (hX : ∀ i < N, ∀ j < N, cov[X i, X j; μ] = if i = j then s ^ 2 else 0) (c : ℕ → ℝ)
    (hc : ∑ n ∈ range N, c n = 0) :
    Integrable (fun ω => (∑ n ∈ range N, X n ω * c n) ^ 2) μ ∧
    ∫ ω, (∑ n ∈ range N, X n ω * c n) ^ 2 ∂μ = s ^ 2 * ∑ n ∈ range N, c n ^ 2 := by
  have hmem : MemLp (fun ω => ∑ n ∈ range N, c n * X n ω) 2 μ :=
    memLp_lincomb (range N) c (fun i hi => hL i (mem_range.mp hi))
  have e0 : (fun ω => ∑ n ∈ range N, X n ω * c n) = fun ω => ∑ n ∈ range N, c n * X n ω := by
    funext ω
    exact sum_congr rfl (fun n _ => mul_comm _ _)
  have hv := variance_eq_sub hmem
  have hcov := covariance_lincomb (μ := μ) (range N) (range N) c c
    (fun i hi => hL i (mem_range.mp hi)) (fun i hi => hL i (mem_range.mp hi))
  rw [covariance_self hmem.aemeasurable] at hcov
  have hmean : ∫ ω, ∑ n ∈ range N, c n * X n ω ∂μ = 0 := by
    rw [integral_finsetSum _ (fun i hi => ((hL i (mem_range.mp hi)).integrable (by norm_num)).const_mul _)]
    have : ∀ n ∈ range N, ∫ ω, c n * X n ω ∂μ = c n * m := by
      intro n hn
      rw [integral_const_mul, hm n (mem_range.mp hn)]
    rw [sum_congr rfl this, ← sum_mul, hc, zero_mul]
  have hs : ∑ i ∈ range N, ∑ j ∈ range N, c i * c j * cov[X i, X j; μ] = s ^ 2 * ∑ n ∈ range N, c n ^ 2 := by
    rw [mul_sum]
    refine sum_congr rfl (fun i hi => ?_)
    have : ∀ j ∈ range N, c i * c j * cov[X i, X j; μ] = if i = j then s ^ 2 * c i ^ 2 else 0 := by
      intro j hj
      rw [hX i (mem_range.mp hi) j (mem_range.mp hj)]
      split
      · rename_i h; subst h; ring
      · ring
    rw [sum_congr rfl this, sum_ite_eq, if_pos hi]
  refine ⟨?_, ?_⟩
  · have := hmem.integrable_sq
    refine this.congr (Filter.Eventually.of_forall (fun ω => ?_))
    simp only
    rw [congrFun e0 ω]
  · have e1 : ∫ ω, (∑ n ∈ range N, X n ω * c n) ^ 2 ∂μ = ∫ ω, (fun ω => ∑ n ∈ range N, c n * X n ω) ω ^ 2 ∂μ := by
      refine integral_congr_ae (Filter.Eventually.of_forall (fun ω => ?_))
      simp only
      rw [congrFun e0 ω]
    rw [e1, ← hs, ← hcov, hv, hmean]
    simp [Pi.pow_apply]

/-- **C101** For white noise of variance `s^2` and any mean the expected density is flat: `2 s^2 / Fs`
at all frequencies between 0 and the Nyquist frequency, and half of it at the Nyquist frequency. -/
theorem C101_white {Ω : Type*} [MeasurableSpace Ω] (μ : Measure Ω) [IsProbabilityMeasure μ] (o : Obj) (N : ℕ)
    (s m fs : ℝ) (hf : 0 < fs) (X : ℕ → Ω → ℝ) (hL : ∀ i < N, MemLp (X i) 2 μ) (hm : ∀ i < N, ∫ ω, X i ω ∂μ = m)
    (hX : ∀ i < N, ∀ j < N, cov[X i, X j; μ] = if i = j then s ^ 2 else 0) (k : ℕ) (hk : 1 ≤ k) (hkN : k ≤ N / 2) :
    ∃ P : Ω → Vec ℝ, (∀ ω, ∃ f, o.calcPsd (some (Vec.ofFn N (fun n => X n ω))) fs = .ok (f, P ω)) ∧
      ∫ ω, (P ω).el k ∂μ = if 2 * k = N then s ^ 2 / fs else 2 * s ^ 2 / fs := by
  have hNpos : 1 ≤ N := by omega
  have hN : (N : ℝ) ≠ 0 := by exact_mod_cast (by omega : N ≠ 0)
  have key : ∀ ω, ∃ f P, o.calcPsd (some (Vec.ofFn N (fun n => X n ω))) fs = .ok (f, P) ∧
      P.el k = sided N k * ((∑ n ∈ range N, X n ω * cos (2 * π * k * n / N)) ^ 2
        + (∑ n ∈ range N, X n ω * sin (2 * π * k * n / N)) ^ 2) / (fs * N) := by
    intro ω
    obtain ⟨f, P, e, -, -, -, h4⟩ := periodogram_ok (Vec.ofFn N (fun n => X n ω)) hNpos fs hf
    refine ⟨f, P, e, ?_⟩
    rw [h4 k hkN]
    have a1 := sum_detrend (Vec.ofFn N (fun n => X n ω)) (fun n => cos (2 * π * k * n / N))
      (sum_cos_zero N k hk (by omega))
    have a2 := sum_detrend (Vec.ofFn N (fun n => X n ω)) (fun n => sin (2 * π * k * n / N))
      (sum_sin_zero N k hk (by omega))
    have b1 : rfftRe (detrend (Vec.ofFn N (fun n => X n ω))) k = ∑ n ∈ range N, X n ω * cos (2 * π * k * n / N) := by
      refine Eq.trans a1 (sum_congr rfl (fun n hn => ?_))
      rw [Vec.el_ofFn_lt _ (mem_range.mp hn)]
    have b2 : rfftIm (detrend (Vec.ofFn N (fun n => X n ω))) k = -∑ n ∈ range N, X n ω * sin (2 * π * k * n / N) := by
      refine congrArg Neg.neg (Eq.trans a2 (sum_congr rfl (fun n hn => ?_)))
      rw [Vec.el_ofFn_lt _ (mem_range.mp hn)]
    rw [b1, b2, neg_sq]
    rfl
  choose f P hP hPk using key
  refine ⟨P, fun ω => ⟨f ω, hP ω⟩, ?_⟩
  obtain ⟨i1, e1⟩ := integral_sq μ N s m X hL hm hX (fun n => cos (2 * π * k * n / N)) (sum_cos_zero N k hk (by omega))
  obtain ⟨i2, e2⟩ := integral_sq μ N s m X hL hm hX (fun n => sin (2 * π * k * n / N)) (sum_sin_zero N k hk (by omega))
  have : ∫ ω, (P ω).el k ∂μ = ∫ ω, sided N k / (fs * N) * ((∑ n ∈ range N, X n ω * cos (2 * π * k * n / N)) ^ 2
        + (∑ n ∈ range N, X n ω * sin (2 * π * k * n / N)) ^ 2) ∂μ := by
    refine integral_congr_ae (Filter.Eventually.of_forall (fun ω => ?_))
    simp only
    rw [hPk ω]
    ring
  rw [this, integral_const_mul, integral_add i1 i2, e1, e2, ← mul_add, ← sum_add_distrib]
  simp only [cos_sq_add_sin_sq, sum_const, card_range, nsmul_eq_mul, mul_one]
  unfold sided
  by_cases h : 2 * k = N
  · rw [if_pos h, if_pos (Or.inr h)]
    field_simp
  · rw [if_neg h, if_neg (by omega)]
    field_simp

/-- A case meeting the hypotheses: a signal of three values. -/
example : ∃ f P, Obj.calcPsd ⟨0, 1, none⟩ (some (Vec.ofList [1, 2, 3])) 10 = .ok (f, P) ∧ f.el 1 = 10 / 3 ∧
    P.el 1 * (10 / 3) = 2 / 3 := by
  obtain ⟨f, P, h, -, -, h3, -, h5, h6⟩ := C101_power ⟨0, 1, none⟩ (Vec.ofList [1, 2, 3]) (by decide) 10 (by norm_num)
  have l : (Vec.ofList [1, 2, 3] : Vec ℝ).len = 3 := rfl
  rw [l] at h3 h6
  refine ⟨f, P, h, ?_, ?_⟩
  · rw [h3 1 (by norm_num)]; norm_num
  · simp [sum_range_succ, Vec.el_ofList, h5] at h6
    norm_num at h6 ⊢
    linarith

/-- White noise exists. -/
example : ∃ (Ω : Type) (_ : MeasurableSpace Ω) (μ : Measure Ω) (_ : IsProbabilityMeasure μ) (X : ℕ → Ω → ℝ) (m : ℝ),
    (∀ i < 4, MemLp (X i) 2 μ) ∧ (∀ i < 4, ∫ ω, X i ω ∂μ = m) ∧
    ∀ i < 4, ∀ j < 4, cov[X i, X j; μ] = if i = j then 1 ^ 2 else 0 := by
  obtain ⟨Ω, m, μ, hp, Z, hL, hc⟩ := exists_white
  refine ⟨Ω, m, μ, hp, fun i ω => Z i ω - ∫ ω, Z i ω ∂μ, 0, fun i _ => (hL i).sub (memLp_const _), fun i _ => ?_,
    fun i _ j _ => ?_⟩
  · rw [integral_sub ((hL i).integrable (by norm_num)) (integrable_const _)]
    simp
  · rw [covariance_sub_const_left, covariance_sub_const_right, hc]
    simp
    · exact (hL j).integrable (by norm_num)
    · exact (hL i).integrable (by norm_num)

end TS
end PyDyn
