import Verif.Props.SecondOrder
import Verif.Lemmas.Unbiased
import Verif.Lemmas.White
import Verif.Props.Tools

/-!
# C151: the Monte Carlo propagation `sos_realimag` for a second-order system is unbiased, and so is `FreqResp2RealImag`
-/

namespace PyDyn
namespace SO
open Finset MeasureTheory ProbabilityTheory

/-- Entry `i` of the `n` real parts followed by the `n` imaginary parts of a response. -/
noncomputable def part (n : ℕ) (g : ℕ → ℂ) (i : ℕ) : ℝ := if i < n then (g i).re else (g (i - n)).im

lemma stacked_part (n : ℕ) (g : ℕ → ℕ → ℂ) (k : ℕ) {i : ℕ} (hi : i < 2 * n) :
    (stacked n (fun i k => (g i k).re) (fun i k => (g i k).im) k).el i = part n (fun i => g i k) i := by
  unfold stacked part
  rw [Vec.el_ofFn_lt _ hi]

lemma sampleCov_range (n : ℕ) (F : ℕ → Vec ℝ) (i j : ℕ) : MCSpec.sampleCov ((List.range n).map F) i j
    = (∑ k ∈ range n, ((F k).el i - (∑ l ∈ range n, (F l).el i) / n) * ((F k).el j - (∑ l ∈ range n, (F l).el j) / n)) / ((n : ℝ) - 1) := by
  unfold MCSpec.sampleCov MCSpec.scatter MCSpec.mean
  simp only [List.map_map, List.length_map, List.length_range]
  rw [sum_range_list]
  simp only [Function.comp_apply]
  rw [show ((fun r : Vec ℝ => r.el i) ∘ F) = fun k => (F k).el i from rfl, show ((fun r : Vec ℝ => r.el j) ∘ F) = fun k => (F k).el j from rfl,
    sum_range_list, sum_range_list]

/-- **C151** If the runs are drawn with the same moments and without correlation between different runs, the expected estimate is the mean
of the response of the random system and the expected covariance is its covariance, for every number of runs. -/
theorem C151_unbiased {Ω : Type*} [MeasurableSpace Ω] (μ : Measure Ω) [IsProbabilityMeasure μ] (S d f0 uS ud uf0 : ℝ) (f : Vec ℝ)
    (runs : ℕ) (hruns : 2 ≤ runs) (z1 z2 z3 : ℕ → Ω → ℝ) (M : ℕ → ℝ) (G : ℕ → ℕ → ℝ)
    (X : ℕ → ℕ → Ω → ℝ) (hX : ∀ i k ω, X i k ω
      = part f.len (fun i => runResp S d f0 uS ud uf0 (fun k => z1 k ω) (fun k => z2 k ω) (fun k => z3 k ω) (f.el i) k) i)
    (h2 : ∀ i < 2 * f.len, ∀ k < runs, MemLp (X i k) 2 μ) (hM : ∀ i < 2 * f.len, ∀ k < runs, ∫ ω, X i k ω ∂μ = M i)
    (hG : ∀ i < 2 * f.len, ∀ j < 2 * f.len, ∀ k < runs, ∀ l < runs, cov[X i k, X j l; μ] = if k = l then G i j else 0) :
    ∃ (m : Ω → Vec ℂ) (U : Ω → Mat ℝ),
      (∀ ω, realimag S d f0 uS ud uf0 f runs (fun k => z1 k ω) (fun k => z2 k ω) (fun k => z3 k ω) = .ok (m ω, U ω)
        ∧ (m ω).len = f.len ∧ (U ω).rows = 2 * f.len ∧ (U ω).cols = 2 * f.len) ∧
      (∀ i < f.len, ∫ ω, ((m ω).el i).re ∂μ = M i ∧ ∫ ω, ((m ω).el i).im ∂μ = M (f.len + i)) ∧
      ∀ i < 2 * f.len, ∀ j < 2 * f.len, ∫ ω, (U ω).el i j ∂μ = G i j := by
  have h := fun ω => C86_realimag S d f0 uS ud uf0 f runs (fun k => z1 k ω) (fun k => z2 k ω) (fun k => z3 k ω) hruns
  choose m U e lm lr lc hm hU using h
  have hne : (range runs).Nonempty := ⟨0, mem_range.mpr (by omega)⟩
  have hint : ∀ i < 2 * f.len, ∀ k ∈ range runs, Integrable (X i k) μ := fun i hi k hk =>
    (h2 i hi k (mem_range.mp hk)).integrable (by norm_num)
  refine ⟨m, U, fun ω => ⟨e ω, lm ω, lr ω, lc ω⟩, fun i hi => ⟨?_, ?_⟩, fun i hi j hj => ?_⟩
  · rw [← integral_sample_mean (μ := μ) (range runs) hne (X i) (M i) (hint i (by omega)) (fun k hk => hM i (by omega) k (mem_range.mp hk))]
    refine integral_congr_ae (Filter.Eventually.of_forall (fun ω => ?_))
    dsimp only
    rw [hm ω i hi, card_range, show ((runs : ℂ)) = ((runs : ℝ) : ℂ) by push_cast; rfl, Complex.div_ofReal_re, Complex.re_sum]
    congr 1
    exact sum_congr rfl (fun k _ => by rw [hX]; unfold part; rw [if_pos hi])
  · rw [← integral_sample_mean (μ := μ) (range runs) hne (X (f.len + i)) (M (f.len + i)) (hint _ (by omega))
      (fun k hk => hM _ (by omega) k (mem_range.mp hk))]
    refine integral_congr_ae (Filter.Eventually.of_forall (fun ω => ?_))
    dsimp only
    rw [hm ω i hi, card_range, show ((runs : ℂ)) = ((runs : ℝ) : ℂ) by push_cast; rfl, Complex.div_ofReal_im, Complex.im_sum]
    congr 1
    exact sum_congr rfl (fun k _ => by rw [hX]; unfold part; rw [if_neg (by omega), Nat.add_sub_cancel_left])
  · rw [← integral_sample_cov (μ := μ) (range runs) (by rw [card_range]; exact hruns) (X i) (X j) (M i) (M j) (G i j)
      (fun k hk => h2 i hi k (mem_range.mp hk)) (fun k hk => h2 j hj k (mem_range.mp hk))
      (fun k hk => hM i hi k (mem_range.mp hk)) (fun k hk => hM j hj k (mem_range.mp hk))
      (fun k hk l hl => hG i hi j hj k (mem_range.mp hk) l (mem_range.mp hl))]
    refine integral_congr_ae (Filter.Eventually.of_forall (fun ω => ?_))
    dsimp only
    rw [hU ω i hi j hj, sampleCov_range, card_range]
    simp only [stacked_part f.len (fun i k => runResp S d f0 uS ud uf0 (fun k => z1 k ω) (fun k => z2 k ω) (fun k => z3 k ω) (f.el i) k) _ hi,
      stacked_part f.len (fun i k => runResp S d f0 uS ud uf0 (fun k => z1 k ω) (fun k => z2 k ω) (fun k => z3 k ω) (f.el i) k) _ hj, ← hX]

lemma freqResp1_linear (S d f0 f : ℝ) : freqResp1 S d f0 f = S * freqResp1 1 d f0 f := by
  simp only [freqResp1]
  push_cast
  ring

lemma part_real_smul (n : ℕ) (g : ℕ → ℂ) (c : ℝ) (i : ℕ) : part n (fun i => (c : ℂ) * g i) i = c * part n g i := by
  unfold part
  split <;> simp

/-- **C151** If only the gain is uncertain, the expected estimate is the response of the given system and the expected covariance is
`uS²` times the products of real and imaginary parts of the response for gain 1 - the exact propagation - for every number of runs. -/
theorem C151_gain {Ω : Type*} [MeasurableSpace Ω] (μ : Measure Ω) [IsProbabilityMeasure μ] (S d f0 uS : ℝ) (f : Vec ℝ)
    (runs : ℕ) (hruns : 2 ≤ runs) (z1 z2 z3 : ℕ → Ω → ℝ) (hz : ∀ k < runs, MemLp (z1 k) 2 μ) (h0 : ∀ k < runs, ∫ ω, z1 k ω ∂μ = 0)
    (h1 : ∀ k < runs, ∀ l < runs, cov[z1 k, z1 l; μ] = if k = l then 1 else 0) :
    ∃ (m : Ω → Vec ℂ) (U : Ω → Mat ℝ),
      (∀ ω, realimag S d f0 uS 0 0 f runs (fun k => z1 k ω) (fun k => z2 k ω) (fun k => z3 k ω) = .ok (m ω, U ω)
        ∧ (m ω).len = f.len ∧ (U ω).rows = 2 * f.len ∧ (U ω).cols = 2 * f.len) ∧
      (∀ i < f.len, ∫ ω, ((m ω).el i).re ∂μ = (freqResp1 S d f0 (f.el i)).re ∧ ∫ ω, ((m ω).el i).im ∂μ = (freqResp1 S d f0 (f.el i)).im) ∧
      ∀ i < 2 * f.len, ∀ j < 2 * f.len, ∫ ω, (U ω).el i j ∂μ
        = uS ^ 2 * (part f.len (fun i => freqResp1 1 d f0 (f.el i)) i * part f.len (fun i => freqResp1 1 d f0 (f.el i)) j) := by
  set g : ℕ → ℂ := fun i => freqResp1 1 d f0 (f.el i) with hg
  have hX : ∀ i k ω, (fun ω => S * part f.len g i + uS * part f.len g i * z1 k ω) ω
      = part f.len (fun i => runResp S d f0 uS 0 0 (fun k => z1 k ω) (fun k => z2 k ω) (fun k => z3 k ω) (f.el i) k) i := by
    intro i k ω
    have e : (fun i => runResp S d f0 uS 0 0 (fun k => z1 k ω) (fun k => z2 k ω) (fun k => z3 k ω) (f.el i) k)
        = fun i => ((S + z1 k ω * uS : ℝ) : ℂ) * g i := by
      funext i
      unfold runResp
      rw [mul_zero, mul_zero, add_zero, add_zero, freqResp1_linear]
    rw [e, part_real_smul]
    ring
  have hmem : ∀ i k, k < runs → MemLp (fun ω => S * part f.len g i + uS * part f.len g i * z1 k ω) 2 μ := by
    intro i k hk
    have a : MemLp (fun _ : Ω => S * part f.len g i) 2 μ := memLp_const _
    have b : MemLp (fun ω => uS * part f.len g i * z1 k ω) 2 μ := (hz k hk).const_mul _
    exact MemLp.add a b
  obtain ⟨m, U, e, hm, hU⟩ := C151_unbiased μ S d f0 uS 0 0 f runs hruns z1 z2 z3 (fun i => S * part f.len g i)
    (fun i j => uS ^ 2 * (part f.len g i * part f.len g j)) (fun i k ω => S * part f.len g i + uS * part f.len g i * z1 k ω) hX
    (fun i _ k hk => hmem i k hk)
    (fun i _ k hk => by
      have a : Integrable (fun _ : Ω => S * part f.len g i) μ := integrable_const _
      have b : Integrable (fun ω => uS * part f.len g i * z1 k ω) μ := ((hz k hk).integrable (by norm_num)).const_mul _
      rw [integral_add a b, integral_const_mul (uS * part f.len g i), h0 k hk]
      simp)
    (fun i _ j _ k hk l hl => by
      have a1 := (hz k hk).const_mul (uS * part f.len g i)
      have a2 := (hz l hl).const_mul (uS * part f.len g j)
      rw [covariance_const_add_left (a1.integrable (by norm_num)), covariance_const_add_right (a2.integrable (by norm_num)),
        covariance_const_mul_left, covariance_const_mul_right, h1 k hk l hl]
      split <;> ring)
  refine ⟨m, U, e, fun i hi => ⟨?_, ?_⟩, hU⟩
  · rw [(hm i hi).1, freqResp1_linear S]
    unfold part
    rw [if_pos hi, Complex.re_ofReal_mul]
  · rw [(hm i hi).2, freqResp1_linear S]
    unfold part
    rw [if_neg (by omega), Nat.add_sub_cancel_left, Complex.im_ofReal_mul]

/-- **C151** The expected covariance returned by `FreqResp2RealImag` is the covariance of real and imaginary parts of the drawn responses
`A exp(i P)`, for every number of runs. (For the mean see `C79_single_partial`, `C79_means_wrong`.) -/
theorem C151_freqresp {Ω : Type*} [MeasurableSpace Ω] (μ : Measure Ω) [IsProbabilityMeasure μ] (A P : Vec ℝ) (U : Tools.UncArg) (runs : ℕ)
    (hr : 2 ≤ runs) (draw : Ω → Vec ℝ → Mat ℝ → ℕ → Mat ℝ) (hd : ∀ ω m C, (draw ω m C runs).rows = runs) (hl : A.len = P.len)
    (hU : U.len = 2 * A.len) (hsq : U.toMat.rows = U.toMat.cols) (M : ℕ → ℝ) (G : ℕ → ℕ → ℝ)
    (X : ℕ → ℕ → Ω → ℝ) (hX : ∀ i r ω, X i r ω = part A.len (fun k => (draw ω (Vec.append A P) U.toMat runs).el r k
      * Complex.exp (Complex.I * (draw ω (Vec.append A P) U.toMat runs).el r (A.len + k))) i)
    (h2 : ∀ i < 2 * A.len, ∀ r < runs, MemLp (X i r) 2 μ) (hM : ∀ i < 2 * A.len, ∀ r < runs, ∫ ω, X i r ω ∂μ = M i)
    (hG : ∀ i < 2 * A.len, ∀ j < 2 * A.len, ∀ r < runs, ∀ q < runs, cov[X i r, X j q; μ] = if r = q then G i j else 0) :
    ∃ (re im : Ω → ℝ) (C : Ω → Mat ℝ), (∀ ω, Tools.freqResp2RealImag A P U runs (draw ω) = .ok (re ω, im ω, C ω) ∧ (C ω).rows = 2 * A.len) ∧
      (A.len = 1 → ∫ ω, re ω ∂μ = M 0 ∧ ∫ ω, im ω ∂μ = M 1) ∧
      ∀ i < 2 * A.len, ∀ j < 2 * A.len, ∫ ω, (C ω).el i j ∂μ = G i j := by
  have h := fun ω => Tools.C79_single_partial A P U runs hr (draw ω) (hd ω) hl hU hsq
  choose re im C e lr hp hc using h
  have hf : ∀ i < 2 * A.len, ∀ ω (f : ℕ → ℕ → ℝ), (∀ r < runs, ∀ k < A.len, (⟨f r k, f r (A.len + k)⟩ : ℂ)
      = (draw ω (Vec.append A P) U.toMat runs).el r k * Complex.exp (Complex.I * (draw ω (Vec.append A P) U.toMat runs).el r (A.len + k))) →
      ∀ r < runs, f r i = X i r ω := by
    intro i hi ω f hf r hr
    rw [hX]
    unfold part
    split_ifs with c
    · dsimp only
      rw [← hf r hr i c]
    · dsimp only
      rw [← hf r hr (i - A.len) (by omega)]
      show f r i = f r (A.len + (i - A.len))
      rw [show A.len + (i - A.len) = i by omega]
  have hne : (range runs).Nonempty := ⟨0, mem_range.mpr (by omega)⟩
  refine ⟨re, im, C, fun ω => ⟨e ω, lr ω⟩, fun h1 => ⟨?_, ?_⟩, fun i hi j hj => ?_⟩
  · rw [← integral_sample_mean (μ := μ) (range runs) hne (X 0) (M 0) (fun k hk => (h2 0 (by omega) k (mem_range.mp hk)).integrable (by norm_num))
      (fun k hk => hM 0 (by omega) k (mem_range.mp hk))]
    refine integral_congr_ae (Filter.Eventually.of_forall (fun ω => ?_))
    dsimp only
    obtain ⟨f, f1, _, f3⟩ := hc ω 0 (by omega) 0 (by omega)
    rw [(f3 h1).1, card_range]
    congr 1
    exact sum_congr rfl (fun k hk => hf 0 (by omega) ω f f1 k (mem_range.mp hk))
  · rw [← integral_sample_mean (μ := μ) (range runs) hne (X 1) (M 1) (fun k hk => (h2 1 (by omega) k (mem_range.mp hk)).integrable (by norm_num))
      (fun k hk => hM 1 (by omega) k (mem_range.mp hk))]
    refine integral_congr_ae (Filter.Eventually.of_forall (fun ω => ?_))
    dsimp only
    obtain ⟨f, f1, _, f3⟩ := hc ω 0 (by omega) 0 (by omega)
    rw [(f3 h1).2, card_range]
    congr 1
    exact sum_congr rfl (fun k hk => hf 1 (by omega) ω f f1 k (mem_range.mp hk))
  · rw [← integral_sample_cov (μ := μ) (range runs) (by rw [card_range]; exact hr) (X i) (X j) (M i) (M j) (G i j)
      (fun k hk => h2 i hi k (mem_range.mp hk)) (fun k hk => h2 j hj k (mem_range.mp hk))
      (fun k hk => hM i hi k (mem_range.mp hk)) (fun k hk => hM j hj k (mem_range.mp hk))
      (fun k hk l hl => hG i hi j hj k (mem_range.mp hk) l (mem_range.mp hl))]
    refine integral_congr_ae (Filter.Eventually.of_forall (fun ω => ?_))
    dsimp only
    obtain ⟨f, f1, f2, _⟩ := hc ω i hi j hj
    rw [f2, card_range]
    congr 1
    have si : ∑ q ∈ range runs, f q i = ∑ q ∈ range runs, X i q ω := sum_congr rfl (fun k hk => hf i hi ω f f1 k (mem_range.mp hk))
    have sj : ∑ q ∈ range runs, f q j = ∑ q ∈ range runs, X j q ω := sum_congr rfl (fun k hk => hf j hj ω f f1 k (mem_range.mp hk))
    rw [si, sj]
    exact sum_congr rfl (fun k hk => by rw [hf i hi ω f f1 k (mem_range.mp hk), hf j hj ω f f1 k (mem_range.mp hk)])

/-- Static response of a system with gain 2 and standard uncertainty 3 of the gain: expectation 2, expected variance 9. -/
example : ∃ (Ω : Type) (_ : MeasurableSpace Ω) (μ : Measure Ω) (_ : IsProbabilityMeasure μ) (z : ℕ → Ω → ℝ)
    (m : Ω → Vec ℂ) (U : Ω → Mat ℝ), (∀ ω, realimag 2 (1 / 10) 7 3 0 0 (Vec.ofList [0]) 10 (fun k => z k ω) (fun k => z k ω) (fun k => z k ω)
      = .ok (m ω, U ω)) ∧ ∫ ω, ((m ω).el 0).re ∂μ = 2 ∧ ∫ ω, (U ω).el 0 0 ∂μ = 9 := by
  obtain ⟨Ω, _, μ, hp, Z, hL, h0, hc⟩ := exists_white_centred
  obtain ⟨m, U, e, hm, hU⟩ := C151_gain μ 2 (1 / 10) 7 3 (Vec.ofList [0]) 10 (by norm_num) Z Z Z (fun k _ => hL k)
    (fun k _ => h0 k) (fun k _ l _ => hc k l)
  have l1 : (Vec.ofList [(0 : ℝ)]).len = 1 := rfl
  have z0 : (Vec.ofList [(0 : ℝ)]).el 0 = 0 := by simp
  refine ⟨Ω, _, μ, hp, Z, m, U, fun ω => (e ω).1, ?_, ?_⟩
  · rw [(hm 0 (by rw [l1]; norm_num)).1, z0, C64_static_gain _ _ _ (by norm_num)]
    simp
  · rw [hU 0 (by rw [l1]; norm_num) 0 (by rw [l1]; norm_num)]
    unfold part
    rw [if_pos (by rw [l1]; norm_num)]
    dsimp only
    rw [z0, C64_static_gain _ _ _ (by norm_num)]
    norm_num

end SO
end PyDyn
