import Verif.Props.Unbiased
import Verif.Props.FirLaws
import Mathlib.Probability.Independence.Integration
import Mathlib.Probability.Independence.InfinitePi
import Mathlib.Probability.Distributions.Gaussian.Real

/-!
# C143: Monte Carlo and the closed formulae agree for FIR filters

The expectation of what `MC` returns for a filter without feedback and uncertain coefficients is what `FIRuncFilter`
returns, once the memory of the filter is filled.
-/

namespace PyDyn
namespace MC
open Finset MCSpec MeasureTheory ProbabilityTheory Filter Spec

variable {Ω : Type*} [MeasurableSpace Ω] {μ : Measure Ω} [IsProbabilityMeasure μ]

lemma memLp_prod {A S : Ω → ℝ} (hA : MemLp A 2 μ) (hS : MemLp S 2 μ) (h : IndepFun A S μ) :
    MemLp (fun ω => A ω * S ω) 2 μ := by
  refine (memLp_two_iff_integrable_sq (hA.1.mul hS.1)).mpr ?_
  have h2 : IndepFun (fun ω => A ω ^ 2) (fun ω => S ω ^ 2) μ :=
    h.comp (φ := fun t : ℝ => t ^ 2) (ψ := fun t : ℝ => t ^ 2) (by fun_prop) (by fun_prop)
  have := h2.integrable_mul hA.integrable_sq hS.integrable_sq
  refine this.congr (ae_of_all _ (fun ω => ?_))
  simp [mul_pow]

lemma cov_prod {A B S T : Ω → ℝ} (hA : MemLp A 2 μ) (hB : MemLp B 2 μ) (hS : MemLp S 2 μ) (hT : MemLp T 2 μ)
    (h : IndepFun (fun ω => (A ω, B ω)) (fun ω => (S ω, T ω)) μ) :
    cov[fun ω => A ω * S ω, fun ω => B ω * T ω; μ]
      = (∫ ω, A ω ∂μ) * (∫ ω, B ω ∂μ) * cov[S, T; μ] + (∫ ω, S ω ∂μ) * (∫ ω, T ω ∂μ) * cov[A, B; μ]
        + cov[S, T; μ] * cov[A, B; μ] := by
  have h1 : IndepFun A S μ := h.comp (φ := Prod.fst) (ψ := Prod.fst) measurable_fst measurable_fst
  have h2 : IndepFun B T μ := h.comp (φ := Prod.snd) (ψ := Prod.snd) measurable_snd measurable_snd
  have h3 : IndepFun (fun ω => A ω * B ω) (fun ω => S ω * T ω) μ :=
    h.comp (φ := fun p : ℝ × ℝ => p.1 * p.2) (ψ := fun p : ℝ × ℝ => p.1 * p.2) (by fun_prop) (by fun_prop)
  rw [covariance_eq_sub (memLp_prod hA hS h1) (memLp_prod hB hT h2), covariance_eq_sub hS hT, covariance_eq_sub hA hB,
    h1.integral_fun_mul_eq_mul_integral hA.1 hS.1, h2.integral_fun_mul_eq_mul_integral hB.1 hT.1]
  have e : μ[(fun ω => A ω * S ω) * fun ω => B ω * T ω] = μ[A * B] * μ[S * T] := by
    have := h3.integral_fun_mul_eq_mul_integral (hA.1.mul hB.1) (hS.1.mul hT.1)
    rw [show μ[A * B] = ∫ ω, A ω * B ω ∂μ from rfl, show μ[S * T] = ∫ ω, S ω * T ω ∂μ from rfl, ← this]
    refine integral_congr_ae (ae_of_all _ (fun ω => ?_))
    simp only [Pi.mul_apply]
    ring
  rw [e]
  ring

lemma cov_cross {A B S T : Ω → ℝ} (hA : MemLp A 2 μ) (hB : MemLp B 2 μ) (hS : MemLp S 2 μ) (hT : MemLp T 2 μ)
    (h1 : IndepFun A S μ) (h2 : IndepFun B T μ)
    (h : IndepFun (fun ω => (A ω, S ω)) (fun ω => (B ω, T ω)) μ) :
    cov[fun ω => A ω * S ω, fun ω => B ω * T ω; μ] = 0 := by
  have h3 : IndepFun (fun ω => A ω * S ω) (fun ω => B ω * T ω) μ :=
    h.comp (φ := fun p : ℝ × ℝ => p.1 * p.2) (ψ := fun p : ℝ × ℝ => p.1 * p.2) (by fun_prop) (by fun_prop)
  exact h3.covariance_eq_zero (memLp_prod hA hS h1) (memLp_prod hB hT h2)

/-- The drawn coefficients `Θ k l` and signals `S k p` of the runs `k`: square integrable, with means `b` and `x` and
covariances `V` and `C`; coefficients and signal of a run are independent, and so are different runs. -/
structure RunsFir (μ : Measure Ω) (runs : ℕ) (b x : Vec ℝ) (V C : ℕ → ℕ → ℝ) (Θ S : ℕ → ℕ → Ω → ℝ) : Prop where
  memT : ∀ k < runs, ∀ l < b.len, MemLp (Θ k l) 2 μ
  memS : ∀ k < runs, ∀ p < x.len, MemLp (S k p) 2 μ
  meanT : ∀ k < runs, ∀ l < b.len, ∫ ω, Θ k l ω ∂μ = b.el l
  meanS : ∀ k < runs, ∀ p < x.len, ∫ ω, S k p ω ∂μ = x.el p
  covT : ∀ k < runs, ∀ l < b.len, ∀ l' < b.len, cov[Θ k l, Θ k l'; μ] = V l l'
  covS : ∀ k < runs, ∀ p < x.len, ∀ q < x.len, cov[S k p, S k q; μ] = C p q
  within : ∀ k < runs, ∀ l < b.len, ∀ l' < b.len, ∀ p < x.len, ∀ q < x.len,
    IndepFun (fun ω => (Θ k l ω, Θ k l' ω)) (fun ω => (S k p ω, S k q ω)) μ
  between : ∀ k < runs, ∀ k' < runs, k ≠ k' → ∀ l < b.len, ∀ l' < b.len, ∀ p < x.len, ∀ q < x.len,
    IndepFun (fun ω => (Θ k l ω, S k p ω)) (fun ω => (Θ k' l' ω, S k' q ω)) μ

/-- Response of a filter without feedback. -/
lemma isFiltered_fir (b a x y : Vec ℝ) (ha : a.len = 1) (ha0 : a.el 0 = 1) (h : IsFiltered b a x y) {n : ℕ} (hn : n < x.len) :
    y.el n = ∑ l ∈ range b.len, (if l ≤ n then 1 else 0) * (b.el l * x.el (n - l)) := by
  have h1 := h.2 n hn
  rw [sum_eq_single n] at h1
  · rw [Nat.sub_self, ha0, one_mul] at h1
    rw [h1]
    rw [← sum_range_reflect]
    have e1 : ∀ j ∈ range (n + 1), b.el (n - (n + 1 - 1 - j)) * x.el (n + 1 - 1 - j) = b.el j * x.el (n - j) := by
      intro j hj
      have := mem_range.mp hj
      rw [show n + 1 - 1 - j = n - j by omega, show n - (n - j) = j by omega]
    rw [sum_congr rfl e1]
    have e2 : ∑ j ∈ range (n + 1), b.el j * x.el (n - j)
        = ∑ j ∈ range (n + 1 + b.len), (if j ≤ n then 1 else 0) * (b.el j * x.el (n - j)) := by
      refine sum_subset_zero_on_sdiff (range_mono (by omega)) ?_ ?_
      · intro j hj
        simp only [mem_sdiff, mem_range] at hj
        rw [if_neg (by omega), zero_mul]
      · intro j hj
        have := mem_range.mp hj
        rw [if_pos (by omega), one_mul]
    rw [e2]
    refine (sum_subset_zero_on_sdiff (range_mono (by omega)) ?_ (fun _ _ => rfl)).symm
    intro j hj
    simp only [mem_sdiff, mem_range] at hj
    rw [Vec.el_of_ge _ (by omega)]
    ring
  · intro j hj hne
    have := mem_range.mp hj
    rw [Vec.el_of_ge a (by omega), zero_mul]
  · simp

lemma stable_one (a : Vec ℝ) (ha : a.len = 1) (ha0 : a.el 0 = 1) : Stable a := by
  intro z hz
  exfalso
  have h1 : (1 : ℂ) = 0 := by
    simpa [FSSpec.IsRoot, FSSpec.polyval, ha, ha0] using hz
  exact one_ne_zero h1

open Classical in
/-- **C143** `MC` for a filter without feedback, with uncertain coefficients `b` and an uncertain signal, is an unbiased
estimator of what `FIRuncFilter` computes with closed formulae, as soon as the memory of the filter is filled with recorded
samples. Before, the estimates differ by the past that `FIRuncFilter` assumes (the signal was constant), while `MC` starts
at rest. -/
theorem C143_mc (drawTheta : Ω → Vec ℝ → Mat ℝ → ℕ → Mat ℝ) (draw2 : Vec ℝ → Mat ℝ → (ℕ → ℝ) → Vec ℝ)
    (z : ℕ → ℕ → Ω → ℝ) (x : Vec ℝ) (U : Ux) (b a : Vec ℝ) (Uab : Mat ℝ) (runs : ℕ) (ha : a.len = 1) (ha0 : a.el 0 = 1)
    (hruns : 2 ≤ runs) (hU : ShapeOk draw2 x U) (hr : Uab.rows = b.len) (hc : Uab.cols = b.len)
    (hT : ∀ ω, (drawTheta ω (theta a b) Uab runs).cols = b.len)
    (S : ℕ → Ω → Vec ℝ) (hS : ∀ k ω, Drawn draw2 x U (fun i => z k i ω) (S k ω))
    (hm : RunsFir μ runs b x Uab.el (covOf U) (fun k l ω => (drawTheta ω (theta a b) Uab runs).el k l)
      (fun k p ω => (S k ω).el p))
    (sigma : Noise ℝ) (kind : String) (V : Option (Mat ℝ)) (hw : WellShaped x sigma b (coefArg V) .none kind)
    (hcap : CovarianceCapable sigma (coefArg V) kind)
    (hsig : ∀ i < x.len, ∀ j < x.len, (noiseMeaning x.len kind sigma).el i j = covOf U i j)
    (hV : ∀ l < b.len, ∀ l' < b.len, coefMeaning (coefArg V) l l' = Uab.el l l') (hVs : ∀ W ∈ V, W.IsSymm) :
    ∃ xf Uf, FIRuncFilter x sigma b (coefArg V) 0 .none kind true = .ok (xf, .cov Uf) ∧
      ∃ (y : Ω → Vec ℝ) (Uy : Ω → Mat ℝ),
        (∀ ω, mc (drawTheta ω) draw2 (fun k i => z k i ω) x U b a Uab runs none none false 0
          = .ok (.stats (y ω) (Uy ω))) ∧
        (∀ i < x.len, ∫ ω, (y ω).el i ∂μ = xf.el i - x.el 0 * ∑ l ∈ range b.len with i < l, b.el l) ∧
        (∀ i < x.len, b.len - 1 ≤ i → ∫ ω, (y ω).el i ∂μ = xf.el i) ∧
        ∀ i < x.len, ∀ j < x.len, b.len - 1 ≤ i → b.len - 1 ≤ j → ∫ ω, (Uy ω).el i j ∂μ = Uf.el i j := by
  have hx : 0 < x.len := hw.y_pos
  have hb2 : 2 ≤ b.len := hw.theta_two
  have hF := FIRuncFilter_closed x sigma b (coefArg V) kind true hw (Or.inr hcap)
    (by cases V with
      | none => intro W h; cases h
      | some V => rintro W ⟨⟩; exact hVs V rfl)
    (by cases V <;> simp [coefArg])
  rw [if_pos rfl] at hF
  have hd0 : ∀ i < x.len, ToolsSpec.dest x.len 0 i = i := by
    intro i hi
    unfold ToolsSpec.dest
    rw [add_zero, Int.emod_eq_of_lt (by omega) (by omega)]
    simp
  have hden : ∀ ω k, (denominator (row (drawTheta ω (theta a b) Uab runs) k) b.len).len = 1 ∧
      (denominator (row (drawTheta ω (theta a b) Uab runs) k) b.len).el 0 = 1 := by
    intro ω k
    unfold denominator row
    rw [hT ω]
    simp
  have hnum : ∀ ω k, ∀ l < b.len, (numerator (row (drawTheta ω (theta a b) Uab runs) k) b.len).el l
      = (drawTheta ω (theta a b) Uab runs).el k l := by
    intro ω k l hl
    unfold numerator row
    rw [Vec.el_ofFn_lt _ hl, Vec.len_ofFn, hT ω, Vec.el_ofFn_lt _ (by omega)]
    congr 1; omega
  have hset : ∀ ω, {k ∈ range runs | Stable (denominator (row (drawTheta ω (theta a b) Uab runs) k) b.len)} = range runs :=
    fun ω => filter_true_of_mem (fun k _ => stable_one _ (hden ω k).1 (hden ω k).2)
  have hSl : ∀ k ω, (S k ω).len = x.len := by
    intro k ω
    have := hS k ω
    rcases U with u | v | U | _
    · exact this.1
    · exact this.1
    · rw [show S k ω = _ from this]
      exact hU.2.2.2 _
    · exact this.elim
  obtain ⟨Y, hYdef⟩ : ∃ Y : ℕ → ℕ → Ω → ℝ, Y = fun i k ω => ∑ l ∈ range b.len, (if l ≤ i then 1 else 0)
      * ((drawTheta ω (theta a b) Uab runs).el k l * (S k ω).el (i - l)) := ⟨_, rfl⟩
  have key : ∀ ω, ∃ y Uy, mc (drawTheta ω) draw2 (fun k i => z k i ω) x U b a Uab runs none none false 0
        = .ok (.stats y Uy) ∧ ∀ i < x.len, y.el i = (∑ k ∈ range runs, Y i k ω) / #(range runs)
        ∧ ∀ j < x.len, Uy.el i j
          = (∑ k ∈ range runs, (Y i k ω - (∑ k ∈ range runs, Y i k ω) / #(range runs))
              * (Y j k ω - (∑ k ∈ range runs, Y j k ω) / #(range runs))) / ((#(range runs) : ℝ) - 1) := by
    intro ω
    obtain ⟨Z, h1, -, h3, -, h5, -⟩ := C47_result (drawTheta ω) draw2 (fun k i => z k i ω) x U b a Uab
      runs none none 0 hU trivial (by omega) (by omega) (by omega) (by omega) (by rw [hT ω]; omega)
    obtain ⟨y, Uy, e, -, -, -, h4⟩ := h5 (by rw [hset, card_range]; exact hruns)
    rw [hset] at h4
    have hY : ∀ k ∈ range runs, ∀ i < x.len, (Z k).el i = Y i k ω := by
      intro k hk i hi
      have hk := mem_range.mp hk
      obtain ⟨s, xl, d1, d2, d3⟩ := h1 k hk (stable_one _ (hden ω k).1 (hden ω k).2)
      obtain rfl := drawn_unique d1 (hS k ω)
      obtain rfl : xl = S k ω := d2
      rw [isFiltered_fir _ _ _ _ (hden ω k).1 (hden ω k).2 d3 (by rw [hSl]; exact hi), hYdef]
      refine sum_congr rfl (fun l hl => ?_)
      rw [hnum ω k l (mem_range.mp hl)]
    refine ⟨y, Uy, e, fun i hi => ⟨?_, fun j hj => ?_⟩⟩
    · have := (h4 i hi).1
      rw [hd0 i hi] at this
      rw [this, sum_congr rfl (fun k hk => hY k hk i hi)]
    · have := (h4 i hi).2 j hj
      rw [hd0 i hi, hd0 j hj] at this
      rw [this, sum_congr rfl (fun k hk => hY k hk i hi), sum_congr rfl (fun k hk => hY k hk j hj)]
      congr 1
      exact sum_congr rfl (fun k hk => by rw [hY k hk i hi, hY k hk j hj])
  choose y Uy e h using key
  have hmem : ∀ i < x.len, ∀ k ∈ range runs, ∀ l ∈ range b.len, MemLp
      (fun ω => (drawTheta ω (theta a b) Uab runs).el k l * (S k ω).el (i - l)) 2 μ := by
    intro i hi k hk l hl
    have hk := mem_range.mp hk
    have hl := mem_range.mp hl
    exact memLp_prod (hm.memT k hk l hl) (hm.memS k hk (i - l) (by omega))
      ((hm.within k hk l hl l hl (i - l) (by omega) (i - l) (by omega)).comp (φ := Prod.fst) (ψ := Prod.fst)
        measurable_fst measurable_fst)
  have hmemY : ∀ i < x.len, ∀ k ∈ range runs, MemLp (Y i k) 2 μ := by
    intro i hi k hk
    rw [hYdef]
    exact memLp_lincomb _ _ (hmem i hi k hk)
  have hmean : ∀ i < x.len, ∀ k ∈ range runs, ∫ ω, Y i k ω ∂μ
      = ∑ l ∈ range b.len, (if l ≤ i then 1 else 0) * (b.el l * x.el (i - l)) := by
    intro i hi k hk
    rw [hYdef]
    simp only
    rw [integral_finset_sum _ (fun l hl => ((hmem i hi k hk l hl).integrable (by norm_num)).const_mul _)]
    refine sum_congr rfl (fun l hl => ?_)
    have hk := mem_range.mp hk
    have hl := mem_range.mp hl
    have hi' : IndepFun (fun ω => (drawTheta ω (theta a b) Uab runs).el k l) (fun ω => (S k ω).el (i - l)) μ :=
      (hm.within k hk l hl l hl (i - l) (by omega) (i - l) (by omega)).comp (φ := Prod.fst) (ψ := Prod.fst)
        measurable_fst measurable_fst
    rw [integral_const_mul, hi'.integral_fun_mul_eq_mul_integral (hm.memT k hk l hl).1 (hm.memS k hk (i - l) (by omega)).1]
    congr 2
    · exact hm.meanT k hk l hl
    · exact hm.meanS k hk (i - l) (by omega)
  have hcov : ∀ i < x.len, ∀ j < x.len, ∀ k ∈ range runs, ∀ k' ∈ range runs, cov[Y i k, Y j k'; μ]
      = if k = k' then ∑ l ∈ range b.len, ∑ l' ∈ range b.len, (if l ≤ i then 1 else 0) * (if l' ≤ j then 1 else 0)
        * (b.el l * b.el l' * covOf U (i - l) (j - l') + x.el (i - l) * x.el (j - l') * Uab.el l l'
          + covOf U (i - l) (j - l') * Uab.el l l') else 0 := by
    intro i hi j hj k hk k' hk'
    rw [hYdef]
    simp only
    rw [covariance_lincomb _ _ _ _ (hmem i hi k hk) (hmem j hj k' hk')]
    have hk := mem_range.mp hk
    have hk' := mem_range.mp hk'
    split_ifs with c
    · subst c
      refine sum_congr rfl (fun l hl => sum_congr rfl (fun l' hl' => ?_))
      have hl := mem_range.mp hl
      have hl' := mem_range.mp hl'
      congr 1
      rw [cov_prod (hm.memT k hk l hl) (hm.memT k hk l' hl') (hm.memS k hk (i - l) (by omega))
        (hm.memS k hk (j - l') (by omega)) (hm.within k hk l hl l' hl' (i - l) (by omega) (j - l') (by omega)),
        hm.meanT k hk l hl, hm.meanT k hk l' hl', hm.meanS k hk (i - l) (by omega), hm.meanS k hk (j - l') (by omega),
        hm.covT k hk l hl l' hl', hm.covS k hk (i - l) (by omega) (j - l') (by omega)]
    · refine sum_eq_zero (fun l hl => sum_eq_zero (fun l' hl' => ?_))
      have hl := mem_range.mp hl
      have hl' := mem_range.mp hl'
      rw [cov_cross (hm.memT k hk l hl) (hm.memT k' hk' l' hl') (hm.memS k hk (i - l) (by omega))
        (hm.memS k' hk' (j - l') (by omega))
        ((hm.within k hk l hl l hl (i - l) (by omega) (i - l) (by omega)).comp (φ := Prod.fst) (ψ := Prod.fst)
          measurable_fst measurable_fst)
        ((hm.within k' hk' l' hl' l' hl' (j - l') (by omega) (j - l') (by omega)).comp (φ := Prod.fst) (ψ := Prod.fst)
          measurable_fst measurable_fst)
        (hm.between k hk k' hk' c l hl l' hl' (i - l) (by omega) (j - l') (by omega)), mul_zero]
  have hest : ∀ i < x.len, ∫ ω, (y ω).el i ∂μ = ∑ l ∈ range b.len, (if l ≤ i then 1 else 0) * (b.el l * x.el (i - l)) := by
    intro i hi
    simp_rw [fun ω => (h ω i hi).1]
    exact integral_sample_mean (range runs) ⟨0, mem_range.mpr (by omega)⟩ _ _
      (fun k hk => (hmemY i hi k hk).integrable (by norm_num)) (hmean i hi)
  have hest' : ∀ i < x.len, ∫ ω, (y ω).el i ∂μ
      = (Vec.ofFn x.len (firOut b (past x (x.el 0)))).el i - x.el 0 * ∑ l ∈ range b.len with i < l, b.el l := by
    intro i hi
    rw [hest i hi, Vec.el_ofFn_lt _ hi, sum_filter, mul_sum]
    unfold firOut
    rw [← sum_sub_distrib]
    refine sum_congr rfl (fun l hl => ?_)
    by_cases c : l ≤ i
    · rw [if_pos c, if_neg (by omega)]
      unfold past
      rw [if_neg (by omega), show ((i : ℤ) - l).toNat = i - l by omega]
      ring
    · rw [if_neg c, if_pos (by omega)]
      unfold past
      rw [if_pos (by omega)]
      ring
  refine ⟨_, _, hF, y, Uy, e, hest', fun i hi hi' => ?_, fun i hi j hj hi' hj' => ?_⟩
  · rw [hest' i hi, filter_false_of_mem (fun l hl => by have := mem_range.mp hl; omega), sum_empty]
    ring
  · simp_rw [fun ω => (h ω i hi).2 j hj]
    rw [integral_sample_cov (range runs) (by rwa [card_range]) _ _ _ _ _ (hmemY i hi) (hmemY j hj) (hmean i hi) (hmean j hj)
      (hcov i hi j hj), Mat.el_ofFn_lt _ hi hj]
    unfold docCov firCov
    refine sum_congr rfl (fun l hl => sum_congr rfl (fun l' hl' => ?_))
    have hl := mem_range.mp hl
    have hl' := mem_range.mp hl'
    rw [if_pos (by omega), if_pos (by omega)]
    have p1 : past x (x.el 0) ((i : ℤ) - l) = x.el (i - l) := by
      unfold past
      rw [if_neg (by omega), show ((i : ℤ) - l).toNat = i - l by omega]
    have p2 : past x (x.el 0) ((j : ℤ) - l') = x.el (j - l') := by
      unfold past
      rw [if_neg (by omega), show ((j : ℤ) - l').toNat = j - l' by omega]
    have p3 : stationaryCov (noiseMeaning x.len kind sigma) ((i : ℤ) - l) ((j : ℤ) - l') = covOf U (i - l) (j - l') := by
      unfold stationaryCov
      rw [if_pos (by omega), show ((i : ℤ) - l).toNat = i - l by omega, show ((j : ℤ) - l').toNat = j - l' by omega,
        hsig _ (by omega) _ (by omega)]
    rw [p1, p2, p3, hV l hl l' hl']
    ring

/-! ### Draws from independent standard numbers -/

/-- `c + ∑ a_m ξ_m` over the numbers of one kind (`false`: coefficients, `true`: signal) and run. -/
def affineDraw (ξ : Bool × ℕ × ℕ → Ω → ℝ) (f : Bool) (k n : ℕ) (c : ℝ) (a : ℕ → ℝ) (ω : Ω) : ℝ :=
  c + ∑ m ∈ range n, a m * ξ (f, k, m) ω

/-- Independent numbers of mean 0 and variance 1. -/
structure Standard (μ : Measure Ω) (ξ : Bool × ℕ × ℕ → Ω → ℝ) : Prop where
  indep : iIndepFun ξ μ
  meas : ∀ i, Measurable (ξ i)
  mem : ∀ i, MemLp (ξ i) 2 μ
  mean : ∀ i, ∫ ω, ξ i ω ∂μ = 0
  var : ∀ i, Var[ξ i; μ] = 1

lemma affineDraw_mem {ξ : Bool × ℕ × ℕ → Ω → ℝ} (h : Standard μ ξ) (f : Bool) (k n : ℕ) (c : ℝ) (a : ℕ → ℝ) :
    MemLp (affineDraw ξ f k n c a) 2 μ :=
  (memLp_const c).add (memLp_lincomb _ _ (fun m _ => h.mem (f, k, m)))

lemma affineDraw_mean {ξ : Bool × ℕ × ℕ → Ω → ℝ} (h : Standard μ ξ) (f : Bool) (k n : ℕ) (c : ℝ) (a : ℕ → ℝ) :
    ∫ ω, affineDraw ξ f k n c a ω ∂μ = c := by
  unfold affineDraw
  have hi : ∀ m ∈ range n, Integrable (fun ω => a m * ξ (f, k, m) ω) μ := fun m _ =>
    ((h.mem (f, k, m)).integrable (by norm_num)).const_mul _
  rw [integral_add (integrable_const _) (integrable_finset_sum _ hi), integral_finset_sum _ hi]
  simp [integral_const_mul, h.mean]

lemma affineDraw_cov {ξ : Bool × ℕ × ℕ → Ω → ℝ} (h : Standard μ ξ) (f : Bool) (k n : ℕ) (c c' : ℝ) (a a' : ℕ → ℝ) :
    cov[affineDraw ξ f k n c a, affineDraw ξ f k n c' a'; μ] = ∑ m ∈ range n, a m * a' m := by
  have hi : ∀ a : ℕ → ℝ, Integrable (fun ω => ∑ m ∈ range n, a m * ξ (f, k, m) ω) μ := fun a =>
    integrable_finset_sum _ (fun m _ => ((h.mem (f, k, m)).integrable (by norm_num)).const_mul _)
  unfold affineDraw
  rw [covariance_const_add_left (hi a), covariance_const_add_right (hi a'),
    covariance_lincomb _ _ _ _ (fun m _ => h.mem (f, k, m)) (fun m _ => h.mem (f, k, m))]
  refine sum_congr rfl (fun m hm => ?_)
  rw [sum_eq_single m]
  · rw [covariance_self (h.mem _).1.aemeasurable, h.var, mul_one]
  · intro m' _ hne
    rw [(h.indep.indepFun (i := (f, k, m)) (j := (f, k, m')) (by simp [Ne.symm hne])).covariance_eq_zero (h.mem _) (h.mem _),
      mul_zero]
  · intro hm'; exact absurd hm hm'

/-- `affineDraw` as a function of the numbers of the block `A`. -/
def affineOf (A : Finset (Bool × ℕ × ℕ)) (f : Bool) (k n : ℕ) (c : ℝ) (a : ℕ → ℝ) (v : A → ℝ) : ℝ :=
  c + ∑ m ∈ range n, a m * (if h : (f, k, m) ∈ A then v ⟨_, h⟩ else 0)

lemma measurable_affineOf (A : Finset (Bool × ℕ × ℕ)) (f : Bool) (k n : ℕ) (c : ℝ) (a : ℕ → ℝ) :
    Measurable (affineOf A f k n c a) := by
  unfold affineOf
  refine measurable_const.add (Finset.measurable_sum _ (fun m _ => ?_))
  by_cases h : (f, k, m) ∈ A
  · simp only [h, dite_true]
    exact (measurable_pi_apply _).const_mul _
  · simp only [h, dite_false]
    exact measurable_const

lemma affineOf_eq (ξ : Bool × ℕ × ℕ → Ω → ℝ) (A : Finset (Bool × ℕ × ℕ)) (f : Bool) (k n : ℕ) (c : ℝ) (a : ℕ → ℝ)
    (hA : ∀ m < n, (f, k, m) ∈ A) (ω : Ω) : affineOf A f k n c a (fun i => ξ i ω) = affineDraw ξ f k n c a ω := by
  unfold affineOf affineDraw
  congr 1
  refine sum_congr rfl (fun m hm => ?_)
  rw [dif_pos (hA m (mem_range.mp hm))]

/-- Draws from disjoint blocks are independent. -/
lemma affineDraw_indep {ξ : Bool × ℕ × ℕ → Ω → ℝ} (h : Standard μ ξ) (f1 f2 g1 g2 : Bool) (k1 k2 : ℕ) (n1 n2 r1 r2 : ℕ)
    (c1 c2 d1 d2 : ℝ) (a1 a2 b1 b2 : ℕ → ℝ) (hne : k1 ≠ k2 ∨ (f1 = false ∧ f2 = false ∧ g1 = true ∧ g2 = true)) :
    IndepFun (fun ω => (affineDraw ξ f1 k1 n1 c1 a1 ω, affineDraw ξ f2 k1 n2 c2 a2 ω))
      (fun ω => (affineDraw ξ g1 k2 r1 d1 b1 ω, affineDraw ξ g2 k2 r2 d2 b2 ω)) μ := by
  have hd : Disjoint (({f1, f2} : Finset Bool) ×ˢ ({k1} : Finset ℕ) ×ˢ range (n1 + n2))
      (({g1, g2} : Finset Bool) ×ˢ ({k2} : Finset ℕ) ×ˢ range (r1 + r2)) := by
    rw [Finset.disjoint_left]
    rintro ⟨f, k, m⟩ h1 h2
    simp only [mem_product, mem_insert, mem_singleton, mem_range] at h1 h2
    rcases hne with hne | ⟨rfl, rfl, rfl, rfl⟩
    · exact hne (h1.2.1.symm.trans h2.2.1)
    · rcases h1.1 with e | e <;> rcases h2.1 with e' | e' <;> simp [e] at e'
  have := (h.indep.indepFun_finset _ _ hd h.meas).comp
    (φ := fun v => (affineOf _ f1 k1 n1 c1 a1 v, affineOf _ f2 k1 n2 c2 a2 v))
    (ψ := fun v => (affineOf _ g1 k2 r1 d1 b1 v, affineOf _ g2 k2 r2 d2 b2 v))
    ((measurable_affineOf _ _ _ _ _ _).prodMk (measurable_affineOf _ _ _ _ _ _))
    ((measurable_affineOf _ _ _ _ _ _).prodMk (measurable_affineOf _ _ _ _ _ _))
  refine this.congr (ae_of_all _ (fun ω => ?_)) (ae_of_all _ (fun ω => ?_))
  · simp only [Function.comp]
    rw [affineOf_eq ξ _ f1 k1 n1 c1 a1 (fun m hm => by simp; omega), affineOf_eq ξ _ f2 k1 n2 c2 a2 (fun m hm => by simp; omega)]
  · simp only [Function.comp]
    rw [affineOf_eq ξ _ g1 k2 r1 d1 b1 (fun m hm => by simp; omega), affineOf_eq ξ _ g2 k2 r2 d2 b2 (fun m hm => by simp; omega)]

/-- **C143** Coefficients and signals that are drawn from independent numbers of mean 0 and variance 1 by way of any
factors `L` and `M` of the covariance matrices (as numpy does) meet the conditions. -/
theorem C143_draws {ξ : Bool × ℕ × ℕ → Ω → ℝ} (h : Standard μ ξ) (runs : ℕ) (b x : Vec ℝ) (V C : ℕ → ℕ → ℝ) (n r : ℕ)
    (L M : ℕ → ℕ → ℝ) (hL : ∀ l < b.len, ∀ l' < b.len, V l l' = ∑ m ∈ range n, L l m * L l' m)
    (hM : ∀ p < x.len, ∀ q < x.len, C p q = ∑ m ∈ range r, M p m * M q m) :
    RunsFir μ runs b x V C (fun k l => affineDraw ξ false k n (b.el l) (L l))
      (fun k p => affineDraw ξ true k r (x.el p) (M p)) where
  memT k _ l _ := affineDraw_mem h _ _ _ _ _
  memS k _ l _ := affineDraw_mem h _ _ _ _ _
  meanT k _ l _ := affineDraw_mean h _ _ _ _ _
  meanS k _ l _ := affineDraw_mean h _ _ _ _ _
  covT k _ l hl l' hl' := by rw [affineDraw_cov h, hL l hl l' hl']
  covS k _ p hp q hq := by rw [affineDraw_cov h, hM p hp q hq]
  within k _ l _ l' _ p _ q _ := affineDraw_indep h _ _ _ _ _ _ _ _ _ _ _ _ _ _ _ _ _ _ (Or.inr ⟨rfl, rfl, rfl, rfl⟩)
  between k _ k' _ hne l _ l' _ p _ q _ := affineDraw_indep h _ _ _ _ _ _ _ _ _ _ _ _ _ _ _ _ _ _ (Or.inl hne)

/-- Independent standard normal numbers exist. -/
lemma exists_standard : Standard (Measure.infinitePi (fun _ : Bool × ℕ × ℕ => gaussianReal 0 1)) (fun i ω => ω i) where
  indep := iIndepFun_infinitePi (X := fun _ (t : ℝ) => t) (fun _ => measurable_id)
  meas i := measurable_pi_apply i
  mem i := by
    have := (memLp_id_gaussianReal' (μ := 0) (v := 1) 2 (by norm_num)).comp_measurePreserving
      (measurePreserving_eval_infinitePi (fun _ : Bool × ℕ × ℕ => gaussianReal 0 1) i)
    exact this
  mean i := by
    have := (measurePreserving_eval_infinitePi (fun _ : Bool × ℕ × ℕ => gaussianReal 0 1) i).map_eq
    have h2 := integral_map (μ := Measure.infinitePi (fun _ : Bool × ℕ × ℕ => gaussianReal 0 1))
      (measurable_pi_apply i).aemeasurable (f := fun t : ℝ => t) (by fun_prop)
    rw [← h2]
    erw [this]
    exact integral_id_gaussianReal
  var i := by
    have := (measurePreserving_eval_infinitePi (fun _ : Bool × ℕ × ℕ => gaussianReal 0 1) i).variance_fun_comp
      (f := fun t : ℝ => t) (by fun_prop)
    refine this.trans ?_
    have h2 := variance_id_gaussianReal (μ := 0) (v := 1)
    exact h2

lemma RunsFir.congr {runs : ℕ} {b x : Vec ℝ} {V C : ℕ → ℕ → ℝ} {Θ S Θ' S' : ℕ → ℕ → Ω → ℝ} (h : RunsFir μ runs b x V C Θ S)
    (h1 : ∀ k < runs, ∀ l < b.len, Θ' k l = Θ k l) (h2 : ∀ k < runs, ∀ p < x.len, S' k p = S k p) :
    RunsFir μ runs b x V C Θ' S' where
  memT k hk l hl := by rw [h1 k hk l hl]; exact h.memT k hk l hl
  memS k hk l hl := by rw [h2 k hk l hl]; exact h.memS k hk l hl
  meanT k hk l hl := by rw [h1 k hk l hl]; exact h.meanT k hk l hl
  meanS k hk l hl := by rw [h2 k hk l hl]; exact h.meanS k hk l hl
  covT k hk l hl l' hl' := by rw [h1 k hk l hl, h1 k hk l' hl']; exact h.covT k hk l hl l' hl'
  covS k hk l hl l' hl' := by rw [h2 k hk l hl, h2 k hk l' hl']; exact h.covS k hk l hl l' hl'
  within k hk l hl l' hl' p hp q hq := by
    rw [h1 k hk l hl, h1 k hk l' hl', h2 k hk p hp, h2 k hk q hq]; exact h.within k hk l hl l' hl' p hp q hq
  between k hk k' hk' hne l hl l' hl' p hp q hq := by
    rw [h1 k hk l hl, h1 k' hk' l' hl', h2 k hk p hp, h2 k' hk' q hq]; exact h.between k hk k' hk' hne l hl l' hl' p hp q hq

/-- Three samples with standard uncertainty 1/2, coefficients 1 and 2 with covariance diag(1, 4), two runs with normal
numbers. -/
example : ∃ xf Uf, FIRuncFilter (Vec.ofList [1, 2, 5]) (.float (1 / 2)) (Vec.ofList [1, 2])
      (coefArg (some (Mat.diag (Vec.ofList [1, 4])))) 0 .none "diag" true = .ok (xf, .cov Uf) ∧
    ∃ (y : (Bool × ℕ × ℕ → ℝ) → Vec ℝ) (Uy : (Bool × ℕ × ℕ → ℝ) → Mat ℝ),
      (∀ ω, mc (fun _ _ r => Mat.ofFn r 2 (fun k l => affineDraw (fun i ω => ω i) false k 2 ((Vec.ofList [1, 2]).el l)
          (fun m => if l = m then (l : ℝ) + 1 else 0) ω)) (fun v _ _ => v) (fun k i => ω (true, k, i))
          (Vec.ofList [1, 2, 5]) (.float (1 / 2)) (Vec.ofList [1, 2]) (Vec.ofList [1]) (Mat.diag (Vec.ofList [1, 4])) 2
          none none false 0 = .ok (.stats (y ω) (Uy ω))) ∧
      ∀ i < 3, ∀ j < 3, 1 ≤ i → 1 ≤ j →
        ∫ ω, (Uy ω).el i j ∂(Measure.infinitePi (fun _ : Bool × ℕ × ℕ => gaussianReal 0 1)) = Uf.el i j := by
  have hd := (C143_draws exists_standard 2 (Vec.ofList [1, 2]) (Vec.ofList [1, 2, 5]) (Mat.diag (Vec.ofList [1, 4])).el
    (covOf (.float (1 / 2))) 2 3 (fun l m => if l = m then (l : ℝ) + 1 else 0) (fun p m => if p = m then 1 / 2 else 0)
    (by
      intro l hl l' hl'
      have hl : l < 2 := hl
      have hl' : l' < 2 := hl'
      interval_cases l <;> interval_cases l' <;> norm_num [Finset.sum_range_succ, Mat.el_diag])
    (by
      intro l hl l' hl'
      have hl : l < 3 := hl
      have hl' : l' < 3 := hl'
      interval_cases l <;> interval_cases l' <;> norm_num [Finset.sum_range_succ, covOf]))
  obtain ⟨xf, Uf, e, y, Uy, h1, -, -, h2⟩ := C143_mc
    (μ := Measure.infinitePi (fun _ : Bool × ℕ × ℕ => gaussianReal 0 1))
    (fun (ω : Bool × ℕ × ℕ → ℝ) _ _ r => Mat.ofFn r 2 (fun k l => affineDraw (fun i ω => ω i) false k 2
      ((Vec.ofList [1, 2]).el l) (fun m => if l = m then (l : ℝ) + 1 else 0) ω)) (fun v _ _ => v) (fun k i ω => ω (true, k, i))
    (Vec.ofList [1, 2, 5]) (.float (1 / 2)) (Vec.ofList [1, 2]) (Vec.ofList [1]) (Mat.diag (Vec.ofList [1, 4])) 2 rfl
    (by simp) le_rfl (show 0 < 3 by norm_num) rfl rfl (fun _ => rfl)
    (fun k ω => Vec.ofFn 3 (fun i => (Vec.ofList [1, 2, 5]).el i + ω (true, k, i) * (1 / 2)))
    (fun k ω => ⟨rfl, fun i (hi : i < 3) => by rw [Vec.el_ofFn_lt _ hi]⟩)
    (hd.congr
      (by
        intro k hk l hl
        funext ω
        rw [Mat.el_ofFn_lt _ hk (show l < 2 from hl)])
      (by
        intro k hk p hp
        have hp : p < 3 := hp
        funext ω
        rw [Vec.el_ofFn_lt _ hp]
        unfold affineDraw
        congr 1
        rw [sum_eq_single p]
        · simp only [if_true]; ring
        · intro m _ hm; simp only [if_neg (Ne.symm hm), zero_mul]
        · intro h; exact absurd (mem_range.mpr hp) h))
    (.float (1 / 2)) "diag" (some (Mat.diag (Vec.ofList [1, 4])))
    ⟨show 1 ≤ 3 by norm_num, le_rfl, fun v h => (by cases h), fun v h => (by cases h), fun v h => (by cases h),
      fun V h => by cases h; exact ⟨rfl, rfl⟩, fun v h => (by cases h)⟩
    ⟨Or.inl ⟨_, rfl⟩, Or.inr ⟨_, rfl⟩⟩
    (fun i hi j hj => by simp only [noiseMeaning]; rw [Mat.el_ofFn_lt _ hi hj]; rfl)
    (fun _ _ _ _ => rfl) (fun W hW => by cases hW; exact DFT.isSymm_diag _)
  exact ⟨xf, Uf, e, y, Uy, h1, fun i hi j hj hi' hj' => h2 i hi j hj hi' hj'⟩

end MC
end PyDyn
