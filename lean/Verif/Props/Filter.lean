import Verif.Lemmas.FirTable
import Verif.Lemmas.Exists

/-!
# Properties of FIR filtering with uncertainty (C01 - C11)
-/

namespace PyDyn
namespace Filter
open Np Finset Spec

/-! ## C01 estimate -/

/-- C01. Whatever the uncertainty arguments are, a successful call of `FIRuncFilter` (no
shift, no low-pass) returns, at every index, the convolution of the filter with the signal
continued by its first value. -/
theorem C01_estimate (y : Vec ℝ) (sigma : Noise ℝ) (theta : Vec ℝ) (Utheta : CoefUnc ℝ)
    (kind : String) (full : Bool) (x : Vec ℝ) (u : FirUnc)
    (h : FIRuncFilter y sigma theta Utheta 0 .none kind full = .ok (x, u)) :
    x.len = y.len ∧ ∀ n < y.len,
      x.el n = ∑ k ∈ range theta.len, theta.el k * (if n < k then y.el 0 else y.el (n - k)) := by
  have hest : ∃ x0, initialValue y "constant" = .ok x0 ∧ firEstimate y theta x0 = .ok x := by
    unfold FIRuncFilter at h
    split at h
    · simp only [Py.bind_ok, Py.pure_ok, Prod.mk.injEq] at h
      obtain ⟨⟨x', d⟩, h1, h2, _⟩ := h
      subst h2
      exact firFilterDiag_fst h1
    · simp only [ne_eq, not_true_eq_false, if_false, Py.bind_ok] at h
      obtain ⟨U, _, ⟨x', d⟩, h1, h2⟩ := h
      split at h2 <;> simp only [Py.pure_ok, Prod.mk.injEq] at h2 <;>
        (rw [← h2.1]; exact firFilterAny_fst h1)
  obtain ⟨hx, ht, rfl⟩ := estimate_of_ok hest
  refine ⟨rfl, fun n hn => ?_⟩
  rw [Vec.el_ofFn_lt _ hn]
  refine sum_congr rfl (fun k _ => ?_)
  unfold past
  by_cases hk : n < k
  · rw [if_pos hk, if_pos (by omega)]
  · rw [if_neg hk, if_neg (by omega)]; congr 2; omega

/-- C01. The estimate does not depend on the uncertainty arguments, on `kind`, nor on
`return_full_covariance`. -/
theorem C01_estimate_indep (y theta : Vec ℝ) (sigma sigma' : Noise ℝ)
    (Utheta Utheta' : CoefUnc ℝ) (kind kind' : String) (full full' : Bool) (x x' : Vec ℝ)
    (u u' : FirUnc)
    (h : FIRuncFilter y sigma theta Utheta 0 .none kind full = .ok (x, u))
    (h' : FIRuncFilter y sigma' theta Utheta' 0 .none kind' full' = .ok (x', u')) : x = x' := by
  obtain ⟨hl, he⟩ := C01_estimate _ _ _ _ _ _ _ _ h
  obtain ⟨hl', he'⟩ := C01_estimate _ _ _ _ _ _ _ _ h'
  exact Vec.ext_el (by omega) (fun i hi => by rw [he i (by omega), he' i (by omega)])

/-! ## C08 accepted arguments -/

/-- C08. Complete decision table of `FIRuncFilter` for arguments of matching sizes: it
succeeds, with a result of the documented kind and shape, exactly in the variance-only and
in the covariance-capable cases; otherwise it raises ValueError, except that noise arrays
of more than two dimensions raise UnboundLocalError.
`_partial`: the property demands ValueError also in the last case, and the documentation
promises one-dimensional `Utheta` together with `return_full_covariance=True`, which is
rejected (`C08_std_coefficients_with_full_covariance_rejected`). -/
theorem C08_decision_table_partial (y : Vec ℝ) (sigma : Noise ℝ) (theta : Vec ℝ)
    (Utheta : CoefUnc ℝ)
    (shift : ℤ) (blow : Lowpass ℝ) (kind : String) (full : Bool)
    (hw : WellShaped y sigma theta Utheta blow kind) :
    (VarianceOnly sigma Utheta blow kind full ∨ CovarianceCapable sigma Utheta kind →
      ∃ x u, FIRuncFilter y sigma theta Utheta shift blow kind full = .ok (x, u) ∧
        x.len = y.len ∧
        (full = true → ∃ U : Mat ℝ, u = .cov U ∧ U.rows = y.len ∧ U.cols = y.len) ∧
        (full = false → ∃ s : Vec ℝ, u = .std s ∧ s.len = y.len ∧ ∀ i, 0 ≤ s.el i)) ∧
    (¬ (VarianceOnly sigma Utheta blow kind full ∨ CovarianceCapable sigma Utheta kind) →
      FIRuncFilter y sigma theta Utheta shift blow kind full
        = .error (rejection sigma)) := by
  have hnn : ∀ (d : Vec ℝ) (i : ℕ), 0 ≤ (sqrtAbs d).el i := by
    intro d i
    unfold sqrtAbs Vec.map
    rw [Vec.el_ofFn]
    split
    · exact Real.sqrt_nonneg _
    · exact le_refl _
  constructor
  · intro hacc
    by_cases hf : VarianceOnly sigma Utheta blow kind full
    · have hfp := (fastPath_iff sigma Utheta blow kind full).mpr hf
      unfold FIRuncFilter
      rw [if_pos hfp]
      obtain ⟨rfl, rfl, hs, hu⟩ := hf
      rw [firFilterDiag_eq y theta _ _ _ (Or.inl rfl) hw.y_pos hw.theta_two]
      · simp only [bind, Except.bind, pure, Except.pure]
        exact ⟨_, _, rfl, rfl, by simp, fun _ => ⟨_, rfl, rfl, hnn _⟩⟩
      · rcases hs with rfl | ⟨s, rfl⟩ | ⟨rfl, v, rfl⟩
        · simp [noiseDiag]
        · simp [noiseDiag]
        · simp [noiseDiag, hw.sigma1 v rfl rfl]
      · rcases hu with rfl | ⟨s, rfl⟩ | ⟨v, rfl⟩
        · simp [coefDiag]
        · simp [coefDiag]
        · simp [coefDiag, hw.coef1 v rfl]
    · have hfp : ¬ fastPath sigma Utheta blow kind full = true := by
        rw [fastPath_iff]; exact hf
      obtain ⟨hs, hu⟩ := hacc.resolve_left hf
      obtain ⟨U, hU, hUs⟩ := noiseCov_ok y sigma theta Utheta blow kind hw hs
      unfold FIRuncFilter
      rw [if_neg hfp, hU]
      simp only [bind, Except.bind]
      have fin : ∀ (x : Vec ℝ) (W : Mat ℝ), x.len = y.len → W.rows = y.len → W.cols = y.len →
          ∃ x' u, (if full = true then
            (pure (if shift ≠ 0 then Vec.roll x (-shift) else x,
              FirUnc.cov (if shift ≠ 0 then rollFlat W (-shift) else W)) : Py (Vec ℝ × FirUnc))
            else pure (if shift ≠ 0 then Vec.roll x (-shift) else x,
              FirUnc.std (sqrtAbs (Mat.diagonal
                (if shift ≠ 0 then rollFlat W (-shift) else W))))) = .ok (x', u) ∧
          x'.len = y.len ∧
          (full = true → ∃ U : Mat ℝ, u = .cov U ∧ U.rows = y.len ∧ U.cols = y.len) ∧
          (full = false → ∃ s : Vec ℝ, u = .std s ∧ s.len = y.len ∧ ∀ i, 0 ≤ s.el i) := by
        intro x W hx hr hc
        have hx' : (if shift ≠ 0 then Vec.roll x (-shift) else x).len = y.len := by
          split <;> simp [hx]
        have hr' : (if shift ≠ 0 then rollFlat W (-shift) else W).rows = y.len := by
          split <;> simp [hr, rollFlat]
        have hc' : (if shift ≠ 0 then rollFlat W (-shift) else W).cols = y.len := by
          split <;> simp [hc, rollFlat]
        cases full
        · refine ⟨_, _, rfl, hx', by simp, fun _ => ⟨_, rfl, ?_, hnn _⟩⟩
          simp only [sqrtAbs, Vec.len_map, Mat.len_diagonal, hr', hc', min_self]
        · exact ⟨_, _, rfl, hx', fun _ => ⟨_, rfl, hr', hc'⟩, by simp⟩
      cases blow with
      | arr b =>
        have hb := hw.blow_two b rfl
        dsimp only
        rw [firFilter_eq y b (some U) none "constant" (Or.inl rfl) hw.y_pos hb
          (by rintro _ ⟨⟩; exact hUs) (by simp)]
        dsimp only
        obtain ⟨x1, W, h1, hl, hr, hc⟩ := firFilterAny_ok
          (Vec.ofFn y.len (firOut b (past y (histValue y "constant")))) theta
          (Mat.ofFn y.len y.len (fun i j =>
            ∑ k ∈ range b.len, ∑ l ∈ range b.len,
              (b.el k * b.el l * histCov (some U) "constant" ((i : ℤ) - k) ((j : ℤ) - l)
                + past y (histValue y "constant") ((i : ℤ) - k)
                    * past y (histValue y "constant") ((j : ℤ) - l) * coefCov none k l
                + histCov (some U) "constant" ((i : ℤ) - k) ((j : ℤ) - l) * coefCov none l k)))
          Utheta hw.y_pos hw.theta_two ⟨rfl, rfl⟩ hw.coef2 hu
        rw [h1]
        exact fin x1 W hl hr hc
      | none =>
        obtain ⟨x1, W, h1, hl, hr, hc⟩ := firFilterAny_ok y theta U Utheta hw.y_pos hw.theta_two
          hUs hw.coef2 hu
        dsimp only
        rw [h1]
        exact fin x1 W hl hr hc
      | other =>
        obtain ⟨x1, W, h1, hl, hr, hc⟩ := firFilterAny_ok y theta U Utheta hw.y_pos hw.theta_two
          hUs hw.coef2 hu
        dsimp only
        rw [h1]
        exact fin x1 W hl hr hc
  · intro hacc
    rw [not_or] at hacc
    obtain ⟨hf, hc⟩ := hacc
    have hfp : ¬ fastPath sigma Utheta blow kind full = true := by
      rw [fastPath_iff]; exact hf
    unfold FIRuncFilter
    rw [if_neg hfp]
    by_cases hs : (∃ s, sigma = .float s) ∨
        ((kind = "diag" ∨ kind = "corr") ∧ ∃ v, sigma = .arr1 v) ∨ (∃ U, sigma = .arr2 U)
    · have hu : ¬ (Utheta = .none ∨ ∃ V, Utheta = .arr2 V) := fun h => hc ⟨hs, h⟩
      obtain ⟨U, hU, hUs⟩ := noiseCov_ok y sigma theta Utheta blow kind hw hs
      rw [hU]
      have hne : rejection sigma = .valueError := by
        rcases hs with ⟨s, rfl⟩ | ⟨hk, v, rfl⟩ | ⟨U, rfl⟩ <;> rfl
      rw [hne]
      simp only [bind, Except.bind]
      cases blow with
      | arr b =>
        have hb := hw.blow_two b rfl
        dsimp only
        rw [firFilter_eq y b (some U) none "constant" (Or.inl rfl) hw.y_pos hb
          (by rintro _ ⟨⟩; exact hUs) (by simp)]
        dsimp only
        rw [firFilterAny_err]
        · exact hw.y_pos
        · exact hw.theta_two
        · exact ⟨rfl, rfl⟩
        · exact hu
      | none =>
        dsimp only
        rw [firFilterAny_err _ _ _ _ hw.y_pos hw.theta_two hUs hu]
      | other =>
        dsimp only
        rw [firFilterAny_err _ _ _ _ hw.y_pos hw.theta_two hUs hu]
    · rw [noiseCov_err y sigma kind hs]; rfl


/-- C08, negative part: the documented combination of coefficient-wise standard
uncertainties (1-D `Utheta`) with `return_full_covariance=True` is always rejected. -/
theorem C08_std_coefficients_with_full_covariance_rejected (y theta v : Vec ℝ)
    (sigma : Noise ℝ) (shift : ℤ) (blow : Lowpass ℝ) (kind : String)
    (hw : WellShaped y sigma theta (.arr1 v) blow kind) (hs : sigma ≠ .arrN) :
    FIRuncFilter y sigma theta (.arr1 v) shift blow kind true = .error .valueError := by
  have h := (C08_decision_table_partial y sigma theta (.arr1 v) shift blow kind true hw).2 (by
    rintro (⟨h, _⟩ | ⟨_, h | ⟨V, h⟩⟩)
    · cases h
    · cases h
    · cases h)
  rw [h]
  cases sigma <;> first | rfl | exact absurd rfl hs

/-- C08, negative part: noise arrays with more than two dimensions do not raise the
documented ValueError. -/
theorem C08_high_dimensional_noise_not_value_error (y theta : Vec ℝ) (hy : 1 ≤ y.len)
    (ht : 2 ≤ theta.len) (kind : String) (full : Bool) :
    FIRuncFilter y .arrN theta .none 0 .none kind full = .error .unboundLocal := by
  refine (C08_decision_table_partial y .arrN theta .none 0 .none kind full
    ⟨hy, ht, by simp, by simp, by simp, by simp, by simp⟩).2 ?_
  rintro (⟨_, _, h | ⟨_, h⟩ | ⟨_, _, h⟩, _⟩ | ⟨⟨_, h⟩ | ⟨_, _, h⟩ | ⟨_, h⟩, _⟩) <;> cases h

/-- A three-sample signal and a two-tap filter meet the hypotheses of the table. -/
example : WellShaped (Vec.ofList [1, 2, 4]) (.float 1) (Vec.ofList [1, 2])
    (.arr2 (Mat.ofLists 2 [[1, 0], [0, 1]])) .none "corr" ∧
    CovarianceCapable (.float 1) (.arr2 (Mat.ofLists 2 [[1, 0], [0, 1]])) "corr" := by
  refine ⟨⟨by simp, by simp, by simp, by simp, by simp, ?_, by simp⟩,
    Or.inl ⟨1, rfl⟩, Or.inr ⟨_, rfl⟩⟩
  rintro V ⟨⟩
  exact ⟨rfl, rfl⟩

/-- C01/C08: hence a call of this kind has a result, and it is the convolution. -/
example : ∃ x u, FIRuncFilter (Vec.ofList [1, 2, 4]) (.float 1) (Vec.ofList [1, 2]) .none 0
    .none "corr" false = .ok (x, u) ∧ x.el 0 = 3 ∧ x.el 1 = 4 ∧ x.el 2 = 8 := by
  obtain ⟨x, u, h, _⟩ := (C08_decision_table_partial (Vec.ofList [1, 2, 4]) (.float 1)
    (Vec.ofList [1, 2]) .none 0 .none "corr" false
    ⟨by simp, by simp, by simp, by simp, by simp, by simp, by simp⟩).1
    (Or.inr ⟨Or.inl ⟨1, rfl⟩, Or.inl rfl⟩)
  obtain ⟨_, he⟩ := C01_estimate _ _ _ _ _ _ _ _ h
  refine ⟨x, u, h, ?_, ?_, ?_⟩
  · rw [he 0 (by simp)]; simp [sum_range_succ]; norm_num
  · rw [he 1 (by simp)]; simp [sum_range_succ]; norm_num
  · rw [he 2 (by simp)]; simp [sum_range_succ]; norm_num

/-! ## C02 covariance -/

section Covariance
open MeasureTheory ProbabilityTheory
variable {Ω : Type*} [MeasurableSpace Ω] {μ : Measure Ω}

/-- A random signal and random coefficients with the moments that the arguments of
`FIRuncFilter` describe: the signal has mean `y` and covariance `sigma_noise`, prolonged
into the past with constant mean and stationary covariance; the coefficients have mean
`theta` and covariance `Utheta`; both are independent. Only the times that the filter
reaches matter. -/
structure Describes (μ : Measure Ω) (y : Vec ℝ) (sigma : Noise ℝ) (theta : Vec ℝ)
    (Utheta : CoefUnc ℝ) (kind : String) (X : ℤ → Ω → ℝ) (Θ : ℕ → Ω → ℝ) : Prop where
  memX : ∀ t : ℤ, -(theta.len : ℤ) < t → t < y.len → MemLp (X t) 2 μ
  meanX : ∀ t : ℤ, -(theta.len : ℤ) < t → t < y.len →
    ∫ ω, X t ω ∂μ = past y (y.el 0) t
  covX : ∀ s t : ℤ, -(theta.len : ℤ) < s → s < y.len → -(theta.len : ℤ) < t → t < y.len →
    cov[X s, X t; μ] = stationaryCov (noiseMeaning y.len kind sigma) s t
  memT : ∀ k < theta.len, MemLp (Θ k) 2 μ
  meanT : ∀ k < theta.len, ∫ ω, Θ k ω ∂μ = theta.el k
  covT : ∀ k < theta.len, ∀ l < theta.len, cov[Θ k, Θ l; μ] = coefMeaning Utheta k l
  indep : IndepFun (fun ω (k : ℕ) => Θ k ω) (fun ω (t : ℤ) => X t ω) μ

/-- The filtered random signal. -/
def filtered (theta : Vec ℝ) (X : ℤ → Ω → ℝ) (Θ : ℕ → Ω → ℝ) (n : ℕ) (ω : Ω) : ℝ :=
  ∑ k ∈ range theta.len, Θ k ω * X ((n : ℤ) - k) ω

lemma Describes.indep_pair {y : Vec ℝ} {sigma : Noise ℝ} {theta : Vec ℝ}
    {Utheta : CoefUnc ℝ} {kind : String} {X : ℤ → Ω → ℝ} {Θ : ℕ → Ω → ℝ}
    (h : Describes μ y sigma theta Utheta kind X Θ) (k l : ℕ) (s t : ℤ) :
    IndepFun (fun ω => (Θ k ω, Θ l ω)) (fun ω => (X s ω, X t ω)) μ :=
  h.indep.comp (φ := fun f : ℕ → ℝ => (f k, f l)) (ψ := fun f : ℤ → ℝ => (f s, f t))
    ((measurable_pi_apply k).prodMk (measurable_pi_apply l))
    ((measurable_pi_apply s).prodMk (measurable_pi_apply t))

lemma Describes.cov_eq [IsProbabilityMeasure μ] {y : Vec ℝ} {sigma : Noise ℝ} {theta : Vec ℝ}
    {Utheta : CoefUnc ℝ} {kind : String} {X : ℤ → Ω → ℝ} {Θ : ℕ → Ω → ℝ}
    (h : Describes μ y sigma theta Utheta kind X Θ) {i j : ℕ} (hi : i < y.len)
    (hj : j < y.len) :
    cov[filtered theta X Θ i, filtered theta X Θ j; μ] = docCov y sigma theta Utheta kind i j := by
  have e := covariance_sum_mul (μ := μ) (range theta.len) (range theta.len)
    (A := Θ) (B := fun k => X ((i : ℤ) - k)) (C := Θ) (D := fun k => X ((j : ℤ) - k))
    (fun k hk => h.memT k (mem_range.mp hk))
    (fun k hk => h.memX _ (by have := mem_range.mp hk; omega) (by omega))
    (fun k hk => h.memT k (mem_range.mp hk))
    (fun k hk => h.memX _ (by have := mem_range.mp hk; omega) (by omega))
    (fun k _ l _ => h.indep_pair k l _ _)
    (fun k _ => (h.indep_pair k k _ ((i : ℤ) - k)).comp measurable_fst measurable_fst)
    (fun k _ => (h.indep_pair k k _ ((j : ℤ) - k)).comp measurable_fst measurable_fst)
  unfold filtered
  rw [e]
  unfold docCov firCov
  refine sum_congr rfl (fun k hk => sum_congr rfl (fun l hl => ?_))
  rw [mem_range] at hk hl
  rw [h.meanT k hk, h.meanT l hl, h.meanX _ (by omega) (by omega),
    h.meanX _ (by omega) (by omega), h.covX _ _ (by omega) (by omega) (by omega) (by omega),
    h.covT k hk l hl]

/-- C02. For every accepted call (`Utheta` not a float, see C09) and every random signal and
random filter described by the arguments, the estimate is the expectation of the filtered
random signal, and the returned matrix is its covariance matrix (or, without
`return_full_covariance`, the returned vector its standard deviations). -/
theorem C02_covariance [IsProbabilityMeasure μ] (y : Vec ℝ) (sigma : Noise ℝ) (theta : Vec ℝ)
    (Utheta : CoefUnc ℝ) (kind : String) (full : Bool) (X : ℤ → Ω → ℝ) (Θ : ℕ → Ω → ℝ)
    (hw : WellShaped y sigma theta Utheta .none kind)
    (hacc : VarianceOnly sigma Utheta .none kind full ∨ CovarianceCapable sigma Utheta kind)
    (hfl : ∀ u, Utheta ≠ .float u)
    (h : Describes μ y sigma theta Utheta kind X Θ) :
    ∃ x u, FIRuncFilter y sigma theta Utheta 0 .none kind full = .ok (x, u) ∧
      (∀ i < y.len, x.el i = ∫ ω, filtered theta X Θ i ω ∂μ) ∧
      (full = true → ∃ U : Mat ℝ, u = .cov U ∧ ∀ i < y.len, ∀ j < y.len,
        U.el i j = cov[filtered theta X Θ i, filtered theta X Θ j; μ]) ∧
      (full = false → ∃ s : Vec ℝ, u = .std s ∧ ∀ i < y.len,
        s.el i = Real.sqrt (cov[filtered theta X Θ i, filtered theta X Θ i; μ])) := by
  have hsymm : ∀ V, Utheta = .arr2 V → V.IsSymm := by
    rintro V rfl
    obtain ⟨hr, hc⟩ := hw.coef2 V rfl
    refine ⟨by omega, fun k l => ?_⟩
    by_cases hkl : k < theta.len ∧ l < theta.len
    · have h1 := h.covT k hkl.1 l hkl.2
      have h2 := h.covT l hkl.2 k hkl.1
      rw [covariance_comm, h2] at h1
      exact h1.symm
    · rw [Mat.el_of_not _ (by omega), Mat.el_of_not _ (by omega)]
  refine ⟨_, _, FIRuncFilter_closed y sigma theta Utheta kind full hw hacc hsymm hfl, ?_, ?_, ?_⟩
  · intro i hi
    rw [Vec.el_ofFn_lt _ hi]
    unfold filtered firOut
    have hint : ∀ k ∈ range theta.len, Integrable (fun ω => Θ k ω * X ((i : ℤ) - k) ω) μ := by
      intro k hk
      rw [mem_range] at hk
      exact (memLp_mul_of_indep (h.memT k hk) (h.memX _ (by omega) (by omega))
        ((h.indep_pair k k _ ((i : ℤ) - k)).comp measurable_fst measurable_fst)).integrable
        (by norm_num)
    rw [integral_finsetSum _ hint]
    refine sum_congr rfl (fun k hk => ?_)
    rw [mem_range] at hk
    have hi' : IndepFun (Θ k) (X ((i : ℤ) - k)) μ :=
      (h.indep_pair k k _ ((i : ℤ) - k)).comp measurable_fst measurable_fst
    rw [hi'.integral_fun_mul_eq_mul_integral (h.memT k hk).1 (h.memX _ (by omega) (by omega)).1,
      h.meanT k hk, h.meanX _ (by omega) (by omega)]
  · rintro rfl
    refine ⟨_, rfl, fun i hi j hj => ?_⟩
    rw [Mat.el_ofFn_lt _ hi hj, h.cov_eq hi hj]
  · rintro rfl
    refine ⟨_, rfl, fun i hi => ?_⟩
    rw [Vec.el_ofFn_lt _ hi, h.cov_eq hi hi, abs_of_nonneg]
    rw [← h.cov_eq hi hi]
    exact integral_nonneg (fun ω => mul_self_nonneg _)

/-- C02, non-vacuity: whenever the prolonged noise covariance and the coefficient covariance
are positive semidefinite, a random signal and a random filter described by the arguments
exist. -/
theorem C02_describes_exists (y : Vec ℝ) (sigma : Noise ℝ) (theta : Vec ℝ)
    (Utheta : CoefUnc ℝ) (kind : String)
    (hX : (prolonged (theta.len - 1) y.len
      (stationaryCov (noiseMeaning y.len kind sigma))).PSD)
    (hT : (Mat.ofFn theta.len theta.len (coefMeaning Utheta)).PSD) :
    ∃ (m m' : ℕ) (_ : NeZero m) (_ : NeZero m')
      (X : ℤ → (Fin m × Bool) × (Fin m' × Bool) → ℝ)
      (Θ : ℕ → (Fin m × Bool) × (Fin m' × Bool) → ℝ),
      Describes ((unif m).prod (unif m')) y sigma theta Utheta kind X Θ := by
  have hX' := (Mat.psd_iff _ (n := theta.len - 1 + y.len) rfl rfl).mp hX
  have hT' := (Mat.psd_iff _ (n := theta.len) rfl rfl).mp hT
  obtain ⟨m', hm', X, hXm, hXc⟩ := exists_random_vector
    (fun i : Fin (theta.len - 1 + y.len) => past y (y.el 0) ((i : ℤ) - (theta.len - 1 : ℕ))) _ hX'
  obtain ⟨m, hm, Θ, hTm, hTc⟩ := exists_random_vector (fun i : Fin theta.len => theta.el i) _ hT'
  let idx : ℤ → ℕ := fun t => (t + (theta.len - 1 : ℕ)).toNat
  have hidx : ∀ t : ℤ, -(theta.len : ℤ) < t → t < y.len →
      idx t < theta.len - 1 + y.len ∧ ((idx t : ℤ) - (theta.len - 1 : ℕ)) = t := by
    intro t h1 h2
    simp only [idx]
    omega
  have emean1 : ∀ h : Fin m × Bool → ℝ,
      ∫ ω, h ω.1 ∂((unif m).prod (unif m')) = ∫ a, h a ∂(unif m) := by
    intro h; rw [integral_fun_fst]; simp
  have emean2 : ∀ h : Fin m' × Bool → ℝ,
      ∫ ω, h ω.2 ∂((unif m).prod (unif m')) = ∫ a, h a ∂(unif m') := by
    intro h; rw [integral_fun_snd]; simp
  let X' : ℤ → Fin m' × Bool → ℝ := fun t ω =>
    if h : idx t < theta.len - 1 + y.len then X ⟨idx t, h⟩ ω else 0
  let T' : ℕ → Fin m × Bool → ℝ := fun k ω => if h : k < theta.len then Θ ⟨k, h⟩ ω else 0
  refine ⟨m, m', hm, hm', fun t ω => X' t ω.2, fun k ω => T' k ω.1, ?_, ?_, ?_, ?_, ?_, ?_, ?_⟩
  · intro t _ _
    exact MemLp.of_discrete
  · intro t h1 h2
    obtain ⟨h3, h4⟩ := hidx t h1 h2
    rw [emean2]
    simp only [X', h3, dif_pos]
    rw [hXm]
    simp only [h4]
  · intro s t h1 h2 h1' h2'
    obtain ⟨h3, h4⟩ := hidx s h1 h2
    obtain ⟨h3', h4'⟩ := hidx t h1' h2'
    have e : X' s = X ⟨idx s, h3⟩ := by funext ω; simp [X', h3]
    have e' : X' t = X ⟨idx t, h3'⟩ := by funext ω; simp [X', h3']
    rw [cov_snd (unif m) (unif m') (X' s) (X' t), e, e', hXc]
    simp only [Mat.toMatrix, Matrix.of_apply]
    unfold prolonged
    rw [Mat.el_ofFn_lt _ h3 h3', h4, h4']
  · intro k _
    exact MemLp.of_discrete
  · intro k hk
    rw [emean1]
    simp only [T', hk, dif_pos]
    rw [hTm]
  · intro k hk l hl
    have e : T' k = Θ ⟨k, hk⟩ := by funext ω; simp [T', hk]
    have e' : T' l = Θ ⟨l, hl⟩ := by funext ω; simp [T', hl]
    rw [cov_fst (unif m) (unif m') (T' k) (T' l), e, e', hTc]
    simp only [Mat.toMatrix, Matrix.of_apply]
    rw [Mat.el_ofFn_lt _ hk hl]
  · exact indepFun_prod (X := fun ω (k : ℕ) => T' k ω) (Y := fun ω (t : ℤ) => X' t ω)
      (Measurable.of_discrete) (Measurable.of_discrete)

end Covariance

/-! ## C03 fast and full computation agree -/

/-- C03. Without shift, whenever the call with `return_full_covariance=True` succeeds, the
call with `False` succeeds with the same estimate and returns the square roots of the
diagonal of that covariance (whichever path computes them). -/
theorem C03_fast_eq_full (y : Vec ℝ) (sigma : Noise ℝ) (theta : Vec ℝ) (Utheta : CoefUnc ℝ)
    (blow : Lowpass ℝ) (kind : String) (x : Vec ℝ) (U : Mat ℝ)
    (hw : WellShaped y sigma theta Utheta blow kind)
    (h : FIRuncFilter y sigma theta Utheta 0 blow kind true = .ok (x, .cov U)) :
    FIRuncFilter y sigma theta Utheta 0 blow kind false
      = .ok (x, .std (Vec.ofFn y.len (fun i => Real.sqrt |U.el i i|))) := by
  have hc : CovarianceCapable sigma Utheta kind := by
    by_contra hc
    have := (C08_decision_table_partial y sigma theta Utheta 0 blow kind true hw).2
      (by rintro (⟨h, _⟩ | h); exacts [absurd h (by simp), hc h])
    rw [this] at h; cases h
  by_cases hf : VarianceOnly sigma Utheta blow kind false
  · obtain ⟨_, rfl, hs, hu⟩ := id hf
    have hu' : Utheta = .none := by
      rcases hc.2 with h | ⟨V, rfl⟩
      · exact h
      · simp at hu
    subst hu'
    have h1 := FIRuncFilter_closed y sigma theta .none kind true hw (Or.inr hc) (by simp) (by simp)
    have h2 := FIRuncFilter_closed y sigma theta .none kind false hw (Or.inl hf) (by simp) (by simp)
    rw [h1] at h
    simp only [if_true, Except.ok.injEq, Prod.mk.injEq, FirUnc.cov.injEq] at h
    obtain ⟨rfl, rfl⟩ := h
    rw [h2]
    simp only [Bool.false_eq_true, if_false]
    congr 3
    refine Vec.ofFn_congr (fun i hi => ?_)
    rw [Mat.el_ofFn_lt _ hi hi]
  · have hfp : ¬ fastPath sigma Utheta blow kind false = true := by
      rw [fastPath_iff]; exact hf
    have hfp' : ¬ fastPath sigma Utheta blow kind true = true := by
      rw [fastPath_iff]; rintro ⟨h, _⟩; cases h
    obtain ⟨x', u', h', _, hsh, _⟩ :=
      (C08_decision_table_partial y sigma theta Utheta 0 blow kind true hw).1 (Or.inr hc)
    rw [h'] at h
    obtain ⟨U', rfl, hr, hcc⟩ := hsh rfl
    simp only [Except.ok.injEq, Prod.mk.injEq, FirUnc.cov.injEq] at h
    obtain ⟨rfl, rfl⟩ := h
    unfold FIRuncFilter at h' ⊢
    rw [if_neg hfp'] at h'
    rw [if_neg hfp]
    simp only [Py.bind_ok, ne_eq, not_true_eq_false, if_false, if_true] at h'
    obtain ⟨Uy, e1, h'⟩ := h'
    simp only [e1, ne_eq, not_true_eq_false, if_false, bind, Except.bind]
    have fin : ∀ p : Vec ℝ × Mat ℝ,
        (pure (p.1, FirUnc.cov p.2) : Py (Vec ℝ × FirUnc)) = .ok (x', .cov U') →
        (pure (p.1, FirUnc.std (sqrtAbs p.2.diagonal)) : Py (Vec ℝ × FirUnc))
          = .ok (x', .std (Vec.ofFn y.len (fun i => Real.sqrt |U'.el i i|))) := by
      rintro ⟨a, b⟩ hp
      simp only [Py.pure_ok, Prod.mk.injEq, FirUnc.cov.injEq] at hp
      obtain ⟨rfl, rfl⟩ := hp
      simp only [pure, Except.pure]
      congr 3
      unfold sqrtAbs Vec.map Mat.diagonal
      simp only [Vec.len_ofFn, hr, hcc, min_self]
      refine Vec.ofFn_congr (fun i hi => ?_)
      rw [Vec.el_ofFn_lt _ hi]
    cases blow with
    | arr b =>
      simp only [Py.bind_ok] at h'
      obtain ⟨p, e2, q, e3, h'⟩ := h'
      simp only [e2, e3]
      exact fin q h'
    | none =>
      simp only [Py.bind_ok] at h'
      obtain ⟨q, e3, h'⟩ := h'
      simp only [e3]
      exact fin q h'
    | other =>
      simp only [Py.bind_ok] at h'
      obtain ⟨q, e3, h'⟩ := h'
      simp only [e3]
      exact fin q h'

/-- C03. The pair of filter routines (with the sizes matching, either continuation, with or
without noise, with or without uncorrelated coefficient uncertainty): the fast one returns
the diagonal of the full one. -/
theorem C03_routines {K : Type*} [Field K] [DecidableEq K] (x theta : Vec K)
    (D V : Option (Vec K)) (ic : String) (hic : ic = "constant" ∨ ic = "zero")
    (hx : 1 ≤ x.len) (ht : 2 ≤ theta.len) (hD : ∀ U ∈ D, U.len = x.len)
    (hV : ∀ W ∈ V, W.len = theta.len) :
    ∃ y U, firFilter x theta (D.map Mat.diag) (V.map Mat.diag) ic = .ok (y, U) ∧
      U.rows = x.len ∧ firFilterDiag x theta D V ic = .ok (y, Mat.diagonal U) := by
  refine ⟨_, _, firFilter_eq x theta _ _ ic hic hx ht ?_ ?_, rfl, ?_⟩
  · intro U hU
    obtain ⟨d, hd, rfl⟩ := Option.mem_map.mp hU
    exact ⟨hD d hd, hD d hd⟩
  · intro U hU
    obtain ⟨d, hd, rfl⟩ := Option.mem_map.mp hU
    exact ⟨hV d hd, hV d hd⟩
  · rw [firFilterDiag_eq x theta D V ic hic hx ht hD hV]
    congr 2
    unfold Mat.diagonal
    simp only [Mat.rows_ofFn, Mat.cols_ofFn, min_self]
    refine Vec.ofFn_congr (fun i hi => ?_)
    rw [Mat.el_ofFn_lt _ hi hi]
    refine sum_congr rfl (fun k hk => ?_)
    simp only [histCov_diag, coefCov_diag]
    symm
    rw [Finset.sum_eq_single k]
    · simp
    · intro l _ hl
      rw [if_neg (by omega), if_neg (by omega), if_neg (by omega)]; ring
    · intro h; exact absurd hk h

/-- non-vacuity of `C03_routines` -/
example : ∃ y U, firFilter (K := ℚ) (Vec.ofList [1, 2]) (Vec.ofList [3, 4])
    ((some (Vec.ofList [5, 6])).map Mat.diag) ((some (Vec.ofList [7, 8])).map Mat.diag) "zero"
      = .ok (y, U) ∧ U.rows = 2 ∧ firFilterDiag (K := ℚ) (Vec.ofList [1, 2]) (Vec.ofList [3, 4])
    (some (Vec.ofList [5, 6])) (some (Vec.ofList [7, 8])) "zero" = .ok (y, Mat.diagonal U) :=
  C03_routines (K := ℚ) _ _ _ _ _ (Or.inr rfl) (by simp) (by simp) (by rintro _ ⟨⟩; rfl)
    (by rintro _ ⟨⟩; rfl)

/-! ## C04 positive semidefiniteness -/

/-- The propagated covariance function is positive semidefinite. -/
lemma firCov_psd (theta : Vec ℝ) (x : ℤ → ℝ) (C : ℤ → ℤ → ℝ) (V : ℕ → ℕ → ℝ) (N : ℕ)
    (hC : (prolonged (theta.len - 1) N C).PSD)
    (hV : (Mat.ofFn theta.len theta.len V).PSD) :
    (Mat.ofFn N N (firCov theta x C V)).PSD := by
  rw [Mat.psd_iff _ (n := N) rfl rfl]
  rw [Mat.psd_iff _ (n := theta.len - 1 + N) rfl rfl] at hC
  rw [Mat.psd_iff _ (n := theta.len) rfl rfl] at hV
  let m := theta.len
  have hp : ∀ a : Fin N × Fin m, (a.1 : ℕ) + (m - 1) - a.2 < m - 1 + N := by
    intro a
    have := a.1.2; have := a.2.2; omega
  let p : Fin N × Fin m → Fin (m - 1 + N) := fun a => ⟨_, hp a⟩
  have hA := hC.submatrix p
  have hB := hV.submatrix (Prod.snd : Fin N × Fin m → Fin m)
  have hθ := Matrix.posSemidef_vecMulVec_self_star (R := ℝ)
    (fun a : Fin N × Fin m => theta.el a.2)
  have hx := Matrix.posSemidef_vecMulVec_self_star (R := ℝ)
    (fun a : Fin N × Fin m => x ((a.1 : ℤ) - (a.2 : ℕ)))
  have hG := ((hθ.hadamard hA).add (hx.hadamard hB)).add (hA.hadamard hB)
  have := psd_sum_pairs _ hG
  convert this using 1
  ext i j
  simp only [Mat.toMatrix, Matrix.of_apply]
  rw [Mat.el_ofFn_lt _ i.2 j.2]
  unfold firCov
  rw [Finset.sum_range]
  refine sum_congr rfl (fun k _ => ?_)
  rw [Finset.sum_range]
  refine sum_congr rfl (fun l _ => ?_)
  have e1 : ((i : ℕ) : ℤ) - ((k : ℕ) : ℤ) = (((i : ℕ) + (m - 1) - k : ℕ) : ℤ) - (m - 1 : ℕ) := by
    have := k.2; omega
  have e2 : ((j : ℕ) : ℤ) - ((l : ℕ) : ℤ) = (((j : ℕ) + (m - 1) - l : ℕ) : ℤ) - (m - 1 : ℕ) := by
    have := l.2; omega
  have hik := hp (i, k)
  have hjl := hp (j, l)
  simp only [Matrix.add_apply, Matrix.hadamard_apply, Matrix.vecMulVec_apply,
    star_trivial, Matrix.submatrix_apply, Matrix.of_apply, p, prolonged,
    Mat.el_ofFn, k.2, l.2, and_self, if_true]
  rw [if_pos ⟨hik, hjl⟩, ← e1, ← e2]

/-- C04. If the prolonged noise covariance and the coefficient covariance are positive
semidefinite, so is the covariance returned by `FIRuncFilter`, and the point-wise
uncertainties are the square roots of its diagonal (no absolute value involved). -/
theorem C04_psd (y : Vec ℝ) (sigma : Noise ℝ) (theta : Vec ℝ) (Utheta : CoefUnc ℝ)
    (kind : String) (hw : WellShaped y sigma theta Utheta .none kind)
    (hc : CovarianceCapable sigma Utheta kind)
    (hX : (prolonged (theta.len - 1) y.len
      (stationaryCov (noiseMeaning y.len kind sigma))).PSD)
    (hT : (Mat.ofFn theta.len theta.len (coefMeaning Utheta)).PSD) :
    ∃ x U s, FIRuncFilter y sigma theta Utheta 0 .none kind true = .ok (x, .cov U) ∧ U.PSD ∧
      FIRuncFilter y sigma theta Utheta 0 .none kind false = .ok (x, .std s) ∧
      ∀ i < y.len, 0 ≤ U.el i i ∧ s.el i ^ 2 = U.el i i := by
  have hfl : ∀ u, Utheta ≠ .float u := by
    rintro u rfl
    rcases hc.2 with h | ⟨V, h⟩ <;> cases h
  have hsymm : ∀ V, Utheta = .arr2 V → V.IsSymm := by
    rintro V rfl
    obtain ⟨hr, hcc⟩ := hw.coef2 V rfl
    refine ⟨by omega, fun k l => ?_⟩
    by_cases hkl : k < theta.len ∧ l < theta.len
    · have := hT.1.2 k l
      rwa [Mat.el_ofFn_lt _ hkl.1 hkl.2, Mat.el_ofFn_lt _ hkl.2 hkl.1] at this
    · rw [Mat.el_of_not _ (by omega), Mat.el_of_not _ (by omega)]
  have h1 := FIRuncFilter_closed y sigma theta Utheta kind true hw (Or.inr hc) hsymm hfl
  have h2 := C03_fast_eq_full y sigma theta Utheta .none kind _ _ hw h1
  have hpsd := firCov_psd theta (past y (y.el 0))
    (stationaryCov (noiseMeaning y.len kind sigma)) (coefMeaning Utheta) y.len hX hT
  refine ⟨_, _, _, h1, hpsd, h2, fun i hi => ?_⟩
  have hnn : 0 ≤ (Mat.ofFn y.len y.len (docCov y sigma theta Utheta kind)).el i i := by
    have := ((Mat.psd_iff _ (n := y.len) rfl rfl).mp hpsd).diag_nonneg (i := ⟨i, hi⟩)
    exact this
  refine ⟨hnn, ?_⟩
  rw [Vec.el_ofFn_lt _ hi, abs_of_nonneg hnn, Real.sq_sqrt hnn]

/-- **C08** The helpers `_fir_filter` and `_fir_filter_diag` (used here and in `convolve_unc`) know the initial conditions
"constant" and "zero"; all others raise ValueError. -/
theorem C08_initial_conditions (x theta : Vec ℝ) (U V : Option (Mat ℝ)) (u v : Option (Vec ℝ)) (ic : String)
    (h1 : ic ≠ "constant") (h2 : ic ≠ "zero") :
    firFilter x theta U V ic = .error .valueError ∧ firFilterDiag x theta u v ic = .error .valueError := by
  have h0 : initialValue x ic = .error .valueError := by
    unfold initialValue
    rw [if_neg h1, if_neg h2]
    rfl
  unfold firFilter firFilterDiag
  simp only [h0, bind, Except.bind, and_self]

/-- C08: an empty signal has no first value to continue into the past: IndexError for all supported kinds of
noise, whatever the other arguments are. -/
theorem C08_empty (y : Vec ℝ) (sigma : Noise ℝ) (theta : Vec ℝ) (Utheta : CoefUnc ℝ) (shift : ℤ)
    (blow : Lowpass ℝ) (kind : String) (full : Bool) (hy : y.len = 0)
    (hs : (∃ s, sigma = .float s) ∨ (∃ v, sigma = .arr1 v ∧ (kind = "diag" ∨ kind = "corr"))
      ∨ ∃ U, sigma = .arr2 U) :
    FIRuncFilter y sigma theta Utheta shift blow kind full = .error .indexError := by
  have h0 : initialValue y "constant" = .error .indexError := by
    unfold initialValue
    rw [if_pos rfl, if_pos hy]
    rfl
  have hd : ∀ U V, firFilterDiag y theta U V "constant" = .error .indexError := by
    intro U V
    unfold firFilterDiag
    rw [h0]
    rfl
  have hf : ∀ t U V, firFilter y t U V "constant" = .error .indexError := by
    intro t U V
    unfold firFilter
    rw [h0]
    rfl
  have ha : ∀ U, firFilterAny y theta U Utheta "constant" = .error .indexError := by
    intro U
    unfold firFilterAny
    cases Utheta <;> simp only [hf] <;> rfl
  obtain ⟨U, hU⟩ : ∃ U, noiseCov y kind sigma = .ok U := by
    rcases hs with ⟨s, rfl⟩ | ⟨v, rfl, rfl | rfl⟩ | ⟨U, rfl⟩
    · exact ⟨_, rfl⟩
    · exact ⟨_, rfl⟩
    · exact ⟨_, rfl⟩
    · exact ⟨_, rfl⟩
  unfold FIRuncFilter
  split
  · rw [hd]
    rfl
  · rw [hU]
    cases blow <;> simp only [hf, ha, bind, Except.bind]

example : FIRuncFilter (Vec.ofList []) (.float 1) (Vec.ofList [1, 2]) = .error .indexError :=
  C08_empty _ _ _ _ _ _ _ _ rfl (Or.inl ⟨1, rfl⟩)

end Filter
end PyDyn
