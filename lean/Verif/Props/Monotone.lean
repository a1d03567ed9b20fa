import Verif.Lemmas.Monotone
import Verif.Props.Filter
import Verif.Props.ConvLaws
import Verif.Props.DFT
import Verif.Props.DFT4
import Verif.Props.Interp

/-!
# C129: more input uncertainty never gives less output uncertainty

"Not larger" is meant for the whole covariance: the difference of the covariances is positive
semidefinite, which includes the variances of all linear combinations (`notLarger_iff`).
-/

namespace PyDyn
open Finset

namespace Filter
open Spec

lemma firCov_diff (theta : Vec ℝ) (x : ℤ → ℝ) (C C' : ℤ → ℤ → ℝ) (V V' : ℕ → ℕ → ℝ) (i j : ℕ) :
    firCov theta x C' V' i j - firCov theta x C V i j
      = firCov theta (fun _ => 0) (fun s t => C' s t - C s t) V' i j
        + firCov (Vec.zeros theta.len) x C (fun k l => V' k l - V k l) i j := by
  unfold firCov
  have hz : (Vec.zeros theta.len : Vec ℝ).len = theta.len := rfl
  rw [hz, ← sum_sub_distrib, ← sum_add_distrib]
  refine sum_congr rfl (fun k _ => ?_)
  rw [← sum_sub_distrib, ← sum_add_distrib]
  refine sum_congr rfl (fun l _ => ?_)
  rw [Vec.el_zeros, Vec.el_zeros]
  ring

lemma notLarger_firCov (theta : Vec ℝ) (x : ℤ → ℝ) (C C' : ℤ → ℤ → ℝ) (V V' : ℕ → ℕ → ℝ) (N : ℕ)
    (hC : (prolonged (theta.len - 1) N C).PSD)
    (hC' : NotLarger (prolonged (theta.len - 1) N C) (prolonged (theta.len - 1) N C'))
    (hV : (Mat.ofFn theta.len theta.len V).PSD)
    (hV' : NotLarger (Mat.ofFn theta.len theta.len V) (Mat.ofFn theta.len theta.len V')) :
    NotLarger (Mat.ofFn N N (firCov theta x C V)) (Mat.ofFn N N (firCov theta x C' V')) := by
  rw [notLarger_ofFn]
  have h1 := firCov_psd theta (fun _ => 0) (fun s t => C' s t - C s t) V' N
    (notLarger_ofFn.mp hC') (hV'.psd_right hV)
  have h2 := firCov_psd (Vec.zeros theta.len) x C (fun k l => V' k l - V k l) N hC
    (notLarger_ofFn.mp hV')
  exact psd_congr (psd_add h1 h2) (fun i _ j _ => (firCov_diff theta x C C' V V' i j).symm)

/-- C129 for `FIRuncFilter`. Larger covariance of the signal (including its documented prolongation
into the past) and of the coefficients: same estimate and a covariance that is not smaller. Missing:
covariance matrices whose prolongations are not ordered, where the claim fails (`C129_fir_wrong`). -/
theorem C129_fir_partial (y : Vec ℝ) (sigma sigma' : Noise ℝ) (theta : Vec ℝ) (Utheta Utheta' : CoefUnc ℝ)
    (kind kind' : String) (hw : WellShaped y sigma theta Utheta .none kind)
    (hw' : WellShaped y sigma' theta Utheta' .none kind')
    (hc : CovarianceCapable sigma Utheta kind) (hc' : CovarianceCapable sigma' Utheta' kind')
    (hX : (prolonged (theta.len - 1) y.len (stationaryCov (noiseMeaning y.len kind sigma))).PSD)
    (hX' : NotLarger (prolonged (theta.len - 1) y.len (stationaryCov (noiseMeaning y.len kind sigma)))
      (prolonged (theta.len - 1) y.len (stationaryCov (noiseMeaning y.len kind' sigma'))))
    (hT : (Mat.ofFn theta.len theta.len (coefMeaning Utheta)).PSD)
    (hT' : NotLarger (Mat.ofFn theta.len theta.len (coefMeaning Utheta))
      (Mat.ofFn theta.len theta.len (coefMeaning Utheta'))) :
    ∃ x U U' s s', FIRuncFilter y sigma theta Utheta 0 .none kind true = .ok (x, .cov U) ∧
      FIRuncFilter y sigma' theta Utheta' 0 .none kind' true = .ok (x, .cov U') ∧ NotLarger U U' ∧
      FIRuncFilter y sigma theta Utheta 0 .none kind false = .ok (x, .std s) ∧
      FIRuncFilter y sigma' theta Utheta' 0 .none kind' false = .ok (x, .std s') ∧
      ∀ i < y.len, s.el i ≤ s'.el i := by
  have hsym : ∀ W : CoefUnc ℝ, (∀ V, W = .arr2 V → V.rows = theta.len ∧ V.cols = theta.len) →
      (Mat.ofFn theta.len theta.len (coefMeaning W)).PSD → ∀ V, W = .arr2 V → V.IsSymm := by
    rintro W hs hT V rfl
    obtain ⟨hr, hcc⟩ := hs V rfl
    refine ⟨by omega, fun k l => ?_⟩
    by_cases hkl : k < theta.len ∧ l < theta.len
    · have := hT.1.2 k l
      rwa [Mat.el_ofFn_lt _ hkl.1 hkl.2, Mat.el_ofFn_lt _ hkl.2 hkl.1] at this
    · rw [Mat.el_of_not _ (by omega), Mat.el_of_not _ (by omega)]
  have hT2 : (Mat.ofFn theta.len theta.len (coefMeaning Utheta')).PSD := hT'.psd_right hT
  have hfl : ∀ u, Utheta ≠ .float u := by
    rintro u rfl
    rcases hc.2 with h | ⟨V, h⟩ <;> cases h
  have hfl' : ∀ u, Utheta' ≠ .float u := by
    rintro u rfl
    rcases hc'.2 with h | ⟨V, h⟩ <;> cases h
  have s1 := hsym Utheta hw.coef2 hT
  have s2 := hsym Utheta' hw'.coef2 hT2
  have e1 := FIRuncFilter_closed y sigma theta Utheta kind true hw (Or.inr hc) s1 hfl
  have e2 := FIRuncFilter_closed y sigma' theta Utheta' kind' true hw' (Or.inr hc') s2 hfl'
  have e3 := FIRuncFilter_closed y sigma theta Utheta kind false hw (Or.inr hc) s1 hfl
  have e4 := FIRuncFilter_closed y sigma' theta Utheta' kind' false hw' (Or.inr hc') s2 hfl'
  have hn := notLarger_firCov theta (past y (y.el 0))
    (stationaryCov (noiseMeaning y.len kind sigma)) (stationaryCov (noiseMeaning y.len kind' sigma'))
    (coefMeaning Utheta) (coefMeaning Utheta') y.len hX hX' hT hT'
  have hp := firCov_psd theta (past y (y.el 0))
    (stationaryCov (noiseMeaning y.len kind sigma)) (coefMeaning Utheta) y.len hX hT
  refine ⟨_, _, _, _, _, e1, e2, hn, e3, e4, fun i hi => ?_⟩
  have d := hn.diag hi
  rw [Mat.el_ofFn_lt _ hi hi, Mat.el_ofFn_lt _ hi hi] at d
  have nn : 0 ≤ firCov theta (past y (y.el 0)) (stationaryCov (noiseMeaning y.len kind sigma))
      (coefMeaning Utheta) i i := by
    have := ((Mat.psd_iff _ (n := y.len) rfl rfl).mp hp).diag_nonneg (i := ⟨i, hi⟩)
    simpa [Mat.toMatrix, hi] using this
  rw [Vec.el_ofFn_lt _ hi, Vec.el_ofFn_lt _ hi]
  refine Real.sqrt_le_sqrt ?_
  unfold docCov
  rw [abs_of_nonneg nn, abs_of_nonneg (nn.trans d)]
  exact d

/-- C129 for point-wise standard uncertainties of the signal and of the coefficients. -/
theorem C129_fir_std (y : Vec ℝ) (v v' : Vec ℝ) (theta : Vec ℝ) (w w' : Vec ℝ)
    (hy : 1 ≤ y.len) (ht : 2 ≤ theta.len) (hv : v.len = y.len) (hv' : v'.len = y.len)
    (hw : w.len = theta.len) (hw' : w'.len = theta.len)
    (hle : ∀ i < y.len, |v.el i| ≤ |v'.el i|) (hle' : ∀ k < theta.len, |w.el k| ≤ |w'.el k|) :
    ∃ x s s', FIRuncFilter y (.arr1 v) theta (.arr1 w) 0 .none "diag" false = .ok (x, .std s) ∧
      FIRuncFilter y (.arr1 v') theta (.arr1 w') 0 .none "diag" false = .ok (x, .std s') ∧
      ∀ i < y.len, s.el i ≤ s'.el i := by
  have ws : ∀ v w : Vec ℝ, v.len = y.len → w.len = theta.len →
      WellShaped y (.arr1 v) theta (.arr1 w) .none "diag" := fun v w h1 h2 =>
    ⟨hy, ht, fun u e _ => (by cases e; exact h1), fun _ e => (by cases e),
      fun u e => (by cases e; exact h2), fun _ e => (by cases e), fun _ e => (by cases e)⟩
  have vo : ∀ v w : Vec ℝ, VarianceOnly (.arr1 v) (.arr1 w) .none "diag" false := fun v w =>
    ⟨rfl, rfl, Or.inr (Or.inr ⟨rfl, v, rfl⟩), Or.inr (Or.inr ⟨w, rfl⟩)⟩
  have e1 := FIRuncFilter_closed y (.arr1 v) theta (.arr1 w) "diag" false (ws v w hv hw)
    (Or.inl (vo v w)) (fun _ e => by cases e) (fun _ e => by cases e)
  have e2 := FIRuncFilter_closed y (.arr1 v') theta (.arr1 w') "diag" false (ws v' w' hv' hw')
    (Or.inl (vo v' w')) (fun _ e => by cases e) (fun _ e => by cases e)
  refine ⟨_, _, _, e1, e2, fun i hi => ?_⟩
  rw [Vec.el_ofFn_lt _ hi, Vec.el_ofFn_lt _ hi]
  have hst : ∀ (u : Vec ℝ) (s t : ℤ), stationaryCov (noiseMeaning y.len "diag" (.arr1 u)) s t
      = if s = t then (if 0 ≤ s then (if s.toNat < y.len then u.el s.toNat ^ 2 else 0)
        else u.el 0 ^ 2) else 0 := by
    intro u s t
    unfold stationaryCov noiseMeaning
    simp only [if_true, Mat.el_ofFn]
    by_cases h : s = t
    · subst h
      by_cases h0 : 0 ≤ s
      · simp [h0]
      · have : 0 < y.len := hy
        simp [h0, this]
    · rw [if_neg h]
      split_ifs <;> first | rfl | omega
  have sq : ∀ a b : ℝ, |a| ≤ |b| → a ^ 2 ≤ b ^ 2 := fun a b h => sq_le_sq.mpr h
  have hC : ∀ s t : ℤ, 0 ≤ stationaryCov (noiseMeaning y.len "diag" (.arr1 v)) s t ∧
      stationaryCov (noiseMeaning y.len "diag" (.arr1 v)) s t
        ≤ stationaryCov (noiseMeaning y.len "diag" (.arr1 v')) s t := by
    intro s t
    rw [hst, hst]
    split_ifs with h1 h2 h3
    · exact ⟨sq_nonneg _, sq _ _ (hle _ h3)⟩
    · exact ⟨le_rfl, le_rfl⟩
    · exact ⟨sq_nonneg _, sq _ _ (hle 0 hy)⟩
    · exact ⟨le_rfl, le_rfl⟩
  have key : 0 ≤ docCov y (.arr1 v) theta (.arr1 w) "diag" i i ∧
      docCov y (.arr1 v) theta (.arr1 w) "diag" i i ≤ docCov y (.arr1 v') theta (.arr1 w') "diag" i i := by
    unfold docCov firCov
    have term : ∀ k ∈ range theta.len, ∀ l ∈ range theta.len,
        0 ≤ theta.el k * theta.el l
            * stationaryCov (noiseMeaning y.len "diag" (.arr1 v)) ((i : ℤ) - k) ((i : ℤ) - l)
          + past y (y.el 0) ((i : ℤ) - k) * past y (y.el 0) ((i : ℤ) - l) * coefMeaning (.arr1 w) k l
          + stationaryCov (noiseMeaning y.len "diag" (.arr1 v)) ((i : ℤ) - k) ((i : ℤ) - l)
            * coefMeaning (.arr1 w) k l ∧
        theta.el k * theta.el l
            * stationaryCov (noiseMeaning y.len "diag" (.arr1 v)) ((i : ℤ) - k) ((i : ℤ) - l)
          + past y (y.el 0) ((i : ℤ) - k) * past y (y.el 0) ((i : ℤ) - l) * coefMeaning (.arr1 w) k l
          + stationaryCov (noiseMeaning y.len "diag" (.arr1 v)) ((i : ℤ) - k) ((i : ℤ) - l)
            * coefMeaning (.arr1 w) k l
        ≤ theta.el k * theta.el l
            * stationaryCov (noiseMeaning y.len "diag" (.arr1 v')) ((i : ℤ) - k) ((i : ℤ) - l)
          + past y (y.el 0) ((i : ℤ) - k) * past y (y.el 0) ((i : ℤ) - l) * coefMeaning (.arr1 w') k l
          + stationaryCov (noiseMeaning y.len "diag" (.arr1 v')) ((i : ℤ) - k) ((i : ℤ) - l)
            * coefMeaning (.arr1 w') k l := by
      intro k hk l _
      by_cases e : k = l
      · subst e
        obtain ⟨c0, c1⟩ := hC ((i : ℤ) - k) ((i : ℤ) - k)
        simp only [coefMeaning, if_true]
        have w1 := sq _ _ (hle' k (mem_range.mp hk))
        have w0 := sq_nonneg (w.el k)
        have t0 := mul_self_nonneg (theta.el k)
        have x0 := mul_self_nonneg (past y (y.el 0) ((i : ℤ) - k))
        exact ⟨by positivity, add_le_add (add_le_add (mul_le_mul_of_nonneg_left c1 t0)
          (mul_le_mul_of_nonneg_left w1 x0)) (mul_le_mul c1 w1 w0 (c0.trans c1))⟩
      · rw [hst, hst, if_neg (by omega), if_neg (by omega)]
        simp [coefMeaning, e]
    exact ⟨sum_nonneg (fun k hk => sum_nonneg (fun l hl => (term k hk l hl).1)),
      sum_le_sum (fun k hk => sum_le_sum (fun l hl => (term k hk l hl).2))⟩
  refine Real.sqrt_le_sqrt ?_
  rw [abs_of_nonneg key.1, abs_of_nonneg (key.1.trans key.2)]
  exact key.2

/-- non-vacuity of C129: doubled uncertainties -/
example : ∃ x s s', FIRuncFilter (Vec.ofList [1, 2]) (.arr1 (Vec.ofList [1, 1])) (Vec.ofList [1, -1])
      (.arr1 (Vec.ofList [1, 0])) 0 .none "diag" false = .ok (x, .std s) ∧
      FIRuncFilter (Vec.ofList [1, 2]) (.arr1 (Vec.ofList [2, -2])) (Vec.ofList [1, -1])
      (.arr1 (Vec.ofList [2, 0])) 0 .none "diag" false = .ok (x, .std s') ∧
      ∀ i < 2, s.el i ≤ s'.el i := by
  refine C129_fir_std _ _ _ _ _ _ (by decide) (by decide) rfl rfl rfl rfl (fun i hi => ?_) (fun k hk => ?_)
  · have hi' : i < 2 := hi
    interval_cases i <;> simp [Vec.el_ofList]
  · have hk' : k < 2 := hk
    interval_cases k <;> simp [Vec.el_ofList]

/-- C129 does not hold for arbitrary covariance matrices of the signal, because the stationary
prolongation into the past of a positive semidefinite matrix need not be positive semidefinite:
`[[2, 2], [2, 5]]` exceeds the identity by a positive semidefinite matrix, but the difference filter
`[1, -1]` has standard uncertainty `√2` of its first output value for the identity, and 0 for the
larger covariance. -/
theorem C129_fir_wrong : ∃ U U' : Mat ℝ, U.PSD ∧ U'.PSD ∧ NotLarger U U' ∧ ∃ x s x' s',
    FIRuncFilter (Vec.ofList [0, 0]) (.arr2 U) (Vec.ofList [1, -1]) .none 0 .none "corr" false
      = .ok (x, .std s) ∧
    FIRuncFilter (Vec.ofList [0, 0]) (.arr2 U') (Vec.ofList [1, -1]) .none 0 .none "corr" false
      = .ok (x', .std s') ∧ s.el 0 = Real.sqrt 2 ∧ s'.el 0 = 0 := by
  have hp : ∀ a b c : ℝ, 0 ≤ a → 0 ≤ c → b ^ 2 ≤ a * c → (Mat.ofLists 2 [[a, b], [b, c]]).PSD := by
    intro a b c ha hc hb
    refine ⟨⟨rfl, fun i j => ?_⟩, fun v => ?_⟩
    · by_cases h : i < 2 ∧ j < 2
      · obtain ⟨h1, h2⟩ := h
        interval_cases i <;> interval_cases j <;> simp [Mat.ofLists]
      · rw [Mat.el_of_not _ h, Mat.el_of_not _ (fun g => h ⟨g.2, g.1⟩)]
    · simp [sum_range_succ, Mat.ofLists]
      rcases ha.eq_or_lt with rfl | ha
      · have : b = 0 := by nlinarith [sq_nonneg b]
        subst this
        nlinarith [mul_nonneg hc (mul_self_nonneg (v 1))]
      · have : 0 ≤ a * (v 0 * a * v 0 + v 0 * b * v 1 + (v 1 * b * v 0 + v 1 * c * v 1)) := by
          nlinarith [sq_nonneg (a * v 0 + b * v 1), mul_nonneg (sub_nonneg.mpr hb) (mul_self_nonneg (v 1))]
        exact nonneg_of_mul_nonneg_right this ha
  have ws : ∀ a b c : ℝ, WellShaped (Vec.ofList [0, 0]) (.arr2 (Mat.ofLists 2 [[a, b], [b, c]]))
      (Vec.ofList [1, -1]) .none .none "corr" := fun a b c =>
    ⟨by decide, by decide, fun u e _ => (by cases e), fun _ e => (by cases e; exact ⟨rfl, rfl⟩),
      fun u e => (by cases e), fun _ e => (by cases e), fun _ e => (by cases e)⟩
  have cc : ∀ a b c : ℝ, CovarianceCapable (.arr2 (Mat.ofLists 2 [[a, b], [b, c]])) .none "corr" :=
    fun a b c => ⟨Or.inr (Or.inr ⟨_, rfl⟩), Or.inl rfl⟩
  have e := fun a b c : ℝ => FIRuncFilter_closed (Vec.ofList [0, 0])
    (.arr2 (Mat.ofLists 2 [[a, b], [b, c]])) (Vec.ofList [1, -1]) .none "corr" false (ws a b c)
    (Or.inr (cc a b c)) (fun _ e => by cases e) (fun _ e => by cases e)
  have d : ∀ a b c : ℝ, docCov (Vec.ofList [0, 0]) (.arr2 (Mat.ofLists 2 [[a, b], [b, c]]))
      (Vec.ofList [1, -1]) .none "corr" 0 0 = 2 * a - 2 * b := by
    intro a b c
    unfold docCov firCov
    have : (Vec.ofList [1, -1] : Vec ℝ).len = 2 := rfl
    rw [this]
    simp [sum_range_succ, stationaryCov, noiseMeaning, coefMeaning, Vec.el_ofList, Mat.ofLists]
    ring
  refine ⟨Mat.ofLists 2 [[1, 0], [0, 1]], Mat.ofLists 2 [[2, 2], [2, 5]], hp _ _ _ (by norm_num)
    (by norm_num) (by norm_num), hp _ _ _ (by norm_num) (by norm_num) (by norm_num), ?_, _, _, _, _,
    e 1 0 1, e 2 2 5, ?_, ?_⟩
  · refine ⟨rfl, rfl, ?_⟩
    have : Mat.ofFn (Mat.ofLists 2 [[(1 : ℝ), 0], [0, 1]]).rows (Mat.ofLists 2 [[(1 : ℝ), 0], [0, 1]]).cols
        (fun i j => (Mat.ofLists 2 [[(2 : ℝ), 2], [2, 5]]).el i j
          - (Mat.ofLists 2 [[(1 : ℝ), 0], [0, 1]]).el i j) = Mat.ofLists 2 [[1, 2], [2, 4]] := by
      refine Mat.ext_el rfl rfl (fun i hi j hj => ?_)
      have hi' : i < 2 := hi
      have hj' : j < 2 := hj
      interval_cases i <;> interval_cases j <;> simp [Mat.ofLists] <;> norm_num
    rw [this]
    exact hp _ _ _ (by norm_num) (by norm_num) (by norm_num)
  · rw [Vec.el_ofFn_lt _ (by decide), d]; norm_num
  · rw [Vec.el_ofFn_lt _ (by decide), d]; norm_num

end Filter

namespace Conv
open Np Filter Spec

lemma extended2_sub (src : ℤ → Option ℕ) (C C' : ℕ → ℕ → ℝ) (s t : ℤ) :
    extended2 src (fun i j => C' i j - C i j) s t = extended2 src C' s t - extended2 src C s t := by
  unfold extended2
  cases src s <;> cases src t <;> simp

lemma extended_zero (src : ℤ → Option ℕ) (n : ℕ) (s : ℤ) :
    extended src (Vec.zeros n : Vec ℝ).el s = 0 := by
  unfold extended
  cases src s <;> simp

lemma convCov_diff (src : ℤ → Option ℕ) (m n : ℕ) (a : ℕ → ℝ) (C C' : ℕ → ℕ → ℝ) (b : ℕ → ℝ)
    (V V' : ℕ → ℕ → ℝ) (s t : ℤ) :
    convCov src m a C' b V' s t - convCov src m a C b V s t
      = convCov src m (Vec.zeros n : Vec ℝ).el (fun i j => C' i j - C i j) b V' s t
        + convCov src m a C (Vec.zeros m : Vec ℝ).el (fun k l => V' k l - V k l) s t := by
  unfold convCov
  rw [← sum_sub_distrib, ← sum_add_distrib]
  refine sum_congr rfl (fun k _ => ?_)
  rw [← sum_sub_distrib, ← sum_add_distrib]
  refine sum_congr rfl (fun l _ => ?_)
  rw [extended2_sub, extended_zero, extended_zero, Vec.el_zeros, Vec.el_zeros]
  ring

lemma coefCov_outside {U : Option (Mat ℝ)} {n : ℕ} (h : Fits U n) {i j : ℕ} (hij : ¬ (i < n ∧ j < n)) :
    coefCov U i j = 0 := by
  cases U with
  | none => rfl
  | some W =>
    obtain ⟨hr, hc⟩ := h W rfl
    exact Mat.el_of_not _ (by rw [hr, hc]; omega)

lemma coefCov_psd {U : Option (Mat ℝ)} {n : ℕ} (h : Fits U n) (hp : (Mat.ofFn n n (coefCov U)).PSD) :
    ∀ W ∈ U, W.PSD := by
  intro W hW
  cases hW
  obtain ⟨hr, hc⟩ := h W rfl
  have : Mat.ofFn n n (coefCov (some W)) = W := by
    refine Mat.ext_el hr.symm hc.symm (fun i hi j hj => ?_)
    have hi' : i < n := hi
    have hj' : j < n := hj
    rw [Mat.el_ofFn_lt _ hi' hj']
    rfl
  rwa [this] at hp

/-- C129 for `convolve_unc`. `coefCov` reads `None` as the zero matrix. -/
theorem C129_convolve (x1 : Vec ℝ) (U1 U1' : Option (Mat ℝ)) (x2 : Vec ℝ) (U2 U2' : Option (Mat ℝ))
    (mode : String) (hcov : Covered mode x1.len x2.len) (hf1 : Fits U1 x1.len) (hf1' : Fits U1' x1.len)
    (hf2 : Fits U2 x2.len) (hf2' : Fits U2' x2.len)
    (hp1 : (Mat.ofFn x1.len x1.len (coefCov U1)).PSD) (hp2 : (Mat.ofFn x2.len x2.len (coefCov U2)).PSD)
    (h1 : NotLarger (Mat.ofFn x1.len x1.len (coefCov U1)) (Mat.ofFn x1.len x1.len (coefCov U1')))
    (h2 : NotLarger (Mat.ofFn x2.len x2.len (coefCov U2)) (Mat.ofFn x2.len x2.len (coefCov U2'))) :
    ∃ y U U', convolveUnc x1 U1 x2 U2 mode = .ok (y, U) ∧
      convolveUnc x1 U1' x2 U2' mode = .ok (y, U') ∧ NotLarger U U' := by
  have q1 := coefCov_psd hf1 hp1
  have q2 := coefCov_psd hf2 hp2
  have q1' := coefCov_psd hf1' (h1.psd_right hp1)
  have q2' := coefCov_psd hf2' (h2.psd_right hp2)
  have e := convolveUnc_covered x1 U1 x2 U2 mode hcov hf1 hf2 (fun W h => (q1 W h).1)
    (fun W h => (q2 W h).1)
  have e' := convolveUnc_covered x1 U1' x2 U2' mode hcov hf1' hf2' (fun W h => (q1' W h).1)
    (fun W h => (q2' W h).1)
  refine ⟨_, _, _, e, e', notLarger_ofFn.mpr ?_⟩
  -- the two parts of the difference are covariances of further convolutions
  let D1 := Mat.ofFn x1.len x1.len (fun i j => coefCov U1' i j - coefCov U1 i j)
  let D2 := Mat.ofFn x2.len x2.len (fun i j => coefCov U2' i j - coefCov U2 i j)
  have p1 : D1.PSD := notLarger_ofFn.mp h1
  have p2 : D2.PSD := notLarger_ofFn.mp h2
  have c1 : coefCov (some D1) = fun i j => coefCov U1' i j - coefCov U1 i j := by
    funext i j
    change D1.el i j = _
    by_cases h : i < x1.len ∧ j < x1.len
    · exact Mat.el_ofFn_lt _ h.1 h.2
    · rw [coefCov_outside hf1 h, coefCov_outside hf1' h, Mat.el_of_not D1 h]; simp
  have c2 : coefCov (some D2) = fun i j => coefCov U2' i j - coefCov U2 i j := by
    funext i j
    change D2.el i j = _
    by_cases h : i < x2.len ∧ j < x2.len
    · exact Mat.el_ofFn_lt _ h.1 h.2
    · rw [coefCov_outside hf2 h, coefCov_outside hf2' h, Mat.el_of_not D2 h]; simp
  have fD1 : Fits (some D1) x1.len := fun W h => by cases h; exact ⟨rfl, rfl⟩
  have fD2 : Fits (some D2) x2.len := fun W h => by cases h; exact ⟨rfl, rfl⟩
  have pD1 : ∀ W ∈ some D1, W.PSD := fun W h => by cases h; exact p1
  have pD2 : ∀ W ∈ some D2, W.PSD := fun W h => by cases h; exact p2
  obtain ⟨ya, Va, ea, pa⟩ := C114_psd (Vec.zeros x1.len) (some D1) x2 U2' mode hcov fD1 hf2' pD1 q2'
  obtain ⟨yb, Vb, eb, pb⟩ := C114_psd x1 U1 (Vec.zeros x2.len) (some D2) mode hcov hf1 fD2 q1 pD2
  rw [convolveUnc_covered (Vec.zeros x1.len) (some D1) x2 U2' mode hcov fD1 hf2'
    (fun W h => (pD1 W h).1) (fun W h => (q2' W h).1)] at ea
  rw [convolveUnc_covered x1 U1 (Vec.zeros x2.len) (some D2) mode hcov hf1 fD2
    (fun W h => (q1 W h).1) (fun W h => (pD2 W h).1)] at eb
  cases ea
  cases eb
  rw [c1] at pa
  rw [c2] at pb
  refine psd_congr (psd_add pa pb) (fun i _ j _ => ?_)
  exact (convCov_diff (source mode x1.len) x2.len x1.len x1.el (coefCov U1) (coefCov U1') x2.el
    (coefCov U2) (coefCov U2') _ _).symm

/-- non-vacuity of C129: an exact signal becomes uncertain and the kernel more uncertain -/
example : ∃ y U U', convolveUnc (Vec.ofList [1, 2, 3]) none (Vec.ofList [1, -1])
      (some (Mat.ofFn 2 2 (fun i j => if i = j then 1 else 0))) "full" = .ok (y, U) ∧
    convolveUnc (Vec.ofList [1, 2, 3]) (some (Mat.ofFn 3 3 (fun i j => if i = j then 1 else 0)))
      (Vec.ofList [1, -1]) (some (Mat.ofFn 2 2 (fun i j => if i = j then (i : ℝ) + 1 else 0))) "full"
      = .ok (y, U') ∧ NotLarger U U' := by
  have e : ∀ (n : ℕ) (f : ℕ → ℕ → ℝ), Mat.ofFn n n (coefCov (some (Mat.ofFn n n f))) = Mat.ofFn n n f :=
    fun n f => Mat.ofFn_congr (fun i hi j hj => Mat.el_ofFn_lt _ hi hj)
  have fits : ∀ (n : ℕ) (f : ℕ → ℕ → ℝ), Fits (some (Mat.ofFn n n f)) n := fun n f W h => by
    cases h; exact ⟨rfl, rfl⟩
  refine C129_convolve _ _ _ _ _ _ _ ⟨by decide, Or.inl ⟨Or.inr (Or.inl rfl), by decide⟩⟩ (fun W h => by cases h)
    (fits 3 _) (fits 2 _) (fits 2 _) (psd_zero 3) ?_ ?_ ?_
  · change (Mat.ofFn 2 2 _).PSD
    rw [e]
    exact psd_diag 2 (fun _ => 1) (fun _ _ => zero_le_one)
  · change NotLarger (Mat.ofFn 3 3 _) (Mat.ofFn 3 3 _)
    rw [e, notLarger_ofFn]
    exact psd_congr (psd_diag 3 (fun _ => 1) (fun _ _ => zero_le_one)) (fun i _ j _ => by simp [coefCov])
  · change NotLarger (Mat.ofFn 2 2 _) (Mat.ofFn 2 2 _)
    rw [e, e, notLarger_ofFn]
    exact psd_congr (psd_diag 2 (fun i => (i : ℝ)) (fun i _ => Nat.cast_nonneg i))
      (fun i _ j _ => by split_ifs <;> ring)

end Conv

namespace DFT
open Np Real DFTSpec

/-- C129 for `GUM_DFT` -/
theorem C129_dft (x : Vec ℝ) (U U' : Mat ℝ) (hU : U.PSD) (hU' : U'.PSD) (hr : U.rows = x.len)
    (h : NotLarger U U') (N : ℕ) (hN : x.len ≤ N) (h0 : 1 ≤ N) (mask : Option (List Bool))
    (hm : ∀ b ∈ mask, b.length = N / 2 + 1) :
    ∃ F UF UF' C, gumDFT x (.mat U) (some N) none none mask = .ok ⟨F, .mat UF, C⟩ ∧
      gumDFT x (.mat U') (some N) none none mask = .ok ⟨F, .mat UF', C⟩ ∧ NotLarger UF UF' := by
  obtain ⟨sel, hsel⟩ : ∃ sel, selected mask (N / 2 + 1) = .ok sel := by
    cases mask with
    | none => exact ⟨_, rfl⟩
    | some b => exact ⟨_, by simp only [selected]; rw [if_pos (hm b rfl)]; rfl⟩
  have e := gumDFT_mat x U hU.1 hr (some N) hN h0 mask sel hsel
  have e' := gumDFT_mat x U' hU'.1 (h.1 ▸ hr) (some N) hN h0 mask sel hsel
  refine ⟨_, _, _, _, e, e', notLarger_of_lincomb (n := U.rows) U U' h rfl (dftRow sel N) _ _ rfl rfl
    rfl rfl (fun a ha b hb => ?_) (fun a ha b hb => ?_)⟩
  · rw [el_dftCov _ _ _ ha hb]; rfl
  · rw [el_dftCov _ _ _ ha hb, h.1]; rfl

/-- non-vacuity of C129: the variances 1 and 2 are raised to 2 and 2 -/
lemma notLarger_example : NotLarger (Mat.ofFn 2 2 (fun i j => if i = j then (i : ℝ) + 1 else 0))
    (Mat.ofFn 2 2 (fun i j => if i = j then 2 else 0)) := by
  rw [notLarger_ofFn]
  refine psd_congr (psd_diag 2 (fun i => 1 - (i : ℝ)) (fun i hi => ?_))
    (fun i _ j _ => by split_ifs <;> ring)
  have : i ≤ 1 := by omega
  have : (i : ℝ) ≤ 1 := by exact_mod_cast this
  linarith

example : ∃ F UF UF' C, gumDFT (Vec.ofList [1, 2])
      (.mat (Mat.ofFn 2 2 (fun i j => if i = j then (i : ℝ) + 1 else 0))) (some 4) none none none
        = .ok ⟨F, .mat UF, C⟩ ∧
    gumDFT (Vec.ofList [1, 2]) (.mat (Mat.ofFn 2 2 (fun i j => if i = j then 2 else 0))) (some 4) none
      none none = .ok ⟨F, .mat UF', C⟩ ∧ NotLarger UF UF' :=
  C129_dft _ _ _ (psd_diag 2 (fun i => (i : ℝ) + 1) (fun i _ => by positivity))
    (psd_diag 2 (fun _ => 2) (fun _ _ => zero_le_two)) rfl notLarger_example 4 (by decide) (by decide)
    none (by simp)

variable {m : ℕ}

lemma toMat_rows' {U : Cov} (hU : U.IsCov m) : U.toMat.rows = 2 * m := by
  rw [(Cov.toMat_symm hU).1]; exact Cov.toMat_cols hU

/-- C129 for `GUM_iDFT`: the symmetric part of the returned matrix (the code returns a matrix that
need not be symmetric, C25) does not get smaller, in particular no variance does. -/
theorem C129_idft (h : ℕ) (hh : 1 ≤ h) (F : Vec ℝ) (U U' : Cov) (hF : F.len = 2 * (h + 1))
    (hU : U.IsCov (h + 1)) (hs : ¬ U.IsSparse) (hU' : U'.IsCov (h + 1)) (hs' : ¬ U'.IsSparse)
    (hle : NotLarger U.toMat U'.toMat) :
    ∃ x V V', gumIDFT F U = .ok (x, V) ∧ gumIDFT F U' = .ok (x, V') ∧
      NotLarger (symPart V) (symPart V') ∧ ∀ i < x.len, V.el i i ≤ V'.el i i := by
  obtain ⟨V, e, r1, r2, r3⟩ := gumIDFT_any h hh F U hF hU hs
  obtain ⟨V', e', r1', r2', r3'⟩ := gumIDFT_any h hh F U' hF hU' hs'
  have hn : NotLarger (symPart V) (symPart V') := by
    refine notLarger_of_lincomb (n := h + 1 + (h + 1)) (k := 2 * h) U.toMat U'.toMat hle
      (by rw [toMat_rows' hU]; ring)
      (fun i a => 1 / ((2 * h : ℕ) : ℝ) * twoRow (h + 1) (ccMat (2 * h) h) (csMat (2 * h) h) i a)
      _ _ r1 r2 r1' r2' (fun i hi j hj => ?_) (fun i hi j hj => ?_)
    · unfold symPart
      rw [Mat.el_ofFn_lt _ (by omega) (by omega), r3 i hi j hj]
      unfold twoCov
      simp only [mul_sum, sum_div]
      refine sum_congr rfl (fun a _ => sum_congr rfl (fun b _ => ?_))
      ring
    · unfold symPart
      rw [Mat.el_ofFn_lt _ (by omega) (by omega), r3' i hi j hj]
      unfold twoCov
      simp only [mul_sum, sum_div]
      refine sum_congr rfl (fun a _ => sum_congr rfl (fun b _ => ?_))
      ring
  refine ⟨_, V, V', e, e', hn, fun i hi => ?_⟩
  have hi' : i < 2 * h := hi
  have := hn.diag (i := i) (by change i < V.rows; omega)
  unfold symPart at this
  rw [Mat.el_ofFn_lt _ (by omega) (by omega), Mat.el_ofFn_lt _ (by omega) (by omega)] at this
  linarith

/-- C129 for `DFT2AmpPhase` -/
theorem C129_dft2amp (F : Vec ℝ) (hF : F.len = 2 * m) (U U' : Cov) (hU : U.IsCov m)
    (hU' : U'.IsCov m) (hs : ¬ U.IsSparse) (hs' : ¬ U'.IsSparse) (ks : Bool)
    (hz : ∀ k < m, bin m F.el k ≠ 0) (h : NotLarger U.toMat U'.toMat) :
    ∃ A P V V', dft2AmpPhase F U ks = .ok (A, P, V) ∧ dft2AmpPhase F U' ks = .ok (A, P, V') ∧
      NotLarger V.toMat V'.toMat := by
  obtain ⟨V, e, -, -, hV⟩ := dft2AmpPhase_eq F hF U hU hs ks hz
  obtain ⟨V', e', -, -, hV'⟩ := dft2AmpPhase_eq F hF U' hU' hs' ks hz
  refine ⟨_, _, V, V', e, e', ?_⟩
  rw [hV, hV']
  exact h.propagate _ (by rw [toMat_rows' hU]; rfl)

/-- C129 for `AmpPhase2DFT` -/
theorem C129_amp2dft (A P : Vec ℝ) (hA : A.len = m) (hP : P.len = m) (U U' : Cov) (hU : U.IsCov m)
    (hU' : U'.IsCov m) (hs : ¬ U.IsSparse) (hs' : ¬ U'.IsSparse) (ks : Bool)
    (h : NotLarger U.toMat U'.toMat) :
    ∃ F V V', ampPhase2DFT A P U ks = .ok (F, V) ∧ ampPhase2DFT A P U' ks = .ok (F, V') ∧
      NotLarger V.toMat V'.toMat := by
  obtain ⟨V, e, -, -, -, hV⟩ := ampPhase2DFT_eq A P hA hP U hU hs ks
  obtain ⟨V', e', -, -, -, hV'⟩ := ampPhase2DFT_eq A P hA hP U' hU' hs' ks
  refine ⟨_, V, V', e, e', ?_⟩
  rw [hV, hV']
  exact h.propagate _ (by rw [toMat_rows' hU]; rfl)

/-- C129 for `DFT_deconv` (whose covariance is not the documented one, C28, but still grows with the
uncertainties of the arguments) -/
theorem C129_deconv (H Y : Vec ℝ) (hH : H.len = 2 * m) (hY : Y.len = 2 * m) (UH UH' UY UY' : Cov)
    (hUH : UH.IsCov m) (hUH' : UH'.IsCov m) (hUY : UY.IsCov m) (hUY' : UY'.IsCov m)
    (hsH : ¬ UH.IsSparse) (hsH' : ¬ UH'.IsSparse)
    (hz : ∀ k < m, bin m H.el k ≠ 0) (h : NotLarger UH.toMat UH'.toMat)
    (h' : NotLarger UY.toMat UY'.toMat) :
    ∃ X V V', dftDeconv H Y UH UY = .ok (X, V) ∧ dftDeconv H Y UH' UY' = .ok (X, V') ∧
      NotLarger V V' := by
  obtain ⟨V, e, hV⟩ := dftDeconv_eq H Y hH hY UH UY hUH hUY hsH hz
  obtain ⟨V', e', hV'⟩ := dftDeconv_eq H Y hH hY UH' UY' hUH' hUY' hsH' hz
  refine ⟨_, V, V', e, e', ?_⟩
  rw [hV, hV']
  exact (h'.propagate _ (by rw [toMat_rows' hUY]; rfl)).add (h.propagate _ (by rw [toMat_rows' hUH]; rfl)) rfl

/-- C129 for `DFT_multiply` -/
theorem C129_multiply (Y F : Vec ℝ) (hY : Y.len = 2 * m) (hF : F.len = 2 * m) (U U' W W' : Mat ℝ)
    (hU : U.IsSymm) (hU' : U'.IsSymm) (hr : U.rows = 2 * m) (hW : W.IsSymm) (hW' : W'.IsSymm)
    (hWr : W.rows = 2 * m) (h : NotLarger U U') (h' : NotLarger W W') :
    ∃ X V V', dftMultiply Y F (.mat U) (some (.mat W)) = .ok (X, V) ∧
      dftMultiply Y F (.mat U') (some (.mat W')) = .ok (X, V') ∧ NotLarger V V' := by
  refine ⟨_, _, _, dftMultiply_eq Y F hY hF U W hU hr hW hWr,
    dftMultiply_eq Y F hY hF U' W' hU' (h.1 ▸ hr) hW' (h'.1 ▸ hWr), ?_⟩
  exact (h.propagate _ (by rw [hr]; rfl)).add (h'.propagate _ (by rw [hWr]; rfl)) rfl

/-- non-vacuity of C129 for products: one bin -/
example : ∃ X V V', dftMultiply (Vec.ofList [1, 2]) (Vec.ofList [3, 4])
      (.mat (Mat.ofFn 2 2 (fun i j => if i = j then (i : ℝ) + 1 else 0)))
      (some (.mat (Mat.ofFn 2 2 (fun i j => if i = j then (i : ℝ) + 1 else 0)))) = .ok (X, V) ∧
    dftMultiply (Vec.ofList [1, 2]) (Vec.ofList [3, 4]) (.mat (Mat.ofFn 2 2 (fun i j => if i = j then 2 else 0)))
      (some (.mat (Mat.ofFn 2 2 (fun i j => if i = j then 2 else 0)))) = .ok (X, V') ∧ NotLarger V V' := by
  have a := (psd_diag 2 (fun i => (i : ℝ) + 1) (fun i _ => by positivity)).1
  have b := (psd_diag 2 (fun _ => (2 : ℝ)) (fun _ _ => zero_le_two)).1
  exact C129_multiply (m := 1) _ _ rfl rfl _ _ _ _ a b rfl a b rfl notLarger_example notLarger_example

end DFT

namespace Interp

variable {t tn y uy uy' : Vec ℝ}

/-- C129 for `interp1d_unc`, at all points inside the range of the nodes and for all supported kinds. -/
theorem C129_interp {kind : String} {be be' : Option Bool} {fv fu fv' fu' : Fill} {rc rc' : Bool}
    {yn un yn' un' : Vec Fl} {C C' : Option (Mat ℝ)}
    (h : interp1dUnc tn t y uy kind be fv fu true rc = .ok (yn, un, C))
    (h' : interp1dUnc tn t y uy' kind be' fv' fu' true rc' = .ok (yn', un', C'))
    (h0 : ∀ i < t.len, 0 ≤ uy.el i) (hle : ∀ i < t.len, uy.el i ≤ uy'.el i)
    {q : ℕ} (hq : q < tn.len) (ha : t.el 0 ≤ tn.el q) (hb : tn.el q ≤ t.el (t.len - 1)) :
    ∃ v u u', yn.el q = .val v ∧ yn'.el q = .val v ∧ un.el q = .val u ∧ un'.el q = .val u' ∧ u ≤ u' := by
  obtain ⟨hl, hlu, hk, hg, -, -, -, hval, -, -⟩ := call_inv h
  obtain ⟨-, hlu', -, -, -, -, -, hval', -, -⟩ := call_inv h'
  have hin : Inside t (tn.el q) := ⟨ha, hb⟩
  obtain ⟨e1, e2⟩ := hval q hq hin
  obtain ⟨e1', e2'⟩ := hval' q hq hin
  refine ⟨_, _, _, e1, e1', e2, e2', ?_⟩
  have hall : ∀ i, 0 ≤ uy.el i ∧ uy.el i ≤ uy'.el i := by
    intro i
    by_cases hi : i < t.len
    · exact ⟨h0 i hi, hle i hi⟩
    · rw [Vec.el_of_ge _ (by omega), Vec.el_of_ge _ (by omega)]
      exact ⟨le_rfl, le_rfl⟩
  obtain ⟨-, h2, ht⟩ := hg
  unfold uncValue
  by_cases hlin : kind = "linear"
  · have h2 := h2 hlin
    rw [if_pos hlin, if_pos hlin]
    have f1 : linearUnc t uy rc (tn.el q) = linearUnc t uy false (tn.el q) := by
      cases rc
      · rfl
      · exact linearUnc_returnC ht h2 uy hlu.symm hin
    have f2 : linearUnc t uy' rc' (tn.el q) = linearUnc t uy' false (tn.el q) := by
      cases rc'
      · rfl
      · exact linearUnc_returnC ht h2 uy' hlu'.symm hin
    rw [f1, f2]
    obtain ⟨a1, a2, a3, a4, -⟩ := hiIndex_spec ht h2 hin
    have hi : hiIndex t (tn.el q) - 1 + 1 < t.len := by omega
    have a4' : tn.el q ≤ t.el (hiIndex t (tn.el q) - 1 + 1) := by rw [Nat.sub_add_cancel a1]; exact a4
    rw [linear_unc ht h2 uy hin _ hi a3 a4', linear_unc ht h2 uy' hin _ hi a3 a4']
    refine Real.sqrt_le_sqrt ?_
    have sq : ∀ i, uy.el i ^ 2 ≤ uy'.el i ^ 2 := fun i => pow_le_pow_left₀ (hall i).1 (hall i).2 2
    gcongr <;> first | exact sq _ | exact (hall _).1 | exact (hall _).2
  · rw [if_neg hlin, if_neg hlin, interpValue_look _ hlin, interpValue_look _ hlin]
    exact (hall _).2

end Interp
end PyDyn
